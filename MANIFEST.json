{
 "claims": [
  {
   "property": "C01",
   "status": "proved",
   "theorems": [
    "Kerch.C01_cache_transparent",
    "Kerch.C01_level_irrelevant",
    "Kerch.C01_reset_needed"
   ],
   "note": "For every admissible history (each state change resets the quantities it affects) reads equal those of an uncached module. C01_reset_needed shows the condition is necessary."
  },
  {
   "property": "C02",
   "status": "proved",
   "theorems": [
    "Kerch.C02_level_bound",
    "Kerch.C02_clean_exact",
    "Kerch.C02_kept_is_reused",
    "Kerch.C02_own_level",
    "Kerch.C02_default",
    "Kerch.C02_clean_own",
    "Kerch.C02_clean_raises"
   ],
   "note": "Bound for unforced elements under non-lowered level; exact effect of cleaning; reuse of what is kept; a cleaning at a level that is not in the table raises and removes nothing."
  },
  {
   "property": "C03",
   "status": "proved",
   "theorems": [
    "Kerch.C03_reset_exact",
    "Kerch.C03_reset_empties",
    "Kerch.C03_reset_recursive",
    "Kerch.C03_reset_local"
   ],
   "note": "One module, recursion over the module tree (through Cache children only), and no effect elsewhere."
  },
  {
   "property": "C04",
   "status": "partial",
   "theorems": [
    "Kerch.C04_remove_list_partial",
    "Kerch.C04_remove_char_partial",
    "Kerch.C04_remove_str_violated",
    "Kerch.C04_destroy_violated"
   ],
   "note": "The code violates the property for every key that is not one character long; lists and one-character keys are removed exactly."
  },
  {
   "property": "C05",
   "status": "partial",
   "theorems": [
    "Kerch.C05_tree_level_reaches_nodes_partial",
    "Kerch.C05_owner_level_violated",
    "Kerch.C05_owner_level_observable_violated"
   ],
   "note": "Setting the level of a tree reaches all its nodes; setting it on the owner does not reach the owned tree (the isinstance test looks at the stored tuple): violation."
  },
  {
   "property": "C06",
   "status": "partial",
   "theorems": [
    "Kerch.C06_light_nothing_kept_partial",
    "Kerch.C06_normal_keeps_violated",
    "Kerch.C06_memory_grows_violated",
    "Kerch.C06_intermediate_kept_violated"
   ],
   "note": "Nothing is kept at level light and below; at normal statistics of every out-of-sample argument are kept for ever (violation)."
  },
  {
   "property": "C07",
   "status": "partial",
   "theorems": [
    "Kerch.C07_explicit_value",
    "Kerch.C07_implicit_value",
    "Kerch.C07_current_content_partial",
    "Kerch.C07_explicit_partial",
    "Kerch.C07_implicit_partial",
    "Kerch.C07_stale_violated",
    "Kerch.C07_after_error_violated"
   ],
   "note": "Holds for the first use of an argument object and after cleaning; violated for an argument changed in place, and after an exception."
  },
  {
   "property": "C08",
   "status": "proved",
   "theorems": [
    "Kerch.C08_proportion",
    "Kerch.C08_all",
    "Kerch.C08_refused"
   ],
   "note": "Every outcome of the random permutation; rounding specified independently (nearest, ties to even)."
  },
  {
   "property": "C09",
   "status": "partial",
   "theorems": [
    "Kerch.C09_reaches",
    "Kerch.C09_not_reached_violated",
    "Kerch.C09_eval_full",
    "Kerch.C09_eval_sizes_violated"
   ],
   "note": "Reach is exactly the modules connected through stochastic modules holding a sample (violation otherwise); eval() selects everything when the samples in the tree have one size (violation otherwise)."
  },
  {
   "property": "C10",
   "status": "partial",
   "theorems": [
    "Kerch.C10_conflict_partial",
    "Kerch.C10_conflict_resets_violated",
    "Kerch.C10_no_sample"
   ],
   "note": "Refused with the selection kept, but the cache is reset before the check (violation)."
  },
  {
   "property": "C11",
   "status": "partial",
   "theorems": [
    "Kerch.C11_addressed",
    "Kerch.C11_update_frame",
    "Kerch.C11_update_sets",
    "Kerch.C11_update_sets_unique",
    "Kerch.C11_refused",
    "Kerch.C11_empty",
    "Kerch.C11_reads_new_partial",
    "Kerch.C11_trainable_violated",
    "Kerch.C11_update_all"
   ],
   "note": "Any order of the indexed assignment; violated for a trainable sample before the first backward pass (rows written, then AttributeError, cache stale)."
  },
  {
   "property": "C12",
   "status": "partial",
   "theorems": [
    "Kerch.C12_empty",
    "Kerch.C12_dims",
    "Kerch.C12_current",
    "Kerch.C12_reinit",
    "Kerch.C12_selection_in_range",
    "Kerch.C12_failed_init_violated",
    "Kerch.C12_given_idx_violated"
   ],
   "note": "Dimensions agree for every history; the selection may be out of range after a refused re-initialisation or with given indices (violation)."
  },
  {
   "property": "C13",
   "status": "partial",
   "theorems": [
    "Kerch.C13_once",
    "Kerch.C13_construct_partial",
    "Kerch.C13_complete_partial",
    "Kerch.C13_construct_both_partial",
    "Kerch.C13_only_num_violated"
   ],
   "note": "All orders of assignment work; the constructor with only num_sample raises (violation)."
  },
  {
   "property": "C14",
   "status": "partial",
   "theorems": [
    "Kerch.C14_classes_partial",
    "Kerch.C14_order",
    "Kerch.C14_once",
    "Kerch.C14_exact_partial",
    "Kerch.C14_local_partial",
    "Kerch.C14_unknown",
    "Kerch.C14_explicit_nn_violated",
    "Kerch.C14_ppca_violated",
    "Kerch.C14_lssvm_violated",
    "Kerch.C14_model_local_violated"
   ],
   "note": "Exact when every override yields its base class's parameters; ExplicitNN, PPCA, LSSVM (primal) and Model without recursion violate it."
  },
  {
   "property": "C15",
   "status": "partial",
   "theorems": [
    "Kerch.C15_beautify_partial",
    "Kerch.C15_no_repetition_partial",
    "Kerch.C15_single_pair_partial",
    "Kerch.C15_triple_violated",
    "Kerch.C15_two_pairs_violated",
    "Kerch.C15_other_lost_violated"
   ],
   "note": "Lists without adjacent repetitions are kept; one adjacent pair is merged; three in a row, or two pairs, lose or keep wrong elements because the list is modified while iterated (violations)."
  },
  {
   "property": "C16",
   "status": "proved",
   "theorems": [
    "Kerch.C16_names",
    "Kerch.C16_append",
    "Kerch.C16_unknown"
   ],
   "note": "Every documented name, concatenation of lists, unknown names refused."
  },
  {
   "property": "C17",
   "status": "partial",
   "theorems": [
    "Kerch.C17_revert_apply_partial",
    "Kerch.C17_apply_revert_partial",
    "Kerch.C17_sphere",
    "Kerch.C17_single_point_violated"
   ],
   "note": "All bijective chains, sample and batches, constant columns included; the excluded case (unit variance relative to one point) is a violation; unit sphere anywhere refused."
  },
  {
   "property": "C18",
   "status": "proved",
   "theorems": [
    "Kerch.C18_mean",
    "Kerch.C18_minimum",
    "Kerch.C18_variance",
    "Kerch.C18_minmax",
    "Kerch.C18_range_exists",
    "Kerch.C18_sphere",
    "Kerch.C18_standard"
   ],
   "note": "Each transform after any chain; degenerate columns and rows covered."
  },
  {
   "property": "C19",
   "status": "partial",
   "theorems": [
    "Kerch.C19_implicit_explicit_partial",
    "Kerch.C19_centering",
    "Kerch.C19_others_refused",
    "Kerch.C19_small_norm_violated"
   ],
   "note": "All chains, all arguments, features null or of norm >= sqrt(EPS) at the normalisations; the guards of the two routes differ below (violation); other transforms refused."
  },
  {
   "property": "C20",
   "status": "proved",
   "theorems": [
    "Kerch.C20_phi",
    "Kerch.C20_k",
    "Kerch.C20_k_sample",
    "Kerch.C20_phi_sample"
   ],
   "note": "Parts, permutations and repetitions of batches, sample points given as batch; phi for all chains, k for the chains with an implicit formulation."
  },
  {
   "property": "C21",
   "status": "partial",
   "theorems": [
    "Kerch.C21_unchanged_partial",
    "Kerch.C21_cosine_violated",
    "Kerch.C21_legacy_violated",
    "Kerch.C21_reuse_violated"
   ],
   "note": "Lists are left unchanged by kernels that require no transform and are not naturally normalized; violated for the cosine kernel, the legacy flags and by reuse of a list."
  },
  {
   "property": "C22",
   "status": "partial",
   "theorems": [
    "Kerch.C22_first_sphere",
    "Kerch.C22_drop_partial",
    "Kerch.C22_unit_diagonal_partial",
    "Kerch.C22_silverman_violated"
   ],
   "note": "Exact unit diagonal for every announced kernel but Silverman's (violation) and every supported distance."
  },
  {
   "property": "C23",
   "status": "partial",
   "theorems": [
    "Kerch.C23_same_chain_partial",
    "Kerch.C23_values",
    "Kerch.C23_actual",
    "Kerch.C23_order_violated"
   ],
   "note": "Holds for lists after which the appended normalisation is the same chain; violated otherwise: the normalisation is appended last."
  },
  {
   "property": "C24",
   "status": "proved",
   "theorems": [
    "Kerch.C24_functions",
    "Kerch.C24_chains",
    "Kerch.C24_K"
   ],
   "note": "All kernel functions, all implicit chains, sample and batches. The y-dropping of Polynomial.k is treated in C28."
  },
  {
   "property": "C25",
   "status": "partial",
   "theorems": [
    "Kerch.C25_compact",
    "Kerch.C25_positive",
    "Kerch.C25_decreasing_partial",
    "Kerch.C25_diagonal_partial",
    "Kerch.C25_dist_defined",
    "Kerch.C25_minkowski_violated",
    "Kerch.C25_silverman_violated"
   ],
   "note": "All announced kernels but Silverman's (violation), all distances but Minkowski's (raises, violation)."
  },
  {
   "property": "C26",
   "status": "partial",
   "theorems": [
    "Kerch.C26_linear",
    "Kerch.C26_polynomial",
    "Kerch.C26_polynomial_negative",
    "Kerch.C26_rbf",
    "Kerch.C26_explicit",
    "Kerch.C26_implicit_partial",
    "Kerch.C26_centering",
    "Kerch.C26_small_norm_violated"
   ],
   "note": "Linear, polynomial, RBF; all explicit kernels after all chains; implicit centering and normalising when squared norms are null or >= EPS (violation below)."
  },
  {
   "property": "C27",
   "status": "partial",
   "theorems": [
    "Kerch.C27_features_partial",
    "Kerch.C27_exponents",
    "Kerch.C27_dim_feature",
    "Kerch.C27_degree_zero_violated",
    "Kerch.C27_negative"
   ],
   "note": "All degrees >= 1, all dimensions >= 1, beta >= 0; degree 0 raises (violation)."
  },
  {
   "property": "C28",
   "status": "partial",
   "theorems": [
    "Kerch.C28_entry_explicit",
    "Kerch.C28_entry_implicit",
    "Kerch.C28_values",
    "Kerch.C28_polynomial_partial",
    "Kerch.C28_polynomial_violated"
   ],
   "note": "Generic kernels: all chains and routes. Polynomial.k overwrites y by x (violation)."
  },
  {
   "property": "C29",
   "status": "partial",
   "theorems": [
    "Kerch.C29_assign_violated",
    "Kerch.C29_implicit_partial",
    "Kerch.C29_explicit_partial",
    "Kerch.C29_explicit_errors",
    "Kerch.C29_first_explicit",
    "Kerch.C29_stale_violated",
    "Kerch.C29_reset_partial"
   ],
   "note": "Violated: kernel.alpha = v assigns beta, beta has no setter, the cached feature map keeps old values; what does hold is characterised for all histories."
  },
  {
   "property": "C30",
   "status": "partial",
   "theorems": [
    "Kerch.C30_half_median",
    "Kerch.C30_scaling",
    "Kerch.C30_order",
    "Kerch.C30_positive",
    "Kerch.C30_two_points_violated",
    "Kerch.C30_fixed",
    "Kerch.C30_assigned",
    "Kerch.C30_first",
    "Kerch.C30_new_sample_violated"
   ],
   "note": "Median, scaling, order, positivity, fixing at first use; null for one or two points and not recomputed for a new sample (violations)."
  },
  {
   "property": "C31",
   "status": "proved",
   "theorems": [
    "Kerch.C31_trace",
    "Kerch.C31_spectrum",
    "Kerch.C31_eigenvectors",
    "Kerch.C31_C_is_moment"
   ],
   "note": "All matrices; multiplicities and eigenvectors."
  },
  {
   "property": "C32",
   "status": "partial",
   "theorems": [
    "Kerch.C32_polynomial_partial",
    "Kerch.C32_polynomial_violated",
    "Kerch.C32_small_norm_violated",
    "Kerch.C32_K_is_k",
    "Kerch.C32_history",
    "Kerch.C32_routes_partial"
   ],
   "note": "All admissible histories of the cache; agreement of the two routes under the guards of C19. For the polynomial kernel K goes by the features and k() by the route its size suggests: equal under the same guards or with enough points (C32_polynomial_partial), otherwise k() may raise where K is a matrix (C32_polynomial_violated) or differ (C32_small_norm_violated)."
  },
  {
   "property": "C33",
   "status": "partial",
   "theorems": [
    "Kerch.C33_chain_partial",
    "Kerch.C33_cov_partial",
    "Kerch.C33_psd",
    "Kerch.C33_translation",
    "Kerch.C33_corr",
    "Kerch.C33_oos_violated",
    "Kerch.C33_cosine_chain",
    "Kerch.C33_cosine_violated"
   ],
   "note": "Covariance of the sample for all chains without adjacent repetition; cosine kernel and points other than the sample are violations; PSD and correlation bounds in general."
  },
  {
   "property": "C34",
   "status": "partial",
   "theorems": [
    "Kerch.C34_consistent",
    "Kerch.C34_sample",
    "Kerch.C34_oos",
    "Kerch.C34_oos_singular",
    "Kerch.C34_below",
    "Kerch.C34_trace",
    "Kerch.C34_first_partial",
    "Kerch.C34_dim_violated",
    "Kerch.C34_smaller_violated",
    "Kerch.C34_cache_violated",
    "Kerch.C34_given_dim_violated",
    "Kerch.C34_set_dim"
   ],
   "note": "exact for given decompositions; dimension 0 (answered by torch with all or no vectors) is left out of the violations; pruning is definitive (C34_dim_violated)"
  },
  {
   "property": "C35",
   "status": "partial",
   "theorems": [
    "Kerch.C35_num_weights",
    "Kerch.C35_formula",
    "Kerch.C35_diagonal",
    "Kerch.C35_bound",
    "Kerch.C35_shift",
    "Kerch.C35_psd",
    "Kerch.C35_closed",
    "Kerch.C35_num_violated",
    "Kerch.C35_given_weights_violated"
   ],
   "note": "All weights; weights assigned with another number of rows, or given at construction, violate it."
  },
  {
   "property": "C36",
   "status": "proved",
   "theorems": [
    "Kerch.C36_activation",
    "Kerch.C36_relu",
    "Kerch.C36_preimage",
    "Kerch.C36_image",
    "Kerch.C36_stacked"
   ],
   "note": "All admissible parameters and weights; stacked features included."
  },
  {
   "property": "C37",
   "status": "partial",
   "theorems": [
    "Kerch.C37_violated",
    "Kerch.C37_light_partial",
    "Kerch.C37_after_reset_partial"
   ],
   "note": "Violated at the default cache level (stale pseudo-inverse); holds below it or after a reset."
  },
  {
   "property": "C38",
   "status": "partial",
   "theorems": [
    "Kerch.C38_hat_partial",
    "Kerch.C38_hat_integer",
    "Kerch.C38_hat_psd",
    "Kerch.C38_indicator_partial",
    "Kerch.C38_indicator_floor",
    "Kerch.C38_indicator_psd",
    "Kerch.C38_indicator_default",
    "Kerch.C38_single_violated",
    "Kerch.C38_assign_violated",
    "Kerch.C38_trainable_violated"
   ],
   "note": "Hat PSD on all real times; indicator on integers; single time stamps raise, assigned lag does not update gamma (violations)."
  },
  {
   "property": "C39",
   "status": "partial",
   "theorems": [
    "Kerch.C39_additive_symm",
    "Kerch.C39_additive_bounds",
    "Kerch.C39_additive_diagonal_partial",
    "Kerch.C39_additive_small_violated",
    "Kerch.C39_skewed_symm",
    "Kerch.C39_skewed_bounds",
    "Kerch.C39_skewed_diagonal"
   ],
   "note": "Entries between 0 and EPS/2 excepted for the diagonal of the additive kernel."
  },
  {
   "property": "C40",
   "status": "partial",
   "theorems": [
    "Kerch.C40_names",
    "Kerch.C40_kernel",
    "Kerch.C40_kernel_spelling",
    "Kerch.C40_kernel_unknown_partial",
    "Kerch.C40_kernel_factory_violated",
    "Kerch.C40_level",
    "Kerch.C40_level_unknown",
    "Kerch.C40_data",
    "Kerch.C40_data_alias",
    "Kerch.C40_data_unknown_partial",
    "Kerch.C40_model",
    "Kerch.C40_model_unknown_partial"
   ],
   "note": "Every spelling of every exported class is found; unknown names refused, except 'factory' (exported by the stubs), which silently gives the default object (violation). Abstract classes raising TypeError on construction are not modelled."
  },
  {
   "property": "C41",
   "status": "proved",
   "theorems": [
    "Kerch.C41_none",
    "Kerch.C41_castf",
    "Kerch.C41_ragged",
    "Kerch.C41_wf",
    "Kerch.C41_idempotent",
    "Kerch.C41_casti",
    "Kerch.C41_representation"
   ],
   "note": "castf/casti on tensors of any rank and nested lists, check_representation. Dtype conversion is a parameter; devices not modelled."
  },
  {
   "property": "C42",
   "status": "proved",
   "theorems": [
    "Kerch.C42_keywords",
    "Kerch.C42_chain"
   ],
   "note": "Merge of keyword dictionaries, also along chains of decorated constructors."
  },
  {
   "property": "C43",
   "status": "partial",
   "theorems": [
    "Kerch.C43_mean",
    "Kerch.C43_possible",
    "Kerch.C43_unique",
    "Kerch.C43_shift",
    "Kerch.C43_perm",
    "Kerch.C43_all",
    "Kerch.C43_recovers",
    "Kerch.C43_refused",
    "Kerch.C43_num_violated",
    "Kerch.C43_empty_violated",
    "Kerch.C43_kernel_recovers"
   ],
   "note": "All lawful tie-breakings of topk. Non-integer num is truncated instead of refused and an empty batch raises (violations)."
  },
  {
   "property": "C44",
   "status": "proved",
   "theorems": [
    "Kerch.C44_kernel",
    "Kerch.C44_convex",
    "Kerch.C44_between",
    "Kerch.C44_constant",
    "Kerch.C44_rescale",
    "Kerch.C44_all",
    "Kerch.C44_refused",
    "Kerch.C44_zero_row"
   ],
   "note": "Exact reals; division by a zero sum gives none."
  },
  {
   "property": "C45",
   "status": "partial",
   "theorems": [
    "Kerch.C45_phi",
    "Kerch.C45_success_partial",
    "Kerch.C45_unlightened_partial",
    "Kerch.C45_raise_violated",
    "Kerch.C45_phi_violated",
    "Kerch.C45_phi_success_partial",
    "Kerch.C45_iterate",
    "Kerch.C45_preserved"
   ],
   "note": "Level restored after success; violated when the call raises (no try/finally), and iterative_preimage_phi compares with num_idx instead of dim_feature."
  },
  {
   "property": "C46",
   "status": "partial",
   "theorems": [
    "Kerch.C46_history_violated",
    "Kerch.C46_partial",
    "Kerch.C46_light_partial",
    "Kerch.C46_repeat_violated",
    "Kerch.C46_agree_violated"
   ],
   "note": "Exact value after every history of calls (C46_history_violated): the in-place division makes each normalised call divide the remembered trace again. Holds without earlier normalised calls, and at cache levels none/light. Primal and dual normalised variances differ by the factor n."
  },
  {
   "property": "C47",
   "status": "partial",
   "theorems": [
    "Kerch.C47_primal_partial",
    "Kerch.C47_primal_mono_partial",
    "Kerch.C47_primal_complete_partial",
    "Kerch.C47_mixed_partial",
    "Kerch.C47_dual_violated"
   ],
   "note": "In [0,1], increasing, 1 when complete: proved for the primal default (solved in primal, or in dual with kappa=1). With the dual default the value never exceeds 1/n, and a complete model has 1/n: violated."
  },
  {
   "property": "C48",
   "status": "proved",
   "theorems": [
    "Kerch.C48_nonneg",
    "Kerch.C48_solution",
    "Kerch.C48_optimal"
   ],
   "note": "Non-negative, sum of discarded eigenvalues at the solution, and minimal among all orthonormal parameters (Ky Fan), for every eigendecomposition the solver may return. The cached loss being stale after parameter assignments is not part of this property."
  },
  {
   "property": "C49",
   "status": "proved",
   "theorems": [
    "Kerch.C49_general",
    "Kerch.C49_vals",
    "Kerch.C49"
   ],
   "note": "Eigenvalue by eigenvalue identity of score products (any multiplicity), matching of the i-th eigenvalues, and equality up to one sign for simple eigenvalues; factor sqrt(n/kappa) made explicit."
  },
  {
   "property": "C50",
   "status": "partial",
   "theorems": [
    "Kerch.C50_dual_partial",
    "Kerch.C50_unique_partial",
    "Kerch.C50_exists_partial",
    "Kerch.C50_single_partial",
    "Kerch.C50_violated",
    "Kerch.SolveSys.C50_centred_violated"
   ],
   "note": "Dual: existence, uniqueness, optimality for the regularised least squares problem and predictions as w.phi(x)+b. The primal system mixes the covariance divided by n with unnormalised blocks: C50_violated shows different unique predictions for two points, and C50_centred_violated gives the exact relation for centred features (the primal fit with gamma has n times the weights of the dual fit with n gamma, and its bias). The code as is cannot reach the primal system (kernel.phi_sample does not exist), nor construct a LSSVM with the default bias (attribute _param_trainable missing); recorded in DESIGN.md."
  },
  {
   "property": "C51",
   "status": "partial",
   "theorems": [
    "Kerch.C51_dual_partial",
    "Kerch.C51_primal_partial",
    "Kerch.C51_setDual_violated",
    "Kerch.C51_unset_violated",
    "Kerch.C51_unassigned"
   ],
   "note": "Primal assignment invalidates dual parameters (all histories). Violated the other way round: dual assignments, unsetting and dim_output leave the primal parameters in place."
  },
  {
   "property": "C52",
   "status": "partial",
   "theorems": [
    "Kerch.C52_light_partial",
    "Kerch.C52_reset_partial",
    "Kerch.C52_stale_violated",
    "Kerch.C52_identity_violated"
   ],
   "note": "Holds at cache levels below normal and right after a reset, all histories. Violated at the default level (stale outputs; outputs keyed by object identity)."
  },
  {
   "property": "C53",
   "status": "partial",
   "theorems": [
    "Kerch.C53_refused",
    "Kerch.C53_attach_violated",
    "Kerch.C53_phi",
    "Kerch.C53_k_partial",
    "Kerch.C53_K",
    "Kerch.C53_consistent",
    "Kerch.C53_none_violated",
    "Kerch.C53_sizes_violated",
    "Kerch.C53_weights",
    "Kerch.C53_forward",
    "Kerch.C53_construct_violated"
   ],
   "note": "Features, kernels, consistency, weight blocks and outputs proved for every list of views and every kind of argument, on the methods of a multi-view holding views and weights. No such object can be constructed (undefined name), k() without argument is refused, different numbers of points are silently broadcast by k."
  },
  {
   "property": "C54",
   "status": "partial",
   "theorems": [
    "Kerch.C54_nothing_known",
    "Kerch.C54_methods_violated",
    "Kerch.C54_requested",
    "Kerch.C54_project",
    "Kerch.C54_first_partial",
    "Kerch.C54_block_violated",
    "Kerch.C54_smoother_violated"
   ],
   "note": "Which views are predicted and the agreement of both projections are proved; the columns given to each view are right for the first one only, and the default method always raises."
  },
  {
   "property": "C55",
   "status": "partial",
   "theorems": [
    "Kerch.C55_refused",
    "Kerch.C55_dims",
    "Kerch.C55_accepted",
    "Kerch.C55_forward",
    "Kerch.C55_split",
    "Kerch.C55_loss",
    "Kerch.C55_changed_violated"
   ],
   "note": "Invariant over every sequence of appends, exact characterisation of the appends that succeed, composition and weighted loss for every number of levels. Violated when the output dimension of a level changes after its successor was appended."
  },
  {
   "property": "C56",
   "status": "proved",
   "theorems": [
    "Kerch.C56",
    "Kerch.C56_once",
    "Kerch.C56_refused"
   ],
   "note": "Partition of an epoch and refusal proved for every permutation, number of points and history of batch sizes."
  },
  {
   "property": "C57",
   "status": "partial",
   "theorems": [
    "Kerch.C57_accumulated_partial",
    "Kerch.C57_violated",
    "Kerch.C57_single_partial"
   ],
   "note": "Violated: gradients are never cleared between the batches of an epoch; partial theorems give the accumulated gradient actually used and the single-batch case."
  },
  {
   "property": "C58",
   "status": "partial",
   "theorems": [
    "Kerch.C58_indices",
    "Kerch.C58_indices_default",
    "Kerch.C58_train",
    "Kerch.C58_twoMoons",
    "Kerch.C58_twoClasses",
    "Kerch.C58_file_violated",
    "Kerch.C58_trainTest_violated",
    "Kerch.C58_negative_violated",
    "Kerch.C58_labels",
    "Kerch.C58_missing_row"
   ],
   "note": "Proved for index splits and the generated data sets; violated by file sets (silently short), _LearningSetTrainTest (always TypeError) and negative sizes."
  },
  {
   "property": "C59",
   "status": "partial",
   "theorems": [
    "Kerch.C59_name",
    "Kerch.C59_default",
    "Kerch.C59",
    "Kerch.C59_foreign_partial",
    "Kerch.C59_none_violated",
    "Kerch.C59_empty_violated",
    "Kerch.C59_run",
    "Kerch.C59_period_violated"
   ],
   "note": "Proved for every run of update calls and every directory without foreign model files; violated without epoch number, without checkpoint and with a period keyword."
  },
  {
   "property": "C60",
   "status": "partial",
   "theorems": [
    "Kerch.C60_groups",
    "Kerch.C60_two_kinds_refused",
    "Kerch.C60_reduce",
    "Kerch.C60_name_violated"
   ],
   "note": "Groups, duplicates and learning-rate reductions proved for every module tree; unknown optimiser names accepted if nothing is trainable."
  },
  {
   "property": "C61",
   "status": "partial",
   "theorems": [
    "Kerch.C61_skew",
    "Kerch.C61_cayley",
    "Kerch.C61_history",
    "Kerch.C61_loop",
    "Kerch.C61_qr_partial",
    "Kerch.C61_qr_violated",
    "Kerch.C61_retracted",
    "Kerch.C61_sgd",
    "Kerch.C61_adam",
    "Kerch.C61_exact_violated"
   ],
   "note": "Skewness, unique Cayley point with the same Gram matrix, geometric convergence of the loop, explicit bounds on one actual step of both optimisers. The code does not keep exact orthonormality (normalisation adds 1e-8 to norms, loop of 20 iterations) and the QR retraction zeroes a row when rows are dependent."
  },
  {
   "property": "C62",
   "status": "partial",
   "theorems": [
    "Kerch.C62_violated",
    "Kerch.C62_memoryless_violated",
    "Kerch.C62_euclid",
    "Kerch.C62_adam_first",
    "Kerch.C62_adam"
   ],
   "note": "The code violates it for SGDG: the buffer is never written, all histories coincide with those without momentum. Closed form for Euclidean parameters; AdamG does carry earlier gradients."
  },
  {
   "property": "C63",
   "status": "partial",
   "theorems": [
    "Kerch.C63_level_roundtrip_partial",
    "Kerch.C63_unknown_level_violated"
   ],
   "note": "Known names round-trip; unknown names are accepted silently and later requests raise TypeError (violation)."
  },
  {
   "property": "C64",
   "status": "partial",
   "theorems": [
    "Kerch.C64_grad_kept_violated"
   ],
   "note": "Violated: the gradient is never changed (the zeroed tensor is a copy)."
  },
  {
   "property": "C65",
   "status": "partial",
   "theorems": [
    "Kerch.C65_copied_partial",
    "Kerch.C65_aliased_violated",
    "Kerch.C65_update_writes_caller_violated"
   ],
   "note": "Holds when the cast copies; violated for float tensors, which share storage."
  },
  {
   "property": "C66",
   "status": "partial",
   "theorems": [
    "Kerch.C66_features_partial",
    "Kerch.C66_assign_violated",
    "Kerch.C66_one_partial",
    "Kerch.C66_cov_violated"
   ],
   "note": "phi/k/K consistent as long as kappa equals its construction value; violated by assignments (kappa_sqrt is not updated) and for C, Phi with kappa different from 1."
  },
  {
   "property": "C67",
   "status": "partial",
   "theorems": [
    "Kerch.C67_primal_partial",
    "Kerch.C67_roundtrip_partial",
    "Kerch.C67_dual_violated"
   ],
   "note": "Primal: orthogonal projection and round trip on the span. Dual: n times the projection (violated)."
  },
  {
   "property": "C68",
   "status": "partial",
   "theorems": [
    "Kerch.C68_unset_violated",
    "Kerch.C68_assign",
    "Kerch.C68_hidden_partial",
    "Kerch.C68_soft_violated",
    "Kerch.C68_given_partial",
    "Kerch.C68_hard_partial",
    "Kerch.C68_hard_given_violated",
    "Kerch.C68_weight_violated"
   ],
   "note": "Soft levels constructed as usual end up neither trained nor solved (violated, all histories); right with level_trainable=True given at construction; hard levels right by default."
  },
  {
   "property": "C69",
   "status": "partial",
   "theorems": [
    "Kerch.C69_nothing",
    "Kerch.C69_attached_partial",
    "Kerch.C69_detach_violated"
   ],
   "note": "Attached views: reads and refusals for all histories. detach() always raises (violated)."
  },
  {
   "property": "C70",
   "status": "partial",
   "theorems": [
    "Kerch.C70_violated"
   ],
   "note": "Violated for every model and watcher name."
  },
  {
   "property": "C71",
   "status": "partial",
   "theorems": [
    "Kerch.C71_violated",
    "Kerch.C71_registered"
   ],
   "note": "Violated: the levels are kept in a plain list, so the saved state is empty for every model."
  },
  {
   "property": "C72",
   "status": "partial",
   "theorems": [
    "Kerch.C72_partial",
    "Kerch.C72_violated"
   ],
   "note": "Violated when constructing a level raises KeyError: it and the later levels are dropped silently. The partial theorem assumes no KeyError."
  },
  {
   "property": "C73",
   "status": "partial",
   "theorems": [
    "Kerch.C73_constructed_partial",
    "Kerch.C73_refused",
    "Kerch.C73_assigned_violated"
   ],
   "note": "Holds as constructed; an assignment of kappa leaves the scaling of the features unchanged (exact characterisation)."
  },
  {
   "property": "C74",
   "status": "partial",
   "theorems": [
    "Kerch.C74_K_partial",
    "Kerch.C74_C_violated",
    "Kerch.C74_output_violated"
   ],
   "note": "K and phi() agree; C and c() differ by the factor kappa, primal and dual outputs by its root (exact characterisations)."
  },
  {
   "property": "C75",
   "status": "proved",
   "theorems": [
    "Kerch.C75_current",
    "Kerch.C75_available"
   ],
   "note": "Invariant over all histories of cache operations."
  },
  {
   "property": "C76",
   "status": "proved",
   "theorems": [
    "Kerch.C76_ported",
    "Kerch.C76_again",
    "Kerch.C76_repeated"
   ],
   "note": "For all trees and idempotent operations; the exact number of repetitions is also proved."
  },
  {
   "property": "C77",
   "status": "proved",
   "theorems": [
    "Kerch.C77_projection",
    "Kerch.C77_direction",
    "Kerch.C77_downhill"
   ],
   "note": "Direction is the tangent projection, never uphill; the actual 20-iteration step lowers every differentiable loss for small learning rates."
  },
  {
   "property": "C78",
   "status": "partial",
   "theorems": [
    "Kerch.C78_documented_partial",
    "Kerch.C78_normal_violated",
    "Kerch.C78_statistics_violated",
    "Kerch.C78_persisting"
   ],
   "note": "Most documented entries are kept exactly from their documented level; outputs of levels fall back to 'normal' and statistics of out-of-sample points are stored at every level (violations proved)."
  },
  {
   "property": "C79",
   "status": "partial",
   "theorems": [
    "Kerch.C79_names",
    "Kerch.C79_values",
    "Kerch.C79_history_violated",
    "Kerch.C79_violated",
    "Kerch.C79_refreshed_partial",
    "Kerch.C79_light_partial"
   ],
   "note": "Exact outputs of every history at level >= normal: before_step does not reset the sub-losses, so losses can be stale (violated). Fresh when a stochastic call separates steps and losses, and always fresh below 'normal'."
  },
  {
   "property": "C80",
   "status": "proved",
   "theorems": [
    "Kerch.C80_keys"
   ],
   "note": "All histories, including operations that raise; keys non-empty strings (all keys used by the code are)."
  },
  {
   "property": "C81",
   "status": "proved",
   "theorems": [
    "Kerch.C81_laplacian",
    "Kerch.C81_manhattan",
    "Kerch.C81_chebyshev_line",
    "Kerch.C81_squared_manhattan",
    "Kerch.C81_triangular_line",
    "Kerch.C81_uniform_line"
   ],
   "note": "All dimensions, bandwidths and finite sets (Schoenberg via a mixture of Gaussians for the Euclidean distance); also: squared Manhattan and uniform kernels are not, triangular is on the line."
  },
  {
   "property": "C82",
   "status": "partial",
   "theorems": [
    "Kerch.C82_additive_partial",
    "Kerch.C82_small_violated",
    "Kerch.C82_skewed_partial"
   ],
   "note": "Proved when entries are null or at least EPS/2; below, the guard of the division breaks it (violation proved)."
  },
  {
   "property": "C83",
   "status": "partial",
   "theorems": [
    "Kerch.C83_single_point_violated",
    "Kerch.C83_preimage_phi_partial",
    "Kerch.C83_phi_preimage_partial",
    "Kerch.C83_linear_partial",
    "Kerch.C83_random_features_partial",
    "Kerch.C83_refused"
   ],
   "note": "Proved for all bijective chains; the one case left, unit variance relative to a one-point sample, is shown to give NaN (C83_single_point_violated)."
  },
  {
   "property": "C84",
   "status": "partial",
   "theorems": [
    "Kerch.C84_agree_partial",
    "Kerch.C84_recovers_partial",
    "Kerch.C84_kernel_recovers_partial",
    "Kerch.C84_violated"
   ],
   "note": "Agreement proved (through C19); recovery proved for images of equal norm (normalised and distance kernels). Violated otherwise: the inner product is used as proximity, so that with the linear kernel on 1 and 2 the nearest neighbour of the image of 1 is 2."
  },
  {
   "property": "C85",
   "status": "partial",
   "theorems": [
    "Kerch.C85_polynomial_route_violated",
    "Kerch.C85_forward",
    "Kerch.C85_forward_violated",
    "Kerch.C85_forward_base",
    "Kerch.C85_preimage_partial",
    "Kerch.C85_polynomial_violated",
    "Kerch.C85_implicit_violated",
    "Kerch.C85_implicit_refused",
    "Kerch.C85_default"
   ],
   "note": "Violated: Kernel.forward returns a RepresentationError object; the polynomial kernel returns the class NotImplementedError; implicit kernels raise TypeError instead of ExplicitError (wrong keyword). The rest proved."
  },
  {
   "property": "C86",
   "status": "partial",
   "theorems": [
    "Kerch.C86_names",
    "Kerch.Settings.C86_contained",
    "Kerch.Settings.C86_names_apart",
    "Kerch.Settings.C86_own_level_partial",
    "Kerch.Settings.C86_name_level_partial",
    "Kerch.Settings.C86_global",
    "Kerch.Settings.C86_shared_violated"
   ],
   "note": "Violated: loggers are shared by all objects of the same class and name; exact characterisation by name, and proof for objects with a name of their own."
  },
  {
   "property": "C87",
   "status": "partial",
   "theorems": [
    "Kerch.Settings.C87_live",
    "Kerch.Settings.C87_copies",
    "Kerch.Settings.C87_beginning_partial",
    "Kerch.Settings.C87_violated",
    "Kerch.Settings.C87_attribute_violated"
   ],
   "note": "Violated: modules importing the value by name keep the value current when they were first loaded, and kerch.FTYPE never changes; proved when the setting is changed before any use."
  },
  {
   "property": "C88",
   "status": "partial",
   "theorems": [
    "Kerch.Eigs.C88_greatest_partial",
    "Kerch.Eigs.C88_psd_partial",
    "Kerch.Eigs.C88_refused",
    "Kerch.Eigs.C88_zero_violated",
    "Kerch.Eigs.C88_generalised_violated",
    "Kerch.Eigs.C88_unordered_violated"
   ],
   "note": "Proved for symmetric matrices and 1 <= k <= n; k=0 returns everything, a second matrix B makes the symmetric solver run on a non-symmetric matrix, and sym=psd=False leaves the order to the solver."
  },
  {
   "property": "C89",
   "status": "partial",
   "theorems": [
    "Kerch.Solve.C89_fits",
    "Kerch.Solve.C89_fits_present",
    "Kerch.Solve.C89_refused",
    "Kerch.Solve.C89_atomic_violated",
    "Kerch.Solve.C89_target_alone_violated",
    "Kerch.Solve.C89_list_violated",
    "Kerch.Solve.C89_silent_violated",
    "Kerch.Solve.C89_corresponds_partial",
    "Kerch.Solve.C89_target_kept_violated"
   ],
   "note": "Violated: a refused call has already replaced the data, a target given alone or data as list are mishandled, and changing the sample keeps an older target of the same length. Only tells which data are solved for; whether the solution can be stored is C105."
  },
  {
   "property": "C90",
   "status": "partial",
   "theorems": [
    "Kerch.PPCA.C90_map_partial",
    "Kerch.PPCA.C90_normalised_partial",
    "Kerch.PPCA.C90_scale_violated",
    "Kerch.PPCA.C90_noise_exceeds",
    "Kerch.PPCA.C90_primal_violated",
    "Kerch.PPCA.C90_arguments",
    "Kerch.PPCA.C90_bandwidth_violated",
    "Kerch.PPCA.C90_bandwidth_null_violated",
    "Kerch.PPCA.C90_draw_violated",
    "Kerch.PPCA.C90_draw_partial"
   ],
   "note": "Dual: proved whenever the squared noise is below the components kept, which holds for normalised kernels. Violated otherwise (NaN), in the primal (attribute mu never created), for the bandwidth of the kernel (overwritten by the noise) and for draws (factor not transposed). These theorems concern the formulas: as shipped PPCA cannot be constructed at all, H and W remain abstract (C109_ppca_violated)."
  },
  {
   "property": "C91",
   "status": "partial",
   "theorems": [
    "Kerch.LSTrain.C91_dual_objective_partial",
    "Kerch.LSTrain.C91_minimiser_partial",
    "Kerch.LSTrain.C91_solve_partial",
    "Kerch.LSTrain.C91_gamma_violated",
    "Kerch.LSTrain.C91_reg_primal",
    "Kerch.LSTrain.C91_primal_objective_partial",
    "Kerch.LSTrain.C91_reg_violated"
   ],
   "note": "The dual loss is the objective of the weights it stands for, for any number of outputs; it is minimised by the system of solve taken at dim_output/gamma, hence by solve itself when gamma^2 = dim_output (C91_solve_partial). C91_gamma_violated: gamma weighs the norm in solve and the error in loss, so for every other gamma solve is not optimal. C91_reg_violated: einsum('ij,ji') is not the squared norm in primal (zero or negative values; RuntimeError for most sizes, C91_reg_primal). As it stands the loss reads self.weight / self.hidden, which do not exist on a level (AttributeError); the theorems are about the formulas of those lines."
  },
  {
   "property": "C92",
   "status": "partial",
   "theorems": [
    "Kerch.LSTrain.C92_center_partial",
    "Kerch.LSTrain.C92_refused",
    "Kerch.LSTrain.C92_violated"
   ],
   "note": "With one output the step is the orthogonal projection on centred variables. The mean is taken over points but subtracted along the wrong axis of the transposed parameter: RuntimeError for several outputs unless as many as points (C92_refused), in which case the result is not centred (C92_violated)."
  },
  {
   "property": "C93",
   "status": "partial",
   "theorems": [
    "Kerch.LSTrain.C93_partial",
    "Kerch.LSTrain.C93_constant_violated",
    "Kerch.LSTrain.C93_suboptimal_violated"
   ],
   "note": "solve always fits with a bias, which the output then ignores: predictions are off by the bias (C93_partial), zero everywhere for constant targets (C93_constant_violated), not optimal (C93_suboptimal_violated). A LS-SVM with bias cannot be constructed in the first place (attribute _param_trainable missing, see C50), so that this concerns all LS-SVMs that can."
  },
  {
   "property": "C94",
   "status": "partial",
   "theorems": [
    "Kerch.LSTrain.C94_dual_partial",
    "Kerch.LSTrain.C94_primal_partial",
    "Kerch.LSTrain.C94_violated"
   ],
   "note": "Proved for the dual system; the primal system divides the covariance by n but not the right-hand side, so that its solution is n times the minimiser at gamma/n (C94_primal_partial) and predicts differently (C94_violated). Not modelled: solve() calls both without their argument target (TypeError in dual), the primal reads kernel.phi_sample which does not exist (AttributeError), and Ridge(requires_bias=True) uses the logger before it exists (AttributeError)."
  },
  {
   "property": "C95",
   "status": "partial",
   "theorems": [
    "Kerch.Recon.C95_cov_partial",
    "Kerch.Recon.C95_sample_partial",
    "Kerch.Recon.C95_projection",
    "Kerch.Recon.C95_kernel_violated",
    "Kerch.Recon.C95_agree_partial"
   ],
   "note": "K_reconstructed after a dual fit is the best approximation divided by the number of points (C95_kernel_violated). As written the lines read self.hidden and self.weight, which levels do not have (AttributeError): the theorems are about the formulas, with dual_param and primal_param. C95_agree_partial assumes that both representations keep the same eigenvalues: the cut-off is the same number for eigenvalues differing by the factor n."
  },
  {
   "property": "C96",
   "status": "partial",
   "theorems": [
    "Kerch.MVPredict.C96_stationary",
    "Kerch.MVPredict.C96_recovers_iff",
    "Kerch.MVPredict.C96_dual_partial",
    "Kerch.MVPredict.C96_dual_violated",
    "Kerch.MVPredict.C96_primal_violated"
   ],
   "note": "The eigenvalues stored by both fits have the wrong scale for the formula (C96_dual_violated, C96_primal_violated); C96_recovers_iff says exactly when the prediction is right."
  },
  {
   "property": "C97",
   "status": "partial",
   "theorems": [
    "Kerch.PSDStat.C97_logistic",
    "Kerch.PSDStat.C97_silverman_line",
    "Kerch.PSDStat.C97_support_violated",
    "Kerch.PSDStat.C97_triangular_violated",
    "Kerch.PSDStat.C97_silverman",
    "Kerch.PSDStat.C97_silverman_violated",
    "Kerch.PSDStat.C97_sigmoid_violated"
   ],
   "note": "Logistic: every dimension, Euclidean distance. Silverman with the Euclidean distance: PSD up to three dimensions and not beyond. Triangular: PSD on the line only. The other kernels of bounded support are not PSD in any dimension, nor is the sigmoid kernel unless constant. All distances: C144."
  },
  {
   "property": "C98",
   "status": "partial",
   "theorems": [
    "Kerch.Stacked.C98_composed_partial",
    "Kerch.Stacked.C98_preimage",
    "Kerch.Stacked.C98_stale_violated",
    "Kerch.Stacked.C98_witness_violated"
   ],
   "note": "The layers are in a python list: update_sample, stochastic and eval do not reach them (C98_stale_violated, with a concrete stack in C98_witness_violated), nor do the optimiser, device changes and checkpoints."
  },
  {
   "property": "C99",
   "status": "partial",
   "theorems": [
    "Kerch.HParams.C99_model",
    "Kerch.HParams.C99_parent_violated",
    "Kerch.HParams.C99_own_partial",
    "Kerch.HParams.C99_kernel_partial",
    "Kerch.HParams.C99_kernel_violated",
    "Kerch.HParams.C99_method_violated",
    "Kerch.HParams.C99_model_raises",
    "Kerch.HParams.C99_model_violated",
    "Kerch.HParams.C99_model_partial",
    "Kerch.HParams.C99_fixed_partial",
    "Kerch.HParams.C99_fixed_violated",
    "Kerch.HParams.C99_variable_partial",
    "Kerch.HParams.C99_variable_violated",
    "Kerch.HParams.C99_mixin_partial",
    "Kerch.HParams.C99_mixin_violated"
   ],
   "note": "Proved for models of any depth (C99_model, C99_model_raises). hparams_fixed of the linear, Nystrom and ExplicitNN kernels lacks the property decorator: it reads as a method, the cosine kernel raises, and so do all levels and models on one of the four (C99_method_violated, C99_model_violated). Entries of parents override those of a class (C99_parent_violated): RBF, Laplacian and Wasserstein kernels report 'Exponential'; statistics kernels report their bandwidth as fixed and lose the rest; random features do not report their bandwidth."
  },
  {
   "property": "C100",
   "status": "partial",
   "theorems": [
    "Kerch.Bias.C100_construct_violated",
    "Kerch.Bias.C100_dropped_violated",
    "Kerch.Bias.C100_assign_partial",
    "Kerch.Bias.C100_history_partial",
    "Kerch.Bias.C100_misfit_violated",
    "Kerch.Bias.C100_later_violated",
    "Kerch.Bias.C100_output",
    "Kerch.Bias.C100_trainable_violated",
    "Kerch.Bias.C100_init_violated"
   ],
   "note": "A view with requires_bias=True cannot be built (attribute _param_trainable missing), nor can the bias be requested later; misfitting biases are stored; bias_trainable has no effect. Assignments that fit are read back after every history that never requests a bias (C100_history_partial)."
  },
  {
   "property": "C101",
   "status": "partial",
   "theorems": [
    "Kerch.NN.C101_construct",
    "Kerch.NN.C101_networks",
    "Kerch.NN.C101_trainable_violated",
    "Kerch.NN.C101_trainable_partial",
    "Kerch.NN.C101_level_partial",
    "Kerch.NN.C101_decode_violated",
    "Kerch.NN.C101_decode_value_violated",
    "Kerch.NN.C101_no_decoder",
    "Kerch.NN.C101_loss",
    "Kerch.NN.C101_level_loss_partial",
    "Kerch.NN.C101_loss_violated",
    "Kerch.NN.C101_sphere",
    "Kerch.NN.C101_preimage_violated"
   ],
   "note": "inner product, networks, decoder refusals proved; networks_trainable is ignored, the decoder gets the kernel matrix, explicit pre-image cannot load its module"
  },
  {
   "property": "C102",
   "status": "partial",
   "theorems": [
    "Kerch.Deep.C102_forward",
    "Kerch.Deep.C102_argument_violated",
    "Kerch.Deep.C102_length",
    "Kerch.Deep.C102_epoch_partial",
    "Kerch.Deep.C102_stale_violated",
    "Kerch.Deep.C102_batches_violated",
    "Kerch.Deep.C102_init_partial",
    "Kerch.Deep.C102_refit_violated",
    "Kerch.Deep.C102_full"
   ],
   "note": "pass proved for all depths; epochs for levels working point by point with constant parameters; calls with an argument change the training sample, deeper samples are stale or depend on the batches otherwise, a second fit is refused"
  },
  {
   "property": "C103",
   "status": "partial",
   "theorems": [
    "Kerch.DeepGrad.C103_value",
    "Kerch.DeepGrad.C103_last_partial",
    "Kerch.DeepGrad.C103_violated",
    "Kerch.DeepGrad.C103_uphill_violated",
    "Kerch.DeepGrad.C103_stationary_violated"
   ],
   "note": "value proved; gradient correct for the last level only, derivative formula for all levels, witness of ascent"
  },
  {
   "property": "C104",
   "status": "partial",
   "theorems": [
    "Kerch.RFLimit.C104_rff",
    "Kerch.RFLimit.C104_lrelu_partial",
    "Kerch.RFLimit.C104_psd",
    "Kerch.RFLimit.C104_identity",
    "Kerch.RFLimit.C104_origin_violated",
    "Kerch.RFLimit.C104_same_value",
    "Kerch.RFLimit.C104_same_violated"
   ],
   "note": "limits proved almost surely for Fourier features (all points) and leaky rectifiers (all points but the origin), closed form PSD; at the origin the closed form is NaN; direct calls with one tensor twice divide it twice"
  },
  {
   "property": "C105",
   "status": "partial",
   "theorems": [
    "Kerch.Refit.C105_dual_partial",
    "Kerch.Refit.C105_again",
    "Kerch.Refit.C105_resized_violated",
    "Kerch.Refit.C105_pruned_violated",
    "Kerch.Refit.C105_single_violated",
    "Kerch.Refit.C105_assigned",
    "Kerch.Refit.C105_number_violated",
    "Kerch.Refit.C105_lssvm_partial",
    "Kerch.Refit.C105_lssvm_violated",
    "Kerch.Refit.C105_shuffled_violated",
    "Kerch.Refit.C105_selection_violated",
    "Kerch.Refit.C105_primal",
    "Kerch.Refit.C105_nothing",
    "Kerch.Refit.C105_weights_partial",
    "Kerch.Refit.C105_weights_violated",
    "Kerch.Refit.C105_stale_violated",
    "Kerch.Refit.C105_select_violated",
    "Kerch.Refit.C105_reselect"
   ],
   "note": "Violated: a second dual fit raises or stores wrong components unless as many components on as many points are found (exact characterisation C105_again); selected points are stored at the wrong places or out of bounds; weights keep stale square roots. Proved for primal fits over all histories."
  },
  {
   "property": "C106",
   "status": "partial",
   "theorems": [
    "Kerch.Draw.C106_correlation",
    "Kerch.Draw.C106_projector",
    "Kerch.Draw.C106_trace",
    "Kerch.Draw.C106_determinant_violated",
    "Kerch.Draw.C106_unity_violated",
    "Kerch.Draw.C106_draw_phi",
    "Kerch.Draw.C106_draw_phi_complete",
    "Kerch.Draw.C106_draw_k",
    "Kerch.Draw.C106_draw_values",
    "Kerch.Draw.C106_draw_violated",
    "Kerch.Draw.C106_arguments"
   ],
   "note": "Violated: a projector with fewer components than entries has a null determinant; draws in dual have a covariance greater by the number of points than the kernel values of draws in primal. Laws of the draws proved."
  },
  {
   "property": "C107",
   "status": "partial",
   "theorems": [
    "Kerch.Grassmann.C107_sgd_partial",
    "Kerch.Grassmann.C107_adam_partial",
    "Kerch.Grassmann.C107_exact_violated",
    "Kerch.Grassmann.C107_collapse_violated",
    "Kerch.Grassmann.C107_omega_violated",
    "Kerch.Grassmann.C107_regularisation",
    "Kerch.Grassmann.C107_transport",
    "Kerch.Grassmann.C107_sgd_circle",
    "Kerch.Grassmann.C107_adam_circle"
   ],
   "note": "The rows are kept on the sphere only up to a bound that depends on eps=1e-8 (C107_sgd_partial, C107_adam_partial): at rest they lie strictly inside it (C107_exact_violated), and a row can collapse to zero (C107_collapse_violated). The omega given to the constructor is replaced by 0 (C107_omega_violated). With eps null the iterates on a great circle are those of scalar momentum descent and scalar Adam (C107_sgd_circle, C107_adam_circle). Missing from the code as it is: grassmann_optimizer.py imports gutils by bare name, so the module loads only with its directory on the path. C107_regularisation shows that the orthogonality factor, where it is read from the group, is the gradient of omega/2 ||YY^T - I||^2."
  },
  {
   "property": "C108",
   "status": "partial",
   "theorems": [
    "Kerch.Assign.C108_assign_partial",
    "Kerch.Assign.C108_none_partial",
    "Kerch.Assign.C108_stale_violated",
    "Kerch.Assign.C108_trained_violated",
    "Kerch.Assign.C108_weights_violated",
    "Kerch.Assign.C108_hyperbola_construct",
    "Kerch.Assign.C108_hyperbola_positive",
    "Kerch.Assign.C108_hyperbola_violated",
    "Kerch.Assign.C108_hyperbola_reach",
    "Kerch.Assign.C108_hyperbola_order_violated",
    "Kerch.Assign.C108_sigma",
    "Kerch.Assign.C108_sigma_none_violated",
    "Kerch.Assign.C108_lag_trainable_violated",
    "Kerch.Assign.C108_sigmoid_violated",
    "Kerch.Assign.C108_hyperbola_refused",
    "Kerch.Assign.C108_sigma_kept",
    "Kerch.Assign.C108_sigmoid"
   ],
   "note": "Histories in which only bandwidths, lags, shapes and slopes are assigned read what a kernel without cache would (C108_assign_partial); at cache level none, all assignments and trainings of hyper-parameters (C108_none_partial). Violated from level light on for weights, their number, the hyperbola parameters and training (C108_stale_violated, C108_trained_violated, C108_weights_violated; after_step iterates over the characters of a key and drops K but not the features). The hyperbola can be made inadmissible by alpha or gamma (C108_hyperbola_violated). sigma=None raises and disables the heuristic; lag_trainable of Hat raises; a and b of the sigmoid kernel are ignored."
  },
  {
   "property": "C109",
   "status": "partial",
   "theorems": [
    "Kerch.Classes.C109_abstract",
    "Kerch.Classes.C109_mro",
    "Kerch.Classes.C109_level_class",
    "Kerch.Classes.C109_kernel",
    "Kerch.Classes.C109_override",
    "Kerch.Classes.C109_construct",
    "Kerch.Classes.C109_ppca_violated",
    "Kerch.Classes.C109_init",
    "Kerch.Classes.C109_after_step_violated",
    "Kerch.Classes.C109_gamma_violated",
    "Kerch.Classes.C109_offered",
    "Kerch.Classes.C109_offered_distance",
    "Kerch.Classes.C109_ppca_offered_violated",
    "Kerch.Classes.C109_hyperbola_violated",
    "Kerch.Classes.C109_indicator_violated"
   ],
   "note": "Proved for every kernel class deriving from those of the package, also of the user: the class of a level on it exists, keeps the orders of both, kernel computations are unchanged, initialisers run once, and KPCA, LSSVM and Ridge can be constructed as soon as the kernel can (C109_abstract, C109_mro, C109_level_class, C109_kernel, C109_override, C109_construct, C109_init, C109_offered, C109_offered_distance). Violated: View, Level and PPCA leave H and W abstract and can never be constructed; after_step of the kernel is never reached in a level; gamma of LSSVM and Ridge hides gamma of the kernel, so rf_hyperbola raises at construction and the indicator kernel gets the regularisation constant on its diagonal. Not modelled: attributes outside the table, metaclass conflicts, nn.Module __setattr__ (see C86)."
  },
  {
   "property": "C110",
   "status": "partial",
   "theorems": [
    "Kerch.NysSel.C110_whole_partial",
    "Kerch.NysSel.C110_plain_partial",
    "Kerch.NysSel.C110_init_violated",
    "Kerch.NysSel.C110_prop_violated",
    "Kerch.NysSel.C110_order_violated",
    "Kerch.NysSel.C110_select_violated",
    "Kerch.NysSel.C110_transform_violated",
    "Kerch.NysSel.C110_empty_violated",
    "Kerch.NysSel.C110_existing_partial",
    "Kerch.NysSel.C110_existing_violated",
    "Kerch.NysSel.C110_dim_violated",
    "Kerch.NysSel.C110_set_dim"
   ],
   "note": "holds as long as all points are selected (C110_whole_partial), or without transform for selections made after the sample is given (C110_plain_partial). A sample given with a selection raises or is permuted twice; a selection of fewer points than the dimension raises; with centring, arguments are shifted; without sample nothing can be created; pruning is definitive."
  },
  {
   "property": "C111",
   "status": "partial",
   "theorems": [
    "Kerch.Autograd.C111_distance_partial",
    "Kerch.Autograd.C111_rbf",
    "Kerch.Autograd.C111_root_violated",
    "Kerch.Autograd.C111_sigmoid",
    "Kerch.Autograd.C111_polynomial_partial",
    "Kerch.Autograd.C111_polynomial_natural",
    "Kerch.Autograd.C111_polynomial_violated",
    "Kerch.Autograd.C111_degree_violated",
    "Kerch.Autograd.C111_degree_zero",
    "Kerch.Autograd.C111_degree_constant",
    "Kerch.Autograd.C111_uniform_zero",
    "Kerch.Autograd.C111_skewed_partial",
    "Kerch.Autograd.C111_hat_partial",
    "Kerch.Autograd.C111_indicator",
    "Kerch.Autograd.C111_lag_partial",
    "Kerch.Autograd.C111_weights_partial",
    "Kerch.Autograd.C111_bandwidth_violated"
   ],
   "note": "Proved for the loss G applied to the whole kernel matrix, any G: the bandwidth of every statistics kernel with every distance that can be evaluated, except at the jump or kink of a cut-off and, for the Euclidean distance, at coinciding points; RBF without exceptions. Violations: kernels using the root of the Euclidean distance give a non-finite gradient on every sample, whatever the loss; polynomial kernels of natural degree (explicit by default) and the bandwidth of random features give no gradient at all; a trainable degree with a negative base gives NaN. The points are taken as constants (not trainable), centring and normalisation of the kernel are not recorded; torch's backward formulas are a contract."
  },
  {
   "property": "C112",
   "status": "proved",
   "theorems": [
    "Kerch.Errors.C112_evaluation",
    "Kerch.Errors.C112_training",
    "Kerch.Errors.C112_initialisation",
    "Kerch.Errors.C112_target",
    "Kerch.Errors.C112_representation",
    "Kerch.Errors.C112_bias",
    "Kerch.Errors.C112_bias_gradient",
    "Kerch.Errors.C112_kappa",
    "Kerch.Errors.C112_saving",
    "Kerch.Errors.C112_append",
    "Kerch.Errors.C112_empty_model",
    "Kerch.Errors.C112_network",
    "Kerch.Errors.C112_eigs",
    "Kerch.Errors.C112_add_views",
    "Kerch.Errors.C112_known_views",
    "Kerch.Errors.C112_minkowski",
    "Kerch.Errors.C112_revert"
   ],
   "note": "Each theorem gives the exact condition of refusal of one call (or, for models, that the first level that is not ready decides), the kind of exception and that nothing but the selection has changed. Minkowski distances of general order are refused always (an attribute is missing), which C112_minkowski states as it is."
  },
  {
   "property": "C113",
   "status": "partial",
   "theorems": [
    "Kerch.SampleGrad.C113_values_partial",
    "Kerch.SampleGrad.C113_gradients_partial",
    "Kerch.SampleGrad.C113_heuristic_partial",
    "Kerch.SampleGrad.C113_second_violated",
    "Kerch.SampleGrad.C113_stale_violated",
    "Kerch.SampleGrad.C113_heuristic_violated",
    "Kerch.SampleGrad.C113_no_grad_violated"
   ],
   "note": "Values are right in all histories in which the cache is cleared after each optimiser step (C113_values_partial), gradients if it is also cleared between two backward calls and after no_grad evaluations and the bandwidth is given, or read once before a clearing (C113_gradients_partial, C113_heuristic_partial). Violated otherwise, at every cache level since the distances are kept by force: the second backward raises, the matrix stays that of the old sample, the heuristic and evaluations under no_grad cut the sample off. Kernels of a distance without sample transforms."
  },
  {
   "property": "C114",
   "status": "partial",
   "theorems": [
    "Kerch.Handles.C114_partial",
    "Kerch.Handles.C114_given",
    "Kerch.Handles.C114_loop_partial",
    "Kerch.Handles.C114_rebuild",
    "Kerch.Handles.C114_primal_violated",
    "Kerch.Handles.C114_replaced_violated",
    "Kerch.Handles.C114_lssvm_violated",
    "Kerch.Handles.C114_trainable",
    "Kerch.Handles.C114_assigned",
    "Kerch.Handles.C114_start"
   ],
   "note": "C114_partial says exactly, for every history, whether a step changes what the level uses: it does unless the parameter object was replaced. C114_loop_partial: nothing the trainer's loop does replaces one; C114_rebuild: a new optimiser takes everything up; C114_given: what an optimiser receives. Violated: assigning primal parameters (also of the same shape, also through init_parameters and solve) replaces the object unless the shape is square, because stored and given shapes are transposed when compared (C114_primal_violated); a new sample, a new output dimension or the assignment of primal parameters replace the sample and the dual parameter (C114_replaced_violated); the primal parameters of an LSSVM are never held (C114_lssvm_violated)."
  },
  {
   "property": "C115",
   "status": "partial",
   "theorems": [
    "Kerch.Restore.C115_shown",
    "Kerch.Restore.C115_refused",
    "Kerch.Restore.C115_partial",
    "Kerch.Restore.C115_reset_partial",
    "Kerch.Restore.C115_fresh_violated",
    "Kerch.Restore.C115_parameters_violated",
    "Kerch.Restore.C115_stale_violated",
    "Kerch.Restore.C115_undefined_violated"
   ],
   "note": "C115_refused: exact condition under which loading is refused. C115_partial, C115_reset_partial: if shapes and definedness of the bandwidth agree and nothing is cached (or after a reset) the behaviour is that of the saved level. Violated: a determined bandwidth is a number, the fresh parameter a vector of one element, so that loading into a level made in the same way is refused while the sample is loaded anyway (C115_fresh_violated); fitted parameters do not fit the empty ones (C115_parameters_violated); the cache is kept (C115_stale_violated); an undetermined bandwidth becomes 1 (C115_undefined_violated)."
  },
  {
   "property": "C116",
   "status": "partial",
   "theorems": [
    "Kerch.NaN.C116_agree_partial",
    "Kerch.NaN.C116_psd_partial",
    "Kerch.NaN.C116_exact_partial",
    "Kerch.NaN.C116_symmetric",
    "Kerch.NaN.C116_spread_violated",
    "Kerch.NaN.C116_uniform_violated",
    "Kerch.NaN.C116_errors"
   ],
   "note": "Proved for every list of centrings and normalisations of a symmetric kernel: every value is one function of its two points, also where it is NaN (C116_symmetric); if no squared norm met at a normalisation is negative, the values are those of the model of real numbers (C116_agree_partial); positive semi-definite kernels, centred any number of times and then normalised, give numbers with ones on the diagonal (C116_psd_partial). Exact condition for centring then normalising: C116_exact_partial. Violated: a single negative squared norm in the sample followed by a centring makes all values NaN, in sample and out of sample, whatever follows (C116_spread_violated); the uniform kernel is such a kernel (C116_uniform_violated)."
  },
  {
   "property": "C117",
   "status": "partial",
   "theorems": [
    "Kerch.Parts.C117_train",
    "Kerch.Parts.C117_eval_partial",
    "Kerch.Parts.C117_stochastic_partial",
    "Kerch.Parts.C117_modules_partial",
    "Kerch.Parts.C117_port_partial",
    "Kerch.Parts.C117_log_partial",
    "Kerch.Parts.C117_reset_partial",
    "Kerch.Parts.C117_level",
    "Kerch.Parts.C117_port_violated",
    "Kerch.Parts.C117_log_violated",
    "Kerch.Parts.C117_stochastic_violated",
    "Kerch.Parts.C117_returns_violated",
    "Kerch.Parts.C117_reset_violated",
    "Kerch.Parts.C117_level_violated",
    "Kerch.Parts.C117_port_data_partial"
   ],
   "note": "Proved for all trees: train(mode) reaches every part (C117_train); level(num) for natural numbers (C117_level). Under stated conditions: eval selects all points everywhere if all parts have the same number of points (C117_eval_partial), stochastic reaches all parts if they know their points (C117_stochastic_partial), reset(recurse=True) resets all parts of the levels (C117_reset_partial). What torch does through children reaches all parts if and only if no model with levels is met (C117_modules_partial, C117_port_partial, C117_log_partial). Violated for every model with levels: they are in a plain list, so to/double/zero_grad/parameters and the logging level do not reach them (C117_port_violated, C117_log_violated); a selection is ignored when the sample was given to the first level (C117_stochastic_violated); train and eval return None (C117_returns_violated); reset() does not recurse though documented so (C117_reset_violated); negative numbers raise StopIteration (C117_level_violated)."
  },
  {
   "property": "C118",
   "status": "partial",
   "theorems": [
    "Kerch.Announced.C118_centered_features_partial",
    "Kerch.Announced.C118_centered_values_partial",
    "Kerch.Announced.C118_normalized_features_partial",
    "Kerch.Announced.C118_normalized_values_partial",
    "Kerch.Announced.C118_natural_partial",
    "Kerch.Announced.C118_options",
    "Kerch.Announced.C118_not_centered_partial",
    "Kerch.Announced.C118_silverman_violated",
    "Kerch.Announced.C118_logistic_violated",
    "Kerch.Announced.C118_standard_violated"
   ],
   "note": "Proved: centered=True implies that features and values (also of points out of sample) sum to zero (C118_centered_features_partial, C118_centered_values_partial), normalized=True by a transform implies norm 1 where the norm before is not negligible (C118_normalized_*_partial), natural normalisation is true for all statistics kernels but one (C118_natural_partial), what the options give (C118_options), and the converse for lists of centrings and normalisations (C118_not_centered_partial). Violated: Silverman's kernel announces a normalisation it does not have (C118_silverman_violated), the logistic kernel has unit diagonal and denies it (C118_logistic_violated), standardised features are centred and this is denied (C118_standard_violated)."
  },
  {
   "property": "C119",
   "status": "partial",
   "theorems": [
    "Kerch.Order.C119_features",
    "Kerch.Order.C119_features_oos",
    "Kerch.Order.C119_values",
    "Kerch.Order.C119_bandwidth",
    "Kerch.Order.C119_covariance",
    "Kerch.Order.C119_lssvm",
    "Kerch.Order.C119_lssvm_primal",
    "Kerch.Order.C119_variance",
    "Kerch.Order.C119_primal",
    "Kerch.Order.C119_scores_partial",
    "Kerch.Order.C119_scores_violated",
    "Kerch.Order.C119_knn_partial",
    "Kerch.Order.C119_knn_violated",
    "Kerch.Order.C119_smoother_partial"
   ],
   "note": "Partial: scores only for simple eigenvalues and up to sign (C119_scores_violated: a multiple eigenvalue leaves the choice to eigh), knn and smoother only without equal distances (C119_knn_violated: for every rule of topk exchanging two equidistant observations changes the result). Everything else, including the calls that raise, for all orders."
  },
  {
   "property": "C120",
   "status": "partial",
   "theorems": [
    "Kerch.Units.C120_distance",
    "Kerch.Units.C120_given_bandwidth",
    "Kerch.Units.C120_origin",
    "Kerch.Units.C120_origin_minimum",
    "Kerch.Units.C120_standardize_partial",
    "Kerch.Units.C120_minmax_partial",
    "Kerch.Units.C120_cosine_partial",
    "Kerch.Units.C120_small_violated",
    "Kerch.Units.C120_standardize_violated",
    "Kerch.Units.C120_added",
    "Kerch.Units.C120_scaled_partial",
    "Kerch.Units.C120_scaled_violated"
   ],
   "note": "Partial: standardisation, range and sphere need the deviations, ranges or norms to reach EPS in both units (C120_small_violated, C120_standardize_violated, C120_scaled_violated: below, the result depends on the unit; the implicit normalisation compares the kernel value, a product of norms, with EPS). Distance kernels with default bandwidth, centring and origin without restriction; C120_given_bandwidth: a given bandwidth is never unit-free. A bandwidth of zero (more than half of the pairs equal) divides by zero in both units."
  },
  {
   "property": "C121",
   "status": "proved",
   "theorems": [
    "Kerch.Regular.C121_residual",
    "Kerch.Regular.C121_monotone",
    "Kerch.Regular.C121_bound",
    "Kerch.Regular.C121_interpolates",
    "Kerch.Regular.C121_vanishing",
    "Kerch.Regular.C121_dominating",
    "Kerch.Regular.C121_ridge"
   ],
   "note": "Proved in full over the exact solution of the LS-SVM system: residual, monotone training error, bound, limits of gamma, ridge form."
  },
  {
   "property": "C122",
   "status": "proved",
   "theorems": [
    "Kerch.Regular.C122_dual",
    "Kerch.Regular.C122_sum",
    "Kerch.Regular.C122_primal",
    "Kerch.Regular.C122_ridge"
   ],
   "note": "Proved in full: scaling and shifting the targets, sum of the multipliers, dual, primal and ridge forms."
  },
  {
   "property": "C123",
   "status": "partial",
   "theorems": [
    "Kerch.Repeat.C123_features_partial",
    "Kerch.Repeat.C123_features_oos_partial",
    "Kerch.Repeat.C123_values",
    "Kerch.Repeat.C123_covariance",
    "Kerch.Repeat.C123_variance_violated",
    "Kerch.Repeat.C123_lssvm",
    "Kerch.Repeat.C123_spectrum",
    "Kerch.Repeat.C123_explained_partial",
    "Kerch.Repeat.C123_primal",
    "Kerch.Repeat.C123_threshold_violated"
   ],
   "note": "Partial: repeating the data keeps means, centred values, covariance, the spectrum up to the factor and the LS-SVM; the unit-variance transform and the absolute eigenvalue threshold are not invariant (violations proved)."
  },
  {
   "property": "C124",
   "status": "partial",
   "theorems": [
    "Kerch.Crash.C124_saving",
    "Kerch.Crash.C124_training",
    "Kerch.Crash.C124_finishing",
    "Kerch.Crash.C124_raises",
    "Kerch.Crash.C124_cut_violated",
    "Kerch.Crash.C124_overwritten_violated"
   ],
   "note": "Partial: every crash point of saving, training and finishing leaves earlier checkpoints readable; a cut file can be the one that is kept by finish, and an overwritten name is lost (violations proved)."
  },
  {
   "property": "C125",
   "status": "partial",
   "theorems": [
    "Kerch.Crash.C125_isolated",
    "Kerch.Crash.C125_directory",
    "Kerch.Crash.C125_shared_violated",
    "Kerch.Crash.C125_race_violated"
   ],
   "note": "Partial: runs started at distinct instants of the format work in disjoint directories; two runs in the same second of the year share one (violations proved)."
  },
  {
   "property": "C126",
   "status": "partial",
   "theorems": [
    "Kerch.Watch.C126_refused",
    "Kerch.Watch.C126_report",
    "Kerch.Watch.C126_given_partial",
    "Kerch.Watch.C126_raises",
    "Kerch.Watch.C126_given_violated",
    "Kerch.Watch.C126_moment_partial",
    "Kerch.Watch.C126_moment_violated"
   ],
   "note": "Partial: on the cpu a watched tensor is reported by reference and changes with training; a list changed after it was given is not verified (violations proved). Reports, refusals and exceptions proved in full."
  },
  {
   "property": "C127",
   "status": "partial",
   "theorems": [
    "Kerch.Tuning.C127_monotone_partial",
    "Kerch.Tuning.C127_strict",
    "Kerch.Tuning.C127_narrow",
    "Kerch.Tuning.C127_wide",
    "Kerch.Tuning.C127_identity_partial",
    "Kerch.Tuning.C127_silverman_violated"
   ],
   "note": "Proved for every statistics kernel but Silverman's, which is not monotone and whose diagonal is not 1 (C127_silverman_violated); Minkowski distances are outside because their implementation cannot be evaluated (C25)."
  },
  {
   "property": "C128",
   "status": "partial",
   "theorems": [
    "Kerch.Rotate.C128_columns_functions",
    "Kerch.Rotate.C128_columns_transforms",
    "Kerch.Rotate.C128_rotation_functions_partial",
    "Kerch.Rotate.C128_rotation_transforms_partial",
    "Kerch.Rotate.C128_rotation_matrix_partial",
    "Kerch.Rotate.C128_translation",
    "Kerch.Rotate.C128_distances_violated",
    "Kerch.Rotate.C128_normalised_violated"
   ],
   "note": "Order of columns and translations in full. Rotations: kernels of inner products and of Euclidean distances, centring and normalising to the sphere; the other distances and the normalisations by column depend on the axes (C128_distances_violated, C128_normalised_violated)."
  },
  {
   "property": "C129",
   "status": "partial",
   "theorems": [
    "Kerch.LeaveOut.C129_leave_out",
    "Kerch.LeaveOut.C129_added",
    "Kerch.LeaveOut.C129_without_weight",
    "Kerch.LeaveOut.C129_ridge",
    "Kerch.LeaveOut.C129_primal_violated",
    "Kerch.LeaveOut.C129_centred"
   ],
   "note": "Dual representation in full for a fixed kernel; kernels whose parameters depend on the sample (default bandwidth, Nystrom) are outside. The primal system divides by the number of points (C129_primal_violated)."
  },
  {
   "property": "C130",
   "status": "partial",
   "theorems": [
    "Kerch.Nested.C130_values",
    "Kerch.Nested.C130_components_partial",
    "Kerch.Nested.C130_projection_partial",
    "Kerch.Nested.C130_tie_violated",
    "Kerch.Nested.C130_eigs"
   ],
   "note": "Values in full; components and projections where the value, respectively the next one, differs; violated for equal values (C130_tie_violated)."
  },
  {
   "property": "C131",
   "status": "partial",
   "theorems": [
    "Kerch.Geometry.C131_lengths_partial",
    "Kerch.Geometry.C131_cosine",
    "Kerch.Geometry.C131_distance_partial",
    "Kerch.Geometry.C131_centring",
    "Kerch.Geometry.C131_mean",
    "Kerch.Geometry.C131_neighbours_partial",
    "Kerch.Geometry.C131_small_violated",
    "Kerch.Geometry.C131_sigmoid_violated"
   ],
   "note": "Normalised values in [-1,1] and centring in full; lengths and triangle inequality where no squared norm at a normalisation is positive but below the safeguard 1e-7 (C131_small_violated); the sigmoid kernel is not an inner product (C131_sigmoid_violated)."
  },
  {
   "property": "C132",
   "status": "partial",
   "theorems": [
    "Kerch.PreimageFun.C132_smoother_partial",
    "Kerch.PreimageFun.C132_range_partial",
    "Kerch.PreimageFun.C132_alone_partial",
    "Kerch.PreimageFun.C132_sum_violated",
    "Kerch.PreimageFun.C132_batch_violated",
    "Kerch.PreimageFun.C132_refused",
    "Kerch.PreimageFun.C132_empty",
    "Kerch.PreimageFun.C132_none",
    "Kerch.PreimageFun.C132_knn_violated"
   ],
   "note": "The smoother with fewer neighbours than points, in full. With all neighbours it normalises over the batch instead of over the coefficients (C132_sum_violated, C132_batch_violated); knn unpacks an integer and raises for every argument, the two others are not implemented (C132_knn_violated)."
  },
  {
   "property": "C133",
   "status": "partial",
   "theorems": [
    "Kerch.PPCALik.C133_most_likely_partial",
    "Kerch.PPCALik.C133_gap",
    "Kerch.PPCALik.C133_complete_partial",
    "Kerch.PPCALik.C133_primal_noise_violated",
    "Kerch.PPCALik.C133_primal_violated",
    "Kerch.PPCALik.C133_noise_violated"
   ],
   "note": "Dual fits: C133_most_likely_partial states exactly when the fitted weights and noise are the maximum (sigma (d - k) = n - k, for noise that is positive and does not exceed the components kept); C133_gap gives the exact loss otherwise and shows that a maximum exists; C133_complete_partial covers as many components as features. The claim is false in general: the value computed is the mean variance left out but is used as a standard deviation (C133_noise_violated), and the primal divides the covariance, already normalised, by num_idx again (C133_primal_violated). kappa is taken to be one."
  },
  {
   "property": "C134",
   "status": "proved",
   "theorems": [
    "Kerch.Growth.C134_interlace",
    "Kerch.Growth.C134_centred",
    "Kerch.Growth.C134_captured",
    "Kerch.Growth.C134_left_out",
    "Kerch.Growth.C134_primal"
   ],
   "note": "Proved for kernels whose values between two points do not depend on the rest of the sample and for centred features; kernels with another sample statistic (standardisation, bandwidth from the data) are outside the quantifier."
  },
  {
   "property": "C135",
   "status": "proved",
   "theorems": [
    "Kerch.NysBound.C135_residual",
    "Kerch.NysBound.C135_between",
    "Kerch.NysBound.C135_error",
    "Kerch.NysBound.C135_exact",
    "Kerch.NysBound.C135_landmarks",
    "Kerch.NysBound.C135_dim",
    "Kerch.NysBound.C135_points",
    "Kerch.NysBound.C135_limited"
   ],
   "note": "Exact reals. C135_limited shows that more points may worsen the approximation when dim stays limited."
  },
  {
   "property": "C136",
   "status": "partial",
   "theorems": [
    "Kerch.Stability.C136_values_partial",
    "Kerch.Stability.C136_uniform_violated",
    "Kerch.Stability.C136_targets",
    "Kerch.Stability.C136_prediction",
    "Kerch.Stability.C136_dual",
    "Kerch.Stability.C136_variances",
    "Kerch.Stability.C136_data_partial",
    "Kerch.Stability.C136_components_violated"
   ],
   "note": "Exact reals, fixed bandwidth. Violations: the uniform kernel jumps from 1 to 0 (C136_uniform_violated); components of nearly equal variances may turn by a right angle (C136_components_violated)."
  },
  {
   "property": "C137",
   "status": "proved",
   "theorems": [
    "Kerch.Constant.C137_distance",
    "Kerch.Constant.C137_bandwidth",
    "Kerch.Constant.C137_transforms",
    "Kerch.Constant.C137_centred",
    "Kerch.Constant.C137_linear",
    "Kerch.Constant.C137_linear_centred",
    "Kerch.Constant.C137_inner",
    "Kerch.Constant.C137_lssvm",
    "Kerch.Constant.C137_polynomial",
    "Kerch.Constant.C137_other_value"
   ],
   "note": "Proved for the transforms (all sequences without the unit sphere, all sequences that begin with a centring), distance kernels and bandwidth, linear kernels and LS-SVM; the uncentred polynomial kernel and points out of sample with another value are treated as well."
  },
  {
   "property": "C138",
   "status": "partial",
   "theorems": [
    "Kerch.Figures.C138_matrix_partial",
    "Kerch.Figures.C138_labels_violated",
    "Kerch.Figures.C138_refused",
    "Kerch.Figures.C138_heights_partial",
    "Kerch.Figures.C138_bars_violated",
    "Kerch.Figures.C138_single_violated",
    "Kerch.Figures.C138_scatter_partial",
    "Kerch.Figures.C138_features",
    "Kerch.Figures.C138_untargeted_violated",
    "Kerch.Figures.C138_subset_violated",
    "Kerch.Figures.C138_heat_violated"
   ],
   "note": "Images, titles and heights of bars proved for all inputs; five violations proved for all inputs: labels of the axes never displayed, bars all at one place, a single eigenvalue refused, scatter of views without targets or with a part of their points raises, heat map never drawn."
  },
  {
   "property": "C139",
   "status": "partial",
   "theorems": [
    "Kerch.Holder.C139_rows_partial",
    "Kerch.Holder.C139_nested_violated",
    "Kerch.Holder.C139_default_violated",
    "Kerch.Holder.C139_whole",
    "Kerch.Holder.C139_fold_violated",
    "Kerch.Holder.C139_stored_partial",
    "Kerch.Holder.C139_given",
    "Kerch.Holder.C139_labels_violated",
    "Kerch.Holder.C139_refused"
   ],
   "note": "Sizes, alignment of labels, the parts stored and given back and refusals proved; disjointness and covering are refuted for all data sets, proportions and permutations (the start of the slices is never moved), and labels given without data are replaced by those of the training set. The class is not used by the rest of the package."
  },
  {
   "property": "C140",
   "status": "partial",
   "theorems": [
    "Kerch.Script.C140_done",
    "Kerch.Script.C140_order",
    "Kerch.Script.C140_refused",
    "Kerch.Script.C140_name_partial",
    "Kerch.Script.C140_name_violated",
    "Kerch.Script.C140_directory_partial",
    "Kerch.Script.C140_directory_violated"
   ],
   "note": "Success characterised exactly, order of the steps, refusals, names of .yaml files and directories of relative paths proved; names of .yml files collide and absolute paths leave the directory (violations). Command line and yaml by contract."
  },
  {
   "property": "C141",
   "status": "partial",
   "theorems": [
    "Kerch.Retract.C141_parts",
    "Kerch.Retract.C141_tangent",
    "Kerch.Retract.C141_normal",
    "Kerch.Retract.C141_closest",
    "Kerch.Retract.C141_fixed",
    "Kerch.Retract.C141_cpu_violated",
    "Kerch.Retract.C141_polar",
    "Kerch.Retract.C141_polar_closest",
    "Kerch.Retract.C141_polar_fixed"
   ],
   "note": "Splitting, tangency, best approximation and fixed points proved for both projections and for the polar retraction; stiefel_proj_tan raises for tensors on the processor and stiefel_transport always raises (violations)."
  },
  {
   "property": "C142",
   "status": "partial",
   "theorems": [
    "Kerch.Generate.C142_circles",
    "Kerch.Generate.C142_moons_apart",
    "Kerch.Generate.C142_moons_range",
    "Kerch.Generate.C142_ends",
    "Kerch.Generate.C142_refused",
    "Kerch.Generate.C142_spiral_partial",
    "Kerch.Generate.C142_spiral_violated",
    "Kerch.Generate.C142_range_violated",
    "Kerch.Generate.C142_range_partial"
   ],
   "note": "Two moons: position, separation of the classes, range and refusals proved for all numbers of points. Spirals: consistent labels up to 208 points (C142_spiral_partial), violated from 209 on; the range is violated from 17 points on (default 140), right in three directions up to 418 points."
  },
  {
   "property": "C143",
   "status": "partial",
   "theorems": [
    "Kerch.Report.C143_errors",
    "Kerch.Report.C143_done",
    "Kerch.Report.C143_refused",
    "Kerch.Report.C143_zero",
    "Kerch.Report.C143_pooled",
    "Kerch.Report.C143_order",
    "Kerch.Report.C143_objective_partial",
    "Kerch.Report.C143_objective_violated",
    "Kerch.Report.C143_frozen",
    "Kerch.Report.C143_mode_violated",
    "Kerch.Report.C143_empty_violated"
   ],
   "note": "Errors, order, refusals, frozen models and the result proved for all models, sets, batches and epochs. The objective is shown to belong to the parameters before each step (C143_objective_partial, _violated); C143_mode_violated: evaluation mode kept after an exception in a prediction; C143_empty_violated: sets without points reported as zero."
  },
  {
   "property": "C144",
   "status": "proved",
   "theorems": [
    "Kerch.PSDTable.C144_table",
    "Kerch.PSDTable.C144_minkowski"
   ],
   "note": "Exact for the three distances that have a value."
  },
  {
   "property": "C145",
   "status": "partial",
   "theorems": [
    "Kerch.Degree.C145_values_partial",
    "Kerch.Degree.C145_nan_violated",
    "Kerch.Degree.C145_degree_violated",
    "Kerch.Degree.C145_homogeneous_violated",
    "Kerch.Degree.C145_line",
    "Kerch.Degree.C145_pairs",
    "Kerch.Degree.C145_beta_violated"
   ],
   "note": "Violated: on points of non-negative coordinates, where every value exists, the matrices are positive semi-definite for natural degrees only (C145_degree_violated, C145_homogeneous_violated, exact equivalences); elsewhere a degree that is not an integer gives NaN (C145_nan_violated). Natural degrees need beta >= 0 (C145_beta_violated). Two points never show it (C145_pairs), one coordinate with beta = 0 neither (C145_line)."
  },
  {
   "property": "C146",
   "status": "partial",
   "theorems": [
    "Kerch.Strict.C146_table",
    "Kerch.Strict.C146_targets",
    "Kerch.Strict.C146_fit",
    "Kerch.Strict.C146_centred",
    "Kerch.Strict.C146_repeated_violated",
    "Kerch.Strict.C146_features_violated",
    "Kerch.Strict.C146_linear_violated",
    "Kerch.Strict.C146_polynomial_violated",
    "Kerch.Strict.C146_eigenvalues",
    "Kerch.Strict.C146_near_violated"
   ],
   "note": "Proved for the statistics kernels (C146_table is an exact equivalence in kernel, distance and dimension) with its consequences. Violated for kernels with fewer features than points (linear, polynomial), for repeated points, and, for the Nystrom kernel, for points so near that an eigenvalue is below the threshold (C146_near_violated)."
  },
  {
   "property": "C147",
   "status": "partial",
   "theorems": [
    "Kerch.Describe.C147_kernel",
    "Kerch.Describe.C147_apart",
    "Kerch.Describe.C147_level",
    "Kerch.Describe.C147_user",
    "Kerch.Describe.C147_quoted",
    "Kerch.Describe.C147_ridge_violated",
    "Kerch.Describe.C147_sigma",
    "Kerch.Describe.C147_values",
    "Kerch.Describe.C147_polynomial",
    "Kerch.Describe.C147_statistics_violated",
    "Kerch.Describe.C147_distance_partial",
    "Kerch.Describe.C147_distance_violated",
    "Kerch.Describe.C147_repr",
    "Kerch.Describe.C147_repr_package",
    "Kerch.Describe.C147_print",
    "Kerch.Describe.C147_print_violated",
    "Kerch.Describe.C147_rkm",
    "Kerch.Describe.C147_rkm_violated",
    "Kerch.Describe.C147_kpca_model_violated",
    "Kerch.Describe.C147_tree_violated",
    "Kerch.Describe.C147_tree"
   ],
   "note": "Proved for every kernel of the package and every kernel class of a user without __new__ of its own: the level quotes the kernel. Violated: Ridge calls itself LSSVM; the Minkowski distance calls itself manhattan; eight statistics kernels show neither distance nor bandwidth; the Wasserstein kernel reads the bandwidth when printed (fails without sample, determines it otherwise); stacked random features break the line-per-level layout; the model KPCA cannot be created (_add_level does not exist); transforms are listed last first, on one line."
  },
  {
   "property": "C148",
   "status": "partial",
   "theorems": [
    "Kerch.Influence.C148_exists",
    "Kerch.Influence.C148_weights",
    "Kerch.Influence.C148_symmetric",
    "Kerch.Influence.C148_own",
    "Kerch.Influence.C148_raise",
    "Kerch.Influence.C148_gamma",
    "Kerch.Influence.C148_freedom",
    "Kerch.Influence.C148_features",
    "Kerch.Influence.C148_limits",
    "Kerch.Influence.C148_leave_out",
    "Kerch.Influence.C148_average_violated"
   ],
   "note": "All claims but the last proved for the dual system of the LS-SVM with a bias (the exact solution). Violated: outputs may leave the range of the targets (C148_average_violated), as far as one likes."
  },
  {
   "property": "C149",
   "status": "partial",
   "theorems": [
    "Kerch.Apart.C149_hat",
    "Kerch.Apart.C149_indicator_partial",
    "Kerch.Apart.C149_indicator_default",
    "Kerch.Apart.C149_times_violated",
    "Kerch.Apart.C149_skewed",
    "Kerch.Apart.C149_additive",
    "Kerch.Apart.C149_additive_violated",
    "Kerch.Apart.C149_targets",
    "Kerch.Apart.C149_fit"
   ],
   "note": "Exact real arithmetic. Indicator: proved on integer times (C149_indicator_partial, any gamma above twice the floor of the lag, which includes the default); on other times no gamma works for any positive lag (C149_times_violated). Additive chi-square: the exact null combinations are given by C149_additive; with two features or more the kernel does not tell all histograms apart (C149_additive_violated, an equivalence)."
  },
  {
   "property": "C150",
   "status": "partial",
   "theorems": [
    "Kerch.Messages.C150_located",
    "Kerch.Messages.C150_standard",
    "Kerch.Messages.C150_apart",
    "Kerch.Messages.C150_read",
    "Kerch.Messages.C150_sites_partial",
    "Kerch.Messages.C150_first_violated",
    "Kerch.Messages.C150_lost_violated",
    "Kerch.Messages.C150_keyword_violated",
    "Kerch.Messages.C150_unlocated_violated",
    "Kerch.Messages.C150_refused"
   ],
   "note": "All calls of the package are listed in Model/Messages (legacy modules aside). Three do not say what they are written with: kernel/_base_kernel.py:119 and network/explicit_nn.py:113 give the message in the place of the object, so that it is lost (C150_first_violated, C150_lost_violated), implicit.py:52 misspells a keyword and ends in a TypeError (C150_keyword_violated); calls of check_representation without object do not name the class (C150_unlocated_violated). C150_refused states exactly when the constructor itself refuses."
  },
  {
   "property": "C151",
   "status": "partial",
   "theorems": [
    "Kerch.LSTrain.C151_runs",
    "Kerch.LSTrain.C151_curvature",
    "Kerch.LSTrain.C151_rate",
    "Kerch.LSTrain.C151_decreases",
    "Kerch.LSTrain.C151_outputs",
    "Kerch.LSTrain.C151_parameters",
    "Kerch.LSTrain.C151_stationary",
    "Kerch.LSTrain.C151_bias_violated",
    "Kerch.LSTrain.C151_first_violated",
    "Kerch.LSTrain.C151_normalised",
    "Kerch.LSTrain.C151_whole",
    "Kerch.LSTrain.C151_batches_violated"
   ],
   "note": "One output, in dual representation; exact reals. The formulas are those of the loss, whose attribute names (hidden, weight) do not exist on a level, so that as it stands the call raises AttributeError (recorded in C91). Violated: from a start that is not centred the first epoch can raise the loss at every rate (C151_first_violated); with a centred kernel the bias diverges exactly for eta gamma >= 1 (C151_bias_violated); with batches of one point training rests at no parameters unless all targets are equal, as a batch is predicted from its own dual variables only (C151_batches_violated). The limit is the fit at 1/gamma, not at gamma (see C91)."
  },
  {
   "property": "C152",
   "status": "proved",
   "theorems": [
    "Kerch.Metrics.C152_metric",
    "Kerch.Metrics.C152_order",
    "Kerch.Metrics.C152_sharp",
    "Kerch.Metrics.C152_one_dimension",
    "Kerch.Metrics.C152_kernels",
    "Kerch.Metrics.C152_way",
    "Kerch.Metrics.C152_way_sharp",
    "Kerch.Metrics.C152_reach",
    "Kerch.Metrics.C152_bandwidth"
   ],
   "note": "Minkowski and Wasserstein distances raise (C25_minkowski_violated), so every statement is about a distance that can be evaluated. For the squared exponential the similarity along a way can exceed the direct one (C152_way_sharp); the square of the product is a bound."
  },
  {
   "property": "C153",
   "status": "partial",
   "theorems": [
    "Kerch.Groups.C153_far",
    "Kerch.Groups.C153_normalised",
    "Kerch.Groups.C153_centred_violated",
    "Kerch.Groups.C153_ridge",
    "Kerch.Groups.C153_lssvm",
    "Kerch.Groups.C153_bias_violated",
    "Kerch.Groups.C153_components",
    "Kerch.Groups.C153_smoother"
   ],
   "note": "Exact arithmetic: kernel values of different groups are zero exactly, as they are for the kernels of bounded support (C153_far); for exponential kernels they are only small. Refuted: centring keeps groups apart (C153_centred_violated), LS-SVM outputs do not depend on the targets of other groups (C153_bias_violated: half of the target of the unseen point comes through the bias). The statement on components needs an eigenvalue that occurs once; with a repeated one the eigenvectors of the contract may mix groups."
  },
  {
   "property": "C154",
   "status": "partial",
   "theorems": [
    "Kerch.Momentum.C154_plain",
    "Kerch.Momentum.C154_scalar_violated",
    "Kerch.Momentum.C154_hyperparameter_violated",
    "Kerch.Momentum.C154_momentum_violated",
    "Kerch.Momentum.C154_keyword_violated",
    "Kerch.Momentum.C154_leak_violated",
    "Kerch.Momentum.C154_momentum",
    "Kerch.Momentum.C154_effective",
    "Kerch.Momentum.C154_decay_violated",
    "Kerch.Momentum.C154_nesterov_violated",
    "Kerch.Momentum.C154_types"
   ],
   "note": "Refuted: momentum with 'sgd' (C154_momentum_violated, C154_keyword_violated: nesterov is read by the Euclidean branch and bound by the Stiefel branch only, UnboundLocalError at every step), options of a group used for its parameters (C154_leak_violated), hyper-parameters trainable (C154_scalar_violated, C154_hyperparameter_violated: p.size()[0] of a parameter without dimension raises IndexError; sigma, alpha, beta, lag, gamma and p are held so when given as numbers or found by the heuristic), weight decay counted once (C154_decay_violated), Nesterov without momentum refused (C154_nesterov_violated). The Stiefel branch is a parameter of this model (see C35, C61); options that are not numbers or booleans are not followed; closed form of the velocity for weight decay 0."
  },
  {
   "property": "C155",
   "status": "partial",
   "theorems": [
    "Kerch.PrintCache.C155_shows",
    "Kerch.PrintCache.C155_levels",
    "Kerch.PrintCache.C155_private",
    "Kerch.PrintCache.C155_empty_violated",
    "Kerch.PrintCache.C155_recover_partial",
    "Kerch.PrintCache.C155_recover_violated"
   ],
   "note": "The text of a value (str) is a parameter. The trees held in caches are taken to have caches without trees in them, as in the code. C155_recover_partial needs keys without brackets and values on one line; C155_recover_violated shows the last is needed."
  },
  {
   "property": "C156",
   "status": "partial",
   "theorems": [
    "Kerch.Threads.C156_values_partial",
    "Kerch.Threads.C156_readers",
    "Kerch.Threads.C156_ends",
    "Kerch.Threads.C156_reset_violated",
    "Kerch.Threads.C156_hyper_violated",
    "Kerch.Threads.C156_sample_violated",
    "Kerch.Threads.C156_loop_violated",
    "Kerch.Threads.C156_assign_violated",
    "Kerch.Threads.C156_walk_violated",
    "Kerch.Threads.C156_orderly_partial"
   ],
   "note": "Steps are those CPython can interleave under its global lock: reading the attribute, one dictionary operation, reading or writing the inputs. That writing the inputs (the data of a tensor) is one step, the level of the cache and the values of elements being functions of the inputs alone are simplifications. C156_values_partial: with resets in between values are right but KeyError or RuntimeError may be raised. C156_orderly_partial assumes changes are made while nothing else runs."
  },
  {
   "property": "C157",
   "status": "partial",
   "theorems": [
    "Kerch.Threads.C157_assign",
    "Kerch.Threads.C157_usable_partial",
    "Kerch.Threads.C157_sample_violated"
   ],
   "note": "Interruptions fall between the steps of Model/Threads; that the data of a tensor is written in one step is a simplification. C157_usable_partial covers all calls but update_sample, for which C157_sample_violated shows what happens."
  },
  {
   "property": "C158",
   "status": "partial",
   "theorems": [
    "Kerch.Repro.C158_again",
    "Kerch.Repro.C158_untouched",
    "Kerch.Repro.C158_one_draw",
    "Kerch.Repro.C158_split_violated",
    "Kerch.Repro.C158_step_violated",
    "Kerch.Repro.C158_gaussians_violated",
    "Kerch.Repro.C158_raising_violated",
    "Kerch.Repro.C158_costs",
    "Kerch.Repro.C158_amounts"
   ],
   "note": "What a generator returns in a state is by contract; the values computed from the draws are not modelled here. The violations hold for every generator that is not constant: shuffled splits, Stiefel steps and the Gaussians do not depend on torch's seed, and draw_k of a PPCA level with a mean draws before it raises."
  },
  {
   "property": "C159",
   "status": "proved",
   "theorems": [
    "Kerch.RidgeBias.C159_centred",
    "Kerch.RidgeBias.C159_constant_part",
    "Kerch.RidgeBias.C159_constant_limit"
   ],
   "note": "Dual representations, one output, exact arithmetic; the primal solvers regularise differently (C94, C50)."
  },
  {
   "property": "C160",
   "status": "proved",
   "theorems": [
    "Kerch.RidgeInf.C160_exists",
    "Kerch.RidgeInf.C160_weights",
    "Kerch.RidgeInf.C160_training",
    "Kerch.RidgeInf.C160_shrinks",
    "Kerch.RidgeInf.C160_gamma",
    "Kerch.RidgeInf.C160_leave_out",
    "Kerch.RidgeInf.C160_features"
   ],
   "note": "Dual representation, one output, exact arithmetic; primal: see C94."
  },
  {
   "property": "C161",
   "status": "partial",
   "theorems": [
    "Kerch.Comps.C161_points",
    "Kerch.Comps.C161_centred",
    "Kerch.Comps.C161_features",
    "Kerch.Comps.C161_primal",
    "Kerch.Comps.C161_primal_violated"
   ],
   "note": "Exact arithmetic: the violation comes from the threshold EPS, which is compared with eigenvalues of C (divided by the number of points) in primal and of K in dual."
  },
  {
   "property": "C162",
   "status": "proved",
   "theorems": [
    "Kerch.BestPred.C162_ridge",
    "Kerch.BestPred.C162_lssvm",
    "Kerch.BestPred.C162_mean"
   ],
   "note": "The random quantities are vectors of an inner product space (second moments); the statement does not say that the targets are so distributed, it says what the outputs are if they are."
  },
  {
   "property": "C163",
   "status": "partial",
   "theorems": [
    "Kerch.Selection.C163_ints",
    "Kerch.Selection.C163_late_violated",
    "Kerch.Selection.C163_all",
    "Kerch.Selection.C163_aligned",
    "Kerch.Selection.C163_mask_violated",
    "Kerch.Selection.C163_mask_size",
    "Kerch.Selection.C163_slice_violated",
    "Kerch.Selection.C163_history_partial",
    "Kerch.Selection.C163_held_violated",
    "Kerch.Selection.C163_update_refused",
    "Kerch.Selection.C163_update",
    "Kerch.Selection.C163_same_row_violated",
    "Kerch.Selection.C163_update_mask_violated"
   ],
   "note": "The history theorem assumes that the user changes no object while it is used as a selection; without it C163_held_violated. Late refusal, masks, slices and two indices of the same row are violated (torch leaves open which of the two values is kept, the model keeps the last). A single integer as selection is not modelled."
  },
  {
   "property": "C164",
   "status": "partial",
   "theorems": [
    "Kerch.Identity.C164_kernel",
    "Kerch.Identity.C164_retained",
    "Kerch.Identity.C164_forward_partial",
    "Kerch.Identity.C164_forward_light",
    "Kerch.Identity.C164_forward_violated"
   ],
   "note": "C164_kernel for every history, allocator choice and cache level; C164_retained shows what this costs (arguments stay referred to until the next reset); C164_forward_light below the level normal; C164_forward_partial at every level if only tensors are given to forward; C164_forward_violated: at the default level a list or array at the address of a forgotten one gets the output of the first. In-place changes of contents are in C07."
  },
  {
   "property": "C165",
   "status": "partial",
   "theorems": [
    "Kerch.TrainerSet.C165_current",
    "Kerch.TrainerSet.C165_unique",
    "Kerch.TrainerSet.C165_set",
    "Kerch.TrainerSet.C165_construct",
    "Kerch.TrainerSet.C165_fit",
    "Kerch.TrainerSet.C165_returns",
    "Kerch.TrainerSet.C165_settings_kept",
    "Kerch.TrainerSet.C165_epochs_violated",
    "Kerch.TrainerSet.C165_mode_violated",
    "Kerch.TrainerSet.C165_lr_violated"
   ],
   "note": "C165_current, C165_unique: every setting has the value last accepted, after any history; C165_set, C165_construct: what is accepted and that refusals have no effect; C165_fit, C165_returns, C165_settings_kept: what a fit uses and when it returns. C165_epochs_violated, C165_lr_violated: values that cannot be used are accepted; C165_mode_violated: a fit that raises leaves the model initialised anew and in training mode. batch_size is in C56; that every fit of the pinned commit raises is in C70."
  },
  {
   "property": "C166",
   "status": "proved",
   "theorems": [
    "Kerch.RFLimit.C166_mean",
    "Kerch.RFLimit.C166_error",
    "Kerch.RFLimit.C166_lrelu_mean",
    "Kerch.RFLimit.C166_tail",
    "Kerch.RFLimit.C166_enough"
   ],
   "note": "Weights are modelled as independent standard Gaussian vectors on a probability space (random_features.py:111-114); pairwise independence suffices for mean and error, mutual independence for the tail. The pseudo-random generator itself is trusted to give such draws. For leaky rectifiers the origin is excluded, where the closed form is NaN (C104_origin_violated)."
  },
  {
   "property": "C167",
   "status": "proved",
   "theorems": [
    "Kerch.RFLimit.C167_lssvm",
    "Kerch.RFLimit.C167_lssvm_lrelu",
    "Kerch.RFLimit.C167_kpca",
    "Kerch.RFLimit.C167_kpca_enough",
    "Kerch.RFLimit.C167_lssvm_enough"
   ],
   "note": "Weights as in C166. The level is solved in dual representation on the kernel of the features without transforms; fits exist and are unique by C50_exists_partial and C50_unique_partial. The bias is included in the limits; the bound for a given number of weights is about the dual variables."
  },
  {
   "property": "C168",
   "status": "partial",
   "theorems": [
    "Kerch.Fair.C168_sets",
    "Kerch.Fair.C168_points",
    "Kerch.Fair.C168_mean",
    "Kerch.Fair.C168_error",
    "Kerch.Fair.C168_empty_violated"
   ],
   "note": "torch.randperm is taken to give each order equally often (probabilities are numbers of permutations out of n!). The expectation of means assumes that something is selected; C168_empty_violated shows when nothing is."
  },
  {
   "property": "C169",
   "status": "partial",
   "theorems": [
    "Kerch.SolveSys.C169_dual",
    "Kerch.SolveSys.C169_primal",
    "Kerch.SolveSys.C169_refused",
    "Kerch.SolveSys.C169_returns",
    "Kerch.SolveSys.C169_mix",
    "Kerch.SolveSys.C169_alone",
    "Kerch.SolveSys.C169_outputs",
    "Kerch.SolveSys.C169_primal_mix",
    "Kerch.SolveSys.C169_ridge",
    "Kerch.SolveSys.C169_ridge_primal",
    "Kerch.SolveSys.C169_loss_violated",
    "Kerch.SolveSys.C169_primal_violated",
    "Kerch.SolveSys.C169_ridge_returns",
    "Kerch.SolveSys.C169_primal_centred_partial"
   ],
   "note": "LSSVM and ridge systems are assembled as the code does and proved to be, output by output, the one-output systems of Model/LSSVM and Model/LSSVMTrain. Not modelled: rounding, the storing of the results (C105). kernel.phi_sample is read as the features of the sample. Violated: the loss with m outputs is the sum of the losses with gamma / m; the primal system can be singular where the dual one is not (two points of feature 1, gamma 1)."
  }
 ]
}