{
"C01": {
"note": "For every admissible history (each state change resets the quantities it affects) reads equal those of an uncached module. C01_reset_needed shows the condition is necessary."
},
"C02": {
"note": "Bound for unforced elements under non-lowered level; exact effect of cleaning; reuse of what is kept; a cleaning at a level that is not in the table raises and removes nothing."
},
"C03": {
"note": "One module, recursion over the module tree (through Cache children only), and no effect elsewhere."
},
"C04": {
"note": "The code violates the property for every key that is not one character long; lists and one-character keys are removed exactly."
},
"C63": {
"note": "Known names round-trip; unknown names are accepted silently and later requests raise TypeError (violation)."
},
"C05": {
"note": "Setting the level of a tree reaches all its nodes; setting it on the owner does not reach the owned tree (the isinstance test looks at the stored tuple): violation."
},
"C06": {
"note": "Nothing is kept at level light and below; at normal statistics of every out-of-sample argument are kept for ever (violation)."
},
"C07": {
"note": "Holds for the first use of an argument object and after cleaning; violated for an argument changed in place, and after an exception."
},
"C08": {
"note": "Every outcome of the random permutation; rounding specified independently (nearest, ties to even)."
},
"C09": {
"note": "Reach is exactly the modules connected through stochastic modules holding a sample (violation otherwise); eval() selects everything when the samples in the tree have one size (violation otherwise)."
},
"C10": {
"note": "Refused with the selection kept, but the cache is reset before the check (violation)."
},
"C11": {
"note": "Any order of the indexed assignment; violated for a trainable sample before the first backward pass (rows written, then AttributeError, cache stale)."
},
"C12": {
"note": "Dimensions agree for every history; the selection may be out of range after a refused re-initialisation or with given indices (violation)."
},
"C13": {
"note": "All orders of assignment work; the constructor with only num_sample raises (violation)."
},
"C14": {
"note": "Exact when every override yields its base class's parameters; ExplicitNN, PPCA, LSSVM (primal) and Model without recursion violate it."
},
"C64": {
"note": "Violated: the gradient is never changed (the zeroed tensor is a copy)."
},
"C65": {
"note": "Holds when the cast copies; violated for float tensors, which share storage."
},
"C15": {
"note": "Lists without adjacent repetitions are kept; one adjacent pair is merged; three in a row, or two pairs, lose or keep wrong elements because the list is modified while iterated (violations)."
},
"C16": {
"note": "Every documented name, concatenation of lists, unknown names refused."
},
"C17": {
"note": "All bijective chains, sample and batches, constant columns included; the excluded case (unit variance relative to one point) is a violation; unit sphere anywhere refused."
},
"C18": {
"note": "Each transform after any chain; degenerate columns and rows covered."
},
"C19": {
"note": "All chains, all arguments, features null or of norm >= sqrt(EPS) at the normalisations; the guards of the two routes differ below (violation); other transforms refused."
},
"C20": {
"note": "Parts, permutations and repetitions of batches, sample points given as batch; phi for all chains, k for the chains with an implicit formulation."
},
"C21": {
"note": "Lists are left unchanged by kernels that require no transform and are not naturally normalized; violated for the cosine kernel, the legacy flags and by reuse of a list."
},
"C22": {
"note": "Exact unit diagonal for every announced kernel but Silverman's (violation) and every supported distance."
},
"C23": {
"note": "Holds for lists after which the appended normalisation is the same chain; violated otherwise: the normalisation is appended last."
},
"C24": {
"note": "All kernel functions, all implicit chains, sample and batches. The y-dropping of Polynomial.k is treated in C28."
},
"C25": {
"note": "All announced kernels but Silverman's (violation), all distances but Minkowski's (raises, violation)."
},
"C26": {
"note": "Linear, polynomial, RBF; all explicit kernels after all chains; implicit centering and normalising when squared norms are null or >= EPS (violation below)."
},
"C27": {
"note": "All degrees >= 1, all dimensions >= 1, beta >= 0; degree 0 raises (violation)."
},
"C28": {
"note": "Generic kernels: all chains and routes. Polynomial.k overwrites y by x (violation)."
},
"C29": {
"note": "Violated: kernel.alpha = v assigns beta, beta has no setter, the cached feature map keeps old values; what does hold is characterised for all histories."
},
"C30": {
"note": "Median, scaling, order, positivity, fixing at first use; null for one or two points and not recomputed for a new sample (violations)."
},
"C31": {
"note": "All matrices; multiplicities and eigenvectors."
},
"C32": {
"note": "All admissible histories of the cache; agreement of the two routes under the guards of C19. For the polynomial kernel K goes by the features and k() by the route its size suggests: equal under the same guards or with enough points (C32_polynomial_partial), otherwise k() may raise where K is a matrix (C32_polynomial_violated) or differ (C32_small_norm_violated)."
},
"C33": {
"note": "Covariance of the sample for all chains without adjacent repetition; cosine kernel and points other than the sample are violations; PSD and correlation bounds in general."
},
"C34": {
"note": "exact for given decompositions; dimension 0 (answered by torch with all or no vectors) is left out of the violations; pruning is definitive (C34_dim_violated)"
},
"C35": {
"note": "All weights; weights assigned with another number of rows, or given at construction, violate it."
},
"C36": {
"note": "All admissible parameters and weights; stacked features included."
},
"C37": {
"note": "Violated at the default cache level (stale pseudo-inverse); holds below it or after a reset."
},
"C38": {
"note": "Hat PSD on all real times; indicator on integers; single time stamps raise, assigned lag does not update gamma (violations)."
},
"C39": {
"note": "Entries between 0 and EPS/2 excepted for the diagonal of the additive kernel."
},
"C40": {
"note": "Every spelling of every exported class is found; unknown names refused, except 'factory' (exported by the stubs), which silently gives the default object (violation). Abstract classes raising TypeError on construction are not modelled."
},
"C41": {
"note": "castf/casti on tensors of any rank and nested lists, check_representation. Dtype conversion is a parameter; devices not modelled."
},
"C42": {
"note": "Merge of keyword dictionaries, also along chains of decorated constructors."
},
"C43": {
"note": "All lawful tie-breakings of topk. Non-integer num is truncated instead of refused and an empty batch raises (violations)."
},
"C44": {
"note": "Exact reals; division by a zero sum gives none."
},
"C45": {
"note": "Level restored after success; violated when the call raises (no try/finally), and iterative_preimage_phi compares with num_idx instead of dim_feature."
},
"C46": {
"note": "Exact value after every history of calls (C46_history_violated): the in-place division makes each normalised call divide the remembered trace again. Holds without earlier normalised calls, and at cache levels none/light. Primal and dual normalised variances differ by the factor n."
},
"C47": {
"note": "In [0,1], increasing, 1 when complete: proved for the primal default (solved in primal, or in dual with kappa=1). With the dual default the value never exceeds 1/n, and a complete model has 1/n: violated."
},
"C48": {
"note": "Non-negative, sum of discarded eigenvalues at the solution, and minimal among all orthonormal parameters (Ky Fan), for every eigendecomposition the solver may return. The cached loss being stale after parameter assignments is not part of this property."
},
"C49": {
"note": "Eigenvalue by eigenvalue identity of score products (any multiplicity), matching of the i-th eigenvalues, and equality up to one sign for simple eigenvalues; factor sqrt(n/kappa) made explicit."
},
"C50": {
"note": "Dual: existence, uniqueness, optimality for the regularised least squares problem and predictions as w.phi(x)+b. The primal system mixes the covariance divided by n with unnormalised blocks: C50_violated shows different unique predictions for two points, and C50_centred_violated gives the exact relation for centred features (the primal fit with gamma has n times the weights of the dual fit with n gamma, and its bias). The code as is cannot reach the primal system (kernel.phi_sample does not exist), nor construct a LSSVM with the default bias (attribute _param_trainable missing); recorded in DESIGN.md."
},
"C51": {
"note": "Primal assignment invalidates dual parameters (all histories). Violated the other way round: dual assignments, unsetting and dim_output leave the primal parameters in place."
},
"C52": {
"note": "Holds at cache levels below normal and right after a reset, all histories. Violated at the default level (stale outputs; outputs keyed by object identity)."
},
"C66": {
"note": "phi/k/K consistent as long as kappa equals its construction value; violated by assignments (kappa_sqrt is not updated) and for C, Phi with kappa different from 1."
},
"C67": {
"note": "Primal: orthogonal projection and round trip on the span. Dual: n times the projection (violated)."
},
"C68": {
"note": "Soft levels constructed as usual end up neither trained nor solved (violated, all histories); right with level_trainable=True given at construction; hard levels right by default."
},
"C69": {
"note": "Attached views: reads and refusals for all histories. detach() always raises (violated)."
},
"C55": {
"note": "Invariant over every sequence of appends, exact characterisation of the appends that succeed, composition and weighted loss for every number of levels. Violated when the output dimension of a level changes after its successor was appended."
},
"C56": {
"note": "Partition of an epoch and refusal proved for every permutation, number of points and history of batch sizes."
},
"C57": {
"note": "Violated: gradients are never cleared between the batches of an epoch; partial theorems give the accumulated gradient actually used and the single-batch case."
},
"C58": {
"note": "Proved for index splits and the generated data sets; violated by file sets (silently short), _LearningSetTrainTest (always TypeError) and negative sizes."
},
"C59": {
"note": "Proved for every run of update calls and every directory without foreign model files; violated without epoch number, without checkpoint and with a period keyword."
},
"C60": {
"note": "Groups, duplicates and learning-rate reductions proved for every module tree; unknown optimiser names accepted if nothing is trainable."
},
"C70": {
"note": "Violated for every model and watcher name."
},
"C71": {
"note": "Violated: the levels are kept in a plain list, so the saved state is empty for every model."
},
"C72": {
"note": "Violated when constructing a level raises KeyError: it and the later levels are dropped silently. The partial theorem assumes no KeyError."
},
"C53": {
"note": "Features, kernels, consistency, weight blocks and outputs proved for every list of views and every kind of argument, on the methods of a multi-view holding views and weights. No such object can be constructed (undefined name), k() without argument is refused, different numbers of points are silently broadcast by k."
},
"C54": {
"note": "Which views are predicted and the agreement of both projections are proved; the columns given to each view are right for the first one only, and the default method always raises."
},
"C73": {
"note": "Holds as constructed; an assignment of kappa leaves the scaling of the features unchanged (exact characterisation)."
},
"C74": {
"note": "K and phi() agree; C and c() differ by the factor kappa, primal and dual outputs by its root (exact characterisations)."
},
"C75": {
"note": "Invariant over all histories of cache operations."
},
"C76": {
"note": "For all trees and idempotent operations; the exact number of repetitions is also proved."
},
"C61": {
"note": "Skewness, unique Cayley point with the same Gram matrix, geometric convergence of the loop, explicit bounds on one actual step of both optimisers. The code does not keep exact orthonormality (normalisation adds 1e-8 to norms, loop of 20 iterations) and the QR retraction zeroes a row when rows are dependent."
},
"C62": {
"note": "The code violates it for SGDG: the buffer is never written, all histories coincide with those without momentum. Closed form for Euclidean parameters; AdamG does carry earlier gradients."
},
"C77": {
"note": "Direction is the tangent projection, never uphill; the actual 20-iteration step lowers every differentiable loss for small learning rates."
},
"C78": {
"note": "Most documented entries are kept exactly from their documented level; outputs of levels fall back to 'normal' and statistics of out-of-sample points are stored at every level (violations proved)."
},
"C79": {
"note": "Exact outputs of every history at level >= normal: before_step does not reset the sub-losses, so losses can be stale (violated). Fresh when a stochastic call separates steps and losses, and always fresh below 'normal'."
},
"C80": {
"note": "All histories, including operations that raise; keys non-empty strings (all keys used by the code are)."
},
"C81": {
"note": "All dimensions, bandwidths and finite sets (Schoenberg via a mixture of Gaussians for the Euclidean distance); also: squared Manhattan and uniform kernels are not, triangular is on the line."
},
"C82": {
"note": "Proved when entries are null or at least EPS/2; below, the guard of the division breaks it (violation proved)."
},
"C83": {
"note": "Proved for all bijective chains; the one case left, unit variance relative to a one-point sample, is shown to give NaN (C83_single_point_violated)."
},
"C84": {
"note": "Agreement proved (through C19); recovery proved for images of equal norm (normalised and distance kernels). Violated otherwise: the inner product is used as proximity, so that with the linear kernel on 1 and 2 the nearest neighbour of the image of 1 is 2."
},
"C85": {
"note": "Violated: Kernel.forward returns a RepresentationError object; the polynomial kernel returns the class NotImplementedError; implicit kernels raise TypeError instead of ExplicitError (wrong keyword). The rest proved."
},
"C86": {
"note": "Violated: loggers are shared by all objects of the same class and name; exact characterisation by name, and proof for objects with a name of their own."
},
"C87": {
"note": "Violated: modules importing the value by name keep the value current when they were first loaded, and kerch.FTYPE never changes; proved when the setting is changed before any use."
},
"C88": {
"note": "Proved for symmetric matrices and 1 <= k <= n; k=0 returns everything, a second matrix B makes the symmetric solver run on a non-symmetric matrix, and sym=psd=False leaves the order to the solver."
},
"C89": {
"note": "Violated: a refused call has already replaced the data, a target given alone or data as list are mishandled, and changing the sample keeps an older target of the same length. Only tells which data are solved for; whether the solution can be stored is C105."
},
"C90": {
"note": "Dual: proved whenever the squared noise is below the components kept, which holds for normalised kernels. Violated otherwise (NaN), in the primal (attribute mu never created), for the bandwidth of the kernel (overwritten by the noise) and for draws (factor not transposed). These theorems concern the formulas: as shipped PPCA cannot be constructed at all, H and W remain abstract (C109_ppca_violated)."
},
"C91": {
"note": "The dual loss is the objective of the weights it stands for, for any number of outputs; it is minimised by the system of solve taken at dim_output/gamma, hence by solve itself when gamma^2 = dim_output (C91_solve_partial). C91_gamma_violated: gamma weighs the norm in solve and the error in loss, so for every other gamma solve is not optimal. C91_reg_violated: einsum('ij,ji') is not the squared norm in primal (zero or negative values; RuntimeError for most sizes, C91_reg_primal). As it stands the loss reads self.weight / self.hidden, which do not exist on a level (AttributeError); the theorems are about the formulas of those lines."
},
"C92": {
"note": "With one output the step is the orthogonal projection on centred variables. The mean is taken over points but subtracted along the wrong axis of the transposed parameter: RuntimeError for several outputs unless as many as points (C92_refused), in which case the result is not centred (C92_violated)."
},
"C93": {
"note": "solve always fits with a bias, which the output then ignores: predictions are off by the bias (C93_partial), zero everywhere for constant targets (C93_constant_violated), not optimal (C93_suboptimal_violated). A LS-SVM with bias cannot be constructed in the first place (attribute _param_trainable missing, see C50), so that this concerns all LS-SVMs that can."
},
"C94": {
"note": "Proved for the dual system; the primal system divides the covariance by n but not the right-hand side, so that its solution is n times the minimiser at gamma/n (C94_primal_partial) and predicts differently (C94_violated). Not modelled: solve() calls both without their argument target (TypeError in dual), the primal reads kernel.phi_sample which does not exist (AttributeError), and Ridge(requires_bias=True) uses the logger before it exists (AttributeError)."
},
"C95": {
"note": "K_reconstructed after a dual fit is the best approximation divided by the number of points (C95_kernel_violated). As written the lines read self.hidden and self.weight, which levels do not have (AttributeError): the theorems are about the formulas, with dual_param and primal_param. C95_agree_partial assumes that both representations keep the same eigenvalues: the cut-off is the same number for eigenvalues differing by the factor n."
},
"C96": {
"note": "The eigenvalues stored by both fits have the wrong scale for the formula (C96_dual_violated, C96_primal_violated); C96_recovers_iff says exactly when the prediction is right."
},
"C97": {
"note": "Logistic: every dimension, Euclidean distance. Silverman with the Euclidean distance: PSD up to three dimensions and not beyond. Triangular: PSD on the line only. The other kernels of bounded support are not PSD in any dimension, nor is the sigmoid kernel unless constant. All distances: C144."
},
"C98": {
"note": "The layers are in a python list: update_sample, stochastic and eval do not reach them (C98_stale_violated, with a concrete stack in C98_witness_violated), nor do the optimiser, device changes and checkpoints."
},
"C99": {
"note": "Proved for models of any depth (C99_model, C99_model_raises). hparams_fixed of the linear, Nystrom and ExplicitNN kernels lacks the property decorator: it reads as a method, the cosine kernel raises, and so do all levels and models on one of the four (C99_method_violated, C99_model_violated). Entries of parents override those of a class (C99_parent_violated): RBF, Laplacian and Wasserstein kernels report 'Exponential'; statistics kernels report their bandwidth as fixed and lose the rest; random features do not report their bandwidth."
},
"C100": {
"note": "A view with requires_bias=True cannot be built (attribute _param_trainable missing), nor can the bias be requested later; misfitting biases are stored; bias_trainable has no effect. Assignments that fit are read back after every history that never requests a bias (C100_history_partial)."
},
"C101": {
"note": "inner product, networks, decoder refusals proved; networks_trainable is ignored, the decoder gets the kernel matrix, explicit pre-image cannot load its module"
},
"C102": {
"note": "pass proved for all depths; epochs for levels working point by point with constant parameters; calls with an argument change the training sample, deeper samples are stale or depend on the batches otherwise, a second fit is refused"
},
"C103": {
"note": "value proved; gradient correct for the last level only, derivative formula for all levels, witness of ascent"
},
"C104": {
"note": "limits proved almost surely for Fourier features (all points) and leaky rectifiers (all points but the origin), closed form PSD; at the origin the closed form is NaN; direct calls with one tensor twice divide it twice"
},
"C105": {
"note": "Violated: a second dual fit raises or stores wrong components unless as many components on as many points are found (exact characterisation C105_again); selected points are stored at the wrong places or out of bounds; weights keep stale square roots. Proved for primal fits over all histories."
},
"C106": {
"note": "Violated: a projector with fewer components than entries has a null determinant; draws in dual have a covariance greater by the number of points than the kernel values of draws in primal. Laws of the draws proved."
},
"C107": {
"note": "The rows are kept on the sphere only up to a bound that depends on eps=1e-8 (C107_sgd_partial, C107_adam_partial): at rest they lie strictly inside it (C107_exact_violated), and a row can collapse to zero (C107_collapse_violated). The omega given to the constructor is replaced by 0 (C107_omega_violated). With eps null the iterates on a great circle are those of scalar momentum descent and scalar Adam (C107_sgd_circle, C107_adam_circle). Missing from the code as it is: grassmann_optimizer.py imports gutils by bare name, so the module loads only with its directory on the path. C107_regularisation shows that the orthogonality factor, where it is read from the group, is the gradient of omega/2 ||YY^T - I||^2."
},
"C108": {
"note": "Histories in which only bandwidths, lags, shapes and slopes are assigned read what a kernel without cache would (C108_assign_partial); at cache level none, all assignments and trainings of hyper-parameters (C108_none_partial). Violated from level light on for weights, their number, the hyperbola parameters and training (C108_stale_violated, C108_trained_violated, C108_weights_violated; after_step iterates over the characters of a key and drops K but not the features). The hyperbola can be made inadmissible by alpha or gamma (C108_hyperbola_violated). sigma=None raises and disables the heuristic; lag_trainable of Hat raises; a and b of the sigmoid kernel are ignored."
},
"C109": {
"note": "Proved for every kernel class deriving from those of the package, also of the user: the class of a level on it exists, keeps the orders of both, kernel computations are unchanged, initialisers run once, and KPCA, LSSVM and Ridge can be constructed as soon as the kernel can (C109_abstract, C109_mro, C109_level_class, C109_kernel, C109_override, C109_construct, C109_init, C109_offered, C109_offered_distance). Violated: View, Level and PPCA leave H and W abstract and can never be constructed; after_step of the kernel is never reached in a level; gamma of LSSVM and Ridge hides gamma of the kernel, so rf_hyperbola raises at construction and the indicator kernel gets the regularisation constant on its diagonal. Not modelled: attributes outside the table, metaclass conflicts, nn.Module __setattr__ (see C86)."
},
"C110": {
"note": "holds as long as all points are selected (C110_whole_partial), or without transform for selections made after the sample is given (C110_plain_partial). A sample given with a selection raises or is permuted twice; a selection of fewer points than the dimension raises; with centring, arguments are shifted; without sample nothing can be created; pruning is definitive."
},
"C111": {
"note": "Proved for the loss G applied to the whole kernel matrix, any G: the bandwidth of every statistics kernel with every distance that can be evaluated, except at the jump or kink of a cut-off and, for the Euclidean distance, at coinciding points; RBF without exceptions. Violations: kernels using the root of the Euclidean distance give a non-finite gradient on every sample, whatever the loss; polynomial kernels of natural degree (explicit by default) and the bandwidth of random features give no gradient at all; a trainable degree with a negative base gives NaN. The points are taken as constants (not trainable), centring and normalisation of the kernel are not recorded; torch's backward formulas are a contract."
},
"C112": {
"note": "Each theorem gives the exact condition of refusal of one call (or, for models, that the first level that is not ready decides), the kind of exception and that nothing but the selection has changed. Minkowski distances of general order are refused always (an attribute is missing), which C112_minkowski states as it is."
},
"C113": {
"note": "Values are right in all histories in which the cache is cleared after each optimiser step (C113_values_partial), gradients if it is also cleared between two backward calls and after no_grad evaluations and the bandwidth is given, or read once before a clearing (C113_gradients_partial, C113_heuristic_partial). Violated otherwise, at every cache level since the distances are kept by force: the second backward raises, the matrix stays that of the old sample, the heuristic and evaluations under no_grad cut the sample off. Kernels of a distance without sample transforms."
},
"C114": {
"note": "C114_partial says exactly, for every history, whether a step changes what the level uses: it does unless the parameter object was replaced. C114_loop_partial: nothing the trainer's loop does replaces one; C114_rebuild: a new optimiser takes everything up; C114_given: what an optimiser receives. Violated: assigning primal parameters (also of the same shape, also through init_parameters and solve) replaces the object unless the shape is square, because stored and given shapes are transposed when compared (C114_primal_violated); a new sample, a new output dimension or the assignment of primal parameters replace the sample and the dual parameter (C114_replaced_violated); the primal parameters of an LSSVM are never held (C114_lssvm_violated)."
},
"C115": {
"note": "C115_refused: exact condition under which loading is refused. C115_partial, C115_reset_partial: if shapes and definedness of the bandwidth agree and nothing is cached (or after a reset) the behaviour is that of the saved level. Violated: a determined bandwidth is a number, the fresh parameter a vector of one element, so that loading into a level made in the same way is refused while the sample is loaded anyway (C115_fresh_violated); fitted parameters do not fit the empty ones (C115_parameters_violated); the cache is kept (C115_stale_violated); an undetermined bandwidth becomes 1 (C115_undefined_violated)."
},
"C116": {
"note": "Proved for every list of centrings and normalisations of a symmetric kernel: every value is one function of its two points, also where it is NaN (C116_symmetric); if no squared norm met at a normalisation is negative, the values are those of the model of real numbers (C116_agree_partial); positive semi-definite kernels, centred any number of times and then normalised, give numbers with ones on the diagonal (C116_psd_partial). Exact condition for centring then normalising: C116_exact_partial. Violated: a single negative squared norm in the sample followed by a centring makes all values NaN, in sample and out of sample, whatever follows (C116_spread_violated); the uniform kernel is such a kernel (C116_uniform_violated)."
},
"C117": {
"note": "Proved for all trees: train(mode) reaches every part (C117_train); level(num) for natural numbers (C117_level). Under stated conditions: eval selects all points everywhere if all parts have the same number of points (C117_eval_partial), stochastic reaches all parts if they know their points (C117_stochastic_partial), reset(recurse=True) resets all parts of the levels (C117_reset_partial). What torch does through children reaches all parts if and only if no model with levels is met (C117_modules_partial, C117_port_partial, C117_log_partial). Violated for every model with levels: they are in a plain list, so to/double/zero_grad/parameters and the logging level do not reach them (C117_port_violated, C117_log_violated); a selection is ignored when the sample was given to the first level (C117_stochastic_violated); train and eval return None (C117_returns_violated); reset() does not recurse though documented so (C117_reset_violated); negative numbers raise StopIteration (C117_level_violated)."
},
"C118": {
"note": "Proved: centered=True implies that features and values (also of points out of sample) sum to zero (C118_centered_features_partial, C118_centered_values_partial), normalized=True by a transform implies norm 1 where the norm before is not negligible (C118_normalized_*_partial), natural normalisation is true for all statistics kernels but one (C118_natural_partial), what the options give (C118_options), and the converse for lists of centrings and normalisations (C118_not_centered_partial). Violated: Silverman's kernel announces a normalisation it does not have (C118_silverman_violated), the logistic kernel has unit diagonal and denies it (C118_logistic_violated), standardised features are centred and this is denied (C118_standard_violated)."
},
"C119": {
"note": "Partial: scores only for simple eigenvalues and up to sign (C119_scores_violated: a multiple eigenvalue leaves the choice to eigh), knn and smoother only without equal distances (C119_knn_violated: for every rule of topk exchanging two equidistant observations changes the result). Everything else, including the calls that raise, for all orders."
},
"C120": {
"note": "Partial: standardisation, range and sphere need the deviations, ranges or norms to reach EPS in both units (C120_small_violated, C120_standardize_violated, C120_scaled_violated: below, the result depends on the unit; the implicit normalisation compares the kernel value, a product of norms, with EPS). Distance kernels with default bandwidth, centring and origin without restriction; C120_given_bandwidth: a given bandwidth is never unit-free. A bandwidth of zero (more than half of the pairs equal) divides by zero in both units."
},
"C121": {
"note": "Proved in full over the exact solution of the LS-SVM system: residual, monotone training error, bound, limits of gamma, ridge form."
},
"C122": {
"note": "Proved in full: scaling and shifting the targets, sum of the multipliers, dual, primal and ridge forms."
},
"C123": {
"note": "Partial: repeating the data keeps means, centred values, covariance, the spectrum up to the factor and the LS-SVM; the unit-variance transform and the absolute eigenvalue threshold are not invariant (violations proved)."
},
"C124": {
"note": "Partial: every crash point of saving, training and finishing leaves earlier checkpoints readable; a cut file can be the one that is kept by finish, and an overwritten name is lost (violations proved)."
},
"C125": {
"note": "Partial: runs started at distinct instants of the format work in disjoint directories; two runs in the same second of the year share one (violations proved)."
},
"C126": {
"note": "Partial: on the cpu a watched tensor is reported by reference and changes with training; a list changed after it was given is not verified (violations proved). Reports, refusals and exceptions proved in full."
},
"C127": {
"note": "Proved for every statistics kernel but Silverman's, which is not monotone and whose diagonal is not 1 (C127_silverman_violated); Minkowski distances are outside because their implementation cannot be evaluated (C25)."
},
"C128": {
"note": "Order of columns and translations in full. Rotations: kernels of inner products and of Euclidean distances, centring and normalising to the sphere; the other distances and the normalisations by column depend on the axes (C128_distances_violated, C128_normalised_violated)."
},
"C129": {
"note": "Dual representation in full for a fixed kernel; kernels whose parameters depend on the sample (default bandwidth, Nystrom) are outside. The primal system divides by the number of points (C129_primal_violated)."
},
"C130": {
"note": "Values in full; components and projections where the value, respectively the next one, differs; violated for equal values (C130_tie_violated)."
},
"C131": {
"note": "Normalised values in [-1,1] and centring in full; lengths and triangle inequality where no squared norm at a normalisation is positive but below the safeguard 1e-7 (C131_small_violated); the sigmoid kernel is not an inner product (C131_sigmoid_violated)."
},
"C132": {
"note": "The smoother with fewer neighbours than points, in full. With all neighbours it normalises over the batch instead of over the coefficients (C132_sum_violated, C132_batch_violated); knn unpacks an integer and raises for every argument, the two others are not implemented (C132_knn_violated)."
},
"C133": {
"note": "Dual fits: C133_most_likely_partial states exactly when the fitted weights and noise are the maximum (sigma (d - k) = n - k, for noise that is positive and does not exceed the components kept); C133_gap gives the exact loss otherwise and shows that a maximum exists; C133_complete_partial covers as many components as features. The claim is false in general: the value computed is the mean variance left out but is used as a standard deviation (C133_noise_violated), and the primal divides the covariance, already normalised, by num_idx again (C133_primal_violated). kappa is taken to be one."
},
"C134": {
"note": "Proved for kernels whose values between two points do not depend on the rest of the sample and for centred features; kernels with another sample statistic (standardisation, bandwidth from the data) are outside the quantifier."
},
"C135": {
"note": "Exact reals. C135_limited shows that more points may worsen the approximation when dim stays limited."
},
"C136": {
"note": "Exact reals, fixed bandwidth. Violations: the uniform kernel jumps from 1 to 0 (C136_uniform_violated); components of nearly equal variances may turn by a right angle (C136_components_violated)."
},
"C137": {
"note": "Proved for the transforms (all sequences without the unit sphere, all sequences that begin with a centring), distance kernels and bandwidth, linear kernels and LS-SVM; the uncentred polynomial kernel and points out of sample with another value are treated as well."
},
"C138": {
"note": "Images, titles and heights of bars proved for all inputs; five violations proved for all inputs: labels of the axes never displayed, bars all at one place, a single eigenvalue refused, scatter of views without targets or with a part of their points raises, heat map never drawn."
},
"C139": {
"note": "Sizes, alignment of labels, the parts stored and given back and refusals proved; disjointness and covering are refuted for all data sets, proportions and permutations (the start of the slices is never moved), and labels given without data are replaced by those of the training set. The class is not used by the rest of the package."
},
"C140": {
"note": "Success characterised exactly, order of the steps, refusals, names of .yaml files and directories of relative paths proved; names of .yml files collide and absolute paths leave the directory (violations). Command line and yaml by contract."
},
"C141": {
"note": "Splitting, tangency, best approximation and fixed points proved for both projections and for the polar retraction; stiefel_proj_tan raises for tensors on the processor and stiefel_transport always raises (violations)."
},
"C142": {
"note": "Two moons: position, separation of the classes, range and refusals proved for all numbers of points. Spirals: consistent labels up to 208 points (C142_spiral_partial), violated from 209 on; the range is violated from 17 points on (default 140), right in three directions up to 418 points."
},
"C143": {
"note": "Errors, order, refusals, frozen models and the result proved for all models, sets, batches and epochs. The objective is shown to belong to the parameters before each step (C143_objective_partial, _violated); C143_mode_violated: evaluation mode kept after an exception in a prediction; C143_empty_violated: sets without points reported as zero."
},
"C144": {
"note": "Exact for the three distances that have a value."
},
"C145": {
"note": "Violated: on points of non-negative coordinates, where every value exists, the matrices are positive semi-definite for natural degrees only (C145_degree_violated, C145_homogeneous_violated, exact equivalences); elsewhere a degree that is not an integer gives NaN (C145_nan_violated). Natural degrees need beta >= 0 (C145_beta_violated). Two points never show it (C145_pairs), one coordinate with beta = 0 neither (C145_line)."
},
"C146": {
"note": "Proved for the statistics kernels (C146_table is an exact equivalence in kernel, distance and dimension) with its consequences. Violated for kernels with fewer features than points (linear, polynomial), for repeated points, and, for the Nystrom kernel, for points so near that an eigenvalue is below the threshold (C146_near_violated)."
},
"C147": {
"note": "Proved for every kernel of the package and every kernel class of a user without __new__ of its own: the level quotes the kernel. Violated: Ridge calls itself LSSVM; the Minkowski distance calls itself manhattan; eight statistics kernels show neither distance nor bandwidth; the Wasserstein kernel reads the bandwidth when printed (fails without sample, determines it otherwise); stacked random features break the line-per-level layout; the model KPCA cannot be created (_add_level does not exist); transforms are listed last first, on one line."
},
"C148": {
"note": "All claims but the last proved for the dual system of the LS-SVM with a bias (the exact solution). Violated: outputs may leave the range of the targets (C148_average_violated), as far as one likes."
},
"C149": {
"note": "Exact real arithmetic. Indicator: proved on integer times (C149_indicator_partial, any gamma above twice the floor of the lag, which includes the default); on other times no gamma works for any positive lag (C149_times_violated). Additive chi-square: the exact null combinations are given by C149_additive; with two features or more the kernel does not tell all histograms apart (C149_additive_violated, an equivalence)."
},
"C150": {
"note": "All calls of the package are listed in Model/Messages (legacy modules aside). Three do not say what they are written with: kernel/_base_kernel.py:119 and network/explicit_nn.py:113 give the message in the place of the object, so that it is lost (C150_first_violated, C150_lost_violated), implicit.py:52 misspells a keyword and ends in a TypeError (C150_keyword_violated); calls of check_representation without object do not name the class (C150_unlocated_violated). C150_refused states exactly when the constructor itself refuses."
},
"C151": {
"note": "One output, in dual representation; exact reals. The formulas are those of the loss, whose attribute names (hidden, weight) do not exist on a level, so that as it stands the call raises AttributeError (recorded in C91). Violated: from a start that is not centred the first epoch can raise the loss at every rate (C151_first_violated); with a centred kernel the bias diverges exactly for eta gamma >= 1 (C151_bias_violated); with batches of one point training rests at no parameters unless all targets are equal, as a batch is predicted from its own dual variables only (C151_batches_violated). The limit is the fit at 1/gamma, not at gamma (see C91)."
},
"C152": {
"note": "Minkowski and Wasserstein distances raise (C25_minkowski_violated), so every statement is about a distance that can be evaluated. For the squared exponential the similarity along a way can exceed the direct one (C152_way_sharp); the square of the product is a bound."
},
"C153": {
"note": "Exact arithmetic: kernel values of different groups are zero exactly, as they are for the kernels of bounded support (C153_far); for exponential kernels they are only small. Refuted: centring keeps groups apart (C153_centred_violated), LS-SVM outputs do not depend on the targets of other groups (C153_bias_violated: half of the target of the unseen point comes through the bias). The statement on components needs an eigenvalue that occurs once; with a repeated one the eigenvectors of the contract may mix groups."
},
"C154": {
"note": "Refuted: momentum with 'sgd' (C154_momentum_violated, C154_keyword_violated: nesterov is read by the Euclidean branch and bound by the Stiefel branch only, UnboundLocalError at every step), options of a group used for its parameters (C154_leak_violated), hyper-parameters trainable (C154_scalar_violated, C154_hyperparameter_violated: p.size()[0] of a parameter without dimension raises IndexError; sigma, alpha, beta, lag, gamma and p are held so when given as numbers or found by the heuristic), weight decay counted once (C154_decay_violated), Nesterov without momentum refused (C154_nesterov_violated). The Stiefel branch is a parameter of this model (see C35, C61); options that are not numbers or booleans are not followed; closed form of the velocity for weight decay 0."
},
"C155": {
"note": "The text of a value (str) is a parameter. The trees held in caches are taken to have caches without trees in them, as in the code. C155_recover_partial needs keys without brackets and values on one line; C155_recover_violated shows the last is needed."
},
"C156": {
"note": "Steps are those CPython can interleave under its global lock: reading the attribute, one dictionary operation, reading or writing the inputs. That writing the inputs (the data of a tensor) is one step, the level of the cache and the values of elements being functions of the inputs alone are simplifications. C156_values_partial: with resets in between values are right but KeyError or RuntimeError may be raised. C156_orderly_partial assumes changes are made while nothing else runs."
},
"C157": {
"note": "Interruptions fall between the steps of Model/Threads; that the data of a tensor is written in one step is a simplification. C157_usable_partial covers all calls but update_sample, for which C157_sample_violated shows what happens."
},
"C158": {
"note": "What a generator returns in a state is by contract; the values computed from the draws are not modelled here. The violations hold for every generator that is not constant: shuffled splits, Stiefel steps and the Gaussians do not depend on torch's seed, and draw_k of a PPCA level with a mean draws before it raises."
},
"C159": {
"note": "Dual representations, one output, exact arithmetic; the primal solvers regularise differently (C94, C50)."
},
"C160": {
"note": "Dual representation, one output, exact arithmetic; primal: see C94."
},
"C161": {
"note": "Exact arithmetic: the violation comes from the threshold EPS, which is compared with eigenvalues of C (divided by the number of points) in primal and of K in dual."
},
"C162": {
"note": "The random quantities are vectors of an inner product space (second moments); the statement does not say that the targets are so distributed, it says what the outputs are if they are."
},
"C163": {
"note": "The history theorem assumes that the user changes no object while it is used as a selection; without it C163_held_violated. Late refusal, masks, slices and two indices of the same row are violated (torch leaves open which of the two values is kept, the model keeps the last). A single integer as selection is not modelled."
},
"C164": {
"note": "C164_kernel for every history, allocator choice and cache level; C164_retained shows what this costs (arguments stay referred to until the next reset); C164_forward_light below the level normal; C164_forward_partial at every level if only tensors are given to forward; C164_forward_violated: at the default level a list or array at the address of a forgotten one gets the output of the first. In-place changes of contents are in C07."
},
"C165": {
"note": "C165_current, C165_unique: every setting has the value last accepted, after any history; C165_set, C165_construct: what is accepted and that refusals have no effect; C165_fit, C165_returns, C165_settings_kept: what a fit uses and when it returns. C165_epochs_violated, C165_lr_violated: values that cannot be used are accepted; C165_mode_violated: a fit that raises leaves the model initialised anew and in training mode. batch_size is in C56; that every fit of the pinned commit raises is in C70."
},
"C166": {
"note": "Weights are modelled as independent standard Gaussian vectors on a probability space (random_features.py:111-114); pairwise independence suffices for mean and error, mutual independence for the tail. The pseudo-random generator itself is trusted to give such draws. For leaky rectifiers the origin is excluded, where the closed form is NaN (C104_origin_violated)."
},
"C167": {
"note": "Weights as in C166. The level is solved in dual representation on the kernel of the features without transforms; fits exist and are unique by C50_exists_partial and C50_unique_partial. The bias is included in the limits; the bound for a given number of weights is about the dual variables."
},
"C168": {
"note": "torch.randperm is taken to give each order equally often (probabilities are numbers of permutations out of n!). The expectation of means assumes that something is selected; C168_empty_violated shows when nothing is."
},
"C169": {
"note": "LSSVM and ridge systems are assembled as the code does and proved to be, output by output, the one-output systems of Model/LSSVM and Model/LSSVMTrain. Not modelled: rounding, the storing of the results (C105). kernel.phi_sample is read as the features of the sample. Violated: the loss with m outputs is the sum of the losses with gamma / m; the primal system can be singular where the dual one is not (two points of feature 1, gamma 1)."
}
}