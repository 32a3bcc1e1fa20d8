{"id": "C01", "title": "Caching never changes a result", "statement": "Whatever the cache level, and whatever was evaluated before, reading a cached quantity of a module (K, C, Phi, a level output ...) returns exactly what a fresh computation from the module's current state returns, provided every state change goes through an operation that resets the cache.", "quantifier": "all cache levels, all keys, all functions to be cached, all finite histories of reads, state updates with reset, cleanings, removals and level changes", "why_tests_cant": "The claim is about every interleaving of reads and invalidations; a test fixes one history and one level.", "anchors": ["kerch/feature/cache.py: Cache._get, Cache._save, Cache._reset_cache, Cache._clean_cache", "kerch/feature/stochastic.py: Stochastic.stochastic"]}
{"id": "C02", "title": "The cache level bounds what is kept", "statement": "As long as the cache level is not lowered, an element that is not explicitly forced is retained only if its level does not exceed the module's cache level; right after a cleaning nothing above the level remains, forced or not; at level 'none' a cleaning leaves nothing at all.", "quantifier": "all histories of reads, forced reads, cleanings and resets, all levels and level tables", "why_tests_cant": "Memory blow-up depends on which sequence of operations led to the state.", "anchors": ["kerch/feature/cache.py: Cache._save, Cache._clean_cache, Cache.cache_level"]}
{"id": "C03", "title": "Reset keeps exactly the persisting elements", "statement": "reset() empties the cache; reset(reset_persisting=False) removes every element except those stored as persisting, whose values are unchanged; a recursive reset does so in the whole module tree and a non-recursive one leaves the descendants untouched.", "quantifier": "all cache contents, all module trees of any depth and branching", "why_tests_cant": "Needs every cache content and every tree shape.", "anchors": ["kerch/feature/cache.py: Cache.reset, Cache._reset_cache"]}
{"id": "C04", "title": "A value read with destroy=True does not stay in the cache; removing a key removes it", "statement": "Removing an element by its key removes that element and no other, and an element requested as one-shot (destroy) is not in the cache afterwards.", "quantifier": "all cache contents and all keys", "why_tests_cant": "The failure depends on the length of the key: one-letter keys, used in quick tests, behave well.", "anchors": ["kerch/feature/cache.py: Cache._remove_from_cache, Cache._get", "kerch/kernel/distance/distance.py: Distance._sample_dist", "kerch/kernel/random_features/random_features.py: RandomFeatures.after_step"]}
{"id": "C05", "title": "Setting cache_level takes effect on everything the module owns", "statement": "After assigning cache_level on a module, the level governs the module and every transform tree the module already holds, so that the same calls on a fresh module of that level and on the modified one keep the same elements afterwards.", "quantifier": "all module states and all levels", "why_tests_cant": "Needs every order of first evaluation and level change.", "anchors": ["kerch/feature/cache.py: Cache.cache_level", "kerch/transform/Transform.py: Transform.cache_level"]}
{"id": "C06", "title": "The documented content of each cache level is respected for out-of-sample data", "statement": "With cache level 'light' or 'normal' no out-of-sample matrix stays in memory after an evaluation; from 'heavy' on only the final one does, and intermediate ones only at 'total'.", "quantifier": "all levels, all transform paths, all sequences of out-of-sample evaluations of any length", "why_tests_cant": "Memory growth over an unbounded number of evaluations is not observable in a bounded test.", "anchors": ["kerch/transform/Transform.py: Transform._set_cache_levels, Transform.oos", "kerch/utils/defaults.py: DEFAULT_CACHE_LEVEL", "kerch/feature/cache.py: Cache.cache_level (doc)"]}
{"id": "C07", "title": "Evaluations reflect the current content of the argument", "statement": "k(x), phi(x) and forward(x) depend only on the values stored in x at the time of the call: modifying x in place between two calls changes the result accordingly.", "quantifier": "all histories of evaluations and in-place modifications, all cache levels", "why_tests_cant": "Staleness appears only after a specific order of evaluation, mutation and re-evaluation, at certain levels.", "anchors": ["kerch/transform/Transform.py: Transform._get_names, Transform.oos", "kerch/level/_View.py: _View.forward", "kerch/feature/sample.py: Sample.transform_input"]}
{"id": "C08", "title": "Random sub-sampling is without replacement and of the announced size", "statement": "stochastic(prop=p) with 0<p<=1 selects round(n*p) pairwise distinct indices of the sample, p=1 selects all of them; proportions outside ]0,1] are refused and leave the selection unchanged.", "quantifier": "all sample sizes, all proportions, all random permutations", "why_tests_cant": "The random permutation and the size range over infinite sets; rounding boundaries are easily missed.", "anchors": ["kerch/feature/stochastic.py: Stochastic.stochastic"]}
{"id": "C09", "title": "A stochastic selection reaches the whole module tree and eval() undoes it", "statement": "After stochastic(...) on a module, the module and all its stochastic descendants that hold a sample use the same indices; after eval() all use their full sample, whatever was selected before.", "quantifier": "all module trees, all histories of stochastic/train/eval calls", "why_tests_cant": "Quantifies over tree shapes and histories.", "anchors": ["kerch/feature/stochastic.py: Stochastic.stochastic, Stochastic.train"]}
{"id": "C10", "title": "Conflicting stochastic arguments are refused without effect", "statement": "Calling stochastic with both idx and prop raises and leaves the current selection and the cache as they were; on a module without sample the call changes nothing.", "quantifier": "all module states and arguments", "why_tests_cant": "Exceptional path: the state after the exception has to be compared for every prior state.", "anchors": ["kerch/feature/stochastic.py: Stochastic.stochastic"]}
{"id": "C11", "title": "update_sample writes exactly the addressed rows", "statement": "update_sample(values, idx) sets row idx[j] to values[j] (one of its values for a row addressed several times, negative indices counting from the end) and leaves all the others untouched, also when it raises; a number of values different from the number of indices is refused and changes nothing; without sample it is a no-op. A later read sees the new values.", "quantifier": "all samples, all index lists (repeated, unordered, partial), all values", "why_tests_cant": "Needs all index patterns; frame condition over all other rows.", "anchors": ["kerch/feature/sample.py: Sample.update_sample"]}
{"id": "C12", "title": "num_sample, dim_input and the sample always agree", "statement": "Whatever sequence of constructions, init_sample, update_sample and dimension assignments, a non-empty sample has num_sample rows and dim_input columns, current_sample has as many rows as there are selected indices, and re-initialising resets the selection to all points unless told otherwise.", "quantifier": "all histories of constructor/init/update/assignment calls, including failing ones", "why_tests_cant": "Invariant over unbounded histories.", "anchors": ["kerch/feature/sample.py: Sample.init_sample, Sample.dim_input, Sample.num_sample, Sample.current_sample"]}
{"id": "C13", "title": "Dimensions may be given in any order before the sample exists", "statement": "A module may be built with only num_sample, only dim_input, or none, and completed afterwards; once both are known the sample exists with these dimensions.", "quantifier": "all dimension values, all orders of assignment", "why_tests_cant": "All orders of initialisation, including the constructor path.", "anchors": ["kerch/feature/sample.py: Sample.__init__, Sample.init_sample, Sample.dim_input, Sample.num_sample"]}
{"id": "C14", "title": "manifold_parameters yields each parameter of the requested kind exactly once", "statement": "For each kind (euclidean, stiefel, slow) the iterator yields exactly the parameters of this kind held in the module tree, each once even if shared, in a deterministic order; without recurse only those of the module itself; an unknown kind is an error.", "quantifier": "all module trees with arbitrary sharing of parameters", "why_tests_cant": "All tree shapes and sharing patterns.", "anchors": ["kerch/feature/module.py: Module.manifold_parameters, Module._euclidean_parameters, Module._stiefel_parameters, Module._slow_parameters"]}
{"id": "C15", "title": "Consecutive duplicate transforms are merged and nothing else changes", "statement": "The effective transform list is the requested one (aliases expanded) where each run of identical consecutive transforms is replaced by a single one; no other transform disappears and the order is kept.", "quantifier": "all lists of transforms of any length", "why_tests_cant": "The defect shows only for particular placements of repetitions.", "anchors": ["kerch/transform/TransformTree.py: TransformTree.beautify_transform"]}
{"id": "C16", "title": "Transform names resolve as documented", "statement": "Each documented alias denotes its transform, 'standard'/'standardize' is mean centering followed by unit variance, 'minmax_rescaling' is minimum centering followed by range normalisation; a list containing an unknown name is refused with NameError whatever its position, and otherwise resolution of a concatenation is the concatenation of the resolutions.", "quantifier": "all lists of names", "why_tests_cant": "All lists, including unknown names at any position.", "anchors": ["kerch/transform/TransformTree.py: TransformTree._all_transform, TransformTree.beautify_transform"]}
{"id": "C17", "title": "Reverting a transform recovers the data", "statement": "For every chain of mean centering, minimum centering, unit variance and min-max normalisation, reverting the transformed data (sample or out-of-sample) gives back the data; a chain containing the unit sphere normalisation raises BijectionError instead of returning something.", "quantifier": "all chains of any length, all samples, all out-of-sample data (degenerate columns included)", "why_tests_cant": "All chains and all data; constant columns go through the clamping.", "anchors": ["kerch/transform/TransformTree.py: TransformTree.apply, TransformTree.revert", "kerch/transform/all/MeanCentering.py: _explicit_oos, _revert_explicit", "kerch/transform/all/MinMaxNormalization.py: _explicit_oos, _revert_explicit", "kerch/transform/all/MinimumCentering.py: _explicit_oos, _revert_explicit", "kerch/transform/all/Sphere.py: _explicit_oos", "kerch/transform/all/Variance.py: _explicit_oos, _revert_explicit"]}
{"id": "C18", "title": "Transformed sample has the announced statistics", "statement": "Mean centering gives zero column means; minimum centering zero column minima; unit variance gives column standard deviation 1 and min-max range 1 (after minimum centering, values in [0,1]) for every column not degenerate (statistic >= EPS); unit sphere gives rows of norm 1 when their norm is >= EPS and never more than 1.", "quantifier": "all samples of any size and dimension", "why_tests_cant": "All real matrices, including degenerate ones.", "anchors": ["kerch/transform/all/MeanCentering.py", "kerch/transform/all/MinimumCentering.py", "kerch/transform/all/Variance.py", "kerch/transform/all/MinMaxNormalization.py", "kerch/transform/all/Sphere.py"]}
{"id": "C19", "title": "Centering and normalising the kernel matrix equals doing it on the feature map", "statement": "For every chain of centering and unit-sphere normalisation, the implicit route (on kernel values) and the explicit route (on features) give the same kernel matrix, on the sample, between out-of-sample and sample, and between two out-of-sample sets.", "quantifier": "all feature maps, all sample and out-of-sample sets, all chains of any length", "why_tests_cant": "Quantifies over chains and data; numerical tests cannot separate equality from closeness and miss tiny norms.", "anchors": ["kerch/transform/all/MeanCentering.py: _implicit_sample, _implicit_oos, _explicit_oos", "kerch/transform/all/Sphere.py: _implicit_oos, _explicit_oos", "kerch/kernel/kernel.py: Kernel.k"]}
{"id": "C20", "title": "Out-of-sample results do not depend on the batch they are evaluated in", "statement": "Statistics used to transform out-of-sample data come from the sample only (or from the point itself), so transforming a batch row by row or as a whole gives the same result, for k and phi alike, and evaluating at the sample points themselves gives the sample result.", "quantifier": "all chains, all partitions of all batches", "why_tests_cant": "All ways to split all batches.", "anchors": ["kerch/transform/Transform.py: Transform.oos, Transform.statistics_oos", "kerch/transform/all/MeanCentering.py", "kerch/transform/all/MinMaxNormalization.py", "kerch/transform/all/MinimumCentering.py", "kerch/transform/all/Sphere.py", "kerch/transform/all/Variance.py"]}
{"id": "C21", "title": "Arguments given by the user are not modified", "statement": "Building a kernel or evaluating k/phi/c with a list of transforms leaves this list unchanged, so that it can be reused for another kernel.", "quantifier": "all kernels, all transform lists, all numbers of calls", "why_tests_cant": "Aliasing accumulates over a number of calls.", "anchors": ["kerch/kernel/kernel.py: Kernel.__init__, Kernel._simplify_transform, Kernel.k, Kernel.phi"]}
{"id": "C22", "title": "Dropping a redundant first normalisation is sound", "statement": "For a kernel announced as naturally normalized, removing a leading unit-sphere normalisation from the requested transforms does not change any kernel value.", "quantifier": "all naturally normalized kernels, all points, all remaining chains", "why_tests_cant": "Must hold for each kernel on all points.", "anchors": ["kerch/kernel/kernel.py: Kernel._simplify_transform, Kernel._naturally_normalized", "kerch/kernel/statistics/silverman.py"]}
{"id": "C23", "title": "The cosine kernel normalises the input first", "statement": "A cosine kernel with transforms T gives the same values as a linear kernel with transforms ['normalize'] + T.", "quantifier": "all transform lists, all data", "why_tests_cant": "All lists; the order matters only for lists not ending with a normalisation.", "anchors": ["kerch/kernel/generic/cosine.py: Cosine._required_transform", "kerch/kernel/kernel.py: Kernel._simplify_transform, Kernel doc"]}
{"id": "C24", "title": "Kernel matrices are symmetric", "statement": "k(x,y) is the transpose of k(y,x) for every kernel, every distance and every transform chain; in particular K is symmetric.", "quantifier": "all kernels, all distances, all hyper-parameters, all data, all chains", "why_tests_cant": "All real data.", "anchors": ["kerch/kernel/statistics/epanechnikov.py: _implicit", "kerch/kernel/statistics/exponential.py: _implicit", "kerch/kernel/statistics/logistic.py: _implicit", "kerch/kernel/statistics/quartic.py: _implicit", "kerch/kernel/statistics/silverman.py: _implicit", "kerch/kernel/statistics/triangular.py: _implicit", "kerch/kernel/statistics/tricube.py: _implicit", "kerch/kernel/statistics/triweight.py: _implicit", "kerch/kernel/statistics/uniform.py: _implicit", "kerch/kernel/generic/polynomial.py: _implicit", "kerch/kernel/generic/sigmoid.py: _implicit", "kerch/kernel/vision/additive_chi_2.py", "kerch/kernel/vision/skewed_chi_2.py", "kerch/kernel/time/hat.py", "kerch/kernel/time/indicator.py", "kerch/transform/Transform.py: Transform.oos"]}
{"id": "C25", "title": "Distance kernels have unit diagonal, values in [0,1] and decrease with the distance", "statement": "For every kernel announced as normalized, k(x,x)=1; the compactly supported ones are in [0,1], vanish exactly from distance sigma on (for the uniform one beyond sigma), exponential and logistic ones are in ]0,1]; all decrease with the distance.", "quantifier": "all data, all bandwidths sigma>0, all distances", "why_tests_cant": "Inequalities on all reals, boundary d=sigma.", "anchors": ["kerch/kernel/statistics/epanechnikov.py: _implicit, _naturally_normalized", "kerch/kernel/statistics/exponential.py: _implicit, _naturally_normalized", "kerch/kernel/statistics/logistic.py: _implicit", "kerch/kernel/statistics/quartic.py: _implicit, _naturally_normalized", "kerch/kernel/statistics/silverman.py: _implicit, _naturally_normalized", "kerch/kernel/statistics/triangular.py: _implicit, _naturally_normalized", "kerch/kernel/statistics/tricube.py: _implicit, _naturally_normalized", "kerch/kernel/statistics/triweight.py: _implicit, _naturally_normalized", "kerch/kernel/statistics/uniform.py: _implicit, _naturally_normalized"]}
{"id": "C26", "title": "Positive semi-definiteness", "statement": "The kernel matrix of the linear, cosine, polynomial (natural degree, beta>=0), RBF and random-feature kernels is positive semi-definite on every finite set of points, and centering and normalising preserve it.", "quantifier": "all finite point sets of any size, all hyper-parameters, all chains", "why_tests_cant": "All sizes, all coefficient vectors; numerically invisible up to rounding.", "anchors": ["kerch/kernel/generic/cosine.py", "kerch/kernel/generic/laplacian.py", "kerch/kernel/generic/linear.py", "kerch/kernel/generic/negative_distance.py", "kerch/kernel/generic/polynomial.py", "kerch/kernel/generic/rbf.py", "kerch/kernel/generic/sigmoid.py", "kerch/kernel/generic/wasserstein.py", "kerch/kernel/statistics/exponential.py", "kerch/kernel/random_features/random_features.py", "kerch/kernel/random_features/rf_arcsinh.py", "kerch/kernel/random_features/rf_hyperbola.py", "kerch/kernel/random_features/rf_lrelu.py", "kerch/kernel/random_features/rf_stacked.py", "kerch/kernel/random_features/rff.py", "kerch/transform/all/MeanCentering.py", "kerch/transform/all/MinMaxNormalization.py", "kerch/transform/all/MinimumCentering.py", "kerch/transform/all/Sphere.py", "kerch/transform/all/Variance.py"]}
{"id": "C27", "title": "The polynomial feature map realises the polynomial kernel", "statement": "For every natural degree alpha>=0 and beta>=0, phi(x).phi(y) = (x.y+beta)^alpha for all x,y, and phi has exactly binomial(dim_input+alpha, alpha) components, one per exponent vector.", "quantifier": "all degrees, all dimensions, all beta>=0, all real vectors", "why_tests_cant": "Combinatorial identity for all degrees and dimensions.", "anchors": ["kerch/kernel/generic/polynomial.py: Polynomial._phi_fun, multichoose, Polynomial._implicit, Polynomial.dim_feature"]}
{"id": "C28", "title": "k(x,y) depends on y for every kernel", "statement": "Entry (i,j) of k(x,y) is the kernel value of x_i and y_j, including for the polynomial kernel and whichever of the explicit or implicit route is chosen automatically.", "quantifier": "all x and y of any sizes", "why_tests_cant": "All pairs; k(x,x) and k() look right.", "anchors": ["kerch/kernel/generic/polynomial.py: Polynomial.k", "kerch/kernel/kernel.py: Kernel.k"]}
{"id": "C29", "title": "Assigning a hyper-parameter changes this hyper-parameter and only it", "statement": "After kernel.alpha = v the degree is v and beta is unchanged, and all later evaluations (k, phi, K) use the new values.", "quantifier": "all states, all values, all histories of assignments and evaluations", "why_tests_cant": "Histories mixing assignments and evaluations.", "anchors": ["kerch/kernel/generic/polynomial.py: Polynomial.alpha, Polynomial.beta, Polynomial._phi_fun"]}
{"id": "C30", "title": "The bandwidth heuristic", "statement": "Without sigma, the bandwidth is half the (lower) median of the pairwise distances of the sample; it is equivariant to scaling of the data, insensitive to the order of the points, strictly positive exactly when fewer than half of the pairs coincide, fixed at the first use and recomputed for a new sample.", "quantifier": "all samples of any size, all histories of evaluations and sample changes", "why_tests_cant": "All data sets; depends on history.", "anchors": ["kerch/kernel/distance/_distance.py: _Distance.sigma", "kerch/kernel/distance/distance.py: Distance._determine_sigma", "kerch/kernel/distance/distance_squared.py: DistanceSquared._determine_sigma"]}
{"id": "C31", "title": "C and K carry the same spectrum", "statement": "With Phi the feature matrix of the n selected points, K=Phi Phi^T, C=(1/n)Phi^T Phi, trace(K)=n trace(C), and the non-zero eigenvalues of K are n times those of C.", "quantifier": "all feature matrices of any size, all selections", "why_tests_cant": "All matrices of all sizes.", "anchors": ["kerch/kernel/kernel.py: Kernel._C, Kernel._K"]}
{"id": "C32", "title": "K does not depend on the route asked first", "statement": "The kernel matrix returned by K equals k() and does not depend on whether an explicit or implicit formulation was evaluated before.", "quantifier": "all histories of evaluations", "why_tests_cant": "History dependent.", "anchors": ["kerch/kernel/kernel.py: Kernel._K, Kernel.k"]}
{"id": "C33", "title": "cov() is the covariance of the features and corr() their correlation", "statement": "cov(x) equals the (1/n) covariance of the feature vectors after the default transforms, i.e. it is translation invariant in feature space and symmetric PSD; corr has unit diagonal and entries in [-1,1] when no variance vanishes.", "quantifier": "all data, all kernels with explicit map, all default transforms", "why_tests_cant": "All data; depends on the default chain.", "anchors": ["kerch/kernel/kernel.py: Kernel.cov, Kernel.corr, Kernel.c"]}
{"id": "C34", "title": "The Nystrom kernel reproduces the base kernel on the sample", "statement": "If no eigenvalue is pruned, the explicit feature map of the Nystrom kernel satisfies phi phi^T = K on the sample and phi(x) phi(sample)^T = k(x, sample) out of sample; evaluating at the sample points gives the sample features; pruning to the top eigenvalues gives a PSD approximation below K.", "quantifier": "all base kernels, all samples, all eigendecompositions", "why_tests_cant": "All matrices and all valid eigendecompositions (not unique).", "anchors": ["kerch/kernel/nystrom.py: Nystrom._compute_decomposition, Nystrom._explicit_with_none", "kerch/utils/math.py: eigs"]}
{"id": "C35", "title": "Random Fourier features define a shift-invariant normalized kernel", "statement": "For any weights, RFF features satisfy phi(x).phi(y) = (1/m) sum_i cos(w_i.(x-y)/sigma): k(x,x)=1, |k|<=1, k(x+t,y+t)=k(x,y), and PSD.", "quantifier": "all weights, all points, all shifts, all bandwidths", "why_tests_cant": "All real inputs and all random draws.", "anchors": ["kerch/kernel/random_features/rff.py", "kerch/kernel/random_features/random_features.py: RandomFeatures._explicit"]}
{"id": "C36", "title": "Random-feature activations are inverted correctly", "statement": "For arcsinh, leaky ReLU (alpha>0) and hyperbola activations, inverse(activation(x))=x and activation(inverse(y))=y on the whole domain; consequently the explicit pre-image of phi(x) is x whenever the weights have full column rank.", "quantifier": "all admissible hyper-parameters, all reals, all weight matrices with a left inverse", "why_tests_cant": "All reals and parameters, sign conventions at 0.", "anchors": ["kerch/kernel/random_features/rf_lrelu.py", "kerch/kernel/random_features/rf_arcsinh.py", "kerch/kernel/random_features/rf_hyperbola.py", "kerch/kernel/random_features/random_features.py: RandomFeatures._explicit_preimage"]}
{"id": "C37", "title": "Explicit pre-image uses the current weights", "statement": "After training steps or assignments of the weights, explicit_preimage inverts the current feature map.", "quantifier": "all histories of steps, assignments and pre-images", "why_tests_cant": "History dependent.", "anchors": ["kerch/kernel/random_features/random_features.py: RandomFeatures.after_step, RandomFeatures._explicit_preimage, RandomFeatures.weights"]}
{"id": "C38", "title": "Time kernels follow their documented formula and are PSD on integer times", "statement": "The hat kernel is p+1-|t-s| for |t-s|<=p and 0 beyond; the indicator kernel is gamma for equal times, 1 within the lag, 0 beyond; both are PSD on integer times (indicator with the default gamma).", "quantifier": "all lags, all integer time stamps, all numbers of points", "why_tests_cant": "All sets of time stamps.", "anchors": ["kerch/kernel/time/hat.py: Hat._implicit", "kerch/kernel/time/indicator.py: Indicator._implicit, Indicator.lag"]}
{"id": "C39", "title": "Chi-square kernels are symmetric, bounded and normalized", "statement": "On histograms (non-negative entries) the additive chi2 kernel satisfies 0<=k(x,y)<=(sum x + sum y)/2 and k(x,x)=sum x; the skewed one lies in [0,1] with k(x,x)=1 when entries exceed -p (by at least EPS/2).", "quantifier": "all non-negative vectors, all p, all dimensions", "why_tests_cant": "Inequalities over all vectors.", "anchors": ["kerch/kernel/vision/additive_chi_2.py", "kerch/kernel/vision/skewed_chi_2.py"]}
{"id": "C40", "title": "Factories are insensitive to case and separators and refuse unknown names", "statement": "kernel/level/data factories give the same class for names differing only by case (and underscores for kernels), and raise NameError for anything else.", "quantifier": "all strings", "why_tests_cant": "All strings.", "anchors": ["kerch/kernel/_factory.py", "kerch/level/factory.py", "kerch/data/factory.py", "kerch/model/factory.py"]}
{"id": "C41", "title": "Input casting", "statement": "castf maps scalars to 1x1, vectors of length n to n x 1, keeps matrices, passes None through, refuses more than two dimensions, keeps all values in order, and is idempotent.", "quantifier": "all tensors of any rank and shape", "why_tests_cant": "All ranks and shapes.", "anchors": ["kerch/utils/cast.py: castf, casti, check_representation"]}
{"id": "C42", "title": "Default keyword arguments never override user values", "statement": "With the keyword decorator, each keyword given by the user reaches the constructor unchanged, and each missing one gets the default.", "quantifier": "all keyword dictionaries", "why_tests_cant": "All dictionaries.", "anchors": ["kerch/utils/decorators.py: kwargs_decorator"]}
{"id": "C43", "title": "knn returns the mean of the nearest observations", "statement": "knn(dists, observations, num) returns for each row the mean of num observations such that no other observation is strictly closer; adding a constant to all distances of a row set or permuting observations consistently changes nothing; num=n gives the global mean; invalid num or mismatched sizes are refused.", "quantifier": "all distance matrices, all observations, all num, all tie-breakings", "why_tests_cant": "All inputs and ties.", "anchors": ["kerch/method/_knn.py: knn"]}
{"id": "C44", "title": "smoother returns a weighted mean of the observations", "statement": "With non-negative, not all zero coefficients, smoother returns a convex combination of the observations with the largest coefficients: it lies coordinatewise between their min and max, reproduces constants, and is invariant to rescaling a row of coefficients; num='all' and num=n coincide.", "quantifier": "all coefficient matrices, all observations, all num", "why_tests_cant": "All inputs, degenerate rows.", "anchors": ["kerch/method/_smoother.py: smoother"]}
{"id": "C45", "title": "Iterative pre-images leave the kernel as they found it", "statement": "After iterative_preimage_k/phi the kernel has the cache level it had before, whether the call succeeds or raises.", "quantifier": "all kernels, all arguments including invalid ones", "why_tests_cant": "Exceptional exits.", "anchors": ["kerch/method/_iterative.py: iterative_preimage_k, iterative_preimage_phi"]}
{"id": "C46", "title": "total_variance is a function of the data", "statement": "Calling total_variance any number of times, in any representation and order, returns the trace of the covariance; primal and dual agree, and relative_variance computed afterwards is unaffected.", "quantifier": "all numbers and orders of calls, all data, all cache levels", "why_tests_cant": "Depends on the number of earlier calls.", "anchors": ["kerch/level/_KPCA.py: _KPCA.total_variance, _KPCA.relative_variance"]}
{"id": "C47", "title": "relative_variance lies in [0,1] and equals 1 for a complete model", "statement": "After solve, the relative variance is between 0 and 1, increases with dim_output and is 1 if all components are kept, in both representations.", "quantifier": "all data, all dim_output, both representations", "why_tests_cant": "All data and sizes.", "anchors": ["kerch/level/_KPCA.py: _KPCA.relative_variance, _KPCA._solve_primal, _KPCA._solve_dual"]}
{"id": "C48", "title": "The KPCA loss is the discarded variance", "statement": "For orthonormal parameters the KPCA loss is non-negative, and at the solution it is the sum of the discarded eigenvalues, i.e. the minimum over orthonormal parameters.", "quantifier": "all PSD matrices, all orthonormal parameters", "why_tests_cant": "Optimality over a continuum.", "anchors": ["kerch/level/_KPCA.py: _KPCA._loss_original, _KPCA._loss_projected, _KPCA._solve_primal"]}
{"id": "C49", "title": "Primal and dual KPCA give the same scores", "statement": "Projections of a point computed through the primal (feature) and the dual (kernel) solution agree up to the sign and the scaling of each component.", "quantifier": "all data, all corresponding eigen-decompositions", "why_tests_cant": "All data.", "anchors": ["kerch/level/_KPCA.py", "kerch/level/_View.py: phiw"]}
{"id": "C50", "title": "LS-SVM: primal and dual solutions predict the same", "statement": "Solving a LS-SVM in primal or in dual representation with the same gamma gives the same predictions w.phi(x)+b; the dual solution satisfies the optimality system.", "quantifier": "all data, all targets, all gamma>0", "why_tests_cant": "Linear-algebra identity on all data.", "anchors": ["kerch/level/single_view/LSSVM.py: LSSVM._solve_primal, LSSVM._solve_dual"]}
{"id": "C51", "title": "Setting one representation invalidates the other", "statement": "After assigning primal (dual) parameters, no output is ever computed from previously held dual (primal) ones.", "quantifier": "all histories of assignments, solves and evaluations", "why_tests_cant": "Histories.", "anchors": ["kerch/level/_View.py: primal_param, dual_param, update_dual, _reset_primal, _reset_dual", "kerch/level/single_view/View.py: _reset_primal"]}
{"id": "C52", "title": "forward reflects the current parameters", "statement": "forward(x) after solve(), or after assigning parameters, uses the new parameters even if x was evaluated before.", "quantifier": "all histories of forward/solve/assignments", "why_tests_cant": "Histories.", "anchors": ["kerch/level/_View.py: forward, update_dual, primal_param"]}
{"id": "C53", "title": "Multi-view: concatenated features and summed kernels", "statement": "A multi-view level's feature map is the concatenation of the views' ones, its kernel the sum of the views' kernels, both consistent; the weights of a view are the block of the parameters corresponding to it, blocks partitioning the parameters in order of the views.", "quantifier": "all numbers of views, all dimensions", "why_tests_cant": "All numbers of views and dimensions.", "anchors": ["kerch/level/multi_view/MultiView.py: phi, k, _weight_from_view"]}
{"id": "C54", "title": "Multi-view prediction returns each view's own block", "statement": "MVKPCA.predict returns for each requested view the part of the reconstruction belonging to this view.", "quantifier": "all numbers and subsets of views, all dimensions", "why_tests_cant": "Wrong only from the second predicted view on.", "anchors": ["kerch/level/multi_view/MVKPCA.py: predict"]}
{"id": "C55", "title": "Levels of a model fit together", "statement": "In every model built by appending levels, each level's input dimension is the output dimension of the previous one; the evaluation output of a model is the composition of its levels; the model loss is the weighted sum of the level losses.", "quantifier": "all numbers of levels, all append sequences", "why_tests_cant": "Invariant over sequences of appends.", "anchors": ["kerch/model/Model.py: _append_level, forward, loss"]}
{"id": "C56", "title": "An epoch visits each training point exactly once", "statement": "For each batch size 0<b<=n (or 'all') the batches of an epoch partition the training indices, all of size b but possibly the last one; other batch sizes are refused.", "quantifier": "all n, all batch sizes", "why_tests_cant": "All n and b.", "anchors": ["kerch/train/Trainer.py: Trainer.batch_size, Trainer.fit"]}
{"id": "C57", "title": "Each optimisation step uses the gradient of its own batch", "statement": "The parameter update of a batch depends on this batch's gradient only (for a memoryless optimiser), not on the previous batches of the epoch.", "quantifier": "all sequences of batches", "why_tests_cant": "Differs only from the second batch of an epoch on.", "anchors": ["kerch/train/Trainer.py: Trainer.fit"]}
{"id": "C58", "title": "Data splits are disjoint", "statement": "Training, validation and test parts of a learning set never share a point, have the requested sizes and, when the sizes sum to the total, exhaust the data.", "quantifier": "all sizes, all shufflings", "why_tests_cant": "All sizes and permutations.", "anchors": ["kerch/data/_LearningSet.py: _indices, _LearningSetTrain"]}
{"id": "C59", "title": "Finishing a monitored run keeps exactly the last checkpoint", "statement": "After a run with checkpoints saved every m epochs, finish() keeps the checkpoint of the largest epoch and no other.", "quantifier": "all save histories", "why_tests_cant": "All histories.", "anchors": ["kerch/monitor/Watcher.py: finish, update"]}
{"id": "C60", "title": "Every trainable parameter is optimised by exactly one group", "statement": "The optimiser groups (euclidean, slow, stiefel) contain exactly the trainable parameters of the respective kind of the model with the group's learning rate, and reducing the learning rate scales all groups alike.", "quantifier": "all parameter sets, all keyword arguments", "why_tests_cant": "All parameter sets.", "anchors": ["kerch/opt/Optimizer.py"]}
{"id": "C61", "title": "Stiefel steps preserve orthonormality", "statement": "The search direction built by the Stiefel optimisers is skew-symmetric and the exact Cayley step maps orthonormal parameters to orthonormal ones, for every gradient and step size; the fixed-point loop converges to this Cayley step for admissible step sizes.", "quantifier": "all parameters on the manifold, all gradients, all step sizes, all iteration counts", "why_tests_cant": "Continuum of inputs, iteration limits.", "anchors": ["kerch/opt/stiefel/stiefel_optimizer.py: SGDG.step, AdamG.step", "kerch/opt/stiefel/gutils.py: Cayley_loop, qr_retraction"]}
{"id": "C62", "title": "Momentum acts on Stiefel parameters", "statement": "With a non-zero momentum, the update of a Stiefel parameter depends on the previous gradients.", "quantifier": "all gradient histories", "why_tests_cant": "Visible only over several steps and masked by convergence.", "anchors": ["kerch/opt/stiefel/stiefel_optimizer.py: SGDG.step"]}
{"id": "C63", "title": "An unknown cache level is refused", "statement": "Assigning cache_level to a name that is not one of none, light, normal, heavy, total raises at once and leaves the object as it was; a valid name is read back unchanged.", "quantifier": "every string assigned to cache_level, in every state of the module", "why_tests_cant": "the set of strings is unbounded and the failure shows only later, at an unrelated request", "anchors": ["kerch/feature/cache.py: Cache.cache_level", "kerch/feature/cache.py: Cache._get_level", "kerch/feature/cache.py: Cache._save"]}
{"id": "C64", "title": "update_sample clears the gradient of the rows it replaces", "statement": "After update_sample(values, idx) on a trainable sample with a gradient, the gradient of the updated rows is zero and that of the others is as before.", "quantifier": "all samples, gradients and index lists", "why_tests_cant": "All index patterns; the effect is on hidden optimiser state that only shows in later steps.", "anchors": ["kerch/feature/sample.py: Sample.update_sample"]}
{"id": "C65", "title": "The sample is independent of the tensor it was given from", "statement": "After assigning a sample from a tensor (other than a shared Parameter), later in-place changes of this tensor do not change the sample, and update_sample does not change the tensor.", "quantifier": "all tensors, all later in-place changes and updates", "why_tests_cant": "Aliasing depends on dtype and container; holds or fails for whole families of inputs.", "anchors": ["kerch/feature/sample.py: Sample.init_sample", "kerch/utils/cast.py: castf"]}
{"id": "C66", "title": "The factor kappa scales features, kernel and covariance consistently", "statement": "For each level constructed with a factor kappa and after each assignment of kappa, phi(x) phi(y)^T = k(x,y), K = k(), Phi = phi() and C = c().", "quantifier": "all factors, all sequences of assignments, all points", "why_tests_cant": "With the default factor 1 nothing is visible; sequences of assignments.", "anchors": ["kerch/level/single_view/View.py: kappa, phi, k, K", "kerch/kernel/kernel.py: c, _C"]}
{"id": "C67", "title": "Mapping to latent variables and back is a projection", "statement": "After solve, phi_map(h(phi=phi(x))) is the orthogonal projection of phi(x) on the components kept and k_map(h(k=k(x))) that of k(x); nothing is lost for points in their span.", "quantifier": "all data, all points, all numbers of components, both representations", "why_tests_cant": "All data and points.", "anchors": ["kerch/level/_KPCA.py: h, phi_map, k_map"]}
{"id": "C68", "title": "Soft levels are trained", "statement": "The parameters of a level appended to a model with the soft constraint require a gradient after initialisation, hence are seen by the optimiser; those of a level with the hard constraint do not, and are solved in each training forward.", "quantifier": "all histories of construction, append, initialisation and assignments", "why_tests_cant": "Histories; silently no training.", "anchors": ["kerch/model/Model.py: _append_level, forward", "kerch/level/single_view/View.py: level_trainable", "kerch/level/_View.py: primal_param, dual_param, level_trainable"]}
{"id": "C69", "title": "Attached views follow their multi-view, detached ones keep their weights", "statement": "An attached view reads its weights from the function it is attached to and refuses assignments; detach() makes it independent with the weights it had.", "quantifier": "all histories of attach, detach, assignments and reads", "why_tests_cant": "Histories.", "anchors": ["kerch/level/_View.py: attach_to, detach, attached, primal_param"]}
{"id": "C70", "title": "Fitting a trainer trains the model and returns", "statement": "Trainer.fit() performs the requested number of epochs and ends without an error.", "quantifier": "all models, data sets, watcher names and epoch counts", "why_tests_cant": "Ranges over every configuration; a test settles one.", "anchors": ["kerch/train/Trainer.py: fit, train", "kerch/monitor/factory.py: factory"]}
{"id": "C71", "title": "A checkpoint holds the parameters of the model", "statement": "The state saved for a model determines the parameters of all its levels, so that loading it restores the model.", "quantifier": "all models with any number of levels and any parameters", "why_tests_cant": "Ranges over all models; saving succeeds silently.", "anchors": ["kerch/model/Model.py: __init__, _append_level", "kerch/monitor/Saver.py: save_model"]}
{"id": "C72", "title": "A restricted kernel machine has all levels it was given", "statement": "Constructing an RKM from level0, level1, ..., level{n-1} either raises or gives a model with exactly these n levels in this order.", "quantifier": "all numbers of levels and all outcomes of constructing each level", "why_tests_cant": "Ranges over all argument lists and error outcomes.", "anchors": ["kerch/model/RKM.py: __init__", "kerch/model/Model.py: _append_level"]}
{"id": "C73", "title": "A view's kernel is the inner product of its features", "statement": "For every view with scaling kappa, view.k(x, y) is kappa times the kernel and equals the inner product of view.phi(x) and view.phi(y), also after assigning kappa.", "quantifier": "all kernels with explicit features, all points, all scalings and histories of assignments of kappa", "why_tests_cant": "Ranges over all scalings and histories.", "anchors": ["kerch/level/single_view/View.py: __init__, kappa, phi, k, K"]}
{"id": "C74", "title": "The scaled quantities of a view agree", "statement": "K, C, c(), Phi, phi() and the primal and dual outputs of a view all use the same scaling: C equals c(), K equals the Gram matrix of phi(), primal and dual outputs coincide when the weights derive from the hidden variables.", "quantifier": "all kernels with explicit features, samples, points, hidden variables and scalings", "why_tests_cant": "Tests use the default scaling 1, for which everything agrees.", "anchors": ["kerch/level/single_view/View.py: phi, k, K, _update_primal_from_dual", "kerch/level/_View.py: phiw, Phi, C", "kerch/kernel/_base_kernel.py: C, Phi", "kerch/kernel/kernel.py: c, _C"]}
{"id": "C75", "title": "Solvers use an identity matrix of the current size", "statement": "The stored identity matrix used in the linear systems of a level always has the size of the current (stochastic) sample or of the features, whatever was cached before.", "quantifier": "all histories of sample and stochastic changes, resets, cache levels and readings", "why_tests_cant": "The value is persistent in the cache: histories.", "anchors": ["kerch/level/_Level.py: _I_primal, _I_dual", "kerch/feature/cache.py: _get, _reset_cache, _clean_cache, _remove_from_cache"]}
{"id": "C76", "title": "Porting a module ports everything once", "statement": "Moving a module to another device or type moves its parameters, its cached tensors and those of all cached modules and descendants, with the same result as moving each once.", "quantifier": "all module trees of any depth and all idempotent operations", "why_tests_cant": "Ranges over all trees; the recursion visits children twice.", "anchors": ["kerch/feature/cache.py: _apply"]}
{"id": "C77", "title": "A Stiefel step goes downhill", "statement": "For every parameter with orthonormal rows (whether or not it was rescaled or retracted before the step) and every loss differentiable there, a momentum-less step of the Stiefel gradient descent with a small enough positive learning rate strictly lowers the loss whenever the search direction is not zero; the search direction is the projection of the descent direction on the tangent space and never points uphill.", "quantifier": "all parameters with orthonormal rows, all gradients, all differentiable losses, all small enough learning rates", "why_tests_cant": "Quantifies over all losses and gradients; a sign error in the direction still lets some losses decrease.", "anchors": ["kerch/opt/stiefel/stiefel_optimizer.py: SGDG.step", "kerch/opt/stiefel/gutils.py: Cayley_loop, stiefel_proj_tan"]}
{"id": "C78", "title": "Each documented cache entry is kept exactly from its documented level", "statement": "For every entry of the documented cache-level tables, the module keeps the corresponding value in its cache if and only if the cache level is at least the documented one, whatever the contents of the cache and whatever value is computed.", "quantifier": "all documented entries, all cache contents, all cache levels, all values", "why_tests_cant": "The level of an entry is decided by a lookup of a key whose spelling must agree between the table and each of the call sites; a mismatch silently falls back to another level and changes no returned value.", "anchors": ["docs/source/features/cache_levels", "kerch/feature/cache.py: _save, _get", "kerch/utils/defaults.py: DEFAULT_CACHE_LEVEL"]}
{"id": "C79", "title": "The loss of a level is that of its current parameters", "statement": "Whatever the steps of the optimiser, the losses asked and the calls of before_step, after_step and stochastic, a loss asked after before_step is the loss of the parameters of the moment.", "quantifier": "all histories of steps, losses, before_step, after_step and stochastic calls, all levels with distinct sub-losses, all cache levels", "why_tests_cant": "Depends on which values are still in the cache, hence on the whole history; the usual training order resets the cache for another reason and hides the fault.", "anchors": ["kerch/level/_Level.py: before_step, after_step, losses", "kerch/level/_KPCA.py: loss", "kerch/level/single_view/LSSVM.py: loss", "docs/source/features/cache.rst"]}
{"id": "C80", "title": "cache_keys lists exactly what is available", "statement": "After any history of a module's cache, cache_keys(private=True) yields each element that would be returned without being recomputed exactly once and nothing else; cache_keys() yields in the same order those among them not beginning with an underscore.", "quantifier": "all histories of reads, saves, removals, resets, cleanings and level changes (including those that raise), all cache levels and values", "why_tests_cant": "Ranges over all histories; tests can only list the cache after a few of them.", "anchors": ["kerch/feature/cache.py: cache_keys, _get, _save, _remove_from_cache, _reset_cache, _clean_cache"]}
{"id": "C81", "title": "Exponential and Laplacian kernels are positive semi-definite", "statement": "The kernel matrix of the Laplacian kernel and of the exponential kernel with the Manhattan distance is positive semi-definite on every finite set of points of every dimension, for every bandwidth (as KPCA and LS-SVM require); with the squared Manhattan distance it is not for large bandwidths.", "quantifier": "all finite point sets, all dimensions, all bandwidths, all coefficient vectors", "why_tests_cant": "All sizes and coefficient vectors; a violation may need a particular configuration of points.", "anchors": ["kerch/kernel/generic/laplacian.py", "kerch/kernel/statistics/exponential.py", "kerch/kernel/distance/euclidean.py", "kerch/kernel/distance/manhattan.py"]}
{"id": "C82", "title": "Chi-square kernels are positive semi-definite", "statement": "The kernel matrix of the additive and of the skewed chi-square kernel is positive semi-definite on every finite set of non-negative vectors.", "quantifier": "all finite sets of non-negative vectors of any dimension, all skewness parameters", "why_tests_cant": "All sizes and coefficient vectors; the guard against division by zero matters for tiny entries only.", "anchors": ["kerch/kernel/vision/additive_chi_2.py", "kerch/kernel/vision/skewed_chi_2.py"]}
{"id": "C83", "title": "The explicit pre-image of the features of data is the data", "statement": "For a kernel whose feature map is invertible (linear kernel, random features with an invertible activation and weights of full column rank), with any bijective transforms of the sample and of the features, explicit_preimage(phi(x), method='explicit') returns x for the sample and for any batch, and phi(explicit_preimage(F)) returns F whenever the feature map is onto. A chain containing a unit sphere normalisation, or a kernel without inverse, raises.", "quantifier": "all samples, batches, chains of transforms of sample and features, invertible feature maps", "why_tests_cant": "Requires the composition of two reverted chains, each relative to the statistics of a different sample, to be exact for all chains and data.", "anchors": ["kerch/kernel/kernel.py: Kernel.phi", "kerch/kernel/kernel.py: Kernel.explicit_preimage", "kerch/kernel/generic/linear.py: Linear._explicit_preimage", "kerch/kernel/random_features/random_features.py: RandomFeatures._explicit_preimage", "kerch/feature/sample.py: Sample.transform_input"]}
{"id": "C84", "title": "Pre-images by neighbours agree between representations and recover sample points", "statement": "For the methods 'knn' and 'smoother', explicit_preimage(phi(x)) equals implicit_preimage(k(x)); and with one neighbour the pre-image of the image of each sample point is that point when the images differ.", "quantifier": "all feature maps, samples, points, transforms by centering and normalisation, tie-breakings of topk", "why_tests_cant": "Whether the own image is nearest depends on all pairwise values of all samples.", "anchors": ["kerch/kernel/kernel.py: Kernel.explicit_preimage", "kerch/kernel/_base_kernel.py: _BaseKernel.implicit_preimage", "kerch/method/_knn.py: knn", "kerch/method/_smoother.py: smoother"]}
{"id": "C85", "title": "What a kernel does not offer is refused with an exception", "statement": "forward with a representation other than 'primal' or 'dual' raises RepresentationError; explicit_preimage of a kernel without explicit features raises ExplicitError; an unknown pre-image method raises; known methods are recognised in any case.", "quantifier": "all strings given as representation or method, all kernel families", "why_tests_cant": "All strings must be covered, and the failure is silent: an exception returned as a value.", "anchors": ["kerch/kernel/kernel.py: Kernel.forward", "kerch/kernel/_base_kernel.py: _BaseKernel.forward", "kerch/kernel/implicit.py: Implicit.explicit_preimage", "kerch/kernel/generic/polynomial.py: Polynomial.explicit_preimage"]}
{"id": "C86", "title": "The logging level of an instance is the one last given to it", "statement": "logging_level of an object is the level last given to it at instantiation, by assignment, or by assignment to an object containing it; a missing level means the package-wide level at that time; changing the package-wide level does not affect existing objects.", "quantifier": "all histories of instantiations, assignments and changes of the package-wide level, all trees of objects", "why_tests_cant": "Interference between objects appears only in particular histories of other objects.", "anchors": ["kerch/feature/logger.py: Logger", "kerch/feature/logger.py: set_logging_level", "kerch/feature/module.py: Module.logging_level"]}
{"id": "C87", "title": "A package-wide setting applies to everything done afterwards", "statement": "After set_ftype, set_itype or set_eps with a valid value, all computations started afterwards in all parts of the package use this value, and the attribute of the package shows it; an invalid value is refused and changes nothing.", "quantifier": "all histories of changes and of first uses of the parts of the package", "why_tests_cant": "The outcome depends on the order in which parts of the package are first used, which is not bounded or fixed.", "anchors": ["kerch/utils/type.py: set_ftype", "kerch/utils/type.py: set_itype", "kerch/utils/type.py: set_eps", "kerch/utils/cast.py: castf", "kerch/__init__.py: FTYPE", "kerch/transform/all/Sphere.py", "kerch/kernel/random_features/random_features.py"]}
{"id": "C88", "title": "utils.eigs returns the k greatest eigenpairs in descending order", "statement": "For a symmetric matrix and a requested number k of components, eigs returns k eigenvalues and as many orthonormal eigenvectors, the eigenvalues being the k greatest of the matrix and in descending order; an impossible number of components is refused.", "quantifier": "all symmetric matrices of all sizes, all k, all options of the call, all eigenbases the solver may return", "why_tests_cant": "The solver may return any eigenbasis for repeated eigenvalues, and matrices and sizes are unbounded.", "anchors": ["kerch/utils/math.py: eigs"]}
{"id": "C89", "title": "solve fits the data it is given or is refused and leaves the model unchanged", "statement": "solve(sample, target) fits on exactly this sample and target; called without arguments it fits on those present; when it raises, the model still holds the data it had; each row of the target belongs to the row of the sample of the same index.", "quantifier": "all histories of assignments of samples and targets and calls of solve, all shapes", "why_tests_cant": "The correspondence of sample and target depends on the whole history of assignments.", "anchors": ["kerch/level/single_view/Level.py: Level.solve", "kerch/level/_Level.py: _Level.solve", "kerch/level/single_view/View.py: View.target"]}
{"id": "C90", "title": "Probabilistic PCA: latent representations are maxima of the posterior, draws follow the model", "statement": "After a fit, h_map of a point is the unique maximiser of the posterior density of the latent variable under the fitted parameters, from features as from kernel values; the fitted parameters are numbers; the fit does not change the kernel; posterior draws have the covariance of the fitted model.", "quantifier": "all samples, kernels, numbers of components and points", "why_tests_cant": "Optimality is against all latent representations; the covariance of the draws is a property of their distribution.", "anchors": ["kerch/level/single_view/PPCA.py: PPCA.h_map", "kerch/level/single_view/PPCA.py: PPCA._solve_dual", "kerch/level/_PPCA.py: _PPCA.mu", "kerch/level/_PPCA.py: _PPCA.draw_phi", "kerch/level/single_view/View.py: View.__new__", "kerch/kernel/distance/_distance.py: _Distance.sigma"]}
{"id": "C91", "title": "The solution of a LS-SVM minimises its loss", "statement": "solve() of a LS-SVM gives parameters at which loss() is minimal over all weights and biases; the loss of dual variables is the loss of the weights they stand for, and its regularisation is the squared norm of the weights in both representations.", "quantifier": "all features, targets, numbers of outputs, gamma and parameters", "why_tests_cant": "Optimality is against all parameters; the two representations have to agree on all of them.", "anchors": ["kerch/level/single_view/LSSVM.py: LSSVM.loss, LSSVM._loss_regularization, LSSVM._loss_mse, LSSVM._solve_dual"]}
{"id": "C92", "title": "A training step keeps the dual variables of a LS-SVM centred", "statement": "After after_step() the dual variables of each output sum to zero (the constraint of the dual problem), and are the nearest such variables; variables that already are centred are left unchanged.", "quantifier": "all dual variables, all numbers of points and outputs", "why_tests_cant": "Depends on how shapes broadcast, hence on all pairs of sizes.", "anchors": ["kerch/level/single_view/LSSVM.py: LSSVM.after_step, LSSVM._center_hidden"]}
{"id": "C93", "title": "A LS-SVM without bias is fitted as a model without bias", "statement": "With requires_bias=False, the predictions after solve() minimise the regularised least squares problem over all models without bias.", "quantifier": "all samples, targets and gamma", "why_tests_cant": "Optimality is against all models.", "anchors": ["kerch/level/single_view/LSSVM.py: LSSVM._solve_dual", "kerch/level/single_view/View.py: View._forward"]}
{"id": "C94", "title": "Ridge regression: the solution is the regularised least squares solution, in primal as in dual", "statement": "The solution in dual and the one in primal both minimise gamma times the squared error plus the squared norm of the weights, and predict the same.", "quantifier": "all features, targets and gamma>0", "why_tests_cant": "Optimality over a continuum, and agreement of two routes on all data.", "anchors": ["kerch/level/single_view/Ridge.py: Ridge._solve_primal, Ridge._solve_dual"]}
{"id": "C95", "title": "Reconstructions of a KPCA level are the best ones of their rank", "statement": "The reconstructed kernel and covariance matrices are the nearest matrices of the rank of the components kept; reconstructing a point projects its features on the components, and gives the same result in primal as in dual.", "quantifier": "all samples, points, numbers of components and decompositions returned by the solver", "why_tests_cant": "Optimality over all matrices of a rank, for all samples.", "anchors": ["kerch/level/single_view/KPCA.py: K_reconstructed, C_reconstructed, reconstruct", "kerch/level/_KPCA.py: _solve_primal, _solve_dual"]}
{"id": "C96", "title": "Multi-view prediction recovers what the model represents", "statement": "For a point whose features in all views are represented exactly by a fitted multi-view KPCA, predicting the missing views from the known ones gives the features of the missing views; in general the prediction satisfies the stationarity conditions of the model.", "quantifier": "all fitted models, numbers of views, points and components", "why_tests_cant": "Ranges over all models and points; the error is a scaling that looks plausible.", "anchors": ["kerch/level/multi_view/MVKPCA.py: _project_primal, _project_dual", "kerch/level/_KPCA.py: _solve_primal, _solve_dual"]}
{"id": "C97", "title": "Statistics and sigmoid kernels are positive semi-definite", "statement": "The kernel matrix of the logistic, Silverman, Epanechnikov, quartic, triweight, tricube, uniform and sigmoid kernels is positive semi-definite on every finite set of points, as KPCA and LS-SVM require.", "quantifier": "all finite point sets, dimensions, distances, bandwidths and coefficient vectors", "why_tests_cant": "All sizes and coefficient vectors; a violation needs a particular configuration of points.", "anchors": ["kerch/kernel/statistics/epanechnikov.py", "kerch/kernel/statistics/exponential.py", "kerch/kernel/statistics/logistic.py", "kerch/kernel/statistics/quartic.py", "kerch/kernel/statistics/silverman.py", "kerch/kernel/statistics/triangular.py", "kerch/kernel/statistics/tricube.py", "kerch/kernel/statistics/triweight.py", "kerch/kernel/statistics/uniform.py", "kerch/kernel/generic/sigmoid.py"]}
{"id": "C98", "title": "Stacked random features are the composition of their layers on the current sample", "statement": "The features of a point in a stack of random features are those of its layers one after the other, each relative to the features of the current sample in the layers before; their pre-image is the point when the layers are invertible.", "quantifier": "all numbers of layers, samples, points and histories of sample initialisations, updates and selections", "why_tests_cant": "Histories of sample changes; the features stay plausible when stale.", "anchors": ["kerch/kernel/random_features/rf_stacked.py: RFStacked.init_sample, _append, _explicit, _explicit_preimage"]}
{"id": "C99", "title": "The hyper-parameters reported are those of the module", "statement": "hparams_fixed and hparams_variable of a kernel or level report its own values: under 'Kernel' the kernel itself, every value that may be trained among the variable ones and none of these among the fixed ones, all entries of its parents; a model reports the entries of all its levels, each under a name of its own, and nothing else.", "quantifier": "every model with any number of levels, class names and entries; every kernel class of the package and every class a user derives from one", "why_tests_cant": "a test reads the report of a few modules; that no two entries of a model of any depth collide, and what any derived class reports, are statements on all of them", "anchors": ["kerch/feature/module.py: Module.hparams_fixed, Module.hparams_variable", "kerch/model/Model.py: Model.hparams_fixed, Model.hparams_variable, Model.losses, Model.watched_properties", "kerch/kernel/distance/_distance.py: hparams_fixed, hparams_variable", "kerch/kernel/generic/cosine.py: hparams_fixed", "kerch/kernel/generic/laplacian.py: hparams_fixed", "kerch/kernel/generic/linear.py: hparams_fixed", "kerch/kernel/generic/polynomial.py: hparams_fixed, hparams_variable", "kerch/kernel/generic/rbf.py: hparams_fixed", "kerch/kernel/generic/sigmoid.py: hparams_fixed, hparams_variable", "kerch/kernel/generic/wasserstein.py: hparams_fixed", "kerch/kernel/network/explicit_nn.py: hparams_fixed", "kerch/kernel/network/implicit_nn.py: hparams_fixed", "kerch/kernel/random_features/random_features.py: hparams_variable", "kerch/kernel/random_features/rf_arcsinh.py: hparams_fixed", "kerch/kernel/random_features/rf_hyperbola.py: hparams_fixed", "kerch/kernel/random_features/rf_lrelu.py: hparams_fixed", "kerch/kernel/random_features/rf_stacked.py: hparams_fixed", "kerch/kernel/random_features/rff.py: hparams_fixed", "kerch/kernel/statistics/epanechnikov.py: hparams_fixed, hparams_variable", "kerch/kernel/statistics/exponential.py: hparams_fixed", "kerch/kernel/statistics/logistic.py: hparams_fixed, hparams_variable", "kerch/kernel/statistics/quartic.py: hparams_fixed, hparams_variable", "kerch/kernel/statistics/silverman.py: hparams_fixed, hparams_variable", "kerch/kernel/statistics/triangular.py: hparams_fixed, hparams_variable", "kerch/kernel/statistics/tricube.py: hparams_fixed, hparams_variable", "kerch/kernel/statistics/triweight.py: hparams_fixed, hparams_variable", "kerch/kernel/statistics/uniform.py: hparams_fixed, hparams_variable", "kerch/kernel/time/hat.py: hparams_fixed, hparams_variable", "kerch/kernel/time/indicator.py: hparams_fixed, hparams_variable", "kerch/kernel/vision/additive_chi_2.py: hparams_fixed, hparams_variable", "kerch/kernel/vision/skewed_chi_2.py: hparams_fixed, hparams_variable", "kerch/level/_Level.py: hparams_fixed", "kerch/level/_View.py: hparams_fixed"]}
{"id": "C100", "title": "The bias of a view is the one last given and enters its output", "statement": "A view with requires_bias=True can be built; after view.bias = v with a scalar or a vector of dim_output entries, view.bias is that vector (a scalar being repeated), other values are refused without effect; the output is the one without bias plus sqrt(kappa) times the bias; bias_trainable=True makes it trainable.", "quantifier": "every output dimension, every value given, every history of assignments of the bias, of requires_bias and of the trainability, and backward passes", "why_tests_cant": "histories of assignments and gradients are unbounded; tests fix one", "anchors": ["kerch/level/single_view/View.py: View.__init__, View.bias, View.requires_bias, View.bias_trainable, View._init_bias, View._forward"]}
{"id": "C101", "title": "An explicit neural kernel is the inner product of its encoder, and its decoder reconstructs from the features", "statement": "A kernel built on an encoder network gives k(x,y) = <e(x), e(y)>; its networks are trained exactly if asked for by the documented argument; the decoder is applied to the features; reconstruction loss and explicit pre-image use it; without decoder the request is refused.", "quantifier": "every encoder and decoder, all data of any size, all combinations of arguments", "why_tests_cant": "tests fix networks and data; that a kernel with any encoder behaves as an inner product and that a documented argument has an effect in all combinations are universal", "anchors": ["kerch/kernel/network/explicit_nn.py: ExplicitNN"]}
{"id": "C102", "title": "In training mode each level of a model works on what the previous one gives for the selected points", "statement": "In training mode model() gives the composition of the levels on the selected points of the sample, each level keeping at these points, and there only, what it received, hard levels being fitted to it; after an epoch the samples of the deeper levels are what the previous level gives on its sample; the training sample is not changed by calls; a model may be initialised at any time and fitted again.", "quantifier": "models of any depth, soft and hard levels, samples of any size, every sequence of batches", "why_tests_cant": "depth, batches and their order are unbounded; tests use one or two levels and one partition", "anchors": ["kerch/model/Model.py: Model.forward, Model.init_sample, Model.init_levels, Model.stochastic", "kerch/feature/sample.py: Sample.update_sample, Sample.num_sample", "kerch/train/Trainer.py: Trainer._init_fit, Trainer.fit"]}
{"id": "C103", "title": "The gradient used to train a model is that of its loss", "statement": "For every level with a soft constraint, the gradient with which the trainer descends is the derivative of model.loss() after a pass, as a function of the parameters of that level.", "quantifier": "models of any depth, all levels whose output and loss are differentiable, all parameters and data", "why_tests_cant": "a test compares gradients at a point for given levels; the relation between the two is needed for all of them, and optimisers converge even with a wrong gradient", "anchors": ["kerch/model/Model.py: Model.forward, Model.loss", "kerch/feature/sample.py: Sample.update_sample", "kerch/train/Trainer.py: Trainer.fit"]}
{"id": "C104", "title": "The kernel with infinitely many random weights is the limit of those with finitely many", "statement": "With num_weights='inf' a kernel of random Fourier or leaky rectifier features evaluates, at every pair of points, to what the kernel with n independently drawn weights tends to as n grows; it is positive semi-definite.", "quantifier": "all pairs of points of any dimension, all bandwidths and slopes, almost all sequences of weights", "why_tests_cant": "a limit over a random sequence, for all points: a test draws finitely many weights once and compares up to a tolerance", "anchors": ["kerch/kernel/random_features/random_features.py: RandomFeatures.num_weights, RandomFeatures._implicit, RandomFeatures.closed_form_kernel", "kerch/kernel/random_features/rff.py: RFF.closed_form_kernel", "kerch/kernel/random_features/rf_lrelu.py: RFLReLU.closed_form_kernel"]}
{"id": "C105", "title": "A level can be fitted again, and everything then comes from the last fit", "statement": "Whatever was done before (fits in primal or dual, assignments of data, of the output dimension, of selected points, reads of the weights), calling solve() on a KPCA or LS-SVM level with any data succeeds, and the parameters, values and weights read afterwards are those of the solution for the present data, as many as asked for.", "quantifier": "all histories of operations on a level, all data of any number of points, all numbers of components asked for and found", "why_tests_cant": "whether a fit can be stored depends on the shapes left by the entire history; a test fits once, or twice on data of the same size", "anchors": ["kerch/level/_KPCA.py: _KPCA._solve_primal, _KPCA._solve_dual, _KPCA.sqrt_vals, _KPCA.W, _KPCA.vals", "kerch/level/_View.py: _View.update_dual, _View.dual_param, _View.primal_param, _View.dim_output", "kerch/level/single_view/LSSVM.py: LSSVM._solve_dual"]}
{"id": "C106", "title": "Correlations, projectors and draws of a KPCA level", "statement": "After a fit the correlation of the parameters is the identity and their projector is the orthogonal projector on the components, recognised by the documented criterion that its determinant is one; draw_phi returns independent samples of the fitted Gaussian model, draw_k the kernel values of samples of the same model, and h(phi, k) takes exactly one of its arguments.", "quantifier": "all data, decompositions, numbers of components and of draws", "why_tests_cant": "the law of a random draw, for all data: a test compares empirical moments of finitely many draws up to a tolerance", "anchors": ["kerch/level/_View.py: _View.dual_correlation, _View.primal_correlation, _View.dual_projector, _View.primal_projector", "kerch/level/_KPCA.py: _KPCA.h, _KPCA.draw_h, _KPCA.draw_phi, _KPCA.draw_k, _KPCA.phi_map, _KPCA.k_map"]}
{"id": "C107", "title": "The optimisers on the sphere keep every row of a parameter on it and descend along it", "statement": "Along every history of gradients and learning rates, SGDG and AdamG with grassmann=True keep each row of a parameter on the unit sphere, honour the orthogonality factor given to the constructor, transport their momentum as tangent vectors without changing its length, and on a great circle do what gradient descent with momentum, respectively Adam, does on the angle.", "quantifier": "all parameters of any number of rows in any inner product space, all sequences of gradients and learning rates, all momenta, clippings and factors", "why_tests_cant": "a drift of the rows only shows over unboundedly long runs, and each step depends on all earlier gradients through the momentum", "anchors": ["kerch/opt/stiefel/grassmann_optimizer.py: SGDG.step, AdamG.step, SGDG.__init__, AdamG.__init__", "kerch/opt/stiefel/gutils.py: unit, gproj, gexp, gpt, gpt2, clip_by_norm, xTy"]}
{"id": "C108", "title": "An assigned hyper-parameter is what everything computed afterwards uses", "statement": "After assigning a bandwidth, lag, shape, slope, weights or parameters of an activation, or training them, every feature matrix, covariance and kernel matrix that is read is the one of the current values; refused values change nothing; parameters accepted one by one stay jointly admissible; assigning None returns to the heuristic.", "quantifier": "all histories of readings, assignments, selections, training steps and resets, all cache levels, all kernels described by their features or kernel function, all parameters of the hyperbola", "why_tests_cant": "whether a stale matrix is returned depends on the whole history of readings and assignments and on the cache level", "anchors": ["kerch/kernel/distance/_distance.py: sigma", "kerch/kernel/time/hat.py: lag, lag_trainable", "kerch/kernel/time/indicator.py: lag, gamma, lag_trainable", "kerch/kernel/vision/skewed_chi_2.py: p", "kerch/kernel/random_features/random_features.py: sigma, weights, num_weights, after_step", "kerch/kernel/random_features/rf_lrelu.py: alpha", "kerch/kernel/random_features/rf_hyperbola.py: alpha, beta, gamma, delta", "kerch/kernel/generic/sigmoid.py: params_trainable", "kerch/kernel/kernel.py: _phi, _C, _K"]}
{"id": "C109", "title": "Any level on any kernel is a consistent class with the behaviour of both", "statement": "Asking for a level on a kernel class, of the package or of the user, creates a class whose method resolution order exists and contains both orders; methods of the level win, kernel computations are those of the kernel alone, every initialiser of both runs exactly once; the object can be constructed exactly when no abstract method remains, and parameters of the kernel and of the level with the same name do not interfere.", "quantifier": "all class declarations built by inheritance, all kernel classes deriving from the kernels of the package (also of the user), the level classes with one view, all attribute names", "why_tests_cant": "users may derive arbitrary kernel classes; the linearisation, the remaining abstract methods and the calls to super depend on the whole hierarchy", "anchors": ["kerch/level/single_view/View.py: View.__new__", "kerch/level/factory.py", "kerch/kernel/_factory.py", "kerch/kernel/distance/select_distance.py: SelectDistance.__new__", "kerch/level/_View.py: H, W", "kerch/level/_Level.py: after_step", "kerch/level/single_view/LSSVM.py: gamma, __init__", "kerch/kernel/random_features/rf_hyperbola.py: gamma", "kerch/kernel/time/indicator.py: __init__"]}
{"id": "C110", "title": "A Nystrom kernel works on the points it is given", "statement": "After any history of samples, selections (idx, prop), evaluations and changes of dimension, a Nystrom kernel decomposes its base kernel on exactly the points currently selected, transformed once, and treats an argument equal to one of these points as that point; it can be created before its sample is known.", "quantifier": "all samples, all selections of them, all transforms of the sample, all histories of init_sample, stochastic, evaluations and dim", "why_tests_cant": "the selection and the transforms are kept twice, by the kernel and by its base kernel; whether they agree depends on the whole history and on which indices are drawn", "anchors": ["kerch/kernel/nystrom.py: Nystrom.__init__, init_sample, _compute_decomposition, _explicit_with_none, dim", "kerch/feature/sample.py: Sample.init_sample, current_sample, current_sample_projected, transform_input", "kerch/feature/stochastic.py: Stochastic.stochastic", "kerch/utils/math.py: eigs"]}
{"id": "C111", "title": "A hyper-parameter declared trainable receives the derivative of the loss", "statement": "After evaluating a kernel matrix and calling backward on any loss of it, the grad of every trainable hyper-parameter of the kernel (bandwidth, degree, offset, slope, lag, diagonal, weights) is the derivative of the loss with respect to that hyper-parameter, wherever this derivative exists.", "quantifier": "all statistics kernels with all distances, sigmoid, polynomial, skewed chi-squared, hat, indicator and random features kernels, all samples of any size and dimension, all values of the hyper-parameters, all losses (all upstream gradients)", "why_tests_cant": "a gradient check compares numbers at sampled points of functions chosen by the test; the points where a recorded operation has no derivative (the diagonal) or where a parameter silently leaves the recorded computation are exactly those such tests avoid", "anchors": ["kerch/kernel/distance/_distance.py: _Distance._sigma_fact", "kerch/kernel/distance/distance_squared.py: DistanceSquared._dist_sigma, _square_dist_sigma", "kerch/kernel/distance/distance.py: Distance._dist_sigma, _square_dist_sigma", "kerch/kernel/statistics/epanechnikov.py: _implicit", "kerch/kernel/statistics/exponential.py: _implicit", "kerch/kernel/statistics/logistic.py: _implicit", "kerch/kernel/statistics/quartic.py: _implicit", "kerch/kernel/statistics/silverman.py: _implicit", "kerch/kernel/statistics/triangular.py: _implicit", "kerch/kernel/statistics/tricube.py: _implicit", "kerch/kernel/statistics/triweight.py: _implicit", "kerch/kernel/statistics/uniform.py: _implicit", "kerch/kernel/generic/polynomial.py: Polynomial.alpha, beta, explicit, _phi_fun, _implicit", "kerch/kernel/generic/sigmoid.py: Sigmoid._implicit", "kerch/kernel/vision/skewed_chi_2.py: SkewedChi2._implicit", "kerch/kernel/time/hat.py: Hat._implicit", "kerch/kernel/time/indicator.py: Indicator._implicit", "kerch/kernel/random_features/random_features.py: RandomFeatures.sigma, _explicit", "kerch/kernel/kernel.py: Kernel._K"]}
{"id": "C112", "title": "A call that cannot be served is refused, exactly then, and without effect", "statement": "A call that the state of the object or its arguments make impossible (a model with a level that has no sample, no parameters or a selection beyond its sample, a model without level, a target of a wrong size, an unknown representation, a bias of unknown dimension, a negative weight of a view, saving every 0 epochs, a level that fits nowhere in the network, the preimage of a network without decoder, an eigenvalue problem with more pairs than rows, views of different sizes or no known view, reverting a normalisation that was not recorded) raises an exception of the same kind in all such states, leaves the object as it was, and no other call is refused by these checks.", "quantifier": "all states of the objects, all arguments, any number of levels, views and epochs", "why_tests_cant": "a test of a refusal picks one wrong argument in one state; that no wrong argument slips through, no right one is refused and no refused call leaves a trace ranges over all states and all arguments", "anchors": ["kerch/model/Model.py: Model.forward, init_sample, init_levels, _append_level", "kerch/model/RKM.py: RKM.__init__", "kerch/level/single_view/View.py: View.bias, init_bias, __init__ (kappa)", "kerch/level/_Level.py: _Level.target, solve", "kerch/level/multi_view/MultiView.py: MultiView", "kerch/level/multi_view/MVKPCA.py: MVKPCA.predict", "kerch/monitor/Saver.py: Saver.update", "kerch/kernel/network/explicit_nn.py: ExplicitNN._explicit_preimage", "kerch/utils/math.py: eigs", "kerch/kernel/distance/_distance.py", "kerch/kernel/distance/chebyshev.py", "kerch/kernel/distance/distance.py", "kerch/kernel/distance/distance_squared.py", "kerch/kernel/distance/euclidean.py", "kerch/kernel/distance/manhattan.py", "kerch/kernel/distance/minkowski.py", "kerch/kernel/distance/select_distance.py", "kerch/kernel/distance/wasserstein.py", "kerch/transform/Transform.py: revert", "kerch/transform/TransformTree.py: revert"]}
{"id": "C113", "title": "A trainable sample is trained: every loss is that of the current sample and differentiates with respect to it", "statement": "With sample_trainable=True, after any sequence of evaluations (also under torch.no_grad()), assignments of the bandwidth, calls of backward and steps of an optimiser, the kernel matrix is that of the current sample and bandwidth, and calling backward on any loss of it gives the sample (and a trainable bandwidth) the derivative at the current values.", "quantifier": "all histories of readings, assignments, backward calls, optimiser steps, updates and resets; all distances, kernels of a distance, heuristics, losses, samples; all cache levels", "why_tests_cant": "a test differentiates once, from a fresh kernel; what was evaluated before, in which gradient mode, and which parts of the recorded graph survive in the cache varies over all histories", "anchors": ["kerch/feature/sample.py: Sample.sample_trainable, current_sample_projected, _sample_transform, update_sample", "kerch/feature/stochastic.py: Stochastic.stochastic", "kerch/kernel/distance/_distance.py: _Distance.sigma", "kerch/kernel/distance/distance.py: Distance._sample_dist, _determine_sigma, _dist_sigma", "kerch/kernel/distance/distance_squared.py: DistanceSquared._sample_square_dist, _determine_sigma, _square_dist_sigma", "kerch/kernel/kernel.py: Kernel._K", "kerch/feature/cache.py: Cache._get, _save"]}
{"id": "C114", "title": "What the optimiser changes is what the level uses", "statement": "After an Optimizer has been made for a level, each of its steps changes the values the level uses (its sample, its bandwidth, and its parameters in the current representation), whatever values have been assigned to the level in between.", "quantifier": "all levels KPCA and LSSVM in both representations with any trainable flags, all histories of assignments and updates before and after the making of the optimiser, all rules of update, all shapes", "why_tests_cant": "a test makes an optimiser and steps; which of the assignments made in any order in between replace the tensor and which write into it depends on the history of shapes", "anchors": ["kerch/opt/Optimizer.py: Optimizer.__init__, param_state, step", "kerch/level/_View.py: dual_param, primal_param, update_dual, dim_output, _reset_dual", "kerch/level/single_view/View.py: bias, _reset_primal", "kerch/level/single_view/LSSVM.py: _euclidean_parameters", "kerch/level/_KPCA.py: _stiefel_parameters", "kerch/feature/sample.py: init_sample, update_sample", "kerch/kernel/distance/_distance.py: sigma"]}
{"id": "C115", "title": "Loading the saved state of a level restores its behaviour", "statement": "b.load_state_dict(a.state_dict()) for two levels made with the same arguments succeeds, and b then shows the bandwidth, kernel matrix and output of a, whatever has been done with both before.", "quantifier": "all kernels of a distance, heuristics, samples and parameters; all histories of evaluations and assignments of both levels before saving and loading", "why_tests_cant": "a test saves and loads once; what is kept outside of the parameters (the cache, whether the bandwidth is defined, the shape it has) depends on the whole history of both objects", "anchors": ["kerch/monitor/Watcher.py: save_model", "kerch/kernel/distance/_distance.py: _Distance.__init__, sigma", "kerch/kernel/distance/distance_squared.py: DistanceSquared._determine_sigma", "kerch/utils/cast.py: castf", "kerch/level/_View.py: _View.__init__, dual_param", "kerch/kernel/kernel.py: Kernel._K", "kerch/feature/sample.py: init_sample, update_sample"]}
{"id": "C116", "title": "Normalised kernel values are numbers with ones on the diagonal", "statement": "For every kernel and sample, the values of a kernel with centring and normalisation are numbers (never NaN), and the value of a point with itself after normalisation is 1 unless its squared norm is negligible.", "quantifier": "all symmetric kernels, samples, batches and lists of centrings and normalisations", "why_tests_cant": "NaN appears only where a squared norm after centring is negative, which depends on the kernel being positive semi-definite on all samples; a test with an RBF kernel never meets it", "anchors": ["kerch/transform/all/Sphere.py: UnitSphereNormalization", "kerch/transform/all/MeanCentering.py: MeanCentering", "kerch/kernel/kernel.py: Kernel.k, Kernel._implicit", "kerch/kernel/statistics/uniform.py: Uniform"]}
{"id": "C117", "title": "What is asked of a model is done to all its parts", "statement": "train, eval, stochastic, reset, the porting functions of torch (to, double, ...), zero_grad, parameters, the logging level and the access by number, called on a model, act on the model and all its levels and their parts, and return what torch's return.", "quantifier": "all trees of modules and models, any number and depth of levels, any selection, any state of the parts", "why_tests_cant": "a test looks at one model after one call; that no part is forgotten is a statement on all trees, and a forgotten part shows no error", "anchors": ["kerch/model/Model.py: Model.train, Model.stochastic, Model.reset, Model.level, Model.levels", "kerch/feature/stochastic.py: Stochastic.train, Stochastic.stochastic", "kerch/feature/cache.py: Cache.reset, Cache._apply", "kerch/feature/module.py: Module.logging_level"]}
{"id": "C118", "title": "A kernel is centred and normalised exactly when it says so", "statement": "The properties centered and normalized of a kernel are true exactly when the kernel (with its default transforms) is centred on its sample, i.e. its features and its values against the sample sum to zero, respectively when the value of each point with itself is 1.", "quantifier": "all kernels, default transforms, options center and normalize, samples and points out of sample", "why_tests_cant": "a test compares the two properties with the values for a few kernels; that the announcement agrees with the values is a statement on all kernels, lists of transforms and samples", "anchors": ["kerch/kernel/kernel.py: Kernel.centered, Kernel.normalized, Kernel._simplify_transform, Kernel.__init__", "kerch/transform/TransformTree.py: TransformTree.final_transform", "kerch/kernel/statistics/silverman.py: Silverman._naturally_normalized", "kerch/kernel/statistics/logistic.py: Logistic", "kerch/level/single_view/KPCA.py: KPCA.__init__"]}
{"id": "C119", "title": "The order of the sample does not matter", "statement": "Giving the same sample (with its targets or observations) in another order reorders the rows of what is computed on the sample and changes nothing else: features and kernel matrices with any transforms, the default bandwidth, the covariance, the predictions of an LS-SVM, the variances explained and the scores of a kernel PCA, the nearest neighbours and the smoother return the same.", "quantifier": "all bijections of the indices, kernels, feature maps, lists of transforms, samples, points out of sample, targets, decompositions returned by eigh and selections returned by topk", "why_tests_cant": "a test shuffles a few samples; that no computation depends on the order holds for all n! orders of every sample, and the exceptions (equal distances, multiple eigenvalues) do not show up on random data", "anchors": ["kerch/transform/TransformTree.py: TransformTree", "kerch/kernel/distance/distance_squared.py: DistanceSquared._determine_sigma", "kerch/kernel/kernel.py: Kernel.K, Kernel.C", "kerch/level/single_view/LSSVM.py: LSSVM._solve_dual", "kerch/level/_KPCA.py: _KPCA._solve_dual", "kerch/method/_knn.py: knn", "kerch/method/_smoother.py: smoother"]}
{"id": "C120", "title": "Units and origin of the data do not matter where they are normalised", "statement": "Changing the unit and the origin of the data changes nothing to the values of a distance kernel whose bandwidth is not given, to standardised or range-normalised data, to centred features or kernels (origin, or any function of each argument added to the kernel) and to normalised ones (any positive factor of each point), on the sample and out of sample, whatever transforms follow.", "quantifier": "all kernels, samples, points, units (positive factors, per coordinate or per point), origins and lists of further transforms", "why_tests_cant": "a test rescales a few data sets; the invariance is over a continuum of units and all samples, and it breaks only near the threshold EPS of the normalisations", "anchors": ["kerch/kernel/distance/distance_squared.py: DistanceSquared._determine_sigma", "kerch/kernel/statistics", "kerch/transform/all/MeanCentering.py: MeanCentering", "kerch/transform/all/Variance.py: UnitVarianceNormalization", "kerch/transform/all/MinMaxNormalization.py: MinMaxNormalization", "kerch/transform/all/Sphere.py: UnitSphereNormalization", "kerch/kernel/generic/cosine.py: Cosine", "kerch/utils/type.py: EPS"]}
{"id": "C121", "title": "Gamma trades the fit of a LS-SVM for smoothness, monotonically", "statement": "For a LS-SVM fitted in dual representation, the residual at a training point is gamma times its dual variable and the residuals sum to zero; a greater gamma never gives a smaller training error nor a larger norm of the function; the error never exceeds that of the mean of the targets; when gamma decreases to zero the outputs tend to the targets if they can be fitted at all, when it increases without bound all outputs tend to the mean of the targets. For a ridge regression the order is the opposite one.", "quantifier": "all positive semi-definite kernel matrices, targets, pairs of positive gammas and evaluation points; limits over all families of solutions", "why_tests_cant": "monotonicity and limits are statements over a continuum of gammas and all data sets", "anchors": ["kerch/level/single_view/LSSVM.py: LSSVM._solve_dual, LSSVM.gamma", "kerch/level/single_view/Ridge.py: Ridge._solve_dual"]}
{"id": "C122", "title": "Outputs of a regression follow the units and the origin of its targets", "statement": "If the targets are multiplied by a factor and shifted by a constant, the outputs of the fitted LS-SVM at every point are multiplied by this factor and shifted by this constant; for a sum of targets the outputs are the sums of the outputs. A ridge regression, without bias, follows the factor.", "quantifier": "all kernels, samples, targets, factors (also zero and negative), shifts, gammas and evaluation points", "why_tests_cant": "the equivariance holds for a continuum of affine changes of all targets", "anchors": ["kerch/level/single_view/LSSVM.py: LSSVM._solve_dual, LSSVM._solve_primal", "kerch/level/single_view/Ridge.py: Ridge._solve_dual", "kerch/level/single_view/View.py: _forward"]}
{"id": "C123", "title": "Repeating the whole data set changes nothing but the weight of the regularisation", "statement": "If every point of the sample is given the same number r of times, the transforms that use the sample (centring, normalisations), kernel values in and out of sample, the covariance of the features and a kernel PCA in primal are the same; the eigenvalues of the kernel matrix are multiplied by r, and the explained variance is the same; a LS-SVM with gamma multiplied by r has the same outputs everywhere.", "quantifier": "all samples, feature maps, kernels, lists of transforms, numbers of repetitions and evaluation points", "why_tests_cant": "ranges over all samples, repetitions and chains of transforms; it fails only for the unit variance transform and for eigenvalues near the threshold", "anchors": ["kerch/transform/all/MeanCentering.py", "kerch/transform/all/MinMaxNormalization.py", "kerch/transform/all/MinimumCentering.py", "kerch/transform/all/Sphere.py", "kerch/transform/all/Variance.py", "kerch/transform/TransformTree.py: TransformTree", "kerch/kernel/kernel.py: Kernel.C", "kerch/level/_KPCA.py: _solve_dual", "kerch/level/single_view/LSSVM.py: _solve_dual", "kerch/utils/math.py: eigs"]}
{"id": "C124", "title": "An interrupted run loses at most the checkpoint being written", "statement": "Whenever a monitored run is interrupted, between any two actions on the file system, every checkpoint completed before is there, whole; while finishing, the last checkpoint is there at every moment, and finishing again after an interruption ends as if there had been none. Finishing after an interrupted save keeps the last whole checkpoint.", "quantifier": "all histories of saves, all crash points, all orders in which files are removed", "why_tests_cant": "a crash point is any position in a history of any length; tests do not interrupt torch.save or os.remove", "anchors": ["kerch/monitor/Watcher.py: Watcher.save_model, Watcher.finish", "kerch/monitor/Saver.py: Saver.update", "kerch/train/Trainer.py: Trainer.fit"]}
{"id": "C125", "title": "Concurrent runs keep their own checkpoints", "statement": "Two monitored runs, whatever the interleaving of their actions, end with the checkpoints they would have had alone.", "quantifier": "all schedules of all pairs of runs, all start times, hosts and experiment names", "why_tests_cant": "schedules and start times are unbounded; the failure needs two runs of the same experiment started within the same second", "anchors": ["kerch/monitor/Watcher.py: Watcher.__init__, Watcher.save_model, Watcher.finish"]}
{"id": "C126", "title": "Watched properties are reported as they were at that moment", "statement": "Names to be watched are refused, with an AssertionError and no effect, when one of them is not an attribute of the level; a report of a model gives every watched name of every level under that level, with the value of that moment, and nothing else; whatever happens afterwards, what was reported remains what it was; reporting raises only what a watched property raises.", "quantifier": "all models of any depth, all attributes, all histories of assignments of watched names, in-place writes (training), assignments of attributes and changes of lists", "why_tests_cant": "the value that changes is one reported earlier, after steps of the optimiser that come later; lists shared with the user and storages shared with parameters need histories", "anchors": ["kerch/level/_Level.py: _Level.watch_properties, _Level.watched_properties", "kerch/model/Model.py: Model.watched_properties", "kerch/monitor/WandB.py: WandB.update"]}
{"id": "C127", "title": "What the bandwidth does", "statement": "For every kernel of distances, a greater bandwidth never decreases a kernel value, and strictly increases that of two distinct points for kernels that are nowhere zero; as the bandwidth goes to zero, the value of any two distinct points goes to zero and the kernel matrix of a sample without repetitions goes to the identity; as it grows, all values go to the one of the diagonal.", "quantifier": "all kernels of distances, all distances, all points in any dimension, all bandwidths", "why_tests_cant": "a statement about limits and about all bandwidths and points; tests see finitely many", "anchors": ["kerch/kernel/statistics/epanechnikov.py: _implicit", "kerch/kernel/statistics/exponential.py: _implicit", "kerch/kernel/statistics/logistic.py: _implicit", "kerch/kernel/statistics/quartic.py: _implicit", "kerch/kernel/statistics/silverman.py: _implicit", "kerch/kernel/statistics/triangular.py: _implicit", "kerch/kernel/statistics/tricube.py: _implicit", "kerch/kernel/statistics/triweight.py: _implicit", "kerch/kernel/statistics/uniform.py: _implicit", "kerch/kernel/distance/distance.py: Distance._dist_sample, Distance.sigma", "kerch/kernel/distance/select_distance.py: SelectDistance", "kerch/kernel/generic/rbf.py: RBF"]}
{"id": "C128", "title": "The coordinates in which the data is given", "statement": "The order of the columns of the data enters no kernel value, no default bandwidth and no transform; rotating, reflecting or isometrically embedding the data changes no value of the kernels of inner products and of Euclidean distances, of their default bandwidth, nor any kernel matrix after transforms; moving the origin changes no value of a kernel of distances.", "quantifier": "all data, all dimensions, all permutations of columns, all isometries, all translations, all kernels, all chains of transforms", "why_tests_cant": "ranges over all isometries of all dimensions and all chains of transforms", "anchors": ["kerch/kernel/generic/polynomial.py: _implicit", "kerch/kernel/generic/sigmoid.py: _implicit", "kerch/kernel/distance/_distance.py: _dist", "kerch/kernel/distance/chebyshev.py: _dist", "kerch/kernel/distance/distance.py: _dist", "kerch/kernel/distance/distance_squared.py: _dist", "kerch/kernel/distance/euclidean.py: _dist", "kerch/kernel/distance/manhattan.py: _dist", "kerch/kernel/distance/minkowski.py: _dist", "kerch/kernel/distance/select_distance.py: _dist", "kerch/kernel/distance/wasserstein.py: _dist", "kerch/kernel/distance/distance_squared.py: DistanceSquared._determine_sigma", "kerch/transform/TransformTree.py: TransformTree", "kerch/transform/all/MeanCentering.py", "kerch/transform/all/MinMaxNormalization.py", "kerch/transform/all/MinimumCentering.py", "kerch/transform/all/Sphere.py", "kerch/transform/all/Variance.py"]}
{"id": "C129", "title": "Adding and leaving out training points", "statement": "For a trained LS-SVM or ridge regression: leaving a training point out never brings the model closer to it; adding a point that is already predicted exactly changes neither parameters nor predictions; a training point without weight can be left out; centring the kernel matrix changes no prediction of a LS-SVM.", "quantifier": "all positive semi-definite kernels, all training data, all targets, all regularisations, all points added or left out", "why_tests_cant": "relates two fits on different data sets for all of them", "anchors": ["kerch/level/single_view/LSSVM.py: LSSVM._solve_dual, LSSVM._solve_primal", "kerch/level/single_view/Ridge.py: Ridge._solve_dual", "kerch/transform/all/MeanCentering.py: mean"]}
{"id": "C130", "title": "Fitting more components keeps the first ones", "statement": "Asking for more components of the same matrix gives the values already obtained for the components in common, each component with a value of its own is the same up to its sign, and what the first components represent of any vector is the same whenever the next value is smaller, whichever method computes each of the two.", "quantifier": "all symmetric matrices, all numbers of components, all outcomes of the iterative method", "why_tests_cant": "the two calls may run different algorithms; ranges over all matrices and all their outcomes", "anchors": ["kerch/utils/math.py: eigs", "kerch/level/_KPCA.py: _KPCA._solve_primal, _KPCA._solve_dual"]}
{"id": "C131", "title": "Kernel values are inner products", "statement": "For a positive semi-definite kernel, values after any centrings and normalisations are bounded by the lengths of the two points, the distances they define satisfy the triangle inequality, all values are in [-1,1] after a normalisation, centring changes no distance and puts the origin at the mean of the sample, and for kernels of distances the neighbours in feature space are those of the data.", "quantifier": "all positive semi-definite kernels, all samples, batches and points, all chains of centrings and normalisations", "why_tests_cant": "inequalities over all triples of points and all chains of transforms", "anchors": ["kerch/kernel/kernel.py: Kernel.k, Kernel.K", "kerch/transform/all/Sphere.py", "kerch/transform/all/MeanCentering.py", "kerch/kernel/statistics/epanechnikov.py: _implicit", "kerch/kernel/statistics/exponential.py: _implicit", "kerch/kernel/statistics/logistic.py: _implicit", "kerch/kernel/statistics/quartic.py: _implicit", "kerch/kernel/statistics/silverman.py: _implicit", "kerch/kernel/statistics/triangular.py: _implicit", "kerch/kernel/statistics/tricube.py: _implicit", "kerch/kernel/statistics/triweight.py: _implicit", "kerch/kernel/statistics/uniform.py: _implicit"]}
{"id": "C132", "title": "Pre-images from coefficients", "statement": "The functions of kerch.preimage return, for every point, the mean of the points with the greatest coefficients, weighted by these (smoother), respectively their plain mean (knn); hence nothing outside the range of the points for coefficients that are not negative, and the same for a point alone and in a batch; a wrong number of coefficients is refused.", "quantifier": "all coefficients, all points, all numbers of neighbours, all ways of breaking ties, all batches", "why_tests_cant": "ranges over all coefficients and batches; the branch taken depends on the number of neighbours", "anchors": ["kerch/preimage/smoother.py: smoother", "kerch/preimage/knn.py: knn", "kerch/preimage/iterative.py: iterative", "kerch/preimage/ridge_regression.py: ridge_regression"]}
{"id": "C133", "title": "A fitted probabilistic PCA is the most likely one", "statement": "After fit() of a PPCA level, no other weights (with as many components) and no other noise give the features of the sample a greater likelihood; with as many components as features the covariance of the model is the one of the sample and no covariance at all is more likely; primal and dual fits agree on this.", "quantifier": "all features of all samples, all eigendecompositions that may be returned, all numbers of components, all competing weights and noises", "why_tests_cant": "ranges over all competing models of a continuum, and over all samples", "anchors": ["kerch/level/single_view/PPCA.py: PPCA._solve_dual, PPCA._solve_primal", "kerch/level/_PPCA.py: _PPCA"]}
{"id": "C134", "title": "More points never mean less variance to explain", "statement": "Fitting a KPCA level on more points never decreases num_idx * vals of any component, nor what the kept components capture in total (num_idx * model_variance(normalize=False)), nor what they leave out; with m points less, a component never falls below the one m ranks further of the whole sample. This holds with plain kernels and with centred ones, in both representations.", "quantifier": "all samples, all parts of them in any order, all positive semi-definite kernels of fixed parameters, centred or not, all eigendecompositions that may be returned, all numbers of components", "why_tests_cant": "ranges over all samples and all parts of them; a test has a few", "anchors": ["kerch/level/_KPCA.py: _KPCA._solve_dual, _KPCA._solve_primal, _KPCA.model_variance", "kerch/level/_View.py: _View.C"]}
{"id": "C135", "title": "A Nystrom kernel approximates its base kernel from below, and better with more dimensions and points", "statement": "For a positive semi-definite base kernel, the difference between the base kernel and its Nystrom kernel is itself positive semi-definite: k(x,x) is approximated from below, the error between two points is at most the geometric mean of the errors at each, points approximated exactly have exact values with all others and points of the sample are such when the dimension is not limited. A greater dim, or more points in the sample with unlimited dim, never increases the error.", "quantifier": "all positive semi-definite base kernels, all samples, all dimensions, all eigendecompositions that may be returned, all points of the space at which it is evaluated", "why_tests_cant": "ranges over all points of the space, not only over the sample on which the kernel was built", "anchors": ["kerch/kernel/nystrom.py: Nystrom._compute_decomposition, Nystrom._explicit_with_none, Nystrom.dim"]}
{"id": "C136", "title": "Small changes of the data mean small changes of the results", "statement": "Moving points by at most eps changes the values of a distance kernel by a bounded multiple of eps / sigma, and each explained variance (vals) of a KPCA level by at most the greatest change of the kernel matrix. Changing the targets of a LS-SVM changes fitted values and residuals by no more in total, and the prediction at any point by a bounded multiple; changing the kernel matrix changes its dual variables by a bounded multiple. The components found follow too.", "quantifier": "all statistics kernels and distances, all bandwidths, all samples and all displacements of their points, all positive semi-definite kernels, all targets, all points of prediction", "why_tests_cant": "a bound on all perturbations of all samples cannot be sampled", "anchors": ["kerch/kernel/statistics/epanechnikov.py", "kerch/kernel/statistics/exponential.py", "kerch/kernel/statistics/logistic.py", "kerch/kernel/statistics/quartic.py", "kerch/kernel/statistics/silverman.py", "kerch/kernel/statistics/triangular.py", "kerch/kernel/statistics/tricube.py", "kerch/kernel/statistics/triweight.py", "kerch/kernel/statistics/uniform.py", "kerch/level/single_view/LSSVM.py: LSSVM._solve_dual", "kerch/level/_KPCA.py: _KPCA._solve_dual"]}
{"id": "C137", "title": "A constant input feature changes nothing", "statement": "Adding to all points a feature of one and the same value changes neither the kernels on distances nor the bandwidth computed from the sample; the transforms of the inputs leave it constant and leave the other features as they are without it (with the unit sphere, once the inputs are centred); linear kernels differ by a constant that the centring of the kernel matrix removes; a LS-SVM on a linear kernel has the same solutions and predictions.", "quantifier": "all samples, all dimensions, all values of the feature, all sequences of transforms, all statistics kernels and distances, all points of prediction", "why_tests_cant": "an equality over all samples, transforms and constants", "anchors": ["kerch/transform/all/MeanCentering.py", "kerch/transform/all/MinMaxNormalization.py", "kerch/transform/all/MinimumCentering.py", "kerch/transform/all/Sphere.py", "kerch/transform/all/Variance.py", "kerch/kernel/distance/_distance.py", "kerch/kernel/generic/linear.py", "kerch/level/single_view/LSSVM.py"]}
{"id": "C138", "title": "Figures show what they are asked to show", "statement": "A function of kerch.plot.matplotlib draws the matrix it is given (or the inner products it announces) on the axes given, over what was there, with its title and the labels of its axes exactly if labels were asked for; eigenvalues are drawn as one bar each, in their order; a scatter plot of a view shows each point in use at its two features, coloured by target if there are targets, over a heat map of the forward pass if asked for.", "quantifier": "all matrices, all lists of eigenvalues, all axes and what is drawn on them, all views, with or without targets, with all or some of their points in use", "why_tests_cant": "figures are looked at, not compared; the statement is over all matrices, spectra and views", "anchors": ["kerch/plot/matplotlib.py: _plot_matrix, plot_K, plot_hidden_correlation, plot_eigenvalues", "kerch/monitor/module.py: scatter"]}
{"id": "C139", "title": "A data set split by proportions is split", "statement": "A holder of data given a data set and proportions holds training, validation and test sets that have the announced sizes, rows with their own labels, no row in common, and together all rows; so do the folds it gives. What cannot be split is refused and changes nothing.", "quantifier": "all data sets with or without labels, all proportions, all permutations drawn", "why_tests_cant": "holds for every permutation drawn and every size and proportion, rounding included", "anchors": ["kerch/_dataholder.py: _DataHolder.set_data_prop, set_data_training_test, _get_fold, _split_data"]}
{"id": "C140", "title": "A file describes an experiment", "statement": "Running an experiment file builds data, model and trainer each from its own section, in this order, trains, and gives the result of the training; if anything cannot be built, nothing is trained and the exception is the one raised there. The experiment bears the name of its file, different files have different experiments, and what is written goes to a directory of that name below `kerch`.", "quantifier": "all contents of the file, all sections and keywords, all outcomes of the steps, all file names and paths", "why_tests_cant": "all failures at all steps, all names", "anchors": ["kerch/script/expe.py: run", "kerch/script/_parser.py: get_kwargs", "kerch/monitor/Watcher.py: Watcher.dir_project"]}
{"id": "C141", "title": "Projections and retractions of the Stiefel manifold", "statement": "stiefel_proj_tan and stiefel_proj_norm split a direction into a tangent and a normal part: at a matrix with orthonormal rows the tangent part is the closest tangent direction, tangent directions stay as they are, and the normal part is orthogonal to all of them. polar_retraction gives the closest matrix with orthonormal rows and leaves such matrices as they are. stiefel_transport moves directions to the tangent space of a point.", "quantifier": "all sizes, all matrices and directions, all singular value decompositions, tensors on the processor and on the GPU", "why_tests_cant": "best approximation among all tangent directions and all orthonormal matrices", "anchors": ["kerch/opt/stiefel/gutils.py: stiefel_proj_tan, stiefel_proj_norm, polar_retraction, stiefel_transport"]}
{"id": "C142", "title": "Generated data sets lie where announced", "statement": "The points of TwoMoons are on the two half circles given by the separation; with the default separation and no noise no point has two labels; the range of the set has all the points whose noise is within two standard deviations; negative noise and separations that are not pairs are refused. No point of Spiral has two labels and the range of the set has all its points.", "quantifier": "all numbers of points, noise levels, separations and draws of the noise", "why_tests_cant": "the claims depend on the number of points and on the draws; the spirals meet only from some number of points on", "anchors": ["kerch/data/datasets.py: TwoMoons, Spiral"]}
{"id": "C143", "title": "What a training reports", "statement": "At the end of each epoch Trainer.fit reports, once and in order, the objective and the errors on the training, validation and test sets. The errors are the mean squared errors of the predictions by the model at that time with all its sample points, whatever the batches; the objective is that of the same model. Labels of the wrong size are refused before anything is trained. If nothing is trainable, all epochs report the same. The model given back is that of the last report, in evaluation mode; an exception does not leave the model in evaluation mode in the middle of its training. A set without points is not reported as predicted perfectly.", "quantifier": "all models, learning sets, batches and numbers of epochs", "why_tests_cant": "histories of epochs and batches of any length, any model", "anchors": ["kerch/train/Trainer.py: fit, _problem_loss, _init_fit", "kerch/opt/Optimizer.py: step", "kerch/level/single_view/View.py: target"]}
{"id": "C144", "title": "Which distances a statistics kernel can be used with", "statement": "With the Euclidean, Manhattan and Chebyshev distances every statistics kernel has a value, whose matrix is positive semi-definite on all finite sets of points in exactly these cases: exponential kernels with the Euclidean distance (squared or not) and with the Manhattan distance (not squared) in all dimensions; the exponential kernel (not squared) with the Chebyshev distance up to two dimensions; the logistic kernel with the Euclidean distance; the Silverman kernel with the Euclidean distance up to three dimensions; these and the triangular kernel with all three distances in one dimension; no others (Epanechnikov, quartic, triweight, tricube, uniform: never). With the Minkowski distance no kernel has a value.", "quantifier": "all statistics kernels, distances, dimensions, bandwidths, finite point sets and coefficient vectors", "why_tests_cant": "positive semi-definiteness ranges over all finite sets of points and coefficients; the boundary between the dimensions needs both a proof and a particular configuration", "anchors": ["kerch/kernel/statistics/epanechnikov.py: _implicit", "kerch/kernel/statistics/exponential.py: _implicit", "kerch/kernel/statistics/logistic.py: _implicit", "kerch/kernel/statistics/quartic.py: _implicit", "kerch/kernel/statistics/silverman.py: _implicit", "kerch/kernel/statistics/triangular.py: _implicit", "kerch/kernel/statistics/tricube.py: _implicit", "kerch/kernel/statistics/triweight.py: _implicit", "kerch/kernel/statistics/uniform.py: _implicit", "kerch/kernel/distance/_distance.py: _dist, _square_dist", "kerch/kernel/distance/chebyshev.py: _dist", "kerch/kernel/distance/distance.py: _dist, _square_dist", "kerch/kernel/distance/distance_squared.py: _dist, _square_dist", "kerch/kernel/distance/euclidean.py: _dist, _square_dist", "kerch/kernel/distance/manhattan.py: _dist", "kerch/kernel/distance/minkowski.py: _dist", "kerch/kernel/distance/select_distance.py: _dist", "kerch/kernel/distance/wasserstein.py: _dist"]}
{"id": "C145", "title": "The degrees for which a polynomial kernel is a kernel", "statement": "The documentation only asks the degree alpha of the polynomial kernel to be non-negative. With a natural degree the kernel has a value between all points, and it is positive semi-definite on all finite sets of points as soon as beta is non-negative. With another degree it should have a value between all points and give positive semi-definite matrices too.", "quantifier": "all real degrees, all beta, all dimensions, finite point sets and coefficient vectors", "why_tests_cant": "positive semi-definiteness ranges over all finite sets of points and coefficients; every pair of points passes, and the number of points that shows the failure grows with the degree", "anchors": ["kerch/kernel/generic/polynomial.py: Polynomial._implicit, alpha, beta"]}
{"id": "C146", "title": "Kernels that tell all points apart", "statement": "With the RBF, Laplacian and the other statistics kernels, in exactly the cases where their matrices are positive semi-definite, the kernel matrix of pairwise different points is positive definite: all its eigenvalues are positive, any targets are reached by exactly one vector of coefficients, the outputs of a LS-SVM tend to the targets as gamma decreases to zero, and centring the kernel loses exactly one component. A Nystrom kernel of full dimension therefore reproduces it on the sample. Every kernel should do so.", "quantifier": "all statistics kernels, distances, dimensions, bandwidths, finite sets of pairwise different points, targets and coefficient vectors", "why_tests_cant": "the statement is about all finite sets of different points; numerically such matrices are often close to singular, so that no sample of point sets settles it", "anchors": ["kerch/kernel/statistics/epanechnikov.py: _implicit", "kerch/kernel/statistics/exponential.py: _implicit", "kerch/kernel/statistics/logistic.py: _implicit", "kerch/kernel/statistics/quartic.py: _implicit", "kerch/kernel/statistics/silverman.py: _implicit", "kerch/kernel/statistics/triangular.py: _implicit", "kerch/kernel/statistics/tricube.py: _implicit", "kerch/kernel/statistics/triweight.py: _implicit", "kerch/kernel/statistics/uniform.py: _implicit", "kerch/kernel/generic/rbf.py", "kerch/kernel/generic/laplacian.py", "kerch/kernel/nystrom.py", "kerch/level/single_view/LSSVM.py: _solve_dual"]}
{"id": "C147", "title": "What an object says about itself", "statement": "str() and repr() of every kernel, of every level on any kernel (also a kernel class of the user) and of a restricted kernel machine succeed and say what the object is: a kernel says its own name, no two kernels of different classes say the same, a level says its name and then word for word what its kernel says, the values of the parameters and the distance are shown, a machine prints one line per level in order, the transforms are listed in the order in which they are applied. Printing never fails for an undefined bandwidth and does not determine it.", "quantifier": "all kernel classes of the package, all distances, all levels, all kernel classes of a user built on the package, all values of the parameters, all numbers of levels and transforms", "why_tests_cant": "which text is printed is decided by the linearisation of a class created at run time out of a level, a kernel and a distance class; the kernel classes of users are unlimited", "anchors": ["kerch/level/single_view/View.py: __str__, kernel", "kerch/level/single_view/KPCA.py: __str__", "kerch/level/single_view/LSSVM.py: __str__", "kerch/kernel/distance/_distance.py: __str__", "kerch/kernel/distance/chebyshev.py: __str__", "kerch/kernel/distance/euclidean.py: __str__", "kerch/kernel/distance/manhattan.py: __str__", "kerch/kernel/distance/minkowski.py: __str__", "kerch/kernel/distance/select_distance.py: __str__", "kerch/kernel/distance/wasserstein.py: __str__", "kerch/kernel/generic/cosine.py: __str__", "kerch/kernel/generic/laplacian.py: __str__", "kerch/kernel/generic/linear.py: __str__", "kerch/kernel/generic/polynomial.py: __str__", "kerch/kernel/generic/rbf.py: __str__", "kerch/kernel/generic/sigmoid.py: __str__", "kerch/kernel/generic/wasserstein.py: __str__", "kerch/kernel/network/explicit_nn.py: __str__", "kerch/kernel/network/implicit_nn.py: __str__", "kerch/kernel/random_features/random_features.py: __str__", "kerch/kernel/random_features/rf_arcsinh.py: __str__", "kerch/kernel/random_features/rf_hyperbola.py: __str__", "kerch/kernel/random_features/rf_lrelu.py: __str__", "kerch/kernel/random_features/rf_stacked.py: __str__", "kerch/kernel/random_features/rff.py: __str__", "kerch/kernel/statistics/epanechnikov.py: __str__", "kerch/kernel/statistics/exponential.py: __str__", "kerch/kernel/statistics/logistic.py: __str__", "kerch/kernel/statistics/quartic.py: __str__", "kerch/kernel/statistics/silverman.py: __str__", "kerch/kernel/statistics/triangular.py: __str__", "kerch/kernel/statistics/tricube.py: __str__", "kerch/kernel/statistics/triweight.py: __str__", "kerch/kernel/statistics/uniform.py: __str__", "kerch/kernel/time/hat.py: __str__", "kerch/kernel/time/indicator.py: __str__", "kerch/kernel/vision/additive_chi_2.py: __str__", "kerch/kernel/vision/skewed_chi_2.py: __str__", "kerch/feature/module.py: __repr__", "kerch/model/RKM.py: __str__", "kerch/model/LSSVM.py: __str__", "kerch/model/KPCA.py: __init__", "kerch/transform/TransformTree.py: __str__", "kerch/transform/Transform.py: __str__", "kerch/utils/cast.py: capitalize_only_first"]}
{"id": "C148", "title": "How much each target counts", "statement": "The output of a LS-SVM fitted in dual representation is, at every point, a weighted sum of the training targets with weights that do not depend on the targets and sum up to one. Two training points influence one another equally. Raising a target raises the output at its point, by at least its share and by no more than the change. The effective number of parameters (the sum of the influences of the points on themselves) lies between one and the number of points, is at most one more than the feature dimension, decreases as gamma grows, and tends to one and to the number of points at the ends. The error of the model fitted without a point is the error of the full model divided by one minus the influence of the point on itself. Outputs should stay between the targets.", "quantifier": "all positive semi-definite kernel matrices, gamma > 0, sample sizes, targets and points of evaluation", "why_tests_cant": "statements about all data sets, targets and values of gamma, including limits in gamma", "anchors": ["kerch/level/single_view/LSSVM.py: _solve_dual", "kerch/level/single_view/View.py: _forward, forward", "kerch/level/_View.py: phiw"]}
{"id": "C149", "title": "Time and histogram kernels that tell all points apart", "statement": "The hat kernel gives a positive definite matrix on any pairwise different times, regular or not, exactly for lags above minus one. The indicator kernel with its default gamma does so on pairwise different integer times, and the skewed chi-square kernel on pairwise different points whose shifted entries are not smaller than the guard of the division. The additive chi-square kernel identifies exactly the combinations of histograms with the same weight on every non-zero value of every feature. Where the matrix is positive definite any targets are reached by exactly one vector of coefficients, and the outputs of a LS-SVM tend to the targets as gamma decreases to zero. The indicator kernel should be positive semi-definite on all times and the additive kernel should tell all histograms apart.", "quantifier": "all lags and gammas, dimensions, finite sets of pairwise different times or points, coefficient vectors and targets", "why_tests_cant": "positive definiteness ranges over all finite sets of points and all coefficients; the sets on which the indicator kernel fails grow with gamma", "anchors": ["kerch/kernel/time/hat.py: Hat._implicit", "kerch/kernel/time/indicator.py: Indicator._implicit, gamma", "kerch/kernel/vision/skewed_chi_2.py: SkewedChi2._implicit", "kerch/kernel/vision/additive_chi_2.py: AdditiveChi2._implicit"]}
{"id": "C150", "title": "Exceptions say what happened and where", "statement": "An exception of the package names the class of the object it comes from and says the message it is raised with, or the standard message of its class if there is none, whichever way the arguments are given. The standard messages tell the classes of exceptions apart, and the class and the message can be read from the text. This should hold at every place of the package where such an exception is raised.", "quantifier": "all classes of exceptions, names of classes, messages, ways of giving the arguments, and all places of the package raising one", "why_tests_cant": "ranges over all names, messages and argument lists; the texts on rare error paths are not looked at by tests", "anchors": ["kerch/utils/errors.py: KerchError, ImplicitError, ExplicitError, RepresentationError, BijectionError, NotInitializedError, MultiViewError", "kerch/utils/cast.py: check_representation", "kerch/kernel/implicit.py: explicit_preimage", "kerch/kernel/_base_kernel.py: _phi", "kerch/kernel/network/explicit_nn.py: _explicit_preimage"]}
{"id": "C151", "title": "Training a LS-SVM by gradient leads to its fit", "statement": "Training a LS-SVM on its whole sample with the loss it reports, at a learning rate below two over the curvature of that loss, leads from every start to the fit whose regularisation is one over gamma: after k epochs the loss is at most a multiple of 1/k above the least one, the bias and the output at every point tend to those of the fit (and all parameters if the kernel matrix is positive definite), neither the distance to the fit nor, once the parameters are centred, the loss ever grows, and training rests exactly at parameters with the least loss. The curvature is bounded by the entries of the kernel matrix. At too large a rate the loss grows beyond all bounds.", "quantifier": "all positive semi-definite kernels, samples, targets, values of gamma, learning rates, initial parameters and numbers of epochs", "why_tests_cant": "convergence and rates are statements about infinitely many epochs, for every start, sample and rate; a test sees finitely many epochs of one run", "anchors": ["kerch/level/single_view/LSSVM.py: loss, _loss_regularization, _loss_mse, _euclidean_parameters, after_step, _center_hidden", "kerch/train/Trainer.py: fit", "kerch/opt/stiefel/stiefel_optimizer.py: SGDG.step"]}
{"id": "C152", "title": "What the choice of the distance changes", "statement": "The distances a kernel can be made with are distances: symmetric, zero between equal points only, and no way round is shorter. The Chebyshev distance is at most the Euclidean one and that at most the Manhattan one, up to the factor of the number of dimensions; the bandwidths found for a sample are in this order and, at equal bandwidth, the kernel values in the opposite one. In one dimension the choice makes no difference. Similarity follows a way: with the exponential of the distance it is at least the product along it, and with kernels of bounded support the reach adds up.", "quantifier": "all points, dimensions, samples, bandwidths, distances and kernels of a distance", "why_tests_cant": "inequalities between real functions for every pair and triple of points in every dimension", "anchors": ["kerch/kernel/distance/euclidean.py: Euclidean._square_dist", "kerch/kernel/distance/manhattan.py: Manhattan._dist", "kerch/kernel/distance/chebyshev.py: Chebyshev._dist", "kerch/kernel/distance/minkowski.py: Minkowski._dist", "kerch/kernel/distance/select_distance.py: SelectDistance", "kerch/kernel/distance/distance.py: _determine_sigma", "kerch/kernel/statistics/exponential.py: Exponential._implicit"]}
{"id": "C153", "title": "Groups of points that do not see each other", "statement": "When points of different groups have kernel value zero, as with kernels of bounded support and groups further apart than the bandwidth, each method treats the groups on their own. In ridge regression the dual variables of a group, and the outputs at points that see only this group, depend on its targets only. In kernel PCA a component whose eigenvalue occurs once lies in one group and points that see other groups only have no part in it. The smoother uses the observations of the group seen only. Normalising the kernel keeps groups apart. An LS-SVM gives a point that sees nobody the bias, and ties the groups by nothing but the bias. Expected and not true: that centring the kernel keeps groups apart, and that LS-SVM outputs do not depend on targets of other groups.", "quantifier": "all samples, groups, kernel matrices, targets, observations and regularisations", "why_tests_cant": "it is about every grouping of every sample and every change of the targets of the other groups", "anchors": ["kerch/level/single_view/LSSVM.py: LSSVM", "kerch/level/single_view/Ridge.py: Ridge", "kerch/level/single_view/KPCA.py: KPCA", "kerch/method/_smoother.py: smoother", "kerch/kernel/statistics/triangular.py: Triangular", "kerch/kernel/distance/select_distance.py: SelectDistance", "kerch/transform/all/Sphere.py", "kerch/transform/all/MeanCentering.py"]}
{"id": "C154", "title": "Momentum, weight decay and what can be trained at all", "statement": "A step of an optimiser without momentum moves every trainable parameter that has a gradient down the gradient of the loss plus the penalty of the weight decay, by the learning rate of its group, and changes no other parameter; outside the Stiefel manifold the two types of optimisers do the same. With momentum the moves are those of the sum of fading gradients, which tends to a learning rate divided by one minus the momentum under a constant gradient. Expected and not true: that momentum can be asked for with the type 'sgd' (every step raises and nothing moves), that the options of a group are those used for its parameters, that hyper-parameters of kernels given as numbers can be trained (the step raises after having moved the Euclidean parameters), that weight decay counts once per step when several batches make an epoch, that Nesterov's variant without momentum is refused.", "quantifier": "all modules, groups, options, shapes, gradients and numbers of steps", "why_tests_cant": "it ranges over every history of gradients, every shape of parameter and every order in which groups are visited", "anchors": ["kerch/opt/stiefel/stiefel_optimizer.py: SGDG.step", "kerch/opt/stiefel/stiefel_optimizer.py: AdamG.step", "kerch/opt/Optimizer.py: Optimizer", "kerch/kernel/distance/_distance.py: sigma", "kerch/kernel/generic/polynomial.py: Polynomial"]}
{"id": "C155", "title": "What printing a cache shows", "statement": "Printing the cache of an object writes one line for each entry to be shown, in the order they were stored, with its key, the name of the level it was stored under, whether it persists and its value; below come, for each shown entry holding a tree of transforms, its key in capitals and the entries of the tree, each transform before those after it. Without asking for private entries the printout is that of the same cache freed of every entry beginning with an underscore, in the trees too. What is shown can be read back from the printout if values print on one line. Expected and not true: that every cache can be printed (an entry with an empty key raises an IndexError and the rest is missing), that different entries print differently (a value on several lines looks like several entries).", "quantifier": "all caches, keys, levels, values and trees of transforms, private entries asked for or not", "why_tests_cant": "caches of every content and trees of every depth and width would have to be printed", "anchors": ["kerch/feature/cache.py: Cache.print_cache", "kerch/feature/cache.py: Cache.cache_keys", "kerch/transform/Transform.py: Transform.print_cache", "kerch/utils/dict.py: reverse_dict"]}
{"id": "C156", "title": "One object used by several threads", "statement": "Several threads that evaluate elements of the same object (kernel matrices, features, outputs) get the values a single thread would get, in the order they asked, without exception, however their steps are interleaved; none of them waits for another, so each comes to its end. This remains so through any history in which the sample, the hyper-parameters and the cache are changed while no evaluation is under way. Expected of a module shared by threads and not true: that the cache can be reset while another thread evaluates (KeyError), that an assignment made meanwhile is followed by values of the new sample or hyper-parameter (the former value can stay in the cache for good, even if the evaluation was not interrupted), that two assignments are both made (one may raise a KeyError and be lost), that the cache can be printed or its level changed meanwhile (RuntimeError).", "quantifier": "all numbers of threads, all schedules, all elements built from other elements, all cache levels and histories of assignments and resets", "why_tests_cant": "the interleavings are chosen by the interpreter and cannot be enumerated nor provoked at will", "anchors": ["kerch/feature/cache.py: Cache._get", "kerch/feature/cache.py: Cache._save", "kerch/feature/cache.py: Cache._reset_cache", "kerch/feature/cache.py: Cache.print_cache", "kerch/kernel/distance/_distance.py: sigma", "kerch/feature/sample.py: Sample.update_sample"]}
{"id": "C157", "title": "A call interrupted at any point leaves the object usable", "statement": "If evaluations, resets, printouts or assignments of hyper-parameters are interrupted at any point (KeyboardInterrupt, an exception inside), everything evaluated afterwards is right for the sample and hyper-parameters the object then has, and no exception comes from what was left behind; an interrupted assignment has been made or not made. Expected and not true: the same of update_sample, which writes the new values before it resets the cache; interrupted in between, the object keeps giving what was computed on the former sample.", "quantifier": "all histories of calls, all points at which each is interrupted, all elements built from other elements", "why_tests_cant": "an interruption can come at any of the steps of any call of any history", "anchors": ["kerch/feature/cache.py: Cache._get", "kerch/feature/cache.py: Cache._reset_cache", "kerch/kernel/distance/_distance.py: sigma", "kerch/kernel/time/hat.py: lag", "kerch/feature/sample.py: Sample.update_sample"]}
{"id": "C158", "title": "What it takes to get the same results again", "statement": "Two runs of the same calls on the same objects give the same results, exceptions included, if the generators the calls draw from start in the same states: torch's for random samples, random weights, proportions of a sample, noise and latent draws, Python's for shuffled splits and for steps of the optimisers with Stiefel parameters, numpy's for the Gaussians data set. A generator none of the calls draws from is left as it was. A proportion costs one draw however many parts the object has. Expected and not true: seeding torch is enough for splits, for Stiefel steps and for the Gaussians; a call that raises draws nothing (draw_k of a PPCA level with a mean).", "quantifier": "all histories of calls, all states of the three generators, all behaviours of the generators", "why_tests_cant": "a test compares a few seeds; the states of the generators that are not seeded are arbitrary", "anchors": ["kerch/feature/stochastic.py: Stochastic.stochastic", "kerch/feature/sample.py: Sample.init_sample", "kerch/kernel/random_features/random_features.py: num_weights", "kerch/data/_LearningSet.py: _LearningSet._indices", "kerch/data/datasets.py: TwoMoons, Gaussians", "kerch/opt/stiefel/stiefel_optimizer.py: SGDG.step, AdamG.step", "kerch/level/_PPCA.py: draw_h, draw_k"]}
{"id": "C159", "title": "A LS-SVM is a ridge regression on centred data", "statement": "Fitted in dual representation, a LS-SVM at gamma and a ridge regression at 1/gamma on the centred kernel with centred targets have the same dual variables, and at every point the output of the LS-SVM is the mean of the targets plus that of the ridge regression. A constant feature given to a ridge regression instead of a bias receives a part between zero and the bias of the LS-SVM; the greater the constant, the closer the outputs, with an error of at most a multiple of one over its square.", "quantifier": "all kernels and transforms before the centring, all samples and targets, all gamma, all further points, all constants", "why_tests_cant": "an identity between two solvers over all data; the limit takes all constants", "anchors": ["kerch/level/single_view/LSSVM.py: LSSVM._solve_dual", "kerch/level/single_view/Ridge.py: Ridge._solve_dual", "kerch/transform/all/MeanCentering.py: MeanCentering"]}
{"id": "C160", "title": "How much each target counts in a ridge regression", "statement": "A ridge regression fitted in dual representation fits every target in exactly one way. Its output at every point is a weighted sum of the training targets with weights that do not depend on them. Two training points count equally for each other, never more than one half; a point counts for itself at least zero and less than one, the more the greater gamma, all together no more than there are features. The squares of the outputs never sum up to more than those of the targets. The error at a point of the regression fitted without it is its error divided by one minus what the point counts for itself.", "quantifier": "all positive semi-definite kernel matrices, all targets, all gamma > 0, all further points", "why_tests_cant": "inequalities and identities over all data sets; the leave-one-out identity compares fits on different samples", "anchors": ["kerch/level/single_view/Ridge.py: Ridge._solve_dual", "kerch/level/single_view/View.py: View._forward"]}
{"id": "C161", "title": "How many components a fit keeps", "statement": "A KPCA level fitted in dual representation and the explicit dimension of a Nystrom kernel never exceed the dimension asked for, the number of points, the number of different points and the number of features; with a centred kernel there is one less than different points, none if the sample repeats a single point. A fit in primal keeps at most as many as one in dual. Expected and not true: both keep the same number (the threshold is applied to matrices of different scale).", "quantifier": "all kernels, samples with repetitions, dimensions asked for, and decompositions an eigensolver may return", "why_tests_cant": "degenerate samples of every size and every choice the eigensolver has among equal eigenvalues", "anchors": ["kerch/level/_KPCA.py: _KPCA._solve_dual, _KPCA._solve_primal", "kerch/kernel/nystrom.py: Nystrom", "kerch/utils/math.py: eigs", "kerch/transform/all/MeanCentering.py: MeanCentering"]}
{"id": "C162", "title": "The outputs of a fitted regression are the best predictions linear in the targets", "statement": "If the targets are values whose second moments are given by the kernel, plus uncorrelated errors of the same variance (1/gamma for a ridge regression, gamma for a LS-SVM), then the output of a ridge regression at any further point has the least mean square error among all predictions linear in the targets, and that of a LS-SVM the least among those with weights that sum up to one, whatever the common mean; any other weights are worse by at least the variance times their squared distance. Weights that do not sum up to one, as those of a ridge regression, miss a part of the mean.", "quantifier": "all samples, kernels, values of gamma, further points, competing weights and random quantities with these moments", "why_tests_cant": "optimality against every competing prediction under every distribution with these moments", "anchors": ["kerch/level/single_view/LSSVM.py: LSSVM._solve_dual", "kerch/level/single_view/Ridge.py: Ridge._solve_dual", "kerch/level/single_view/View.py: View._forward"]}
{"id": "C163", "title": "What a selection selects", "statement": "Indices given to stochastic(idx=...) or idx_sample select the same rows in the module, its parts, its targets and its dual variables, in the order given, repeated and negative ones included, and num_idx is their number; after any history every evaluation on the sample is that of the rows selected now; selecting everything restores the whole sample; rows updated through indices that mean different rows are read back as given, and a refused update has no effect. Expected and not true: indices that no row corresponds to are refused when given (they are accepted and every later evaluation raises); num_idx is the number of rows for masks and slices (it is that of all rows, respectively raises); changing the list afterwards has no effect (what is selected changes and what is cached does not); two values for indices of the same row are refused.", "quantifier": "all samples, parts of all sizes, all lists of integers, masks and slices, all histories of selections, evaluations, updates and changes made by the user to the objects given", "why_tests_cant": "unboundedly many histories and index objects, in particular lists changed after they were given", "anchors": ["kerch/feature/stochastic.py: Stochastic.stochastic, Stochastic.num_idx, Stochastic.idx", "kerch/feature/sample.py: Sample.current_sample, Sample.update_sample, Sample.sample_transform", "kerch/level/single_view/View.py: current_target", "kerch/level/_View.py: dual_param"]}
{"id": "C164", "title": "A result belongs to the object it was asked for", "statement": "After any history of objects made, given to a kernel or a level, forgotten and made anew, possibly at the address of a forgotten one, every evaluation of a kernel at an object is the one for the content of that object; the same holds for forward of a level below the cache level normal, and at normal and above if only tensors are given. The price is that a tensor given to a kernel at the level normal or above stays in memory until the next reset. Expected and not true: forward of a level is right for lists and arrays at the default cache level (its results are kept under the address of an object that nothing refers to, so that a second list at the same address gets the output of the first).", "quantifier": "all histories of creation, release, evaluation and reset, all choices of addresses by the allocator, all contents, kernels and transforms, tensors and other objects", "why_tests_cant": "the address of a new object is chosen by the allocator; a test sees one choice, and reuse of an address depends on everything allocated in between", "anchors": ["kerch/transform/Transform.py: Transform.oos", "kerch/transform/TransformTree.py: TransformTree.apply", "kerch/level/_View.py: forward", "kerch/utils/cast.py: castf", "kerch/feature/sample.py: Sample.transform_input"]}
{"id": "C165", "title": "The settings of a trainer", "statement": "After any history of assignments, fits that return or raise and changes of mode, every setting of a trainer has the value last accepted; an assignment is accepted exactly for the checked values, changes that setting alone, and a refused one changes nothing; a fit that returns has done as many epochs as last accepted, with the learning rates last accepted, for exactly the kinds of parameters there are, and leaves the model in evaluation mode. Expected and not true: what is accepted can be used (a number of epochs that is a float is accepted and every fit then raises; any value passes for a learning rate); a fit that raises has no effect (the model has been initialised anew and stays in training mode).", "quantifier": "all values of all settings, all histories of assignments, fits and failures, all models", "why_tests_cant": "unboundedly many histories; failures at any point of a fit", "anchors": ["kerch/train/Trainer.py: Trainer.problem, Trainer.epochs, Trainer.stiefel_lr, Trainer.euclidean_lr, Trainer.slow_lr, Trainer.fit", "kerch/opt/Optimizer.py: Optimizer"]}
{"id": "C166", "title": "How many random weights are enough", "statement": "A kernel with random features is right in the mean for any number of weights: the expectation of the value for two points is that of the kernel with infinitely many weights (Fourier features everywhere, leaky rectifiers everywhere but at the origin). With n Fourier weights the mean squared error is exactly (1 - k^2)^2 / (2 n), where k is the value with infinitely many weights, so it is halved by doubling num_weights and is zero on the diagonal; an error of eps or more has a probability of at most 2 exp(-n eps^2 / 2); and for N points n >= 2 / eps^2 log(2 N^2 / delta) weights suffice for all entries of the kernel matrix to be within eps up to a probability delta, whatever the dimension, the points and the bandwidth.", "quantifier": "all dimensions, points, bandwidths, numbers of weights and of points, tolerances and probabilities; weights drawn independently from any probability space", "why_tests_cant": "a statement about the distribution of the random weights for every number of them; a test sees finitely many draws", "anchors": ["kerch/kernel/random_features/random_features.py: RandomFeatures.num_weights, RandomFeatures.weights, RandomFeatures._explicit", "kerch/kernel/random_features/rff.py: RFF", "kerch/kernel/random_features/rf_lrelu.py: RFLReLU"]}
{"id": "C167", "title": "What is fitted with random features approaches what is fitted with infinitely many", "statement": "As num_weights grows, almost surely the output at any point of a LS-SVM solved on random Fourier features (or leaky rectifiers, away from the origin) tends to the output of the one solved on the kernel with infinitely many weights, and all variances of a KPCA level tend to those of that kernel. With a given number of weights, n >= 2 / eps^2 log(2 N^2 / delta) for N points, up to a probability delta all variances are off by at most eps and the dual variables by at most N eps / gamma relative to their size.", "quantifier": "all data sets, targets, dimensions, bandwidths, regularisations, further points, tolerances and probabilities; weights drawn independently", "why_tests_cant": "a limit over the number of weights and a statement about the distribution of the weights", "anchors": ["kerch/kernel/random_features/random_features.py: RandomFeatures.num_weights, RandomFeatures._explicit, RandomFeatures._implicit", "kerch/level/single_view/LSSVM.py: LSSVM._solve_dual", "kerch/level/single_view/KPCA.py: KPCA._solve_dual"]}
{"id": "C168", "title": "A random selection is fair", "statement": "stochastic(prop=p) on n points, with an order drawn uniformly: all sets of round(n p) points are equally likely and no other set is ever selected, every point is selected with probability round(n p) / n, and the mean of any quantity over the selection (a loss, a gradient) has the mean over the whole sample as its expectation, from which it differs in mean square by (n - k) / (k n (n - 1)) times the sum of squared deviations for k selected points. Expected and not true: something is selected (with n p <= 1/2 the selection is empty, whatever is drawn).", "quantifier": "all sizes, proportions, module trees and quantities; all orders of the sample", "why_tests_cant": "a statement about all n! orders for every n; a test sees some draws for some sizes", "anchors": ["kerch/feature/stochastic.py: Stochastic.stochastic"]}
{"id": "C169", "title": "Several outputs are fitted as each of them alone", "statement": "A LS-SVM or ridge regression with any number of outputs, fitted by solve(): every output is the one that would be fitted to its targets alone (same dual variables or weights, same bias, same predictions), targets combined linearly have the outputs combined in the same way, whether a fit is refused does not depend on the targets, and with a positive semi-definite kernel, a positive gamma and at least one point the dual fit is never refused; a ridge regression with a positive gamma is never refused, and neither is the primal fit of a LS-SVM with centred features, whose biases are the means of the targets. Expected and not true: the loss minimised by gradient is the sum of the losses of the outputs (gamma is divided by the number of outputs), and the primal fit is refused only where the dual one is.", "quantifier": "all kernels, samples, gammas, targets, numbers of points and outputs, and all linear combinations of targets", "why_tests_cant": "equality of solutions for every matrix, every number of outputs and every combination; tests take some sizes and tolerate rounding", "anchors": ["kerch/level/single_view/LSSVM.py: LSSVM._solve_dual, LSSVM._solve_primal, LSSVM.loss", "kerch/level/single_view/Ridge.py: Ridge._solve_dual, Ridge._solve_primal"]}
