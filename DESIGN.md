# Formal model of kerch: design

Subject: `hdeplaen/kerch`, source in `/repo` (read as text, never run).
Model and proofs: Lean 4.33 with single Mathlib modules, in `/verif/lean/Verif`.
The list of properties is `/verif/properties.jsonl`, the status per property is `/verif/MANIFEST.json`.

Layout: `Model/*` the model (every definition cites the lines of `/repo` it stands for), `Lemmas/*` auxiliary lemmas,
`Props/*` the specifications, the property theorems (`C01_...`) and, beside each, an `example` meeting its hypotheses.
Suffix `_violated`: a theorem showing that the unchanged code breaks the property (mostly an exact characterisation of
what happens instead, with a concrete witness). Suffix `_partial`: what holds nevertheless, under a condition.

## Trusted base

* Lean's kernel. Every property theorem depends on at most the axioms `propext`, `Classical.choice`, `Quot.sound`
  (`tools/axioms.sh` prints them for every theorem of the manifest). No axiom of our own, no `sorry`, no
  `native_decide`, no `bv_decide`.
* The reading of the Python code. The model is hand written; the code is not executed, so nothing but this reading ties
  model and code.
* Arithmetic is exact: tensors are real matrices. Rounding and overflow are not modelled; where the code would produce
  NaN (division by zero) the model has an explicit guard, `none` or an error value. `EPS` is a positive real.
* Python exceptions are values (`Except Err α` or `Option`). The state after an exception is the state reached by the
  statements executed before the raise.
* Torch primitives are modelled by their contract, not by their algorithm: `topk`, `randperm`, `eigh`, `pinv`, `qr`,
  `median` (lower median), `linalg.solve`, `BatchSampler`, `Optimizer.add_param_group`, random draws. Theorems hold for
  every result allowed by the contract (all tie-breakings, all permutations, all eigenbases).
* Torch's backward formulas (`tools/autograd/derivatives.yaml`) are a contract as well (`Autograd`: the hyper-parameters
  of kernels); elsewhere a gradient is a given matrix.
* Not modelled at all: devices and dtypes, logging output, plotting,
  tensorboard / wandb, file formats, command line scripts, multiprocessing.

## What is modelled

| code | model |
|---|---|
| feature/cache.py, utils/defaults.py, docs cache tables | `Dict`, `Cache`, `Memo` (methods reading through the cache), `Defaults`, `CacheLevels`, `Port` (`_apply`), `PrintCache`, `Threads` |
| feature/stochastic.py, feature/sample.py, feature/module.py | `Stochastic`, `Sample` (heap of storages), `Params`, `Repro` (generators), `Selection` (index objects) |
| transform/* | `Names` (resolution of names), `Transforms` (values), `TransformCache` (caches and identity keys), `Identity` (addresses and their reuse) |
| kernel/kernel.py, kernel/_base_kernel.py | `KernelList` (constructor), `KernelMat`, `Polynomial` (evaluation and the polynomial kernel) |
| kernel/{distance,generic,statistics,time,vision} | `KernelFun`, `Bandwidth`, `Time`, `Assign` (setters), `HParams`, `Autograd` (gradients of the hyper-parameters) |
| kernel/nystrom.py, kernel/random_features/* | `Nystrom`, `NystromSel` (selections), `RandomFeatures`, `RFLimit`, `Draw` |
| method/*, preimage/*, implicit and explicit preimage of kernels | `Methods`, `Preimage` |
| level/* | `Level` (parameters and outputs), `Solve` (solve), `KPCA`, `PPCA`, `LSSVM`, `Trainable`, `Subloss`, `ViewScale`, `MultiView` |
| model/{Model,RKM}.py, train/Trainer.py, data/*, monitor/* | `Net`, `Train`, `Data`, `Monitor`, `TrainerSet` (settings of the trainer) |
| opt/Optimizer.py, opt/stiefel/* | `Optimizer`, `Stiefel`, `Grassmann`, `Momentum` |
| utils/{cast,decorators,math}.py, factories | `Cast`, `Eigs`, `Nystrom`, `Factory` |
| feature/logger.py, utils/type.py, package attributes | `Settings` |

Not modelled: `kerch/_*.py`, `model/_view.py`, `model/_kpca.py`, `model/_level.py`, `model/{view,level,ridge}.py`,
`opt/stiefel_old/*`, `monitor/{model,module,rkm}.py` (old modules no public module imports),
`plot/`, `script/`, `monitor/{WandB,Plotter}.py`.

## How the groups are modelled and proved

| property | model | proof |
|---|---|---|
| C01-C07, C63, C78 cache | a dict as association list of `(level, persisting, value)`, `save/get/reset/clean/remove` branch by branch; histories as lists of operations; transform trees hold caches of their own, keyed by object identity | invariants by induction over histories; refinement of the cached module to the uncached one |
| C08-C10 stochastic | module trees (rose trees), the permutation a parameter | induction on trees and histories |
| C11-C13, C64, C65 sample | state machine of `Sample` over a heap with exceptions as values | invariant over histories, frame theorems |
| C14 parameters | generator layers along the class hierarchy plus the memo loop | equality with the order-preserving deduplication of the traversal; exactness by membership |
| C15-C16 names | the name table, the expansion loop, the mutate-while-iterating loop with the list iterator explicit | induction |
| C17-C20 transforms | a path as list of transform kinds, statistics computed stage by stage from the sample; explicit and implicit evaluation | induction over the path |
| C21-C23 lists | `Kernel.__init__`, `_simplify_transform` with the caller's list returned as state | equations and witnesses |
| C24-C26, C39 kernels | pointwise formulas on `Fin d -> Real`, distance classes | real analysis; Schur product theorem and limits for RBF |
| C27-C29 polynomial | `multichoose` as written, feature map, `k`, setters | induction; multinomial theorem |
| C30 bandwidth | lower median of the sorted distances, sigma state machine | order statistics, induction on histories |
| C31-C34 | `C`, `K`, `cov`, `corr`, Nystrom formulas | matrix algebra |
| C35-C37 random features | feature map, activations and inverses, pseudo-inverse by contract, cached pinv as state | algebra, state machine |
| C38 time | hat, indicator | overlap of intervals as Gram representation |
| C40-C42 | strings, dictionaries and shapes as lists | induction |
| C43-C45 | knn/smoother with `topk` by contract, iterative pre-image as state machine with exceptions | finite sums |
| C46-C50, C66, C67, C73, C74 | KPCA / LS-SVM equations, solvers by contract, kappa as state | matrix algebra, Ky Fan inequality |
| C51-C52, C68, C69, C79 | parameter state machine of a view with its cache | invariants |
| C53-C54 | views as lists of blocks | induction on the list of views |
| C55, C72 | model as list of levels with dimensions | invariant over appends |
| C56-C60, C70, C71 | batch sampler, epoch loop, index slicing, checkpoint set, parameter groups | induction on lists |
| C61-C62, C77 | the steps of SGDG / AdamG on real matrices, the Cayley fixed-point loop | matrix algebra, contraction, differentiability |
| C75, C76 | stored identities, recursive port | invariants |
| C80 | listing of the cache | membership |
| C81, C82 | kernels as mixtures of positive kernels | subordination, Schur product |
| C83-C85 | pre-images dispatched by class, explicit maps and inverses as functions | composition, refusals as values |
| C86, C87 | registry of loggers, settings copied at import | induction on histories |
| C88 | `eigs` with the solver by contract | order statistics of the spectrum |
| C89 | `solve` as a state machine with exceptions | invariants, witnesses |
| C90 | PPCA formulas, Cholesky by contract | completion of squares |
| C91-C94 | loss, centring, output without bias of a LS-SVM; ridge systems | matrix algebra, normal equations, witnesses |
| C95 | reconstructions from any decomposition | Eckart-Young by Bessel and rearrangement |
| C96 | projections of multi-view KPCA on matrices | linear algebra, equivalence with the eigenvalues used |
| C97 | profiles of the kernels | Euler product, autocorrelation, alternating grids, limits |
| C98 | layers with their own samples as a state machine | induction on layers and histories |
| C99 | resolution orders with their own entries; dictionary of a model | induction on levels, decimal numerals injective, cases on kernels |
| C100 | bias of a view as a state machine over tensors | induction on histories, witnesses |
| C101 | construction from keywords, encoder/decoder, loss, pre-image of an explicit neural kernel | cases on keywords, sums, witnesses |
| C102 | levels as state machines (sample, selection, parameters), passes in training mode, initialisations | induction on levels and batches, refinement to composition |
| C103 | the recorded computation of a pass with constants where `.data` is written | chain rule, split of the list of levels at any depth, witness |
| C104 | finite kernels, closed forms (NaN as `none`), the law of the weights | strong law of large numbers; characteristic functions, polar coordinates |
| C105 | `copy_` with broadcasting, reset of stored tensors, output dimension, cached roots, as a state machine over all histories | invariants over runs; exact characterisation of when a fit can be stored; violations |
| C106 | correlation, projector, linear maps of standard normal draws | orthogonality of the decomposition; characteristic functions of Gaussian vectors; covariance determined by the law |
| C107 | one step of SGDG and AdamG on rows in an inner product space, with the `eps` of `unit` kept | invariants of all runs bounding the distance to the sphere; refinement to scalar momentum descent and scalar Adam on the angle; violations |
| C108 | the cached quantities of a kernel with what each setter does to the cache; the four setters of the hyperbola; bandwidth, lag and sigmoid setters | refinement of all histories to a kernel without cache where the setters reset it, through the soundness of C01; invariants showing the staleness elsewhere; violations |
| C109 | C3 linearisation, abstract methods, creation and instantiation of classes, the table of all classes of features, kernels and levels with their methods, the chain of super calls | induction over the merge (sublists, uniqueness, agreement of two orders), invariants of all classes built by inheritance, violations |
| C110 | samples, selections and transforms of a Nyström kernel and of its base kernel, each its own | invariants over histories; the shift of arguments computed for centring; violations |
| C111 | the operations torch records while a kernel is evaluated, as expressions over the trainable parameters, and the backward pass over them with non-finite numbers | induction over expressions against Mathlib's `HasDerivAt`; links to the kernel functions; violations |
| C112 | the error branches of the models of the levels, models, views, monitors and networks | case analysis on the conditions under which each call raises, induction over the levels, views and epochs, the state after the refusal compared with the one before |
| C113 | the three entries a kernel of a distance keeps, each with the state of its recorded graph; histories of operations | invariants by induction over histories against a kernel without memory; violations for all samples, losses and levels |
| C114 | the parameter objects of a level, numbered in order of creation, and those held by an optimiser; histories of assignments | simulation by a note of shapes, by induction over histories; violations for all states |
| C115 | the parameters of a level with their shapes, what is not saved (definedness of the bandwidth, cache), loading with the contract of torch | invariant over histories of both levels; exact condition of refusal; violations for all levels |
| C116 | the implicit transform chain with values that may be NaN (square root of a negative number), means propagating NaN | refinement to a pointwise specification by induction over the list; agreement with the model of real values; exact condition; violations |
| C117 | trees of modules whose models hold levels that are no children; train, stochastic, reset, what torch does through children, logging level, level(num) | structural induction over trees; exact condition under which torch sees all parts; violations for all models |
| C118 | the two announcements from the list of default transforms; values and features by the transform chains | statements on all lists by their last element; converse by an invariant of chains on a witness sample; violations |
| C119 | no new model: chains of transforms, bandwidth, LS-SVM systems, eigendecompositions and pre-image methods at a reordered sample | equivariance by induction over chains; uniqueness of solutions, of eigenvalues (characteristic polynomial) and of top-k selections; violations for ties |
| C120 | no new model: bandwidth, statistics kernels and chains of transforms at rescaled data | scaling of medians and column statistics, then induction over the transforms that follow; violations below EPS |
| C121 | no new model: the dual systems of Model/LSSVM and Model/LSSVMTrain at several values of gamma | exact excess of the objective of any other function over the solution; monotonicity from the two optimality inequalities; limits by squeezing |
| C122 | no new model: the same systems with transformed targets | the transformed solution solves the transformed system, uniqueness (C50) |
| C123 | no new model: transforms, covariance, eigendecompositions and dual systems at a sample composed with a map of constant fibre size | sums over fibres, induction over the transforms, characteristic polynomials (`det(XI - QB)` against `det(XI - BQ)`) for the spectrum; violations for unit variance and at the threshold |
| C124 | Model/Crash: `save_model` and `finish` cut into actions on the directory, cut and whole files | a history cut after j actions is j/3 whole saves and the rest of one (induction), removals in any order by invariant on the files left; violation: finishing keeps a cut last file |
| C125 | Model/Crash: names of directories from the time, several runs on a file system | induction over schedules (other directories are untouched), injectivity of the name up to the year; violations for runs in the same second |
| C126 | Model/Watch: attributes read by reference, the memory of tensors and lists, histories | loop invariant of the report, merge of the levels from C99, invariant over histories (watched names remain attributes); violations: a tensor on the cpu is reported by reference, a list changed by its owner is not verified |
| C127 | Model/KernelFun, the profiles of C25 | antitone profiles, limits of the profiles at zero and at infinity; violation: Silverman's kernel |
| C128 | Model/KernelFun, Model/Transforms | invariance of sums under bijections and of inner products under `QᵀQ = 1`, induction over the chain; violations: other distances, normalisations by column |
| C129 | Model/LSSVM, Model/LSSVMTrain | uniqueness of the solution of the saddle system, positivity of the Schur complement; violation: the primal system divides by the number of points |
| C130 | Model/Eigs, specification of C88 | min-max by dimension of the span, orthogonal change of basis; violation: equal values |
| C131 | Model/Transforms, Model/KernelFun | 2x2 and 3x3 minors of a positive semi-definite chain (C26), discriminants; violations: points of small norm after a normalisation, the sigmoid kernel |
| C132 | Model/PreimageFun: sorting by contract, slices, the two branches of the smoother, what knn raises | bijection of the indices kept, weighted means; violations: the branch of all neighbours normalises over the batch, knn always raises |
| C133 | Model/PPCALik (primal), Model/PPCA (dual): sigma, hidden, weight; likelihood specified with Gaussian densities | trace inequality (Birkhoff and rearrangement), Weinstein-Aronszajn for determinants; fits are the most likely ones iff sigma (d - k) = n - k, exact loss otherwise; violations: the noise is a variance used as a standard deviation, the primal divides by num_idx twice |
| C134 | Model/KPCA (levelK, levelC, modelVarD) | Cauchy interlacing by a dimension count on eigenvectors with additional linear conditions; centred features through combinations of null sum |
| C135 | Model/Nystrom (EigDecomp, oosPhi) | projection in the space of formal combinations of points; comparison of the combination at which the approximation is reached; the condition on the dimension is needed (C135_limited) |
| C136 | Model/KernelFun (statKernel), Model/LSSVM (DualSol), eigendecompositions by contract | Lipschitz constants of the profiles, triangle inequalities, Weyl's inequality through interlacing, energy identity of the dual system and Cauchy-Schwarz in the space of combinations; violations: the uniform kernel jumps, components may turn by a right angle |
| C137 | Model/KernelFun (statKernel, linearKernel), Model/Bandwidth, Model/Transforms, Model/LSSVM | induction on the transforms with the statistics of a constant column; C120_added for the centred matrix; the dual variables sum to zero. Beyond: the uncentred polynomial kernel does see it, and a point out of sample with another value is at 1/EPS times the difference |
| C138 | Model/Figures: axes as what is drawn on them, `_plot_matrix`, the nine functions on matrices, `plot_eigenvalues`, `scatter` with its heat map; matplotlib by contract | case analysis over the functions, permutation of the bars; violations: labels are never displayed (condition reversed), all bars at one abscissa, a single eigenvalue refused, views without targets or with some points in use raise, a heat map is never drawn |
| C139 | Model/Holder: `_split_data` with its loop and Python's rounding, the setters, folds; the permutation drawn is an argument | rows and labels traced to places of the permutation; monotonicity of the rounding; violations: the start of the slices is never moved, so that of any two sets the smaller is the beginning of the greater, validation and test sets coincide by default and rows are lost. No other module of the package uses this class |
| C140 | Model/Script: `run` of expe.py over abstract factories, trainer and training, the name of the experiment, `os.path.join` and the directory of the run | success characterised by a specification of its own, order and stop by case analysis; violations: files `.yml` lose a letter and collide, absolute paths leave `kerch` |
| C141 | Model/Retract: `sym_matrix`, `skew_matrix`, `stiefel_proj_tan`, `stiefel_proj_norm`, `polar_retraction` over `torch.svd` by contract, `stiefel_transport` | algebra of matrices and trace; Pythagoras for the tangent part; Cauchy-Schwarz in the basis of the decomposition for the polar part; violations: `stiefel_proj_tan` raises on the processor, `stiefel_transport` always |
| C142 | Model/Generate: coordinates of `TwoMoons._training` and `Spiral._training` on top of the tagged points of Model/Data, ranges, check of the arguments; normal draws an argument | trigonometric identities and bounds on the sine and cosine; violations: spirals of 17 points or more leave their range, those of 209 points or more share their centre with both labels |
| C143 | Model/Report: `_problem_loss`, `MSELoss` with broadcasting, batches, epochs and `fit` over an abstract model (prediction, loss and update from parameters and selected points) | induction over batches and epochs; algebra of sums of squares; violations: the objective is that of the parameters before the steps, a prediction that raises leaves the evaluation mode, empty sets are reported as zero |
| C144 | the kernels and distances of Model/KernelFun | exact characterisation: spectral density in three dimensions by Fourier inversion (Lemmas/Silverman), non-negative integral of positive semi-definite kernels in four, finite configurations of points for the rest |
| C145 | `_implicit` of the polynomial kernel with real parameters, `none` for NaN | exact characterisation on points of non-negative coordinates: natural degrees only (finite differences of the power, mean value theorem); a NaN partner for every point otherwise; one-dimensional and two-point cases positive |
| C146 | the kernels of Model/KernelFun, centring of Model/Transforms, the dual system of Model/LSSVM, Nystrom of Model/Nystrom | a null vector of a positive semi-definite kernel is null at every further point; independence of characters (RBF, Silverman), kinks at the points (Laplacian, Manhattan), support (triangular), mixtures and products (logistic); the linear and polynomial kernels and repeated or near points as counterexamples |
| C147 | `__str__`, `__repr__` on the linearisations of Model/Classes (Model/Describe): which bodies are executed, what each returns, the text of machines and of transform trees | the bodies executed by a level on a kernel class of the user are those of the level and then those of the kernel (induction on the nesting of calls); prefixes that exclude one another; splitting at line ends. Ridge, the Minkowski distance, the statistics kernels, the Wasserstein kernel, stacked features, the model KPCA and the order of transforms as counterexamples |
| C148 | the dual system and output of Model/LSSVM | superposition of the solutions for unit targets and uniqueness; the quadratic form of the outputs; optimality for monotony in gamma; the trace as a sum of eigenvalues in [0,1] and the rank of a product for the dimension; a fit that already passes through the point left out. A linear kernel as counterexample to outputs between the targets |
| C149 | the kernel functions of Model/KernelFun and the states of Model/Time | fractions with different poles are independent (roots of polynomials), coordinate by coordinate for products; the hat lemma of C146 rescaled; a diagonal added to a positive semi-definite matrix; three clusters of times as counterexample for every gamma; the corners of a rectangle for the additive kernel |
| C150 | Model/Messages: the constructor of the exceptions with Python's binding of arguments, and all calls in the package with what they are written with | case analysis on the forms of calls, a cancellation argument for reading the text back; enumeration of the calls (a finite list from the source) for all names of classes |
| C151 | Model/LSSVMDescent: an epoch of one batch (autograd by its contract as partial derivatives, the Euclidean update of Model/Train, the centring after a step of Model/LSSVMTrain), iterated | the loss is a convex quadratic whose stationary centred point is the dual solution at 1/gamma; every epoch is a non-expansive map towards it, and the losses telescope; induction over epochs; with a centred kernel the bias follows a geometric sequence, which gives the divergence |
| C152 | Model/KernelFun and Model/Bandwidth, as they are | norms of differences; Cauchy-Schwarz for the factors, with the points attaining them; monotonicity of profiles and of lower medians; the triangle inequality for the similarity along a way, and its failure for the squared exponential |
| C153 | Model/LSSVMTrain, KPCA, Methods, Kernels and KernelFun, as they are | restriction of vectors to a group: positive definiteness of the regularised matrix on the difference of two solutions; the expansion of the restricted eigenvector; equality term by term for the smoother; two points for what centring and the bias tie together |
| C154 | Model/Momentum: the two loops of `step` over groups and parameters with the local variables bound on the way, buffers, shapes; the Stiefel branch a parameter | induction over the parameters visited; closed form of the velocity by induction over steps; the groups of `Optim.construct` read through C60 |
| C155 | Model/PrintCache: the loop over the entries with the trees put aside, the recursion over the offspring, texts as lists of characters | induction over the entries, mutual induction over trees; splitting texts at the first bracket and line break |
| C156 | Model/Threads: an interpreter of the steps of any number of threads on a shared object; a step is one access to the attribute `_cache`, to a dictionary or to the inputs; functions of elements are trees of reads and nested `_get` calls | invariant over all schedules (what each pending `_get` will be given); well-founded induction on rank and function for the end of calls; explicit schedules for the violations |
| C157 | Model/Threads: an interrupted call is a thread that makes no further step | the invariant of C156 holds at every point, not only at the end; an assignment before its write only removes; determinism of a thread alone |
| C158 | Model/Repro: three generator states beside the objects, each draw by contract | a call is a function of the objects and of the one generator it needs (case by case), histories by induction; the need of Python's generator is an invariant of the parameters' sizes |
| C159 | Model/LSSVM, LSSVMTrain (dual systems), Transforms (centring) | the columns of a centred matrix sum to zero; energy of the difference of the two solutions |
| C160 | Model/LSSVMTrain (`RidgeDual`, `out`) | symmetry of the solution operator; energy identities; rank of the hat matrix; the fit without a point, extended by zero, fits changed targets |
| C161 | Model/Nystrom (`EigDecomp`, `Kept`), KPCA, Transforms (centring) | the kept eigenvectors are independent and in the range of the matrix; ranks of products; the centring matrix kills the constants |
| C162 | Model/LSSVM, LSSVMTrain (dual systems, outputs) | random quantities as vectors, the weights from C148 and C160, the error is orthogonal to the allowed changes of the weights |
| C163 | Model/Selection (index objects held by reference, `tensor[idx, :]`) | invariant over histories: what is cached comes from the rows selected now; list lemmas for rows meant by integers and masks |
| C164 | Model/Identity (objects, addresses, an allocator choosing any free address, the trees keyed by `id`) | invariant over histories: what is kept is right and refers to its arguments, so that their addresses are not reused; witness for lists given to `forward` |
| C165 | Model/TrainerSet (setters with their checks, order of `fit`, faults) | induction over histories for the value last accepted; case analysis of `fit` |
| C166 | Model/RandomFeatures, weights as independent Gaussian vectors | variance of a sum of pairwise independent terms; Hoeffding's inequality (Mathlib) and a union bound |
| C167 | Model/RandomFeatures, Model/LSSVM, Model/Nystrom (`EigDecomp`) | limits of C104 and bounds of C166 carried through the perturbation bounds of C136 |
| C168 | Model/Stochastic, orders as permutations | counting of permutations by the action on places and on sets |
| C169 | Model/SolveSystem: the systems assembled by concatenation as in the code, any number of outputs | block products, determinants; refinement to the one-output systems of Model/LSSVM |

## Disagreements between code and documentation found while modelling

Proved as `_violated` theorems: see the list per property below. Observed in the text, not stated as theorems:

* `opt/Optimizer.py:15` imports the non-existing `kerch.feature.feature`; `monitor/Local.py` raises at class creation;
  `level/__init__.pyi` re-exports a `Level` its stub lacks; `Saver.__init__(*args)` is called with keywords (TypeError).
* `_PPCA` uses attributes no class has; `KPCA.K_reconstructed`, `C_reconstructed`, `reconstruct` likewise.
* `Model.train` returns `None`, so `eval()` does not return the model; `View._init_bias` uses a missing `_log`.
* `LSSVM()` with its default bias raises AttributeError; `_solve_primal` uses the non-existing `kernel.phi_sample`;
  `Ridge._solve_*` is called without its target.
* `PhiW` always raises RepresentationError; the primal parameter setter compares an untransposed shape.
* `MultiView.__init__` uses an undefined `args`; `MVKPCA.predict` passes `knn` as method.
* `_View.forward` passes a lambda as level key, hence always level `'normal'`; the keys
  `Level_subloss_representation` and `transform_oos_data_(non)default` are not in the table (same effect).
* Sigmoid's `a`, `b` and the `sigma` of random features belong to no manifold kind and are never optimised.
* `AdamG` reads `group['stiefel']` although its default key is `'grassmann'`; the Euclidean branch of SGDG with weight
  decay modifies `p.grad` in place.

## Testing the theorems against wrong programs

`tools/seed.py` applies a wrong edit to a definition of the model in a scratch copy, rebuilds, and records which
theorems fail; the results are in `seeded/LOG.jsonl`. Where an edit survived, a theorem was added or strengthened
(field `tightened`).

## Per property

<!-- per property: begin (tools/design.py) -->
### C01 Caching never changes a result (proved)

* Files: `Props/Cache`
* Proved: `C01_cache_transparent`, `C01_level_irrelevant`, `C01_reset_needed`
* For every admissible history (each state change resets the quantities it affects) reads equal those of an uncached module. C01_reset_needed shows the condition is necessary.

### C02 The cache level bounds what is kept (proved)

* Files: `Props/Cache`, `Props/Exact`
* Proved: `C02_level_bound`, `C02_clean_exact`, `C02_kept_is_reused`, `C02_own_level`, `C02_default`, `C02_clean_own`, `C02_clean_raises`
* Bound for unforced elements under non-lowered level; exact effect of cleaning; reuse of what is kept; a cleaning at a level that is not in the table raises and removes nothing.

### C03 Reset keeps exactly the persisting elements (proved)

* Files: `Props/Cache`
* Proved: `C03_reset_exact`, `C03_reset_empties`, `C03_reset_recursive`, `C03_reset_local`
* One module, recursion over the module tree (through Cache children only), and no effect elsewhere.

### C04 A value read with destroy=True does not stay in the cache; removing a key removes it (partial)

* Files: `Props/Cache`
* Proved in part: `C04_remove_list_partial`, `C04_remove_char_partial`
* Violated by the code: `C04_remove_str_violated`, `C04_destroy_violated`
* The code violates the property for every key that is not one character long; lists and one-character keys are removed exactly.

### C05 Setting cache_level takes effect on everything the module owns (partial)

* Files: `Props/TransformCache`
* Proved in part: `C05_tree_level_reaches_nodes_partial`
* Violated by the code: `C05_owner_level_violated`, `C05_owner_level_observable_violated`
* Setting the level of a tree reaches all its nodes; setting it on the owner does not reach the owned tree (the isinstance test looks at the stored tuple): violation.

### C06 The documented content of each cache level is respected for out-of-sample data (partial)

* Files: `Props/TransformCache`
* Proved in part: `C06_light_nothing_kept_partial`
* Violated by the code: `C06_normal_keeps_violated`, `C06_memory_grows_violated`, `C06_intermediate_kept_violated`
* Nothing is kept at level light and below; at normal statistics of every out-of-sample argument are kept for ever (violation).

### C07 Evaluations reflect the current content of the argument (partial)

* Files: `Props/Refinements`, `Props/TransformCache`
* Proved: `C07_explicit_value`, `C07_implicit_value`
* Proved in part: `C07_current_content_partial`, `C07_explicit_partial`, `C07_implicit_partial`
* Violated by the code: `C07_stale_violated`, `C07_after_error_violated`
* Holds for the first use of an argument object and after cleaning; violated for an argument changed in place, and after an exception.

### C08 Random sub-sampling is without replacement and of the announced size (proved)

* Files: `Props/Stochastic`
* Proved: `C08_proportion`, `C08_all`, `C08_refused`
* Every outcome of the random permutation; rounding specified independently (nearest, ties to even).

### C09 A stochastic selection reaches the whole module tree and eval() undoes it (partial)

* Files: `Props/Stochastic`
* Proved: `C09_reaches`, `C09_eval_full`
* Violated by the code: `C09_not_reached_violated`, `C09_eval_sizes_violated`
* Reach is exactly the modules connected through stochastic modules holding a sample (violation otherwise); eval() selects everything when the samples in the tree have one size (violation otherwise).

### C10 Conflicting stochastic arguments are refused without effect (partial)

* Files: `Props/Stochastic`
* Proved: `C10_no_sample`
* Proved in part: `C10_conflict_partial`
* Violated by the code: `C10_conflict_resets_violated`
* Refused with the selection kept, but the cache is reset before the check (violation).

### C11 update_sample writes exactly the addressed rows (partial)

* Files: `Props/Exact`, `Props/Sample`
* Proved: `C11_addressed`, `C11_update_frame`, `C11_update_sets`, `C11_update_sets_unique`, `C11_refused`, `C11_empty`, `C11_update_all`
* Proved in part: `C11_reads_new_partial`
* Violated by the code: `C11_trainable_violated`
* Any order of the indexed assignment; violated for a trainable sample before the first backward pass (rows written, then AttributeError, cache stale).

### C12 num_sample, dim_input and the sample always agree (partial)

* Files: `Props/Exact`, `Props/Sample`
* Proved: `C12_empty`, `C12_dims`, `C12_current`, `C12_reinit`, `C12_selection_in_range`
* Violated by the code: `C12_failed_init_violated`, `C12_given_idx_violated`
* Dimensions agree for every history; the selection may be out of range after a refused re-initialisation or with given indices (violation).

### C13 Dimensions may be given in any order before the sample exists (partial)

* Files: `Props/Exact`, `Props/Sample`
* Proved: `C13_once`
* Proved in part: `C13_construct_partial`, `C13_complete_partial`, `C13_construct_both_partial`
* Violated by the code: `C13_only_num_violated`
* All orders of assignment work; the constructor with only num_sample raises (violation).

### C14 manifold_parameters yields each parameter of the requested kind exactly once (partial)

* Files: `Props/Exact`, `Props/Params`
* Proved: `C14_order`, `C14_once`, `C14_unknown`
* Proved in part: `C14_classes_partial`, `C14_exact_partial`, `C14_local_partial`
* Violated by the code: `C14_explicit_nn_violated`, `C14_ppca_violated`, `C14_lssvm_violated`, `C14_model_local_violated`
* Exact when every override yields its base class's parameters; ExplicitNN, PPCA, LSSVM (primal) and Model without recursion violate it.

### C15 Consecutive duplicate transforms are merged and nothing else changes (partial)

* Files: `Props/Exact`, `Props/Names`
* Proved in part: `C15_beautify_partial`, `C15_no_repetition_partial`, `C15_single_pair_partial`
* Violated by the code: `C15_triple_violated`, `C15_two_pairs_violated`, `C15_other_lost_violated`
* Lists without adjacent repetitions are kept; one adjacent pair is merged; three in a row, or two pairs, lose or keep wrong elements because the list is modified while iterated (violations).

### C16 Transform names resolve as documented (proved)

* Files: `Props/Names`
* Proved: `C16_names`, `C16_append`, `C16_unknown`
* Every documented name, concatenation of lists, unknown names refused.

### C17 Reverting a transform recovers the data (partial)

* Files: `Props/Transforms`
* Proved: `C17_sphere`
* Proved in part: `C17_revert_apply_partial`, `C17_apply_revert_partial`
* Violated by the code: `C17_single_point_violated`
* All bijective chains, sample and batches, constant columns included; the excluded case (unit variance relative to one point) is a violation; unit sphere anywhere refused.

### C18 Transformed sample has the announced statistics (proved)

* Files: `Props/Transforms`
* Proved: `C18_mean`, `C18_minimum`, `C18_variance`, `C18_minmax`, `C18_range_exists`, `C18_sphere`, `C18_standard`
* Each transform after any chain; degenerate columns and rows covered.

### C19 Centering and normalising the kernel matrix equals doing it on the feature map (partial)

* Files: `Props/Implicit`
* Proved: `C19_centering`, `C19_others_refused`
* Proved in part: `C19_implicit_explicit_partial`
* Violated by the code: `C19_small_norm_violated`
* All chains, all arguments, features null or of norm >= sqrt(EPS) at the normalisations; the guards of the two routes differ below (violation); other transforms refused.

### C20 Out-of-sample results do not depend on the batch they are evaluated in (proved)

* Files: `Props/Implicit`
* Proved: `C20_phi`, `C20_k`, `C20_k_sample`, `C20_phi_sample`
* Parts, permutations and repetitions of batches, sample points given as batch; phi for all chains, k for the chains with an implicit formulation.

### C21 Arguments given by the user are not modified (partial)

* Files: `Props/KernelList`
* Proved in part: `C21_unchanged_partial`
* Violated by the code: `C21_cosine_violated`, `C21_legacy_violated`, `C21_reuse_violated`
* Lists are left unchanged by kernels that require no transform and are not naturally normalized; violated for the cosine kernel, the legacy flags and by reuse of a list.

### C22 Dropping a redundant first normalisation is sound (partial)

* Files: `Props/KernelList`
* Proved: `C22_first_sphere`
* Proved in part: `C22_drop_partial`, `C22_unit_diagonal_partial`
* Violated by the code: `C22_silverman_violated`
* Exact unit diagonal for every announced kernel but Silverman's (violation) and every supported distance.

### C23 The cosine kernel normalises the input first (partial)

* Files: `Props/KernelList`
* Proved: `C23_values`, `C23_actual`
* Proved in part: `C23_same_chain_partial`
* Violated by the code: `C23_order_violated`
* Holds for lists after which the appended normalisation is the same chain; violated otherwise: the normalisation is appended last.

### C24 Kernel matrices are symmetric (proved)

* Files: `Props/KernelFun`
* Proved: `C24_functions`, `C24_chains`, `C24_K`
* All kernel functions, all implicit chains, sample and batches. The y-dropping of Polynomial.k is treated in C28.

### C25 Distance kernels have unit diagonal, values in [0,1] and decrease with the distance (partial)

* Files: `Props/KernelFun`
* Proved: `C25_compact`, `C25_positive`, `C25_dist_defined`
* Proved in part: `C25_decreasing_partial`, `C25_diagonal_partial`
* Violated by the code: `C25_minkowski_violated`, `C25_silverman_violated`
* All announced kernels but Silverman's (violation), all distances but Minkowski's (raises, violation).

### C26 Positive semi-definiteness (partial)

* Files: `Props/PSD`
* Proved: `C26_linear`, `C26_polynomial`, `C26_polynomial_negative`, `C26_rbf`, `C26_explicit`, `C26_centering`
* Proved in part: `C26_implicit_partial`
* Violated by the code: `C26_small_norm_violated`
* Linear, polynomial, RBF; all explicit kernels after all chains; implicit centering and normalising when squared norms are null or >= EPS (violation below).

### C27 The polynomial feature map realises the polynomial kernel (partial)

* Files: `Props/Polynomial`
* Proved: `C27_exponents`, `C27_dim_feature`, `C27_negative`
* Proved in part: `C27_features_partial`
* Violated by the code: `C27_degree_zero_violated`
* All degrees >= 1, all dimensions >= 1, beta >= 0; degree 0 raises (violation).

### C28 k(x,y) depends on y for every kernel (partial)

* Files: `Props/Polynomial`
* Proved: `C28_entry_explicit`, `C28_entry_implicit`, `C28_values`
* Proved in part: `C28_polynomial_partial`
* Violated by the code: `C28_polynomial_violated`
* Generic kernels: all chains and routes. Polynomial.k overwrites y by x (violation).

### C29 Assigning a hyper-parameter changes this hyper-parameter and only it (partial)

* Files: `Props/Polynomial`, `Props/Refinements`
* Proved: `C29_explicit_errors`, `C29_first_explicit`
* Proved in part: `C29_implicit_partial`, `C29_explicit_partial`, `C29_reset_partial`
* Violated by the code: `C29_assign_violated`, `C29_stale_violated`
* Violated: kernel.alpha = v assigns beta, beta has no setter, the cached feature map keeps old values; what does hold is characterised for all histories.

### C30 The bandwidth heuristic (partial)

* Files: `Props/Bandwidth`
* Proved: `C30_half_median`, `C30_scaling`, `C30_order`, `C30_positive`, `C30_fixed`, `C30_assigned`, `C30_first`
* Violated by the code: `C30_two_points_violated`, `C30_new_sample_violated`
* Median, scaling, order, positivity, fixing at first use; null for one or two points and not recomputed for a new sample (violations).

### C31 C and K carry the same spectrum (proved)

* Files: `Props/KernelMat`, `Props/Refinements`
* Proved: `C31_trace`, `C31_spectrum`, `C31_eigenvectors`, `C31_C_is_moment`
* All matrices; multiplicities and eigenvectors.

### C32 K does not depend on the route asked first (partial)

* Files: `Props/Halves`, `Props/KernelMat`
* Proved: `C32_K_is_k`, `C32_history`
* Proved in part: `C32_polynomial_partial`, `C32_routes_partial`
* Violated by the code: `C32_polynomial_violated`, `C32_small_norm_violated`
* All admissible histories of the cache; agreement of the two routes under the guards of C19. For the polynomial kernel K goes by the features and k() by the route its size suggests: equal under the same guards or with enough points (C32_polynomial_partial), otherwise k() may raise where K is a matrix (C32_polynomial_violated) or differ (C32_small_norm_violated).

### C33 cov() is the covariance of the features and corr() their correlation (partial)

* Files: `Props/KernelMat`
* Proved: `C33_psd`, `C33_translation`, `C33_corr`, `C33_cosine_chain`
* Proved in part: `C33_chain_partial`, `C33_cov_partial`
* Violated by the code: `C33_oos_violated`, `C33_cosine_violated`
* Covariance of the sample for all chains without adjacent repetition; cosine kernel and points other than the sample are violations; PSD and correlation bounds in general.

### C34 The Nystrom kernel reproduces the base kernel on the sample (partial)

* Files: `Props/Nystrom`, `Props/Refinements`
* Proved: `C34_consistent`, `C34_sample`, `C34_oos`, `C34_oos_singular`, `C34_below`, `C34_trace`, `C34_set_dim`
* Proved in part: `C34_first_partial`
* Violated by the code: `C34_dim_violated`, `C34_smaller_violated`, `C34_cache_violated`, `C34_given_dim_violated`
* exact for given decompositions; dimension 0 (answered by torch with all or no vectors) is left out of the violations; pruning is definitive (C34_dim_violated)

### C35 Random Fourier features define a shift-invariant normalized kernel (partial)

* Files: `Props/Exact`, `Props/RandomFeatures`
* Proved: `C35_num_weights`, `C35_formula`, `C35_diagonal`, `C35_bound`, `C35_shift`, `C35_psd`, `C35_closed`
* Violated by the code: `C35_num_violated`, `C35_given_weights_violated`
* All weights; weights assigned with another number of rows, or given at construction, violate it.

### C36 Random-feature activations are inverted correctly (proved)

* Files: `Props/RandomFeatures`
* Proved: `C36_activation`, `C36_relu`, `C36_preimage`, `C36_image`, `C36_stacked`
* All admissible parameters and weights; stacked features included.

### C37 Explicit pre-image uses the current weights (partial)

* Files: `Props/RandomFeatures`
* Proved in part: `C37_light_partial`, `C37_after_reset_partial`
* Violated by the code: `C37_violated`
* Violated at the default cache level (stale pseudo-inverse); holds below it or after a reset.

### C38 Time kernels follow their documented formula and are PSD on integer times (partial)

* Files: `Props/Time`
* Proved: `C38_hat_integer`, `C38_hat_psd`, `C38_indicator_floor`, `C38_indicator_psd`, `C38_indicator_default`
* Proved in part: `C38_hat_partial`, `C38_indicator_partial`
* Violated by the code: `C38_single_violated`, `C38_assign_violated`, `C38_trainable_violated`
* Hat PSD on all real times; indicator on integers; single time stamps raise, assigned lag does not update gamma (violations).

### C39 Chi-square kernels are symmetric, bounded and normalized (partial)

* Files: `Props/Time`
* Proved: `C39_additive_symm`, `C39_additive_bounds`, `C39_skewed_symm`, `C39_skewed_bounds`, `C39_skewed_diagonal`
* Proved in part: `C39_additive_diagonal_partial`
* Violated by the code: `C39_additive_small_violated`
* Entries between 0 and EPS/2 excepted for the diagonal of the additive kernel.

### C40 Factories are insensitive to case and separators and refuse unknown names (partial)

* Files: `Props/Exact`, `Props/Factory`
* Proved: `C40_names`, `C40_kernel`, `C40_kernel_spelling`, `C40_level`, `C40_level_unknown`, `C40_data`, `C40_data_alias`, `C40_model`
* Proved in part: `C40_kernel_unknown_partial`, `C40_data_unknown_partial`, `C40_model_unknown_partial`
* Violated by the code: `C40_kernel_factory_violated`
* Every spelling of every exported class is found; unknown names refused, except 'factory' (exported by the stubs), which silently gives the default object (violation). Abstract classes raising TypeError on construction are not modelled.

### C41 Input casting (proved)

* Files: `Props/Cast`
* Proved: `C41_none`, `C41_castf`, `C41_ragged`, `C41_wf`, `C41_idempotent`, `C41_casti`, `C41_representation`
* castf/casti on tensors of any rank and nested lists, check_representation. Dtype conversion is a parameter; devices not modelled.

### C42 Default keyword arguments never override user values (proved)

* Files: `Props/Cast`
* Proved: `C42_keywords`, `C42_chain`
* Merge of keyword dictionaries, also along chains of decorated constructors.

### C43 knn returns the mean of the nearest observations (partial)

* Files: `Props/Methods`
* Proved: `C43_mean`, `C43_possible`, `C43_unique`, `C43_shift`, `C43_perm`, `C43_all`, `C43_recovers`, `C43_refused`, `C43_kernel_recovers`
* Violated by the code: `C43_num_violated`, `C43_empty_violated`
* All lawful tie-breakings of topk. Non-integer num is truncated instead of refused and an empty batch raises (violations).

### C44 smoother returns a weighted mean of the observations (proved)

* Files: `Props/Exact`, `Props/Methods`
* Proved: `C44_kernel`, `C44_convex`, `C44_between`, `C44_constant`, `C44_rescale`, `C44_all`, `C44_refused`, `C44_zero_row`
* Exact reals; division by a zero sum gives none.

### C45 Iterative pre-images leave the kernel as they found it (partial)

* Files: `Props/Exact`, `Props/Methods`, `Props/Refinements`
* Proved: `C45_phi`, `C45_iterate`, `C45_preserved`
* Proved in part: `C45_success_partial`, `C45_unlightened_partial`, `C45_phi_success_partial`
* Violated by the code: `C45_raise_violated`, `C45_phi_violated`
* Level restored after success; violated when the call raises (no try/finally), and iterative_preimage_phi compares with num_idx instead of dim_feature.

### C46 total_variance is a function of the data (partial)

* Files: `Props/Variance`
* Proved in part: `C46_partial`, `C46_light_partial`
* Violated by the code: `C46_history_violated`, `C46_repeat_violated`, `C46_agree_violated`
* Exact value after every history of calls (C46_history_violated): the in-place division makes each normalised call divide the remembered trace again. Holds without earlier normalised calls, and at cache levels none/light. Primal and dual normalised variances differ by the factor n.

### C47 relative_variance lies in [0,1] and equals 1 for a complete model (partial)

* Files: `Props/KPCA`
* Proved in part: `C47_primal_partial`, `C47_primal_mono_partial`, `C47_primal_complete_partial`, `C47_mixed_partial`
* Violated by the code: `C47_dual_violated`
* In [0,1], increasing, 1 when complete: proved for the primal default (solved in primal, or in dual with kappa=1). With the dual default the value never exceeds 1/n, and a complete model has 1/n: violated.

### C48 The KPCA loss is the discarded variance (proved)

* Files: `Props/KPCA`
* Proved: `C48_nonneg`, `C48_solution`, `C48_optimal`
* Non-negative, sum of discarded eigenvalues at the solution, and minimal among all orthonormal parameters (Ky Fan), for every eigendecomposition the solver may return. The cached loss being stale after parameter assignments is not part of this property.

### C49 Primal and dual KPCA give the same scores (proved)

* Files: `Props/KPCA`
* Proved: `C49_general`, `C49_vals`, `C49`
* Eigenvalue by eigenvalue identity of score products (any multiplicity), matching of the i-th eigenvalues, and equality up to one sign for simple eigenvalues; factor sqrt(n/kappa) made explicit.

### C50 LS-SVM: primal and dual solutions predict the same (partial)

* Files: `Props/LSSVM`, `Props/Outputs`
* Proved in part: `C50_dual_partial`, `C50_unique_partial`, `C50_exists_partial`, `C50_single_partial`
* Violated by the code: `C50_violated`, `C50_centred_violated`
* Dual: existence, uniqueness, optimality for the regularised least squares problem and predictions as w.phi(x)+b. The primal system mixes the covariance divided by n with unnormalised blocks: C50_violated shows different unique predictions for two points, and C50_centred_violated gives the exact relation for centred features (the primal fit with gamma has n times the weights of the dual fit with n gamma, and its bias). The code as is cannot reach the primal system (kernel.phi_sample does not exist), nor construct a LSSVM with the default bias (attribute _param_trainable missing); recorded in DESIGN.md.

### C51 Setting one representation invalidates the other (partial)

* Files: `Props/Level`, `Props/Refinements`
* Proved: `C51_unassigned`
* Proved in part: `C51_dual_partial`, `C51_primal_partial`
* Violated by the code: `C51_setDual_violated`, `C51_unset_violated`
* Primal assignment invalidates dual parameters (all histories). Violated the other way round: dual assignments, unsetting and dim_output leave the primal parameters in place.

### C52 forward reflects the current parameters (partial)

* Files: `Props/Level`
* Proved in part: `C52_light_partial`, `C52_reset_partial`
* Violated by the code: `C52_stale_violated`, `C52_identity_violated`
* Holds at cache levels below normal and right after a reset, all histories. Violated at the default level (stale outputs; outputs keyed by object identity).

### C53 Multi-view: concatenated features and summed kernels (partial)

* Files: `Props/Exact`, `Props/MultiView`
* Proved: `C53_refused`, `C53_phi`, `C53_K`, `C53_consistent`, `C53_weights`, `C53_forward`
* Proved in part: `C53_k_partial`
* Violated by the code: `C53_attach_violated`, `C53_none_violated`, `C53_sizes_violated`, `C53_construct_violated`
* Features, kernels, consistency, weight blocks and outputs proved for every list of views and every kind of argument, on the methods of a multi-view holding views and weights. No such object can be constructed (undefined name), k() without argument is refused, different numbers of points are silently broadcast by k.

### C54 Multi-view prediction returns each view's own block (partial)

* Files: `Props/Exact`, `Props/MultiView`
* Proved: `C54_nothing_known`, `C54_requested`, `C54_project`
* Proved in part: `C54_first_partial`
* Violated by the code: `C54_methods_violated`, `C54_block_violated`, `C54_smoother_violated`
* Which views are predicted and the agreement of both projections are proved; the columns given to each view are right for the first one only, and the default method always raises.

### C55 Levels of a model fit together (partial)

* Files: `Props/Exact`, `Props/Net`
* Proved: `C55_refused`, `C55_dims`, `C55_accepted`, `C55_forward`, `C55_split`, `C55_loss`
* Violated by the code: `C55_changed_violated`
* Invariant over every sequence of appends, exact characterisation of the appends that succeed, composition and weighted loss for every number of levels. Violated when the output dimension of a level changes after its successor was appended.

### C56 An epoch visits each training point exactly once (proved)

* Files: `Props/Train`
* Proved: `C56`, `C56_once`, `C56_refused`
* Partition of an epoch and refusal proved for every permutation, number of points and history of batch sizes.

### C57 Each optimisation step uses the gradient of its own batch (partial)

* Files: `Props/Train`
* Proved in part: `C57_accumulated_partial`, `C57_single_partial`
* Violated by the code: `C57_violated`
* Violated: gradients are never cleared between the batches of an epoch; partial theorems give the accumulated gradient actually used and the single-batch case.

### C58 Data splits are disjoint (partial)

* Files: `Props/Data`, `Props/Exact`
* Proved: `C58_indices`, `C58_indices_default`, `C58_train`, `C58_twoMoons`, `C58_twoClasses`, `C58_labels`, `C58_missing_row`
* Violated by the code: `C58_file_violated`, `C58_trainTest_violated`, `C58_negative_violated`
* Proved for index splits and the generated data sets; violated by file sets (silently short), _LearningSetTrainTest (always TypeError) and negative sizes.

### C59 Finishing a monitored run keeps exactly the last checkpoint (partial)

* Files: `Props/Exact`, `Props/Monitor`
* Proved: `C59_name`, `C59_default`, `C59`, `C59_run`
* Proved in part: `C59_foreign_partial`
* Violated by the code: `C59_none_violated`, `C59_empty_violated`, `C59_period_violated`
* Proved for every run of update calls and every directory without foreign model files; violated without epoch number, without checkpoint and with a period keyword.

### C60 Every trainable parameter is optimised by exactly one group (partial)

* Files: `Props/Optimizer`
* Proved: `C60_groups`, `C60_two_kinds_refused`, `C60_reduce`
* Violated by the code: `C60_name_violated`
* Groups, duplicates and learning-rate reductions proved for every module tree; unknown optimiser names accepted if nothing is trainable.

### C61 Stiefel steps preserve orthonormality (partial)

* Files: `Props/Stiefel`
* Proved: `C61_skew`, `C61_cayley`, `C61_history`, `C61_loop`, `C61_retracted`, `C61_sgd`, `C61_adam`
* Proved in part: `C61_qr_partial`
* Violated by the code: `C61_qr_violated`, `C61_exact_violated`
* Skewness, unique Cayley point with the same Gram matrix, geometric convergence of the loop, explicit bounds on one actual step of both optimisers. The code does not keep exact orthonormality (normalisation adds 1e-8 to norms, loop of 20 iterations) and the QR retraction zeroes a row when rows are dependent.

### C62 Momentum acts on Stiefel parameters (partial)

* Files: `Props/Stiefel`
* Proved: `C62_euclid`, `C62_adam_first`, `C62_adam`
* Violated by the code: `C62_violated`, `C62_memoryless_violated`
* The code violates it for SGDG: the buffer is never written, all histories coincide with those without momentum. Closed form for Euclidean parameters; AdamG does carry earlier gradients.

### C63 An unknown cache level is refused (partial)

* Files: `Props/Cache`
* Proved in part: `C63_level_roundtrip_partial`
* Violated by the code: `C63_unknown_level_violated`
* Known names round-trip; unknown names are accepted silently and later requests raise TypeError (violation).

### C64 update_sample clears the gradient of the rows it replaces (partial)

* Files: `Props/Sample`
* Violated by the code: `C64_grad_kept_violated`
* Violated: the gradient is never changed (the zeroed tensor is a copy).

### C65 The sample is independent of the tensor it was given from (partial)

* Files: `Props/Sample`
* Proved in part: `C65_copied_partial`
* Violated by the code: `C65_aliased_violated`, `C65_update_writes_caller_violated`
* Holds when the cast copies; violated for float tensors, which share storage.

### C66 The factor kappa scales features, kernel and covariance consistently (partial)

* Files: `Props/LSSVM`
* Proved in part: `C66_features_partial`, `C66_one_partial`
* Violated by the code: `C66_assign_violated`, `C66_cov_violated`
* phi/k/K consistent as long as kappa equals its construction value; violated by assignments (kappa_sqrt is not updated) and for C, Phi with kappa different from 1.

### C67 Mapping to latent variables and back is a projection (partial)

* Files: `Props/KPCA`
* Proved in part: `C67_primal_partial`, `C67_roundtrip_partial`
* Violated by the code: `C67_dual_violated`
* Primal: orthogonal projection and round trip on the span. Dual: n times the projection (violated).

### C68 Soft levels are trained (partial)

* Files: `Props/Exact`, `Props/Refinements`, `Props/Trainable`
* Proved: `C68_assign`
* Proved in part: `C68_hidden_partial`, `C68_given_partial`, `C68_hard_partial`
* Violated by the code: `C68_unset_violated`, `C68_soft_violated`, `C68_hard_given_violated`, `C68_weight_violated`
* Soft levels constructed as usual end up neither trained nor solved (violated, all histories); right with level_trainable=True given at construction; hard levels right by default.

### C69 Attached views follow their multi-view, detached ones keep their weights (partial)

* Files: `Props/Exact`, `Props/Trainable`
* Proved: `C69_nothing`
* Proved in part: `C69_attached_partial`
* Violated by the code: `C69_detach_violated`
* Attached views: reads and refusals for all histories. detach() always raises (violated).

### C70 Fitting a trainer trains the model and returns (partial)

* Files: `Props/Train`
* Violated by the code: `C70_violated`
* Violated for every model and watcher name.

### C71 A checkpoint holds the parameters of the model (partial)

* Files: `Props/Net`
* Proved: `C71_registered`
* Violated by the code: `C71_violated`
* Violated: the levels are kept in a plain list, so the saved state is empty for every model.

### C72 A restricted kernel machine has all levels it was given (partial)

* Files: `Props/Net`
* Proved in part: `C72_partial`
* Violated by the code: `C72_violated`
* Violated when constructing a level raises KeyError: it and the later levels are dropped silently. The partial theorem assumes no KeyError.

### C73 A view's kernel is the inner product of its features (partial)

* Files: `Props/ViewScale`
* Proved: `C73_refused`
* Proved in part: `C73_constructed_partial`
* Violated by the code: `C73_assigned_violated`
* Holds as constructed; an assignment of kappa leaves the scaling of the features unchanged (exact characterisation).

### C74 The scaled quantities of a view agree (partial)

* Files: `Props/ViewScale`
* Proved in part: `C74_K_partial`
* Violated by the code: `C74_C_violated`, `C74_output_violated`
* K and phi() agree; C and c() differ by the factor kappa, primal and dual outputs by its root (exact characterisations).

### C75 Solvers use an identity matrix of the current size (proved)

* Files: `Props/Port`
* Proved: `C75_current`, `C75_available`
* Invariant over all histories of cache operations.

### C76 Porting a module ports everything once (proved)

* Files: `Props/Port`
* Proved: `C76_ported`, `C76_again`, `C76_repeated`
* For all trees and idempotent operations; the exact number of repetitions is also proved.

### C77 A Stiefel step goes downhill (proved)

* Files: `Props/Stiefel`
* Proved: `C77_projection`, `C77_direction`, `C77_downhill`
* Direction is the tangent projection, never uphill; the actual 20-iteration step lowers every differentiable loss for small learning rates.

### C78 Each documented cache entry is kept exactly from its documented level (partial)

* Files: `Props/CacheLevels`, `Props/Refinements`
* Proved: `C78_persisting`
* Proved in part: `C78_documented_partial`
* Violated by the code: `C78_normal_violated`, `C78_statistics_violated`
* Most documented entries are kept exactly from their documented level; outputs of levels fall back to 'normal' and statistics of out-of-sample points are stored at every level (violations proved).

### C79 The loss of a level is that of its current parameters (partial)

* Files: `Props/Exact`, `Props/Refinements`, `Props/Subloss`
* Proved: `C79_names`, `C79_values`
* Proved in part: `C79_refreshed_partial`, `C79_light_partial`
* Violated by the code: `C79_history_violated`, `C79_violated`
* Exact outputs of every history at level >= normal: before_step does not reset the sub-losses, so losses can be stale (violated). Fresh when a stochastic call separates steps and losses, and always fresh below 'normal'.

### C80 cache_keys lists exactly what is available (proved)

* Files: `Props/CacheKeys`
* Proved: `C80_keys`
* All histories, including operations that raise; keys non-empty strings (all keys used by the code are).

### C81 Exponential and Laplacian kernels are positive semi-definite (proved)

* Files: `Props/PSDMore`
* Proved: `C81_laplacian`, `C81_manhattan`, `C81_chebyshev_line`, `C81_squared_manhattan`, `C81_triangular_line`, `C81_uniform_line`
* All dimensions, bandwidths and finite sets (Schoenberg via a mixture of Gaussians for the Euclidean distance); also: squared Manhattan and uniform kernels are not, triangular is on the line.

### C82 Chi-square kernels are positive semi-definite (partial)

* Files: `Props/PSDMore`
* Proved in part: `C82_additive_partial`, `C82_skewed_partial`
* Violated by the code: `C82_small_violated`
* Proved when entries are null or at least EPS/2; below, the guard of the division breaks it (violation proved).

### C83 The explicit pre-image of the features of data is the data (partial)

* Files: `Props/Halves`, `Props/Preimage`
* Proved: `C83_refused`
* Proved in part: `C83_preimage_phi_partial`, `C83_phi_preimage_partial`, `C83_linear_partial`, `C83_random_features_partial`
* Violated by the code: `C83_single_point_violated`
* Proved for all bijective chains; the one case left, unit variance relative to a one-point sample, is shown to give NaN (C83_single_point_violated).

### C84 Pre-images by neighbours agree between representations and recover sample points (partial)

* Files: `Props/Preimage`
* Proved in part: `C84_agree_partial`, `C84_recovers_partial`, `C84_kernel_recovers_partial`
* Violated by the code: `C84_violated`
* Agreement proved (through C19); recovery proved for images of equal norm (normalised and distance kernels). Violated otherwise: the inner product is used as proximity, so that with the linear kernel on 1 and 2 the nearest neighbour of the image of 1 is 2.

### C85 What a kernel does not offer is refused with an exception (partial)

* Files: `Props/Exact`, `Props/Preimage`, `Props/Refinements`
* Proved: `C85_forward`, `C85_forward_base`, `C85_implicit_refused`, `C85_default`
* Proved in part: `C85_preimage_partial`
* Violated by the code: `C85_polynomial_route_violated`, `C85_forward_violated`, `C85_polynomial_violated`, `C85_implicit_violated`
* Violated: Kernel.forward returns a RepresentationError object; the polynomial kernel returns the class NotImplementedError; implicit kernels raise TypeError instead of ExplicitError (wrong keyword). The rest proved.

### C86 The logging level of an instance is the one last given to it (partial)

* Files: `Props/Exact`, `Props/Refinements`, `Props/Settings`
* Proved: `C86_names`, `C86_contained`, `C86_names_apart`, `C86_global`
* Proved in part: `C86_own_level_partial`, `C86_name_level_partial`
* Violated by the code: `C86_shared_violated`
* Violated: loggers are shared by all objects of the same class and name; exact characterisation by name, and proof for objects with a name of their own.

### C87 A package-wide setting applies to everything done afterwards (partial)

* Files: `Props/Settings`
* Proved: `C87_live`, `C87_copies`
* Proved in part: `C87_beginning_partial`
* Violated by the code: `C87_violated`, `C87_attribute_violated`
* Violated: modules importing the value by name keep the value current when they were first loaded, and kerch.FTYPE never changes; proved when the setting is changed before any use.

### C88 utils.eigs returns the k greatest eigenpairs in descending order (partial)

* Files: `Props/Eigs`
* Proved: `C88_refused`
* Proved in part: `C88_greatest_partial`, `C88_psd_partial`
* Violated by the code: `C88_zero_violated`, `C88_generalised_violated`, `C88_unordered_violated`
* Proved for symmetric matrices and 1 <= k <= n; k=0 returns everything, a second matrix B makes the symmetric solver run on a non-symmetric matrix, and sym=psd=False leaves the order to the solver.

### C89 solve fits the data it is given or is refused and leaves the model unchanged (partial)

* Files: `Props/Solve`
* Proved: `C89_fits`, `C89_fits_present`, `C89_refused`
* Proved in part: `C89_corresponds_partial`
* Violated by the code: `C89_atomic_violated`, `C89_target_alone_violated`, `C89_list_violated`, `C89_silent_violated`, `C89_target_kept_violated`
* Violated: a refused call has already replaced the data, a target given alone or data as list are mishandled, and changing the sample keeps an older target of the same length. Only tells which data are solved for; whether the solution can be stored is C105.

### C90 Probabilistic PCA: latent representations are maxima of the posterior, draws follow the model (partial)

* Files: `Props/PPCA`
* Proved: `C90_noise_exceeds`, `C90_arguments`
* Proved in part: `C90_map_partial`, `C90_normalised_partial`, `C90_draw_partial`
* Violated by the code: `C90_scale_violated`, `C90_primal_violated`, `C90_bandwidth_violated`, `C90_bandwidth_null_violated`, `C90_draw_violated`
* Dual: proved whenever the squared noise is below the components kept, which holds for normalised kernels. Violated otherwise (NaN), in the primal (attribute mu never created), for the bandwidth of the kernel (overwritten by the noise) and for draws (factor not transposed). These theorems concern the formulas: as shipped PPCA cannot be constructed at all, H and W remain abstract (C109_ppca_violated).

### C91 The solution of a LS-SVM minimises its loss (partial)

* Files: `Props/LSSVMTrain`
* Proved: `C91_reg_primal`
* Proved in part: `C91_dual_objective_partial`, `C91_minimiser_partial`, `C91_solve_partial`, `C91_primal_objective_partial`
* Violated by the code: `C91_gamma_violated`, `C91_reg_violated`
* The dual loss is the objective of the weights it stands for, for any number of outputs; it is minimised by the system of solve taken at dim_output/gamma, hence by solve itself when gamma^2 = dim_output (C91_solve_partial). C91_gamma_violated: gamma weighs the norm in solve and the error in loss, so for every other gamma solve is not optimal. C91_reg_violated: einsum('ij,ji') is not the squared norm in primal (zero or negative values; RuntimeError for most sizes, C91_reg_primal). As it stands the loss reads self.weight / self.hidden, which do not exist on a level (AttributeError); the theorems are about the formulas of those lines.

### C92 A training step keeps the dual variables of a LS-SVM centred (partial)

* Files: `Props/LSSVMTrain`
* Proved: `C92_refused`
* Proved in part: `C92_center_partial`
* Violated by the code: `C92_violated`
* With one output the step is the orthogonal projection on centred variables. The mean is taken over points but subtracted along the wrong axis of the transposed parameter: RuntimeError for several outputs unless as many as points (C92_refused), in which case the result is not centred (C92_violated).

### C93 A LS-SVM without bias is fitted as a model without bias (partial)

* Files: `Props/LSSVMTrain`
* Proved in part: `C93_partial`
* Violated by the code: `C93_constant_violated`, `C93_suboptimal_violated`
* solve always fits with a bias, which the output then ignores: predictions are off by the bias (C93_partial), zero everywhere for constant targets (C93_constant_violated), not optimal (C93_suboptimal_violated). A LS-SVM with bias cannot be constructed in the first place (attribute _param_trainable missing, see C50), so that this concerns all LS-SVMs that can.

### C94 Ridge regression: the solution is the regularised least squares solution, in primal as in dual (partial)

* Files: `Props/LSSVMTrain`
* Proved in part: `C94_dual_partial`, `C94_primal_partial`
* Violated by the code: `C94_violated`
* Proved for the dual system; the primal system divides the covariance by n but not the right-hand side, so that its solution is n times the minimiser at gamma/n (C94_primal_partial) and predicts differently (C94_violated). Not modelled: solve() calls both without their argument target (TypeError in dual), the primal reads kernel.phi_sample which does not exist (AttributeError), and Ridge(requires_bias=True) uses the logger before it exists (AttributeError).

### C95 Reconstructions of a KPCA level are the best ones of their rank (partial)

* Files: `Props/Recon`
* Proved: `C95_projection`
* Proved in part: `C95_cov_partial`, `C95_sample_partial`, `C95_agree_partial`
* Violated by the code: `C95_kernel_violated`
* K_reconstructed after a dual fit is the best approximation divided by the number of points (C95_kernel_violated). As written the lines read self.hidden and self.weight, which levels do not have (AttributeError): the theorems are about the formulas, with dual_param and primal_param. C95_agree_partial assumes that both representations keep the same eigenvalues: the cut-off is the same number for eigenvalues differing by the factor n.

### C96 Multi-view prediction recovers what the model represents (partial)

* Files: `Props/MVPredict`
* Proved: `C96_stationary`, `C96_recovers_iff`
* Proved in part: `C96_dual_partial`
* Violated by the code: `C96_dual_violated`, `C96_primal_violated`
* The eigenvalues stored by both fits have the wrong scale for the formula (C96_dual_violated, C96_primal_violated); C96_recovers_iff says exactly when the prediction is right.

### C97 Statistics and sigmoid kernels are positive semi-definite (partial)

* Files: `Props/PSDStat`
* Proved: `C97_logistic`, `C97_silverman_line`, `C97_silverman`
* Violated by the code: `C97_support_violated`, `C97_triangular_violated`, `C97_silverman_violated`, `C97_sigmoid_violated`
* Logistic: every dimension, Euclidean distance. Silverman with the Euclidean distance: PSD up to three dimensions and not beyond. Triangular: PSD on the line only. The other kernels of bounded support are not PSD in any dimension, nor is the sigmoid kernel unless constant. All distances: C144.

### C98 Stacked random features are the composition of their layers on the current sample (partial)

* Files: `Props/Stacked`
* Proved: `C98_preimage`
* Proved in part: `C98_composed_partial`
* Violated by the code: `C98_stale_violated`, `C98_witness_violated`
* The layers are in a python list: update_sample, stochastic and eval do not reach them (C98_stale_violated, with a concrete stack in C98_witness_violated), nor do the optimiser, device changes and checkpoints.

### C99 The hyper-parameters reported are those of the module (partial)

* Files: `Props/HParams`
* Proved: `C99_model`, `C99_model_raises`
* Proved in part: `C99_own_partial`, `C99_kernel_partial`, `C99_model_partial`, `C99_fixed_partial`, `C99_variable_partial`, `C99_mixin_partial`
* Violated by the code: `C99_parent_violated`, `C99_kernel_violated`, `C99_method_violated`, `C99_model_violated`, `C99_fixed_violated`, `C99_variable_violated`, `C99_mixin_violated`
* Proved for models of any depth (C99_model, C99_model_raises). hparams_fixed of the linear, Nystrom and ExplicitNN kernels lacks the property decorator: it reads as a method, the cosine kernel raises, and so do all levels and models on one of the four (C99_method_violated, C99_model_violated). Entries of parents override those of a class (C99_parent_violated): RBF, Laplacian and Wasserstein kernels report 'Exponential'; statistics kernels report their bandwidth as fixed and lose the rest; random features do not report their bandwidth.

### C100 The bias of a view is the one last given and enters its output (partial)

* Files: `Props/Bias`
* Proved: `C100_output`
* Proved in part: `C100_assign_partial`, `C100_history_partial`
* Violated by the code: `C100_construct_violated`, `C100_dropped_violated`, `C100_misfit_violated`, `C100_later_violated`, `C100_trainable_violated`, `C100_init_violated`
* A view with requires_bias=True cannot be built (attribute _param_trainable missing), nor can the bias be requested later; misfitting biases are stored; bias_trainable has no effect. Assignments that fit are read back after every history that never requests a bias (C100_history_partial).

### C101 An explicit neural kernel is the inner product of its encoder, and its decoder reconstructs from the features (partial)

* Files: `Props/NN`
* Proved: `C101_construct`, `C101_networks`, `C101_no_decoder`, `C101_loss`, `C101_sphere`
* Proved in part: `C101_trainable_partial`, `C101_level_partial`, `C101_level_loss_partial`
* Violated by the code: `C101_trainable_violated`, `C101_decode_violated`, `C101_decode_value_violated`, `C101_loss_violated`, `C101_preimage_violated`
* inner product, networks, decoder refusals proved; networks_trainable is ignored, the decoder gets the kernel matrix, explicit pre-image cannot load its module

### C102 In training mode each level of a model works on what the previous one gives for the selected points (partial)

* Files: `Props/Deep`
* Proved: `C102_forward`, `C102_length`, `C102_full`
* Proved in part: `C102_epoch_partial`, `C102_init_partial`
* Violated by the code: `C102_argument_violated`, `C102_stale_violated`, `C102_batches_violated`, `C102_refit_violated`
* pass proved for all depths; epochs for levels working point by point with constant parameters; calls with an argument change the training sample, deeper samples are stale or depend on the batches otherwise, a second fit is refused

### C103 The gradient used to train a model is that of its loss (partial)

* Files: `Props/DeepGrad`
* Proved: `C103_value`
* Proved in part: `C103_last_partial`
* Violated by the code: `C103_violated`, `C103_uphill_violated`, `C103_stationary_violated`
* value proved; gradient correct for the last level only, derivative formula for all levels, witness of ascent

### C104 The kernel with infinitely many random weights is the limit of those with finitely many (partial)

* Files: `Props/RFLimit`
* Proved: `C104_rff`, `C104_psd`, `C104_identity`, `C104_same_value`
* Proved in part: `C104_lrelu_partial`
* Violated by the code: `C104_origin_violated`, `C104_same_violated`
* limits proved almost surely for Fourier features (all points) and leaky rectifiers (all points but the origin), closed form PSD; at the origin the closed form is NaN; direct calls with one tensor twice divide it twice

### C105 A level can be fitted again, and everything then comes from the last fit (partial)

* Files: `Props/Refit`
* Proved: `C105_again`, `C105_assigned`, `C105_primal`, `C105_nothing`, `C105_reselect`
* Proved in part: `C105_dual_partial`, `C105_lssvm_partial`, `C105_weights_partial`
* Violated by the code: `C105_resized_violated`, `C105_pruned_violated`, `C105_single_violated`, `C105_number_violated`, `C105_lssvm_violated`, `C105_shuffled_violated`, `C105_selection_violated`, `C105_weights_violated`, `C105_stale_violated`, `C105_select_violated`
* Violated: a second dual fit raises or stores wrong components unless as many components on as many points are found (exact characterisation C105_again); selected points are stored at the wrong places or out of bounds; weights keep stale square roots. Proved for primal fits over all histories.

### C106 Correlations, projectors and draws of a KPCA level (partial)

* Files: `Props/Draw`
* Proved: `C106_correlation`, `C106_projector`, `C106_trace`, `C106_draw_phi`, `C106_draw_phi_complete`, `C106_draw_k`, `C106_draw_values`, `C106_arguments`
* Violated by the code: `C106_determinant_violated`, `C106_unity_violated`, `C106_draw_violated`
* Violated: a projector with fewer components than entries has a null determinant; draws in dual have a covariance greater by the number of points than the kernel values of draws in primal. Laws of the draws proved.

### C107 The optimisers on the sphere keep every row of a parameter on it and descend along it (partial)

* Files: `Props/Grassmann`
* Proved: `C107_regularisation`, `C107_transport`, `C107_sgd_circle`, `C107_adam_circle`
* Proved in part: `C107_sgd_partial`, `C107_adam_partial`
* Violated by the code: `C107_exact_violated`, `C107_collapse_violated`, `C107_omega_violated`
* The rows are kept on the sphere only up to a bound that depends on eps=1e-8 (C107_sgd_partial, C107_adam_partial): at rest they lie strictly inside it (C107_exact_violated), and a row can collapse to zero (C107_collapse_violated). The omega given to the constructor is replaced by 0 (C107_omega_violated). With eps null the iterates on a great circle are those of scalar momentum descent and scalar Adam (C107_sgd_circle, C107_adam_circle). Missing from the code as it is: grassmann_optimizer.py imports gutils by bare name, so the module loads only with its directory on the path. C107_regularisation shows that the orthogonality factor, where it is read from the group, is the gradient of omega/2 ||YY^T - I||^2.

### C108 An assigned hyper-parameter is what everything computed afterwards uses (partial)

* Files: `Props/Assign`
* Proved: `C108_hyperbola_construct`, `C108_hyperbola_positive`, `C108_hyperbola_reach`, `C108_sigma`, `C108_hyperbola_refused`, `C108_sigma_kept`, `C108_sigmoid`
* Proved in part: `C108_assign_partial`, `C108_none_partial`
* Violated by the code: `C108_stale_violated`, `C108_trained_violated`, `C108_weights_violated`, `C108_hyperbola_violated`, `C108_hyperbola_order_violated`, `C108_sigma_none_violated`, `C108_lag_trainable_violated`, `C108_sigmoid_violated`
* Histories in which only bandwidths, lags, shapes and slopes are assigned read what a kernel without cache would (C108_assign_partial); at cache level none, all assignments and trainings of hyper-parameters (C108_none_partial). Violated from level light on for weights, their number, the hyperbola parameters and training (C108_stale_violated, C108_trained_violated, C108_weights_violated; after_step iterates over the characters of a key and drops K but not the features). The hyperbola can be made inadmissible by alpha or gamma (C108_hyperbola_violated). sigma=None raises and disables the heuristic; lag_trainable of Hat raises; a and b of the sigmoid kernel are ignored.

### C109 Any level on any kernel is a consistent class with the behaviour of both (partial)

* Files: `Props/Classes`, `Props/ClassesOffered`
* Proved: `C109_abstract`, `C109_mro`, `C109_level_class`, `C109_kernel`, `C109_override`, `C109_construct`, `C109_init`, `C109_offered`, `C109_offered_distance`
* Violated by the code: `C109_ppca_violated`, `C109_after_step_violated`, `C109_gamma_violated`, `C109_ppca_offered_violated`, `C109_hyperbola_violated`, `C109_indicator_violated`
* Proved for every kernel class deriving from those of the package, also of the user: the class of a level on it exists, keeps the orders of both, kernel computations are unchanged, initialisers run once, and KPCA, LSSVM and Ridge can be constructed as soon as the kernel can (C109_abstract, C109_mro, C109_level_class, C109_kernel, C109_override, C109_construct, C109_init, C109_offered, C109_offered_distance). Violated: View, Level and PPCA leave H and W abstract and can never be constructed; after_step of the kernel is never reached in a level; gamma of LSSVM and Ridge hides gamma of the kernel, so rf_hyperbola raises at construction and the indicator kernel gets the regularisation constant on its diagonal. Not modelled: attributes outside the table, metaclass conflicts, nn.Module __setattr__ (see C86).

### C110 A Nystrom kernel works on the points it is given (partial)

* Files: `Props/NystromSel`
* Proved: `C110_set_dim`
* Proved in part: `C110_whole_partial`, `C110_plain_partial`, `C110_existing_partial`
* Violated by the code: `C110_init_violated`, `C110_prop_violated`, `C110_order_violated`, `C110_select_violated`, `C110_transform_violated`, `C110_empty_violated`, `C110_existing_violated`, `C110_dim_violated`
* holds as long as all points are selected (C110_whole_partial), or without transform for selections made after the sample is given (C110_plain_partial). A sample given with a selection raises or is permuted twice; a selection of fewer points than the dimension raises; with centring, arguments are shifted; without sample nothing can be created; pruning is definitive.

### C111 A hyper-parameter declared trainable receives the derivative of the loss (partial)

* Files: `Props/Autograd`
* Proved: `C111_rbf`, `C111_sigmoid`, `C111_polynomial_natural`, `C111_degree_zero`, `C111_degree_constant`, `C111_uniform_zero`, `C111_indicator`
* Proved in part: `C111_distance_partial`, `C111_polynomial_partial`, `C111_skewed_partial`, `C111_hat_partial`, `C111_lag_partial`, `C111_weights_partial`
* Violated by the code: `C111_root_violated`, `C111_polynomial_violated`, `C111_degree_violated`, `C111_bandwidth_violated`
* Proved for the loss G applied to the whole kernel matrix, any G: the bandwidth of every statistics kernel with every distance that can be evaluated, except at the jump or kink of a cut-off and, for the Euclidean distance, at coinciding points; RBF without exceptions. Violations: kernels using the root of the Euclidean distance give a non-finite gradient on every sample, whatever the loss; polynomial kernels of natural degree (explicit by default) and the bandwidth of random features give no gradient at all; a trainable degree with a negative base gives NaN. The points are taken as constants (not trainable), centring and normalisation of the kernel are not recorded; torch's backward formulas are a contract.

### C112 A call that cannot be served is refused, exactly then, and without effect (proved)

* Files: `Props/Errors`
* Proved: `C112_evaluation`, `C112_training`, `C112_initialisation`, `C112_target`, `C112_representation`, `C112_bias`, `C112_bias_gradient`, `C112_kappa`, `C112_saving`, `C112_append`, `C112_empty_model`, `C112_network`, `C112_eigs`, `C112_add_views`, `C112_known_views`, `C112_minkowski`, `C112_revert`
* Each theorem gives the exact condition of refusal of one call (or, for models, that the first level that is not ready decides), the kind of exception and that nothing but the selection has changed. Minkowski distances of general order are refused always (an attribute is missing), which C112_minkowski states as it is.

### C113 A trainable sample is trained: every loss is that of the current sample and differentiates with respect to it (partial)

* Files: `Props/SampleGrad`
* Proved in part: `C113_values_partial`, `C113_gradients_partial`, `C113_heuristic_partial`
* Violated by the code: `C113_second_violated`, `C113_stale_violated`, `C113_heuristic_violated`, `C113_no_grad_violated`
* Values are right in all histories in which the cache is cleared after each optimiser step (C113_values_partial), gradients if it is also cleared between two backward calls and after no_grad evaluations and the bandwidth is given, or read once before a clearing (C113_gradients_partial, C113_heuristic_partial). Violated otherwise, at every cache level since the distances are kept by force: the second backward raises, the matrix stays that of the old sample, the heuristic and evaluations under no_grad cut the sample off. Kernels of a distance without sample transforms.

### C114 What the optimiser changes is what the level uses (partial)

* Files: `Props/Handles`
* Proved: `C114_given`, `C114_rebuild`, `C114_trainable`, `C114_assigned`, `C114_start`
* Proved in part: `C114_partial`, `C114_loop_partial`
* Violated by the code: `C114_primal_violated`, `C114_replaced_violated`, `C114_lssvm_violated`
* C114_partial says exactly, for every history, whether a step changes what the level uses: it does unless the parameter object was replaced. C114_loop_partial: nothing the trainer's loop does replaces one; C114_rebuild: a new optimiser takes everything up; C114_given: what an optimiser receives. Violated: assigning primal parameters (also of the same shape, also through init_parameters and solve) replaces the object unless the shape is square, because stored and given shapes are transposed when compared (C114_primal_violated); a new sample, a new output dimension or the assignment of primal parameters replace the sample and the dual parameter (C114_replaced_violated); the primal parameters of an LSSVM are never held (C114_lssvm_violated).

### C115 Loading the saved state of a level restores its behaviour (partial)

* Files: `Props/Restore`
* Proved: `C115_shown`, `C115_refused`
* Proved in part: `C115_partial`, `C115_reset_partial`
* Violated by the code: `C115_fresh_violated`, `C115_parameters_violated`, `C115_stale_violated`, `C115_undefined_violated`
* C115_refused: exact condition under which loading is refused. C115_partial, C115_reset_partial: if shapes and definedness of the bandwidth agree and nothing is cached (or after a reset) the behaviour is that of the saved level. Violated: a determined bandwidth is a number, the fresh parameter a vector of one element, so that loading into a level made in the same way is refused while the sample is loaded anyway (C115_fresh_violated); fitted parameters do not fit the empty ones (C115_parameters_violated); the cache is kept (C115_stale_violated); an undetermined bandwidth becomes 1 (C115_undefined_violated).

### C116 Normalised kernel values are numbers with ones on the diagonal (partial)

* Files: `Props/NaN`
* Proved: `C116_symmetric`, `C116_errors`
* Proved in part: `C116_agree_partial`, `C116_psd_partial`, `C116_exact_partial`
* Violated by the code: `C116_spread_violated`, `C116_uniform_violated`
* Proved for every list of centrings and normalisations of a symmetric kernel: every value is one function of its two points, also where it is NaN (C116_symmetric); if no squared norm met at a normalisation is negative, the values are those of the model of real numbers (C116_agree_partial); positive semi-definite kernels, centred any number of times and then normalised, give numbers with ones on the diagonal (C116_psd_partial). Exact condition for centring then normalising: C116_exact_partial. Violated: a single negative squared norm in the sample followed by a centring makes all values NaN, in sample and out of sample, whatever follows (C116_spread_violated); the uniform kernel is such a kernel (C116_uniform_violated).

### C117 What is asked of a model is done to all its parts (partial)

* Files: `Props/Parts`
* Proved: `C117_train`, `C117_level`
* Proved in part: `C117_eval_partial`, `C117_stochastic_partial`, `C117_modules_partial`, `C117_port_partial`, `C117_log_partial`, `C117_reset_partial`, `C117_port_data_partial`
* Violated by the code: `C117_port_violated`, `C117_log_violated`, `C117_stochastic_violated`, `C117_returns_violated`, `C117_reset_violated`, `C117_level_violated`
* Proved for all trees: train(mode) reaches every part (C117_train); level(num) for natural numbers (C117_level). Under stated conditions: eval selects all points everywhere if all parts have the same number of points (C117_eval_partial), stochastic reaches all parts if they know their points (C117_stochastic_partial), reset(recurse=True) resets all parts of the levels (C117_reset_partial). What torch does through children reaches all parts if and only if no model with levels is met (C117_modules_partial, C117_port_partial, C117_log_partial). Violated for every model with levels: they are in a plain list, so to/double/zero_grad/parameters and the logging level do not reach them (C117_port_violated, C117_log_violated); a selection is ignored when the sample was given to the first level (C117_stochastic_violated); train and eval return None (C117_returns_violated); reset() does not recurse though documented so (C117_reset_violated); negative numbers raise StopIteration (C117_level_violated).

### C118 A kernel is centred and normalised exactly when it says so (partial)

* Files: `Props/Announced`
* Proved: `C118_options`
* Proved in part: `C118_centered_features_partial`, `C118_centered_values_partial`, `C118_normalized_features_partial`, `C118_normalized_values_partial`, `C118_natural_partial`, `C118_not_centered_partial`
* Violated by the code: `C118_silverman_violated`, `C118_logistic_violated`, `C118_standard_violated`
* Proved: centered=True implies that features and values (also of points out of sample) sum to zero (C118_centered_features_partial, C118_centered_values_partial), normalized=True by a transform implies norm 1 where the norm before is not negligible (C118_normalized_*_partial), natural normalisation is true for all statistics kernels but one (C118_natural_partial), what the options give (C118_options), and the converse for lists of centrings and normalisations (C118_not_centered_partial). Violated: Silverman's kernel announces a normalisation it does not have (C118_silverman_violated), the logistic kernel has unit diagonal and denies it (C118_logistic_violated), standardised features are centred and this is denied (C118_standard_violated).

### C119 The order of the sample does not matter (partial)

* Files: `Props/Order`
* Proved: `C119_features`, `C119_features_oos`, `C119_values`, `C119_bandwidth`, `C119_covariance`, `C119_lssvm`, `C119_lssvm_primal`, `C119_variance`, `C119_primal`
* Proved in part: `C119_scores_partial`, `C119_knn_partial`, `C119_smoother_partial`
* Violated by the code: `C119_scores_violated`, `C119_knn_violated`
* Partial: scores only for simple eigenvalues and up to sign (C119_scores_violated: a multiple eigenvalue leaves the choice to eigh), knn and smoother only without equal distances (C119_knn_violated: for every rule of topk exchanging two equidistant observations changes the result). Everything else, including the calls that raise, for all orders.

### C120 Units and origin of the data do not matter where they are normalised (partial)

* Files: `Props/Units`
* Proved: `C120_distance`, `C120_given_bandwidth`, `C120_origin`, `C120_origin_minimum`, `C120_added`
* Proved in part: `C120_standardize_partial`, `C120_minmax_partial`, `C120_cosine_partial`, `C120_scaled_partial`
* Violated by the code: `C120_small_violated`, `C120_standardize_violated`, `C120_scaled_violated`
* Partial: standardisation, range and sphere need the deviations, ranges or norms to reach EPS in both units (C120_small_violated, C120_standardize_violated, C120_scaled_violated: below, the result depends on the unit; the implicit normalisation compares the kernel value, a product of norms, with EPS). Distance kernels with default bandwidth, centring and origin without restriction; C120_given_bandwidth: a given bandwidth is never unit-free. A bandwidth of zero (more than half of the pairs equal) divides by zero in both units.

### C121 Gamma trades the fit of a LS-SVM for smoothness, monotonically (proved)

* Files: `Props/Regular`
* Proved: `C121_residual`, `C121_monotone`, `C121_bound`, `C121_interpolates`, `C121_vanishing`, `C121_dominating`, `C121_ridge`
* Proved in full over the exact solution of the LS-SVM system: residual, monotone training error, bound, limits of gamma, ridge form.

### C122 Outputs of a regression follow the units and the origin of its targets (proved)

* Files: `Props/Regular`
* Proved: `C122_dual`, `C122_sum`, `C122_primal`, `C122_ridge`
* Proved in full: scaling and shifting the targets, sum of the multipliers, dual, primal and ridge forms.

### C123 Repeating the whole data set changes nothing but the weight of the regularisation (partial)

* Files: `Props/Repeat`
* Proved: `C123_values`, `C123_covariance`, `C123_lssvm`, `C123_spectrum`, `C123_primal`
* Proved in part: `C123_features_partial`, `C123_features_oos_partial`, `C123_explained_partial`
* Violated by the code: `C123_variance_violated`, `C123_threshold_violated`
* Partial: repeating the data keeps means, centred values, covariance, the spectrum up to the factor and the LS-SVM; the unit-variance transform and the absolute eigenvalue threshold are not invariant (violations proved).

### C124 An interrupted run loses at most the checkpoint being written (partial)

* Files: `Props/Crash`
* Proved: `C124_saving`, `C124_training`, `C124_finishing`, `C124_raises`
* Violated by the code: `C124_cut_violated`, `C124_overwritten_violated`
* Partial: every crash point of saving, training and finishing leaves earlier checkpoints readable; a cut file can be the one that is kept by finish, and an overwritten name is lost (violations proved).

### C125 Concurrent runs keep their own checkpoints (partial)

* Files: `Props/Crash`
* Proved: `C125_isolated`, `C125_directory`
* Violated by the code: `C125_shared_violated`, `C125_race_violated`
* Partial: runs started at distinct instants of the format work in disjoint directories; two runs in the same second of the year share one (violations proved).

### C126 Watched properties are reported as they were at that moment (partial)

* Files: `Props/Watch`
* Proved: `C126_refused`, `C126_report`, `C126_raises`
* Proved in part: `C126_given_partial`, `C126_moment_partial`
* Violated by the code: `C126_given_violated`, `C126_moment_violated`
* Partial: on the cpu a watched tensor is reported by reference and changes with training; a list changed after it was given is not verified (violations proved). Reports, refusals and exceptions proved in full.

### C127 What the bandwidth does (partial)

* Files: `Props/Tuning`
* Proved: `C127_strict`, `C127_narrow`, `C127_wide`
* Proved in part: `C127_monotone_partial`, `C127_identity_partial`
* Violated by the code: `C127_silverman_violated`
* Proved for every statistics kernel but Silverman's, which is not monotone and whose diagonal is not 1 (C127_silverman_violated); Minkowski distances are outside because their implementation cannot be evaluated (C25).

### C128 The coordinates in which the data is given (partial)

* Files: `Props/Rotate`
* Proved: `C128_columns_functions`, `C128_columns_transforms`, `C128_translation`
* Proved in part: `C128_rotation_functions_partial`, `C128_rotation_transforms_partial`, `C128_rotation_matrix_partial`
* Violated by the code: `C128_distances_violated`, `C128_normalised_violated`
* Order of columns and translations in full. Rotations: kernels of inner products and of Euclidean distances, centring and normalising to the sphere; the other distances and the normalisations by column depend on the axes (C128_distances_violated, C128_normalised_violated).

### C129 Adding and leaving out training points (partial)

* Files: `Props/LeaveOut`
* Proved: `C129_leave_out`, `C129_added`, `C129_without_weight`, `C129_ridge`, `C129_centred`
* Violated by the code: `C129_primal_violated`
* Dual representation in full for a fixed kernel; kernels whose parameters depend on the sample (default bandwidth, Nystrom) are outside. The primal system divides by the number of points (C129_primal_violated).

### C130 Fitting more components keeps the first ones (partial)

* Files: `Props/Nested`
* Proved: `C130_values`, `C130_eigs`
* Proved in part: `C130_components_partial`, `C130_projection_partial`
* Violated by the code: `C130_tie_violated`
* Values in full; components and projections where the value, respectively the next one, differs; violated for equal values (C130_tie_violated).

### C131 Kernel values are inner products (partial)

* Files: `Props/Geometry`
* Proved: `C131_cosine`, `C131_centring`, `C131_mean`
* Proved in part: `C131_lengths_partial`, `C131_distance_partial`, `C131_neighbours_partial`
* Violated by the code: `C131_small_violated`, `C131_sigmoid_violated`
* Normalised values in [-1,1] and centring in full; lengths and triangle inequality where no squared norm at a normalisation is positive but below the safeguard 1e-7 (C131_small_violated); the sigmoid kernel is not an inner product (C131_sigmoid_violated).

### C132 Pre-images from coefficients (partial)

* Files: `Props/PreimageFun`
* Proved: `C132_refused`, `C132_empty`, `C132_none`
* Proved in part: `C132_smoother_partial`, `C132_range_partial`, `C132_alone_partial`
* Violated by the code: `C132_sum_violated`, `C132_batch_violated`, `C132_knn_violated`
* The smoother with fewer neighbours than points, in full. With all neighbours it normalises over the batch instead of over the coefficients (C132_sum_violated, C132_batch_violated); knn unpacks an integer and raises for every argument, the two others are not implemented (C132_knn_violated).

### C133 A fitted probabilistic PCA is the most likely one (partial)

* Files: `Props/PPCALik`
* Proved: `C133_gap`
* Proved in part: `C133_most_likely_partial`, `C133_complete_partial`
* Violated by the code: `C133_primal_noise_violated`, `C133_primal_violated`, `C133_noise_violated`
* Dual fits: C133_most_likely_partial states exactly when the fitted weights and noise are the maximum (sigma (d - k) = n - k, for noise that is positive and does not exceed the components kept); C133_gap gives the exact loss otherwise and shows that a maximum exists; C133_complete_partial covers as many components as features. The claim is false in general: the value computed is the mean variance left out but is used as a standard deviation (C133_noise_violated), and the primal divides the covariance, already normalised, by num_idx again (C133_primal_violated). kappa is taken to be one.

### C134 More points never mean less variance to explain (proved)

* Files: `Props/Growth`
* Proved: `C134_interlace`, `C134_centred`, `C134_captured`, `C134_left_out`, `C134_primal`
* Proved for kernels whose values between two points do not depend on the rest of the sample and for centred features; kernels with another sample statistic (standardisation, bandwidth from the data) are outside the quantifier.

### C135 A Nystrom kernel approximates its base kernel from below, and better with more dimensions and points (proved)

* Files: `Props/NysBound`
* Proved: `C135_residual`, `C135_between`, `C135_error`, `C135_exact`, `C135_landmarks`, `C135_dim`, `C135_points`, `C135_limited`
* Exact reals. C135_limited shows that more points may worsen the approximation when dim stays limited.

### C136 Small changes of the data mean small changes of the results (partial)

* Files: `Props/Stability`
* Proved: `C136_targets`, `C136_prediction`, `C136_dual`, `C136_variances`
* Proved in part: `C136_values_partial`, `C136_data_partial`
* Violated by the code: `C136_uniform_violated`, `C136_components_violated`
* Exact reals, fixed bandwidth. Violations: the uniform kernel jumps from 1 to 0 (C136_uniform_violated); components of nearly equal variances may turn by a right angle (C136_components_violated).

### C137 A constant input feature changes nothing (proved)

* Files: `Props/Constant`
* Proved: `C137_distance`, `C137_bandwidth`, `C137_transforms`, `C137_centred`, `C137_linear`, `C137_linear_centred`, `C137_inner`, `C137_lssvm`, `C137_polynomial`, `C137_other_value`
* Proved for the transforms (all sequences without the unit sphere, all sequences that begin with a centring), distance kernels and bandwidth, linear kernels and LS-SVM; the uncentred polynomial kernel and points out of sample with another value are treated as well.

### C138 Figures show what they are asked to show (partial)

* Files: `Props/Figures`
* Proved: `C138_refused`, `C138_features`
* Proved in part: `C138_matrix_partial`, `C138_heights_partial`, `C138_scatter_partial`
* Violated by the code: `C138_labels_violated`, `C138_bars_violated`, `C138_single_violated`, `C138_untargeted_violated`, `C138_subset_violated`, `C138_heat_violated`
* Images, titles and heights of bars proved for all inputs; five violations proved for all inputs: labels of the axes never displayed, bars all at one place, a single eigenvalue refused, scatter of views without targets or with a part of their points raises, heat map never drawn.

### C139 A data set split by proportions is split (partial)

* Files: `Props/Holder`
* Proved: `C139_whole`, `C139_given`, `C139_refused`
* Proved in part: `C139_rows_partial`, `C139_stored_partial`
* Violated by the code: `C139_nested_violated`, `C139_default_violated`, `C139_fold_violated`, `C139_labels_violated`
* Sizes, alignment of labels, the parts stored and given back and refusals proved; disjointness and covering are refuted for all data sets, proportions and permutations (the start of the slices is never moved), and labels given without data are replaced by those of the training set. The class is not used by the rest of the package.

### C140 A file describes an experiment (partial)

* Files: `Props/Script`
* Proved: `C140_done`, `C140_order`, `C140_refused`
* Proved in part: `C140_name_partial`, `C140_directory_partial`
* Violated by the code: `C140_name_violated`, `C140_directory_violated`
* Success characterised exactly, order of the steps, refusals, names of .yaml files and directories of relative paths proved; names of .yml files collide and absolute paths leave the directory (violations). Command line and yaml by contract.

### C141 Projections and retractions of the Stiefel manifold (partial)

* Files: `Props/Retract`
* Proved: `C141_parts`, `C141_tangent`, `C141_normal`, `C141_closest`, `C141_fixed`, `C141_polar`, `C141_polar_closest`, `C141_polar_fixed`
* Violated by the code: `C141_cpu_violated`
* Splitting, tangency, best approximation and fixed points proved for both projections and for the polar retraction; stiefel_proj_tan raises for tensors on the processor and stiefel_transport always raises (violations).

### C142 Generated data sets lie where announced (partial)

* Files: `Props/Generate`
* Proved: `C142_circles`, `C142_moons_apart`, `C142_moons_range`, `C142_ends`, `C142_refused`
* Proved in part: `C142_spiral_partial`, `C142_range_partial`
* Violated by the code: `C142_spiral_violated`, `C142_range_violated`
* Two moons: position, separation of the classes, range and refusals proved for all numbers of points. Spirals: consistent labels up to 208 points (C142_spiral_partial), violated from 209 on; the range is violated from 17 points on (default 140), right in three directions up to 418 points.

### C143 What a training reports (partial)

* Files: `Props/Report`
* Proved: `C143_errors`, `C143_done`, `C143_refused`, `C143_zero`, `C143_pooled`, `C143_order`, `C143_frozen`
* Proved in part: `C143_objective_partial`
* Violated by the code: `C143_objective_violated`, `C143_mode_violated`, `C143_empty_violated`
* Errors, order, refusals, frozen models and the result proved for all models, sets, batches and epochs. The objective is shown to belong to the parameters before each step (C143_objective_partial, _violated); C143_mode_violated: evaluation mode kept after an exception in a prediction; C143_empty_violated: sets without points reported as zero.

### C144 Which distances a statistics kernel can be used with (proved)

* Files: `Props/PSDTable`
* Proved: `C144_table`, `C144_minkowski`
* Exact for the three distances that have a value.

### C145 The degrees for which a polynomial kernel is a kernel (partial)

* Files: `Props/PolyDegree`
* Proved: `C145_line`, `C145_pairs`
* Proved in part: `C145_values_partial`
* Violated by the code: `C145_nan_violated`, `C145_degree_violated`, `C145_homogeneous_violated`, `C145_beta_violated`
* Violated: on points of non-negative coordinates, where every value exists, the matrices are positive semi-definite for natural degrees only (C145_degree_violated, C145_homogeneous_violated, exact equivalences); elsewhere a degree that is not an integer gives NaN (C145_nan_violated). Natural degrees need beta >= 0 (C145_beta_violated). Two points never show it (C145_pairs), one coordinate with beta = 0 neither (C145_line).

### C146 Kernels that tell all points apart (partial)

* Files: `Props/Strict`
* Proved: `C146_table`, `C146_targets`, `C146_fit`, `C146_centred`, `C146_eigenvalues`
* Violated by the code: `C146_repeated_violated`, `C146_features_violated`, `C146_linear_violated`, `C146_polynomial_violated`, `C146_near_violated`
* Proved for the statistics kernels (C146_table is an exact equivalence in kernel, distance and dimension) with its consequences. Violated for kernels with fewer features than points (linear, polynomial), for repeated points, and, for the Nystrom kernel, for points so near that an eigenvalue is below the threshold (C146_near_violated).

### C147 What an object says about itself (partial)

* Files: `Props/Describe`
* Proved: `C147_kernel`, `C147_apart`, `C147_level`, `C147_user`, `C147_quoted`, `C147_sigma`, `C147_values`, `C147_polynomial`, `C147_repr`, `C147_repr_package`, `C147_print`, `C147_rkm`, `C147_tree`
* Proved in part: `C147_distance_partial`
* Violated by the code: `C147_ridge_violated`, `C147_statistics_violated`, `C147_distance_violated`, `C147_print_violated`, `C147_rkm_violated`, `C147_kpca_model_violated`, `C147_tree_violated`
* Proved for every kernel of the package and every kernel class of a user without __new__ of its own: the level quotes the kernel. Violated: Ridge calls itself LSSVM; the Minkowski distance calls itself manhattan; eight statistics kernels show neither distance nor bandwidth; the Wasserstein kernel reads the bandwidth when printed (fails without sample, determines it otherwise); stacked random features break the line-per-level layout; the model KPCA cannot be created (_add_level does not exist); transforms are listed last first, on one line.

### C148 How much each target counts (partial)

* Files: `Props/Influence`
* Proved: `C148_exists`, `C148_weights`, `C148_symmetric`, `C148_own`, `C148_raise`, `C148_gamma`, `C148_freedom`, `C148_features`, `C148_limits`, `C148_leave_out`
* Violated by the code: `C148_average_violated`
* All claims but the last proved for the dual system of the LS-SVM with a bias (the exact solution). Violated: outputs may leave the range of the targets (C148_average_violated), as far as one likes.

### C149 Time and histogram kernels that tell all points apart (partial)

* Files: `Props/Apart`
* Proved: `C149_hat`, `C149_indicator_default`, `C149_skewed`, `C149_additive`, `C149_targets`, `C149_fit`
* Proved in part: `C149_indicator_partial`
* Violated by the code: `C149_times_violated`, `C149_additive_violated`
* Exact real arithmetic. Indicator: proved on integer times (C149_indicator_partial, any gamma above twice the floor of the lag, which includes the default); on other times no gamma works for any positive lag (C149_times_violated). Additive chi-square: the exact null combinations are given by C149_additive; with two features or more the kernel does not tell all histograms apart (C149_additive_violated, an equivalence).

### C150 Exceptions say what happened and where (partial)

* Files: `Props/Messages`
* Proved: `C150_located`, `C150_standard`, `C150_apart`, `C150_read`, `C150_refused`
* Proved in part: `C150_sites_partial`
* Violated by the code: `C150_first_violated`, `C150_lost_violated`, `C150_keyword_violated`, `C150_unlocated_violated`
* All calls of the package are listed in Model/Messages (legacy modules aside). Three do not say what they are written with: kernel/_base_kernel.py:119 and network/explicit_nn.py:113 give the message in the place of the object, so that it is lost (C150_first_violated, C150_lost_violated), implicit.py:52 misspells a keyword and ends in a TypeError (C150_keyword_violated); calls of check_representation without object do not name the class (C150_unlocated_violated). C150_refused states exactly when the constructor itself refuses.

### C151 Training a LS-SVM by gradient leads to its fit (partial)

* Files: `Props/LSSVMDescent`
* Proved: `C151_runs`, `C151_curvature`, `C151_rate`, `C151_decreases`, `C151_outputs`, `C151_parameters`, `C151_stationary`, `C151_normalised`, `C151_whole`
* Violated by the code: `C151_bias_violated`, `C151_first_violated`, `C151_batches_violated`
* One output, in dual representation; exact reals. The formulas are those of the loss, whose attribute names (hidden, weight) do not exist on a level, so that as it stands the call raises AttributeError (recorded in C91). Violated: from a start that is not centred the first epoch can raise the loss at every rate (C151_first_violated); with a centred kernel the bias diverges exactly for eta gamma >= 1 (C151_bias_violated); with batches of one point training rests at no parameters unless all targets are equal, as a batch is predicted from its own dual variables only (C151_batches_violated). The limit is the fit at 1/gamma, not at gamma (see C91).

### C152 What the choice of the distance changes (proved)

* Files: `Props/Metrics`
* Proved: `C152_metric`, `C152_order`, `C152_sharp`, `C152_one_dimension`, `C152_kernels`, `C152_way`, `C152_way_sharp`, `C152_reach`, `C152_bandwidth`
* Minkowski and Wasserstein distances raise (C25_minkowski_violated), so every statement is about a distance that can be evaluated. For the squared exponential the similarity along a way can exceed the direct one (C152_way_sharp); the square of the product is a bound.

### C153 Groups of points that do not see each other (partial)

* Files: `Props/Groups`
* Proved: `C153_far`, `C153_normalised`, `C153_ridge`, `C153_lssvm`, `C153_components`, `C153_smoother`
* Violated by the code: `C153_centred_violated`, `C153_bias_violated`
* Exact arithmetic: kernel values of different groups are zero exactly, as they are for the kernels of bounded support (C153_far); for exponential kernels they are only small. Refuted: centring keeps groups apart (C153_centred_violated), LS-SVM outputs do not depend on the targets of other groups (C153_bias_violated: half of the target of the unseen point comes through the bias). The statement on components needs an eigenvalue that occurs once; with a repeated one the eigenvectors of the contract may mix groups.

### C154 Momentum, weight decay and what can be trained at all (partial)

* Files: `Props/Momentum`
* Proved: `C154_plain`, `C154_momentum`, `C154_effective`, `C154_types`
* Violated by the code: `C154_scalar_violated`, `C154_hyperparameter_violated`, `C154_momentum_violated`, `C154_keyword_violated`, `C154_leak_violated`, `C154_decay_violated`, `C154_nesterov_violated`
* Refuted: momentum with 'sgd' (C154_momentum_violated, C154_keyword_violated: nesterov is read by the Euclidean branch and bound by the Stiefel branch only, UnboundLocalError at every step), options of a group used for its parameters (C154_leak_violated), hyper-parameters trainable (C154_scalar_violated, C154_hyperparameter_violated: p.size()[0] of a parameter without dimension raises IndexError; sigma, alpha, beta, lag, gamma and p are held so when given as numbers or found by the heuristic), weight decay counted once (C154_decay_violated), Nesterov without momentum refused (C154_nesterov_violated). The Stiefel branch is a parameter of this model (see C35, C61); options that are not numbers or booleans are not followed; closed form of the velocity for weight decay 0.

### C155 What printing a cache shows (partial)

* Files: `Props/PrintCache`
* Proved: `C155_shows`, `C155_levels`, `C155_private`
* Proved in part: `C155_recover_partial`
* Violated by the code: `C155_empty_violated`, `C155_recover_violated`
* The text of a value (str) is a parameter. The trees held in caches are taken to have caches without trees in them, as in the code. C155_recover_partial needs keys without brackets and values on one line; C155_recover_violated shows the last is needed.

### C156 One object used by several threads (partial)

* Files: `Props/Threads`
* Proved: `C156_readers`, `C156_ends`
* Proved in part: `C156_values_partial`, `C156_orderly_partial`
* Violated by the code: `C156_reset_violated`, `C156_hyper_violated`, `C156_sample_violated`, `C156_loop_violated`, `C156_assign_violated`, `C156_walk_violated`
* Steps are those CPython can interleave under its global lock: reading the attribute, one dictionary operation, reading or writing the inputs. That writing the inputs (the data of a tensor) is one step, the level of the cache and the values of elements being functions of the inputs alone are simplifications. C156_values_partial: with resets in between values are right but KeyError or RuntimeError may be raised. C156_orderly_partial assumes changes are made while nothing else runs.

### C157 A call interrupted at any point leaves the object usable (partial)

* Files: `Props/Interrupt`
* Proved: `C157_assign`
* Proved in part: `C157_usable_partial`
* Violated by the code: `C157_sample_violated`
* Interruptions fall between the steps of Model/Threads; that the data of a tensor is written in one step is a simplification. C157_usable_partial covers all calls but update_sample, for which C157_sample_violated shows what happens.

### C158 What it takes to get the same results again (partial)

* Files: `Props/Repro`
* Proved: `C158_again`, `C158_untouched`, `C158_one_draw`, `C158_costs`, `C158_amounts`
* Violated by the code: `C158_split_violated`, `C158_step_violated`, `C158_gaussians_violated`, `C158_raising_violated`
* What a generator returns in a state is by contract; the values computed from the draws are not modelled here. The violations hold for every generator that is not constant: shuffled splits, Stiefel steps and the Gaussians do not depend on torch's seed, and draw_k of a PPCA level with a mean draws before it raises.

### C159 A LS-SVM is a ridge regression on centred data (proved)

* Files: `Props/RidgeBias`
* Proved: `C159_centred`, `C159_constant_part`, `C159_constant_limit`
* Dual representations, one output, exact arithmetic; the primal solvers regularise differently (C94, C50).

### C160 How much each target counts in a ridge regression (proved)

* Files: `Props/RidgeInf`
* Proved: `C160_exists`, `C160_weights`, `C160_training`, `C160_shrinks`, `C160_gamma`, `C160_leave_out`, `C160_features`
* Dual representation, one output, exact arithmetic; primal: see C94.

### C161 How many components a fit keeps (partial)

* Files: `Props/Comps`
* Proved: `C161_points`, `C161_centred`, `C161_features`, `C161_primal`
* Violated by the code: `C161_primal_violated`
* Exact arithmetic: the violation comes from the threshold EPS, which is compared with eigenvalues of C (divided by the number of points) in primal and of K in dual.

### C162 The outputs of a fitted regression are the best predictions linear in the targets (proved)

* Files: `Props/BestPred`
* Proved: `C162_ridge`, `C162_lssvm`, `C162_mean`
* The random quantities are vectors of an inner product space (second moments); the statement does not say that the targets are so distributed, it says what the outputs are if they are.

### C163 What a selection selects (partial)

* Files: `Props/Selection`
* Proved: `C163_ints`, `C163_all`, `C163_aligned`, `C163_mask_size`, `C163_update_refused`, `C163_update`
* Proved in part: `C163_history_partial`
* Violated by the code: `C163_late_violated`, `C163_mask_violated`, `C163_slice_violated`, `C163_held_violated`, `C163_same_row_violated`, `C163_update_mask_violated`
* The history theorem assumes that the user changes no object while it is used as a selection; without it C163_held_violated. Late refusal, masks, slices and two indices of the same row are violated (torch leaves open which of the two values is kept, the model keeps the last). A single integer as selection is not modelled.

### C164 A result belongs to the object it was asked for (partial)

* Files: `Props/Identity`
* Proved: `C164_kernel`, `C164_retained`, `C164_forward_light`
* Proved in part: `C164_forward_partial`
* Violated by the code: `C164_forward_violated`
* C164_kernel for every history, allocator choice and cache level; C164_retained shows what this costs (arguments stay referred to until the next reset); C164_forward_light below the level normal; C164_forward_partial at every level if only tensors are given to forward; C164_forward_violated: at the default level a list or array at the address of a forgotten one gets the output of the first. In-place changes of contents are in C07.

### C165 The settings of a trainer (partial)

* Files: `Props/TrainerSet`
* Proved: `C165_current`, `C165_unique`, `C165_set`, `C165_construct`, `C165_fit`, `C165_returns`, `C165_settings_kept`
* Violated by the code: `C165_epochs_violated`, `C165_mode_violated`, `C165_lr_violated`
* C165_current, C165_unique: every setting has the value last accepted, after any history; C165_set, C165_construct: what is accepted and that refusals have no effect; C165_fit, C165_returns, C165_settings_kept: what a fit uses and when it returns. C165_epochs_violated, C165_lr_violated: values that cannot be used are accepted; C165_mode_violated: a fit that raises leaves the model initialised anew and in training mode. batch_size is in C56; that every fit of the pinned commit raises is in C70.

### C166 How many random weights are enough (proved)

* Files: `Props/RFRate`
* Proved: `C166_mean`, `C166_error`, `C166_lrelu_mean`, `C166_tail`, `C166_enough`
* Weights are modelled as independent standard Gaussian vectors on a probability space (random_features.py:111-114); pairwise independence suffices for mean and error, mutual independence for the tail. The pseudo-random generator itself is trusted to give such draws. For leaky rectifiers the origin is excluded, where the closed form is NaN (C104_origin_violated).

### C167 What is fitted with random features approaches what is fitted with infinitely many (proved)

* Files: `Props/RFFit`
* Proved: `C167_lssvm`, `C167_lssvm_lrelu`, `C167_kpca`, `C167_kpca_enough`, `C167_lssvm_enough`
* Weights as in C166. The level is solved in dual representation on the kernel of the features without transforms; fits exist and are unique by C50_exists_partial and C50_unique_partial. The bias is included in the limits; the bound for a given number of weights is about the dual variables.

### C168 A random selection is fair (partial)

* Files: `Props/Fair`
* Proved: `C168_sets`, `C168_points`, `C168_mean`, `C168_error`
* Violated by the code: `C168_empty_violated`
* torch.randperm is taken to give each order equally often (probabilities are numbers of permutations out of n!). The expectation of means assumes that something is selected; C168_empty_violated shows when nothing is.

### C169 Several outputs are fitted as each of them alone (partial)

* Files: `Props/Outputs`
* Proved: `C169_dual`, `C169_primal`, `C169_refused`, `C169_returns`, `C169_mix`, `C169_alone`, `C169_outputs`, `C169_primal_mix`, `C169_ridge`, `C169_ridge_primal`, `C169_ridge_returns`
* Proved in part: `C169_primal_centred_partial`
* Violated by the code: `C169_loss_violated`, `C169_primal_violated`
* LSSVM and ridge systems are assembled as the code does and proved to be, output by output, the one-output systems of Model/LSSVM and Model/LSSVMTrain. Not modelled: rounding, the storing of the results (C105). kernel.phi_sample is read as the features of the sample. Violated: the loss with m outputs is the sum of the losses with gamma / m; the primal system can be singular where the dual one is not (two points of feature 1, gamma 1).
<!-- per property: end -->
