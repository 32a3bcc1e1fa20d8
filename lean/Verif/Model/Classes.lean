import Verif.Model.Cache
import Mathlib.Data.List.Basic
import Mathlib.Data.List.Nodup
import Mathlib.Data.Real.Basic
/-!
# The classes of the package: linearisation, abstract methods, creation of level classes

A level is an object of a class built on the fly out of a level class and a kernel class (level/single_view/View.py:39-48),
and a distance kernel one out of a kernel class and a distance class (kernel/distance/select_distance.py:14-41).  What such an
object does is decided by Python's linearisation of base classes and by `abc.ABCMeta`; both are modelled here, as CPython
documents them, together with the table of the classes of `kerch/feature`, `kerch/kernel` and `kerch/level`.

Simplifications: `torch.nn.Module` is an entry with only the names used here; metaclasses are not compared (all are
`ABCMeta`, its subclass relation being trivial); decorators keep the abstract flag of what they decorate.
-/
set_option linter.unusedSectionVars false
namespace Kerch
namespace Classes

section C3
variable {α : Type*} [DecidableEq α]

/-- Is `h` in the tail of one of the lists? -/
def blocked (h : α) (ls : List (List α)) : Bool := ls.any (fun l => l.tail.contains h)

/-- The first head that is in no tail. -/
def pick (ls : List (List α)) : Option α := (ls.filterMap List.head?).find? (fun h => !blocked h ls)

/-- Remove `h` from the front of a list. -/
def strip (h : α) (l : List α) : List α := if l.head? = some h then l.tail else l

/-- The merge of C3 (CPython `pmerge`).  The fuel is the total length: at zero all lists are empty. -/
def merge : ℕ → List (List α) → Option (List α)
  | 0, _ => some []
  | n + 1, ls =>
    if ls.all List.isEmpty then some []
    else match pick ls with
      | none => none
      | some h => (merge n (ls.map (strip h))).map (fun m => h :: m)

/-- The merge with enough fuel. -/
def c3 (ls : List (List α)) : Option (List α) := merge (ls.map List.length).sum ls
end C3

/-- Classes of the package; `user n` are classes of the user, `dyn n` are the ones created by `type(...)`. -/
inductive CN
  | object | nnModule | logger | module | cache | stochastic | sample | baseKernel | kernel | implicit |
     distanceBase | distance | chebyshev | distanceSquared | euclidean | manhattan | minkowski | selectDistance |
     wassersteinDistance | explicit | linear | cosine | exponential | laplacian | polynomial | rbf | sigmoid |
     wassersteinKernel | explicitNN | implicitNN | nystrom | randomFeatures | rfArcsinh | rfHyperbola | rfLReLU |
     rfStacked | rff | epanechnikov | logistic | quartic | silverman | triangular | tricube | triweight | uniform |
     hat | indicator | additiveChi2 | skewedChi2 | viewBase | levelBase | kpcaBase | ppcaBase | multiView | mvLevel
     | mvkpca | view | level | kpca | lssvm | ppca | ridge | wpca
  | user (n : ℕ) | dyn (n : ℕ)
  deriving DecidableEq, Repr
/-- Attribute names that matter here (a trailing `P` is a leading underscore in Python, `big` a capital); the others are
`other n`. -/
inductive At
  | init | new | str | explicit | dimFeature | implicitP | explicitP | implicitSelf | explicitWithNone |
     determineSigma | distSigma | squareDistSigma | squareDist | dist | activationFn | solvePrimal | solveDual |
     loss | resetPrimal | updateDualFromPrimal | phi | k | bigK | bigH | bigW | forwardP | forward | c | bigC |
     bigPhi | phiP | bigKP | bigCP | gamma | sigma | kernelA | afterStep | beforeStep | hparamsFixed |
     hparamsVariable | kappa | euclidean | slow | stiefel | initSample | updateSample | initParameters | numWeights
     | alpha | beta | lag
  | other (n : ℕ)
  deriving DecidableEq, Repr
/-- A function or property in the body of a class: marked abstract or not, and whether it calls the next implementation
with `super()`. -/
structure Body where
  abstract : Bool
  callsSuper : Bool
  deriving DecidableEq, Repr

def con : Body := ⟨false, false⟩
def sup : Body := ⟨false, true⟩
def abs : Body := ⟨true, false⟩
def absSup : Body := ⟨true, true⟩

/-- One class as an element of a linearisation: identity, own `__dict__`, and the class in whose statement the functions of
that dictionary were written: they call `super(home, self)`.  The two differ for the classes made by `type(...)` out of a
copy of the dictionary of another class. -/
structure Entry where
  name : CN
  home : CN
  defs : List (At × Body)
  deriving DecidableEq, Repr

/-- A class object: its `__mro__` (itself first) and its `__abstractmethods__`. -/
structure Cls where
  mro : List Entry
  abs : List At
  deriving DecidableEq, Repr

/-- The own definition of a name. -/
def Entry.find (e : Entry) (n : At) : Option Body := (e.defs.find? (fun d => d.1 == n)).map Prod.snd

/-- Attribute lookup along a linearisation (`type.__getattribute__`, `super().__getattribute__`): the class whose
statement contains what is found, and its definition. -/
def lookup (m : List Entry) (n : At) : Option (CN × Body) :=
  match m with
  | [] => none
  | e :: m => match e.find n with
    | some b => some (e.home, b)
    | none => lookup m n

/-- Is what the lookup finds marked abstract (`getattr(value, "__isabstractmethod__", False)`)? -/
def isAbstract (m : List Entry) (n : At) : Bool :=
  match lookup m n with
  | some (_, b) => b.abstract
  | none => false

/-- A class statement, or `type(name, bases, namespace)`: the linearisation by C3 (`TypeError` if there is none), then
`ABCMeta.__new__` (CPython `compute_abstract_methods`): the own abstract names, and those of the bases that are still abstract
when looked up on the new class. -/
def create (e : Entry) (bases : List Cls) : Except Err Cls :=
  match c3 (bases.map Cls.mro ++ [bases.filterMap (fun b => b.mro.head?)]) with
  | none => .error .typeError
  | some m => .ok ⟨e :: m,
      (e.defs.filter (fun d => isAbstract (e :: m) d.1)).map Prod.fst
        ++ (bases.flatMap Cls.abs).filter (isAbstract (e :: m))⟩

/-- `object.__new__(cls)` (feature/module.py:21-22): refuses a class with abstract names. -/
def instantiate (c : Cls) : Except Err Unit := if c.abs = [] then .ok () else .error .typeError

/-- `issubclass(c, base)`. -/
def isSubclass (c base : Cls) : Bool :=
  match base.mro with
  | [] => false
  | b :: _ => c.mro.contains b

/-- A row of the table: a class statement of the package. -/
structure Row where
  name : CN
  bases : List CN
  defs : List (At × Body)

/-- The class statements of the package, bases before derived classes, restricted to the names of `At`. -/
def table : List Row :=
  [⟨.object, [], [(.init, con), (.new, con), (.str, con)]⟩,
   ⟨.nnModule, [.object], [(.init, con), (.forward, con)]⟩,
   -- feature/logger.py:18
   ⟨.logger, [.object], [(.init, con)]⟩,
   -- feature/module.py:17
   ⟨.module, [.logger, .nnModule, .object], [(.new, con), (.init, abs), (.euclidean, con), (.stiefel, con), (.slow,
     con), (.beforeStep, con), (.afterStep, con), (.hparamsVariable, con), (.hparamsFixed, con)]⟩,
   -- feature/cache.py:17
   ⟨.cache, [.module], [(.init, sup)]⟩,
   -- feature/stochastic.py:21
   ⟨.stochastic, [.cache], [(.init, absSup)]⟩,
   -- feature/sample.py:22
   ⟨.sample, [.stochastic], [(.init, sup), (.initSample, con), (.updateSample, con), (.euclidean, sup),
     (.hparamsFixed, sup), (.hparamsVariable, sup)]⟩,
   -- kernel/_base_kernel.py:21
   ⟨.baseKernel, [.sample], [(.init, sup), (.str, abs), (.explicit, abs), (.hparamsFixed, sup), (.hparamsVariable,
     sup), (.dimFeature, abs), (.implicitP, abs), (.implicitSelf, con), (.explicitP, abs), (.explicitWithNone, con),
     (.phiP, con), (.bigCP, con), (.bigKP, con), (.phi, con), (.k, con), (.c, con), (.forward, con), (.bigK, con),
     (.bigC, con), (.bigPhi, con)]⟩,
   -- kernel/kernel.py:24
   ⟨.kernel, [.baseKernel], [(.init, absSup), (.hparamsFixed, sup), (.phiP, con), (.bigCP, con), (.bigKP, con),
     (.phi, con), (.k, con), (.c, con), (.forward, con)]⟩,
   -- kernel/implicit.py:22
   ⟨.implicit, [.kernel], [(.init, sup), (.str, con), (.explicit, con), (.dimFeature, con), (.explicitP, con),
     (.implicitP, abs)]⟩,
   -- kernel/distance/_distance.py:12
   ⟨.distanceBase, [.implicit], [(.init, sup), (.str, con), (.sigma, con), (.hparamsVariable, sup), (.hparamsFixed,
     sup), (.determineSigma, abs), (.distSigma, abs), (.squareDistSigma, abs), (.slow, sup), (.squareDist, abs),
     (.dist, abs)]⟩,
   -- kernel/distance/distance.py:10
   ⟨.distance, [.distanceBase], [(.init, sup), (.determineSigma, con), (.distSigma, con), (.squareDistSigma, con),
     (.squareDist, con), (.dist, abs)]⟩,
   -- kernel/distance/chebyshev.py:10
   ⟨.chebyshev, [.distance], [(.init, sup), (.str, con), (.dist, con)]⟩,
   -- kernel/distance/distance_squared.py:10
   ⟨.distanceSquared, [.distanceBase], [(.init, sup), (.determineSigma, con), (.distSigma, con), (.squareDistSigma,
     con), (.squareDist, abs), (.dist, con)]⟩,
   -- kernel/distance/euclidean.py:10
   ⟨.euclidean, [.distanceSquared], [(.init, sup), (.str, con), (.squareDist, con)]⟩,
   -- kernel/distance/manhattan.py:10
   ⟨.manhattan, [.distance], [(.init, sup), (.str, con), (.dist, con)]⟩,
   -- kernel/distance/minkowski.py:10
   ⟨.minkowski, [.distance], [(.init, sup), (.str, con), (.dist, con)]⟩,
   -- kernel/distance/select_distance.py:7
   ⟨.selectDistance, [.distanceBase], [(.new, con), (.init, sup), (.str, con)]⟩,
   -- kernel/distance/wasserstein.py:10
   ⟨.wassersteinDistance, [.distance], [(.init, sup), (.str, con), (.dist, con)]⟩,
   -- kernel/explicit.py:18
   ⟨.explicit, [.kernel], [(.init, sup), (.str, con), (.explicit, con), (.dimFeature, con), (.implicitP, con),
     (.explicitP, abs)]⟩,
   -- kernel/generic/linear.py:18
   ⟨.linear, [.explicit], [(.init, sup), (.str, con), (.dimFeature, con), (.hparamsFixed, sup), (.explicitP, con)]⟩,
   -- kernel/generic/cosine.py:16
   ⟨.cosine, [.linear], [(.init, sup), (.str, con), (.hparamsFixed, sup)]⟩,
   -- kernel/statistics/exponential.py:19
   ⟨.exponential, [.selectDistance], [(.init, sup), (.str, con), (.hparamsFixed, sup), (.implicitP, con),
     (.implicitSelf, con)]⟩,
   -- kernel/generic/laplacian.py:18
   ⟨.laplacian, [.exponential], [(.new, con), (.init, sup), (.str, con), (.hparamsFixed, sup)]⟩,
   -- kernel/generic/polynomial.py:25
   ⟨.polynomial, [.implicit, .explicit], [(.init, sup), (.str, con), (.explicit, con), (.dimFeature, con), (.alpha,
     con), (.beta, con), (.hparamsVariable, sup), (.hparamsFixed, con), (.implicitP, con), (.explicitP, con),
     (.slow, sup), (.k, sup)]⟩,
   -- kernel/generic/rbf.py:17
   ⟨.rbf, [.exponential], [(.new, con), (.init, sup), (.str, con), (.hparamsFixed, sup)]⟩,
   -- kernel/generic/sigmoid.py:18
   ⟨.sigmoid, [.implicit], [(.init, sup), (.str, con), (.hparamsVariable, con), (.hparamsFixed, sup), (.implicitP,
     con)]⟩,
   -- kernel/generic/wasserstein.py:18
   ⟨.wassersteinKernel, [.exponential], [(.init, sup), (.str, con), (.hparamsFixed, sup), (.squareDist, con)]⟩,
   -- kernel/network/explicit_nn.py:19
   ⟨.explicitNN, [.explicit], [(.init, sup), (.str, con), (.hparamsFixed, sup), (.explicitP, con), (.loss, con),
     (.euclidean, sup)]⟩,
   -- kernel/network/implicit_nn.py:17
   ⟨.implicitNN, [.implicit], [(.init, sup), (.str, con), (.hparamsFixed, sup), (.implicitP, con), (.euclidean,
     sup)]⟩,
   -- kernel/nystrom.py:19
   ⟨.nystrom, [.explicit], [(.init, sup), (.dimFeature, con), (.str, con), (.hparamsFixed, sup), (.initSample, sup),
     (.updateSample, con), (.explicitWithNone, con), (.explicitP, con)]⟩,
   -- kernel/random_features/random_features.py:22
   ⟨.randomFeatures, [.kernel], [(.init, sup), (.explicit, con), (.sigma, con), (.numWeights, con), (.dimFeature,
     con), (.str, con), (.hparamsVariable, con), (.explicitP, con), (.activationFn, abs), (.implicitP, con),
     (.afterStep, con)]⟩,
   -- kernel/random_features/rf_arcsinh.py:7
   ⟨.rfArcsinh, [.randomFeatures], [(.init, sup), (.str, con), (.hparamsFixed, sup), (.activationFn, con)]⟩,
   -- kernel/random_features/rf_hyperbola.py:7
   ⟨.rfHyperbola, [.randomFeatures], [(.init, sup), (.alpha, con), (.beta, con), (.gamma, con), (.str, con),
     (.hparamsFixed, sup), (.activationFn, con)]⟩,
   -- kernel/random_features/rf_lrelu.py:9
   ⟨.rfLReLU, [.randomFeatures], [(.init, sup), (.str, con), (.hparamsFixed, sup), (.alpha, con), (.activationFn,
     con)]⟩,
   -- kernel/random_features/rf_stacked.py:7
   ⟨.rfStacked, [.explicit], [(.init, sup), (.str, con), (.initSample, sup), (.kernelA, con), (.numWeights, con),
     (.hparamsFixed, sup), (.explicitP, con)]⟩,
   -- kernel/random_features/rff.py:21
   ⟨.rff, [.randomFeatures], [(.init, sup), (.dimFeature, con), (.hparamsFixed, sup), (.str, con), (.activationFn,
     con)]⟩,
   -- kernel/statistics/epanechnikov.py:8
   ⟨.epanechnikov, [.selectDistance], [(.init, sup), (.str, con), (.hparamsFixed, sup), (.implicitP, con)]⟩,
   -- kernel/statistics/logistic.py:8
   ⟨.logistic, [.selectDistance], [(.init, sup), (.str, con), (.hparamsFixed, sup), (.implicitP, con)]⟩,
   -- kernel/statistics/quartic.py:8
   ⟨.quartic, [.selectDistance], [(.init, sup), (.str, con), (.hparamsFixed, sup), (.implicitP, con)]⟩,
   -- kernel/statistics/silverman.py:9
   ⟨.silverman, [.selectDistance], [(.init, sup), (.str, con), (.hparamsFixed, sup), (.implicitP, con)]⟩,
   -- kernel/statistics/triangular.py:8
   ⟨.triangular, [.selectDistance], [(.init, sup), (.str, con), (.hparamsFixed, sup), (.implicitP, con)]⟩,
   -- kernel/statistics/tricube.py:8
   ⟨.tricube, [.selectDistance], [(.init, sup), (.str, con), (.hparamsFixed, sup), (.implicitP, con)]⟩,
   -- kernel/statistics/triweight.py:8
   ⟨.triweight, [.selectDistance], [(.init, sup), (.str, con), (.hparamsFixed, sup), (.implicitP, con)]⟩,
   -- kernel/statistics/uniform.py:8
   ⟨.uniform, [.selectDistance], [(.init, sup), (.str, con), (.hparamsFixed, sup), (.implicitP, con)]⟩,
   -- kernel/time/hat.py:19
   ⟨.hat, [.implicit], [(.init, sup), (.str, con), (.lag, con), (.hparamsVariable, con), (.hparamsFixed, sup),
     (.implicitP, con), (.slow, sup)]⟩,
   -- kernel/time/indicator.py:19
   ⟨.indicator, [.implicit], [(.init, sup), (.str, con), (.hparamsVariable, con), (.lag, con), (.hparamsFixed, sup),
     (.gamma, con), (.implicitP, con), (.slow, sup)]⟩,
   -- kernel/vision/additive_chi_2.py:18
   ⟨.additiveChi2, [.implicit], [(.init, sup), (.str, con), (.hparamsVariable, con), (.hparamsFixed, sup),
     (.implicitP, con)]⟩,
   -- kernel/vision/skewed_chi_2.py:19
   ⟨.skewedChi2, [.implicit], [(.init, sup), (.str, con), (.hparamsVariable, con), (.hparamsFixed, sup),
     (.implicitP, con), (.slow, sup)]⟩,
   -- level/_View.py:20
   ⟨.viewBase, [.stochastic], [(.init, sup), (.hparamsFixed, sup), (.resetPrimal, abs), (.initParameters, con),
     (.dimFeature, abs), (.updateDualFromPrimal, abs), (.phi, abs), (.k, abs), (.c, con), (.bigPhi, con), (.bigK,
     abs), (.bigC, con), (.bigH, abs), (.bigW, abs), (.forwardP, abs), (.forward, con)]⟩,
   -- level/_Level.py:10
   ⟨.levelBase, [.viewBase], [(.init, sup), (.hparamsFixed, sup), (.hparamsVariable, sup), (.solvePrimal, abs),
     (.solveDual, abs), (.loss, abs), (.beforeStep, con), (.afterStep, con)]⟩,
   -- level/_KPCA.py:13
   ⟨.kpcaBase, [.levelBase], [(.init, sup), (.solvePrimal, con), (.solveDual, con), (.stiefel, sup), (.bigH, con),
     (.bigW, con), (.loss, con)]⟩,
   -- level/_PPCA.py:13
   ⟨.ppcaBase, [.levelBase], [(.init, sup), (.loss, con), (.stiefel, sup)]⟩,
   -- level/multi_view/MultiView.py:17
   ⟨.multiView, [.viewBase], [(.init, sup), (.str, con), (.resetPrimal, con), (.dimFeature, con),
     (.updateDualFromPrimal, con), (.phi, con), (.k, con), (.bigK, con), (.forwardP, con)]⟩,
   -- level/multi_view/MVLevel.py:10
   ⟨.mvLevel, [.levelBase, .multiView], [(.init, sup), (.loss, con)]⟩,
   -- level/multi_view/MVKPCA.py:9
   ⟨.mvkpca, [.kpcaBase, .mvLevel], [(.init, sup), (.str, con), (.updateDualFromPrimal, con)]⟩,
   -- level/single_view/View.py:23
   ⟨.view, [.kernel, .viewBase, .sample], [(.new, con), (.init, sup), (.str, con), (.initParameters, sup),
     (.resetPrimal, con), (.kappa, con), (.dimFeature, con), (.updateDualFromPrimal, con), (.phi, con), (.k, con),
     (.bigK, con), (.forwardP, con), (.forward, con), (.kernelA, con)]⟩,
   -- level/single_view/Level.py:9
   ⟨.level, [.levelBase, .view], [(.init, sup), (.loss, abs)]⟩,
   -- level/single_view/KPCA.py:10
   ⟨.kpca, [.kpcaBase, .level], [(.init, sup), (.str, con), (.updateDualFromPrimal, con)]⟩,
   -- level/single_view/LSSVM.py:10
   ⟨.lssvm, [.level], [(.init, sup), (.str, con), (.gamma, con), (.solvePrimal, con), (.solveDual, con),
     (.euclidean, sup), (.bigH, con), (.bigW, con), (.loss, con), (.afterStep, sup), (.updateDualFromPrimal, con)]⟩,
   -- level/single_view/PPCA.py:10
   ⟨.ppca, [.ppcaBase, .level], [(.init, sup), (.solvePrimal, con), (.solveDual, con)]⟩,
   -- level/single_view/Ridge.py:6
   ⟨.ridge, [.lssvm], [(.init, sup), (.solvePrimal, con), (.solveDual, con)]⟩,
   -- level/single_view/WPCA.py:4
   ⟨.wpca, [.ppcaBase, .level], [(.init, sup)]⟩]

/-- Executing the class statements one after the other. -/
def run : List (CN × Cls) → List Row → List (CN × Cls)
  | env, [] => env
  | env, r :: rs =>
    match create ⟨r.name, r.name, r.defs⟩ (r.bases.filterMap (fun b => env.lookup b)) with
    | .error _ => run env rs
    | .ok c => run (env ++ [(r.name, c)]) rs

/-- All classes of the package. -/
def env : List (CN × Cls) := run [] table

/-- A class of the package. -/
def cls (n : CN) : Cls := (env.lookup n).getD ⟨[], []⟩

/-- The own `__dict__` of a class. -/
def ownDefs (c : Cls) : List (At × Body) :=
  match c.mro with
  | [] => []
  | e :: _ => e.defs

/-- The class whose statement contains the own functions of a class. -/
def ownHome (c : Cls) : CN :=
  match c.mro with
  | [] => .object
  | e :: _ => e.home

/-- kernel/distance/select_distance.py:40-41: `type(cls.__name__, (cls, distance_class), dict(cls.__dict__))`, the new class
having the identity `id`. -/
def selectClass (id : ℕ) (c d : Cls) : Except Err Cls := create ⟨.dyn id, ownHome c, ownDefs c⟩ [c, d]

/-- `kernel_class.__new__(c)` for a kernel class that takes its `__new__` from the package: RBF, Laplacian and the other
kernels based on a distance reach `SelectDistance.__new__` (select_distance.py:14-41, rbf.py:43-51, laplacian.py:33-41), which
builds a further class with the distance class `d`; the others reach `Module.__new__` (feature/module.py:21-22).  Simplified: the
argument `distance` is already resolved to a class (C53), and classes of the user do not define `__new__`. -/
def kernelNew (id : ℕ) (k c d : Cls) : Except Err Cls :=
  if k.mro.any (fun e => e.name == .selectDistance) then
    match selectClass id c d with
    | .error e => .error e
    | .ok c' => match instantiate c' with
      | .error e => .error e
      | .ok _ => .ok c'
  else match instantiate c with
    | .error e => .error e
    | .ok _ => .ok c

/-- level/single_view/View.py:39-48 `View.__new__`: the class `l` combined with the kernel class `k`; `d` is the distance class
should the kernel ask for one.  Returns the class of the object. -/
def levelNew (id : ℕ) (l k d : Cls) : Except Err Cls :=
  if !isSubclass k (cls .kernel) then .error .assertionError
  else match create ⟨.dyn id, ownHome l, ownDefs l⟩ [l, k] with
    | .error e => .error e
    | .ok c => kernelNew (id + 1) k c d

/-- Construction of a kernel without level: `kernel_class(**kwargs)`. -/
def kernelOnly (id : ℕ) (k d : Cls) : Except Err Cls := kernelNew id k k d

/-- The part of a linearisation after the class named `n`: what `super(n, self)` searches. -/
def after (n : CN) : List Entry → List Entry
  | [] => []
  | e :: m => if e.name = n then m else after n m

/-- View.py:240-242: `self.kernel` is `super(View, self)`; the class that provides `self.kernel.n`. -/
def kernelLookup (c : Cls) (n : At) : Option (CN × Body) := lookup (after .view c.mro) n

/-- The classes whose body of `n` is executed by a call of `n`: the one found, and the following ones as long as each calls
`super(home, self)`; `skip` is the class after which the search goes on, if it is not reached yet. -/
def executed (n : At) : Option CN → List Entry → List CN
  | _, [] => []
  | some h, e :: m => if e.name = h then executed n none m else executed n (some h) m
  | none, e :: m => match e.find n with
    | none => executed n none m
    | some b => e.home :: (if b.callsSuper then executed n (if e.home = e.name then none else some e.home) m else [])

/-! ### The attribute `_gamma`

The level LSSVM (LSSVM.py:25) and the kernels Indicator (indicator.py:73-78) and RFHyperbola (rf_hyperbola.py:23,53-55) use one
and the same attribute `self._gamma` of the object. -/

/-- What the body of `__init__` of a class writes in `self._gamma` when it is called with `lag` and `gamma`; the write comes
after the call of `super().__init__` in each of them. -/
noncomputable def gammaWrite (lag : ℝ) (gamma : Option ℝ) : CN → Option ℝ
  | .lssvm => some (gamma.getD 1)
  | .indicator => some (gamma.getD (2 * lag + 1))
  | _ => none

/-- `self._gamma` after a construction that executes these bodies, the outermost first. -/
noncomputable def gammaCell (lag : ℝ) (gamma : Option ℝ) (order : List CN) : Option ℝ :=
  order.reverse.foldl (fun st c => (gammaWrite lag gamma c).or st) none

/-- `self.gamma = v`: the setter found along the linearisation.  LSSVM.py:35-40 reads `self._gamma.device` first
(`AttributeError` if there is none); rf_hyperbola.py:53-55 asserts `v > 0`; indicator.py:122-125 sets the data of the existing
parameter. -/
noncomputable def setGamma (provider : Option CN) (cell : Option ℝ) (v : ℝ) : Except Err ℝ :=
  match provider with
  | some .rfHyperbola => if 0 < v then .ok v else .error .assertionError
  | some .lssvm | some .indicator => match cell with
    | none => .error .attributeError
    | some _ => .ok v
  | _ => .ok v

/-- rf_hyperbola.py:20-26, the first two assignments (the initialisers of the base classes having succeeded; at that point
nothing has written `self._gamma`). -/
noncomputable def hyperbolaInit (c : Cls) (alpha gamma : ℝ) : Except Err ℝ :=
  if 0 < alpha then setGamma ((lookup c.mro .gamma).map Prod.fst) none gamma else .error .assertionError

end Classes
end Kerch
