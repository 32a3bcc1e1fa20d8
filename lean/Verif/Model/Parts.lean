import Verif.Model.Cache
/-!
# A model and its parts (kerch/model/Model.py, kerch/feature/{module,cache,stochastic}.py)

The levels of a model are in a plain Python list (Model.py:16): they are no children in the sense of torch. What torch and the parent classes do goes to the children only.
-/
namespace Kerch
namespace Parts

/-- Of which classes a module is an instance: only torch's, `Logger`, `Cache`, `Stochastic`; each one after the first is an instance of those before. -/
inductive Rank
  | torch | logger | cache | stochastic
  deriving DecidableEq

/-- What a module holds itself: its class, `training`, all indices of `_num_total` (`none` before it is known), `_idx_stochastic`, its cached elements with whether they are
persisting, its own tensors (`data`: values, type, gradients), its logging level. `S` are selections of indices. -/
structure Own (S A : Type) where
  rank : Rank
  training : Bool
  total : Option S
  idx : Option S
  cache : List (Bool × A)
  data : A
  log : Int

/-- A module with its children (`node`), a model with its children and its levels (`model`; Model.py:13-16). A module reached by several ways is taken as several modules. -/
inductive Part (S A : Type)
  | node (own : Own S A) (kids : List (Part S A))
  | model (own : Own S A) (kids : List (Part S A)) (levels : List (Part S A))

variable {S A : Type}

/-- What the module holds itself. -/
def Part.own : Part S A → Own S A
  | .node o _ => o
  | .model o _ _ => o

mutual
/-- All the modules that make up a module: itself, its children, its levels, and theirs. -/
def Part.all : Part S A → List (Own S A)
  | .node o k => o :: allL k
  | .model o k l => o :: (allL k ++ allL l)
/-- The same for a list. -/
def allL : List (Part S A) → List (Own S A)
  | [] => []
  | p :: t => p.all ++ allL t
end

mutual
/-- torch's `modules()` (also behind `parameters()`, `state_dict()`, `zero_grad()`): itself, then those of the children. -/
def Part.modules : Part S A → List (Own S A)
  | .node o k => o :: modulesL k
  | .model o k _ => o :: modulesL k
/-- The same for a list. -/
def modulesL : List (Part S A) → List (Own S A)
  | [] => []
  | p :: t => p.modules ++ modulesL t
end

mutual
/-- What torch does to a module and its children: `apply(fn)`, `requires_grad_`, `zero_grad`, and `_apply(fn)` (`to`, `double`, `float`, ...) for modules that are not of
class `Cache`. -/
def Part.torchApply (g : Own S A → Own S A) : Part S A → Part S A
  | .node o k => .node (g o) (torchApplyL g k)
  | .model o k l => .model (g o) (torchApplyL g k) l
/-- The same for a list. -/
def torchApplyL (g : Own S A → Own S A) : List (Part S A) → List (Part S A)
  | [] => []
  | p :: t => p.torchApply g :: torchApplyL g t
end

/-- cache.py:78-97 `_apply` and torch's, on what a module holds itself: the tensors, and for a `Cache` the cached ones. -/
def Own.port (f : A → A) (o : Own S A) : Own S A :=
  { o with data := f o.data, cache := if o.rank = .cache ∨ o.rank = .stochastic then o.cache.map fun e => (e.1, f e.2) else o.cache }

/-- `module.to(...)`, `double()`, ... with an `f` that does nothing the second time (cache.py:94-97 does the children twice, see `Verif/Model/Port.lean`). -/
def Part.port (f : A → A) (p : Part S A) : Part S A := p.torchApply (Own.port f)

/-- module.py:41-48, the setter of `logging_level`: itself and the children that are instances of `Logger`; these are never behind a module that is none, as torch modules
know nothing of the setter. -/
def Part.isLogger (p : Part S A) : Bool := p.own.rank ≠ .torch

mutual
/-- module.py:41-48. -/
def Part.setLog (v : Int) : Part S A → Part S A
  | .node o k => .node { o with log := v } (setLogL v k)
  | .model o k l => .model { o with log := v } (setLogL v k) l
/-- module.py:46-48: the loop over the children. -/
def setLogL (v : Int) : List (Part S A) → List (Part S A)
  | [] => []
  | p :: t => (if p.isLogger then p.setLog v else p) :: setLogL v t
end

/-- Whether a module is an instance of `Stochastic`. -/
def Part.isStoch (p : Part S A) : Bool := p.own.rank = .stochastic

/-- Whether a module is an instance of `Cache`. -/
def Part.isCache (p : Part S A) : Bool := p.own.rank = .cache ∨ p.own.rank = .stochastic

/-- stochastic.py:79-103 on the module itself: nothing without `_num_total`; the elements of the cache that are not persisting are dropped. -/
def Own.select (i : Option S) (o : Own S A) : Own S A :=
  match o.total with
  | none => o
  | some t => { o with idx := some (i.getD t), cache := o.cache.filter (·.1) }

mutual
/-- stochastic.py:60-107 `stochastic(idx=i)`; Model.py:146-149 for a model: whatever its `_idx_stochastic` is, it goes to the levels. -/
def Part.stoch (i : Option S) : Part S A → Part S A
  | .node o k => .node (o.select i) (match o.total with | none => k | some t => stochL (some (i.getD t)) k)
  | .model o k l => .model (o.select i) (match o.total with | none => k | some t => stochL (some (i.getD t)) k) (levelStoch (o.select i).idx l)
/-- stochastic.py:105-107: the loop over the children. -/
def stochL (i : Option S) : List (Part S A) → List (Part S A)
  | [] => []
  | p :: t => (if p.isStoch then p.stoch i else p) :: stochL i t
/-- Model.py:148-149: the loop over the levels. -/
def levelStoch (i : Option S) : List (Part S A) → List (Part S A)
  | [] => []
  | p :: t => p.stoch i :: levelStoch i t
end

/-- stochastic.py:48-57 after torch's `train`: in evaluation mode all indices are selected. -/
def Part.afterTrain (mode : Bool) (p : Part S A) : Part S A := if p.isStoch && !mode then p.stoch none else p

mutual
/-- Depth of a module. -/
def Part.height : Part S A → Nat
  | .node _ k => 1 + heightL k
  | .model _ k l => 1 + max (heightL k) (heightL l)
/-- Largest depth in a list. -/
def heightL : List (Part S A) → Nat
  | [] => 0
  | p :: t => max p.height (heightL t)
end

/-- Model.py:171-174 `Model.train`, last two lines: what `g` does to the levels. -/
def Part.mapLevels (g : Part S A → Part S A) : Part S A → Part S A
  | .node o k => .node o k
  | .model o k l => .model o k (l.map g)

/-- torch's `train(mode)`: itself and the children, which `g` does. -/
def Part.torchTrain (mode : Bool) (g : Part S A → Part S A) : Part S A → Part S A
  | .node o k => .node { o with training := mode } (k.map g)
  | .model o k l => .model { o with training := mode } (k.map g) l

/-- `train(mode)`: torch's, then stochastic.py:55-56, then Model.py:173-174. The first argument bounds the depth of the recursion. -/
def trainN (mode : Bool) : Nat → Part S A → Part S A
  | 0, p => p
  | n + 1, p => ((p.torchTrain mode (trainN mode n)).afterTrain mode).mapLevels (trainN mode n)

/-- `train(mode)`: the recursion ends by itself. `eval()` is `train(False)`. -/
def Part.train (mode : Bool) (p : Part S A) : Part S A := trainN mode p.height p

/-- What `train` and `eval` return: the module (torch; stochastic.py:57), nothing for a model (Model.py:171-174). -/
def Part.trainResult (mode : Bool) (p : Part S A) : Option (Part S A) :=
  match p with
  | .node _ _ => some (p.train mode)
  | .model _ _ _ => none

/-- cache.py:182-214 `_reset_cache` (no class is avoided). -/
def Own.reset (persisting : Bool) (o : Own S A) : Own S A := { o with cache := if persisting then [] else o.cache.filter (·.1) }

mutual
/-- cache.py:259-275 `reset(recurse, reset_persisting)`; Model.py:218-220 for a model: only its levels. -/
def Part.reset (recurse persisting : Bool) : Part S A → Part S A
  | .node o k => .node (o.reset persisting) (if recurse then resetL recurse persisting k else k)
  | .model o k l => .model o k (levelReset recurse persisting l)
/-- cache.py:273-275: the loop over the children. -/
def resetL (recurse persisting : Bool) : List (Part S A) → List (Part S A)
  | [] => []
  | p :: t => (if p.isCache then p.reset recurse persisting else p) :: resetL recurse persisting t
/-- Model.py:219-220: the loop over the levels. -/
def levelReset (recurse persisting : Bool) : List (Part S A) → List (Part S A)
  | [] => []
  | p :: t => p.reset recurse persisting :: levelReset recurse persisting t
end

/-- What `Model.level(num)` gives. -/
inductive LevelOut (α : Type)
  | ok (a : α)
  | assertionError
  | stopIteration

/-- Model.py:31-33 `level(num)`: the first (number, level) with this number. -/
def level {α : Type} (l : List α) (num : Int) : LevelOut α :=
  if (l.length : Int) ≤ num then .assertionError
  else match (l.zipIdx.find? fun x => (x.2 : Int) == num) with
    | some x => .ok x.1
    | none => .stopIteration

end Parts
end Kerch
