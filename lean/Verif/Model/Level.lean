import Verif.Model.Cache
import Verif.Model.Defaults
/-!
# Parameters of a level and cached outputs (kerch/level/_View.py, kerch/level/single_view/View.py)

A single-view level that is not attached to a multi-view.  `P`, `D`, `X`, `Y` are the types of primal parameters, dual
parameters, inputs and outputs; what the level computes from its parameters is given by two functions.  The sample is fixed.
-/
namespace Kerch
namespace Level

/-- The two representations (utils/cast.py:107). -/
inductive Rep
  | primal | dual
  deriving DecidableEq, Repr

/-- Key of a cached output (_View.py:412 `f"forward_{id(x)}_{representation}"`): the identity of the Python object given
(that of `None` for the sample) and the representation. -/
abbrev FKey := Nat × Rep

instance : CacheKey FKey := ⟨fun _ => []⟩

/-- `View._forward` (single_view/View.py:231-235) with given parameters. -/
structure Fns (P D X Y : Type) where
  outP : P → X → Y
  outD : D → X → Y

/-- The attributes that matter: `_primal_param`, `_dual_param` (`none` for the empty tensor) and the cached outputs. -/
structure St (P D Y : Type) where
  primal : Option P
  dual : Option D
  cache : CacheSt FKey Y

variable {P D X Y : Type}

/-- _View.py:44-67 `__init__` without parameters given. -/
def St.init (lvl : LvlArg) : St P D Y := ⟨none, none, CacheSt.init lvl⟩

/-- _View.py:78-81 `_reset_dual`. -/
def St.resetDual (s : St P D Y) : St P D Y := { s with dual := none }

/-- single_view/View.py:112-115 `_reset_primal`: it assigns the attribute `_weight`, which nothing else reads but the loss
bookkeeping; `_primal_param` is left as it is. -/
def St.resetPrimal (s : St P D Y) : St P D Y := s

/-- _View.py:269-292, the setter of `primal_param` (not attached). -/
def St.setPrimal (s : St P D Y) : Option P → St P D Y
  | some p => { s.resetDual with primal := some p }
  | none => s.resetDual.resetPrimal

/-- _View.py:189-213, the setter of `dual_param`. -/
def St.setDual (s : St P D Y) : Option D → St P D Y
  | some d => ({ s with dual := some d }).resetPrimal
  | none => s.resetDual.resetPrimal

/-- _View.py:158-162, the setter of `dim_output`. -/
def St.setDimOutput (s : St P D Y) : St P D Y := s.resetPrimal.resetDual

/-- `_forward` in the given representation: the getters `primal_param`/`dual_param` (_View.py:167-174, 257-267) raise if
the parameters do not exist. -/
def St.eval (F : Fns P D X Y) (s : St P D Y) (x : X) : Rep → Except Err Y
  | .primal => match s.primal with
    | some p => .ok (F.outP p x)
    | none => .error .notInitialized
  | .dual => match s.dual with
    | some d => .ok (F.outD d x)
    | none => .error .notInitialized

/-- _View.py:410-423 `forward(x, representation)`, `id` being the identity of the object `x`.  The argument `level_key` given
is a function, hence never a key of `DEFAULT_CACHE_LEVEL`, so that the default level of `_get` applies. -/
def St.forward (F : Fns P D X Y) (s : St P D Y) (id : Nat) (x : X) (r : Rep) : Except Err Y × St P D Y :=
  let res := CacheSt.get (κ := FKey) defaultCacheLevel (id, r) {} (fun c => (s.eval F x r, c)) s.cache
  (res.1, { s with cache := res.2 })

/-- Operations of a user: assignments of parameters (also what `solve` ends with: _KPCA.py:141, 175), of the output dimension,
evaluations, and resets of the cache. -/
inductive Op (P D X : Type)
  | setPrimal (p : Option P)
  | setDual (d : Option D)
  | setDim
  | forward (id : Nat) (x : X) (r : Rep)
  | reset

/-- Effect of an operation. -/
def St.step (F : Fns P D X Y) (s : St P D Y) : Op P D X → St P D Y
  | .setPrimal p => s.setPrimal p
  | .setDual d => s.setDual d
  | .setDim => s.setDimOutput
  | .forward id x r => (s.forward F id x r).2
  | .reset => { s with cache := s.cache.resetCache }

/-- A history of operations. -/
def St.run (F : Fns P D X Y) (s : St P D Y) (ops : List (Op P D X)) : St P D Y := ops.foldl (St.step F) s

end Level
end Kerch
