import Verif.Model.Params
import Mathlib.Data.Real.Basic
/-!
# The optimiser (kerch/opt/Optimizer.py)
-/
namespace Kerch
namespace Optim

/-- Values held by a parameter group. -/
inductive GVal where
  | params : List Nat → GVal
  | bool : Bool → GVal
  | real : ℝ → GVal
  | other : GVal

/-- A parameter group, a dictionary. -/
abbrev Group := Dict String GVal

/-- The parameters of a group (`list(group['params'])`). -/
def groupParams (g : Group) : List Nat :=
  match g.find "params" with
  | some (.params l) => l
  | _ => []

/-- Optimizer.py:27-30, the defaults of the keyword arguments, merged below those given (`kwargs_decorator`). -/
noncomputable def defaults : Dict String GVal := [("stiefel_lr", .real 1e-3), ("euclidean_lr", .real 1e-3), ("slow_lr", .real 1e-4)]

/-- Optimizer.py:19-25 `param_state`. -/
def paramState (rg : Nat → Bool) (l : List Nat) : List Nat := l.filter fun p => rg p

/-- Optimizer.py:45-46, 50-52, 56-57: `{**kwargs, 'params': …, 'stiefel': …, 'lr': kwargs[key]}`. The key is always there by the defaults. -/
def mkGroup (kwargs : Dict String GVal) (ps : List Nat) (stiefel : Bool) (key : String) : Except Err Group :=
  match kwargs.find key with
  | some lr => .ok (kwargs.merge [("params", .params ps), ("stiefel", .bool stiefel), ("lr", lr)])
  | none => .error .keyError

/-- Optimizer.py:44-58, appending a group if it has parameters. -/
def addGroup (kwargs : Dict String GVal) (ps : List Nat) (stiefel : Bool) (key : String) (gs : List Group) : Except Err (List Group) :=
  if ps.length > 0 then
    match mkGroup kwargs ps stiefel key with
    | .ok g => .ok (gs ++ [g])
    | .error e => .error e
  else .ok gs

/-- `torch.optim.Optimizer.__init__`/`add_param_group`: the groups are added one by one, `ValueError` if a parameter of the new one is in a previous one.
The defaults of the optimiser only fill missing keys (all of `params`, `stiefel`, `lr` are present), so they are left out. -/
def torchGroups : List Group → List Group → Except Err (List Group)
  | acc, [] => .ok acc
  | acc, g :: rest =>
    if (groupParams g).any (fun p => acc.any fun h => p ∈ groupParams h) then .error .valueError
    else torchGroups (acc ++ [g]) rest

/-- The attributes `_opt` (its `param_groups`) and `_requires_grad`. -/
structure St where
  opt : Option (List Group)
  requiresGrad : Bool

/-- Optimizer.py:31-63 `__init__` on a module; `rg` is `requires_grad`. An unknown type is only noticed if there are groups (line 63 calls a string). -/
noncomputable def construct (t : PTree) (rg : Nat → Bool) (type : String) (kwargs : Dict String GVal) : Except Err St := do
  let kw := defaults.merge kwargs
  let (e, re) := t.manifoldParameters true "euclidean"
  re
  let (st, rst) := t.manifoldParameters true "stiefel"
  rst
  let (sl, rsl) := t.manifoldParameters true "slow"
  rsl
  let gs ← addGroup kw (paramState rg e) false "euclidean_lr" []
  let gs ← addGroup kw (paramState rg sl) false "slow_lr" gs
  let gs ← addGroup kw (paramState rg st) true "stiefel_lr" gs
  match gs with
  | [] => return ⟨none, false⟩
  | _ :: _ =>
    if type = "sgd" ∨ type = "adam" then
      let gs ← torchGroups [] gs
      return ⟨some gs, true⟩
    else .error .typeError

/-- `params['lr'] *= rate` (line 84); `TypeError` on what is not a number. -/
noncomputable def reduceGroup (rate : ℝ) (g : Group) : Except Err Group :=
  match g.find "lr" with
  | some (.real r) => .ok (g.set "lr" (.real (r * rate)))
  | some _ => .error .typeError
  | none => .error .keyError

/-- Optimizer.py:81-84 `reduce` (all learning rates being numbers; otherwise the groups before the failing one are already reduced, not modelled). -/
noncomputable def St.reduce (s : St) (rate : ℝ) : Except Err St :=
  match s.opt with
  | none => .ok s
  | some gs => match gs.mapM (reduceGroup rate) with
    | .ok gs => .ok { s with opt := some gs }
    | .error e => .error e

/-- A sequence of reductions. -/
noncomputable def St.reduces (s : St) : List ℝ → Except Err St
  | [] => .ok s
  | r :: t => match s.reduce r with
    | .ok s => s.reduces t
    | .error e => .error e

end Optim
end Kerch
