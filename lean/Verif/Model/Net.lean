import Verif.Model.Cache
import Mathlib.Data.Real.Basic
import Mathlib.Algebra.BigOperators.Group.List.Basic
/-!
# Models: sequences of levels (kerch/model/Model.py, kerch/model/RKM.py)
-/
namespace Kerch
namespace Net

/-- A level as seen by a model. `eval` is `level(x)` (`none` is the call without argument, on the level's own sample), `lossVal` the present value of
`level.loss()`, `hasWeight` whether the attribute `_weight` exists (needed by the setter of `level_trainable`, see C68). `params` are its parameters by name,
as in `state_dict`. -/
structure Lev (X : Type) where
  dimIn : Option Nat
  dimOut : Option Nat
  hasWeight : Bool
  trainable : Option Bool
  eval : Option X → X
  eta : ℝ
  lossVal : ℝ
  params : Dict String X

variable {X : Type}

/-- View.py:164-169, the setter of `level_trainable`. -/
def Lev.setTrainable (l : Lev X) (b : Bool) : Except Err (Lev X) :=
  if l.hasWeight then .ok { l with trainable := some b } else .error .attributeError

/-- Model.py:190-194: the input dimension is taken from the last level if it is not known (first level: it stays unknown). -/
def adaptDim (levels : List (Lev X)) (l : Lev X) : Except Err (Lev X) :=
  match l.dimIn with
  | some _ => .ok l
  | none => match levels.getLast? with
    | none => .ok l
    | some last => match last.dimOut with
      | some d => .ok { l with dimIn := some d }
      | none => .error .notInitialized

/-- Model.py:200-206, the constraint. -/
def applyConstraint (constraint : String) (l : Lev X) : Except Err (Lev X) :=
  if constraint = "soft" then l.setTrainable true
  else if constraint = "hard" then l.setTrainable false
  else .error .nameError

/-- Model.py:176-216 `_append_level`, `made` being the outcome of `factory(*args, **kwargs)`. Nothing is appended when something is raised. -/
def append (levels : List (Lev X)) (made : Except Err (Lev X)) (constraint : String) : Except Err Unit × List (Lev X) :=
  match made with
  | .error e => (.error e, levels)
  | .ok l =>
    if l.dimOut = none then (.error .assertionError, levels)
    else match adaptDim levels l with
      | .error e => (.error e, levels)
      | .ok l => match applyConstraint constraint l with
        | .error e => (.error e, levels)
        | .ok l => match levels.getLast? with
          | none => (.ok (), levels ++ [l])
          | some last =>
            match last.dimOut, l.dimIn with
            | some a, some b => if a = b then (.ok (), levels ++ [l]) else (.error .assertionError, levels)
            | _, _ => (.error .notInitialized, levels)

/-- What a user does with a model: append a level, or change the output dimension of one (_View.py:158-162, which also happens when a level is solved with
another number of components, _View.py:208). -/
inductive Op (X : Type) where
  | append : Except Err (Lev X) → String → Op X
  | setDimOutput : Nat → Nat → Op X

/-- One operation, failing ones being caught by the user. -/
def step (levels : List (Lev X)) : Op X → List (Lev X)
  | .append m c => (append levels m c).2
  | .setDimOutput i d => levels.modify i fun l => { l with dimOut := some d }

/-- Model.py:138-141, `forward` in evaluation mode: `x = level(x)` along the levels; with no level and no argument the result is `None`. -/
def forwardEval : List (Lev X) → Option X → Option X
  | [], x => x
  | l :: t, x => forwardEval t (some (l.eval x))

/-- Model.py:143-144 `loss`. -/
def loss (levels : List (Lev X)) : ℝ := (levels.map fun l => l.eta * l.lossVal).sum

/-- A `torch.nn.Module` as seen by `state_dict`: its own registered parameters and its registered children. -/
inductive Mod (X : Type) where
  | node : Dict String X → List (String × Mod X) → Mod X

mutual
/-- `Module.state_dict()`: own parameters, then those of the children with the name of the child in front. -/
def stateDict : Mod X → List (String × X)
  | .node own ch => own ++ stateDicts ch
/-- The children. -/
def stateDicts : List (String × Mod X) → List (String × X)
  | [] => []
  | (n, m) :: t => ((stateDict m).map fun p => (n ++ "." ++ p.1, p.2)) ++ stateDicts t
end

/-- Model.py:16: the levels are kept in a plain list, which `torch.nn.Module.__setattr__` does not register; a model has no parameters of its own. -/
def asModule (_levels : List (Lev X)) : Mod X := .node [] []

/-- What a registered list of levels (`torch.nn.ModuleList`) would be: for comparison only. -/
def asRegistered (levels : List (Lev X)) : Mod X :=
  .node [] (levels.zipIdx.map fun p => (toString p.2, Mod.node p.1.params []))

/-- RKM.py:12-19: the levels given as `level0`, `level1`, …; `given n` is what appending `kwargs["level{n}"]` yields (`none` if there is no such key). A
`KeyError` raised while appending is taken for the end of the levels. `fuel` bounds the number of levels given. -/
def rkmLoop (given : Nat → Option (Except Err (Lev X) × String)) : Nat → Nat → List (Lev X) → Except Err (List (Lev X))
  | 0, _, levels => .ok levels
  | fuel + 1, n, levels => match given n with
    | none => .ok levels
    | some (m, c) => match append levels m c with
      | (.ok (), levels) => rkmLoop given fuel (n + 1) levels
      | (.error .keyError, levels) => .ok levels
      | (.error e, _) => .error e

/-- RKM.py:10-22, `num` levels being given. Lines 20-22 refuse a model without level. -/
def rkm (given : List (Except Err (Lev X) × String)) : Except Err (List (Lev X)) :=
  match rkmLoop (fun n => given[n]?) given.length 0 [] with
  | .ok [] => .error .kerchError
  | r => r

end Net
end Kerch
