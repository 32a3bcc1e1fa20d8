import Verif.Model.Data
import Verif.Model.Cache
import Mathlib.Algebra.Order.Floor.Ring
import Mathlib.Algebra.Order.Archimedean.Real.Basic
/-!
# Data sets held by an object (_dataholder.py)

Rows of the data and of the labels are abstract; `castf`, that is applied to each set (_dataholder.py:26-31), is taken to keep the rows (C41). A permutation drawn by numpy is an argument.
-/
namespace Kerch
namespace Holder
open Data

variable {α β : Type}

/-- Python's `round`: to the nearest integer, halves to the even one. -/
noncomputable def pyRound (x : ℝ) : ℤ :=
  if Int.fract x < 1 / 2 then ⌊x⌋ else if 1 / 2 < Int.fract x then ⌊x⌋ + 1 else if Even ⌊x⌋ then ⌊x⌋ else ⌊x⌋ + 1

/-- Indexing the rows by a list of indices: raises if there is no such row. -/
def index (l : List α) (idx : List Nat) : Except Err (List α) :=
  idx.mapM fun i => match l[i]? with
    | some x => .ok x
    | none => .error .indexError

/-- _dataholder.py:97-108, the loop over the proportions, for one list of rows: `pos_start` is not changed by it. -/
noncomputable def loop (rows : List α) (n : Nat) (posStart : Int) : List ℝ → List (Option (List α))
  | [] => []
  | p :: ps => (if p = 0 then none else some (pySlice rows posStart (posStart + pyRound (p * n)))) :: loop rows n posStart ps

/-- _dataholder.py:82-110 `_split_data` with proportions. -/
noncomputable def splitData (data : Option (List α)) (labels : Option (List β)) (props : List ℝ) (perm : List Nat) :
    Except Err (List (Option (List α)) × List (Option (List β))) :=
  match data with
  | none => .error .attributeError
  | some data => match index data perm with
    | .error e => .error e
    | .ok d => match labels with
      | none => .ok (loop d data.length 0 props, props.map fun _ => none)
      | some labels => match index labels perm with
        | .error e => .error e
        | .ok l => .ok (loop d data.length 0 props, loop l data.length 0 props)

/-- _dataholder.py:112-114 `_split_data_two`. -/
noncomputable def splitTwo (data : Option (List α)) (labels : Option (List β)) (prop : ℝ) (perm : List Nat) := splitData data labels [1 - prop, prop] perm

/-- The sets held (_dataholder.py:11-18): data and labels. -/
structure St (α β : Type) where
  training : Option (List α) × Option (List β) := (none, none)
  validation : Option (List α) × Option (List β) := (none, none)
  testing : Option (List α) × Option (List β) := (none, none)

/-- _dataholder.py:37-51 `set_data_prop`. -/
noncomputable def setProp (s : St α β) (data : Option (List α)) (labels : Option (List β)) (props : Option (List ℝ)) (perm : List Nat) : Except Err Unit × St α β :=
  let ps := props.getD [7 / 10, 15 / 100, 15 / 100]
  if ps.length ≠ 3 then (.error .assertionError, s)
  else match splitData data labels ps perm with
    | .ok ([a, b, c], [a', b', c']) => (.ok (), ⟨(a, a'), (b, b'), (c, c')⟩)
    | .ok _ => (.error .indexError, s)
    | .error e => (.error e, s)

/-- _dataholder.py:53-66 `set_data_training_test`. -/
noncomputable def setTrainingTest (s : St α β) (data : Option (List α)) (labels : Option (List β)) (test : Option (List α) × Option (List β)) (prop : ℝ) (perm : List Nat) :
    Except Err Unit × St α β :=
  match splitTwo data labels prop perm with
  | .ok ([a, b], [a', b']) => (.ok (), ⟨(a, a'), (b, b'), test⟩)
  | .ok _ => (.error .valueError, s)
  | .error e => (.error e, s)

/-- _dataholder.py:68-69 `_get_fold`. -/
noncomputable def getFold (s : St α β) (prop : ℝ) (perm : List Nat) := splitTwo s.training.1 s.training.2 prop perm

/-- _dataholder.py:71-77 `_get_default_data`. -/
def getDefault (s : St α β) (data : Option (List α)) (labels : Option (List β)) : Except Err (Option (List α) × Option (List β)) :=
  match data, labels with
  | none, _ => .ok s.training
  | some _, none => .error .notImplemented
  | some d, some l => .ok (some d, some l)

end Holder
end Kerch
