import Verif.Model.Cache
import Mathlib.Logic.Function.Basic
/-!
# What may be given as a selection (kerch/feature/stochastic.py, sample.py)

`stochastic(idx=…)` keeps the object it is given, without looking into it, and `tensor[idx, :]` interprets it each time it is used. Modelled here: lists (or integer tensors) of
integers, lists (or tensors) of Booleans, slices; that they are kept by reference; parts of different sizes; reading, computing with the cache, and writing through a selection.
Not modelled: a single integer (which drops a dimension of the sample); changing the tensor of a random selection through the property `idx`.
-/
namespace Kerch
namespace Selection

/-- An object given as `idx` or `idx_sample`. -/
inductive Sel
  | ints (l : List Int)
  | mask (m : List Bool)
  | slice (lo hi : Nat)
  deriving DecidableEq

/-- `len(idx)` (stochastic.py:35 `num_idx`, sample.py:229): a slice has none. -/
def Sel.len : Sel → Except Err Nat
  | .ints l => .ok l.length
  | .mask m => .ok m.length
  | .slice _ _ => .error .typeError

/-- The row a single integer stands for in a tensor of `n` rows, by the contract of torch: negative ones count from the end. -/
def place (n : Nat) (i : Int) : Option Nat :=
  if 0 ≤ i ∧ i < n then some i.toNat else if -(n : Int) ≤ i ∧ i < 0 then some ((n : Int) + i).toNat else none

/-- The rows for a list of integers; `IndexError` if one of them stands for none. -/
def places (n : Nat) : List Int → Except Err (List Nat)
  | [] => .ok []
  | i :: l => match place n i with
    | none => .error .indexError
    | some p => match places n l with
      | .error e => .error e
      | .ok ps => .ok (p :: ps)

/-- The positions marked by a mask, from position `k` on. -/
def marked (k : Nat) : List Bool → List Nat
  | [] => []
  | b :: m => if b then k :: marked (k + 1) m else marked (k + 1) m

/-- The rows of `tensor[idx, :]` for a tensor of `n` rows (contract of torch): a mask has to have `n` elements (`IndexError`), a slice is cut to what there is. -/
def Sel.rows (n : Nat) : Sel → Except Err (List Nat)
  | .ints l => places n l
  | .mask m => if m.length = n then .ok (marked 0 m) else .error .indexError
  | .slice lo hi => .ok ((List.range n).filter fun i => lo ≤ i ∧ i < hi)

/-- `tensor[idx, :]`: sample.py:153-155 `current_sample`, View.py:205-207 `current_target`, _View.py:167-174 `dual_param`. -/
def take {V : Type} (rows : List V) (s : Sel) : Except Err (List V) :=
  match s.rows rows.length with
  | .error e => .error e
  | .ok ps => .ok (ps.filterMap fun p => rows[p]?)

/-- What `_idx_stochastic` refers to: an object of the user, or one made by `stochastic` itself. -/
inductive Held
  | user (a : Nat)
  | own (s : Sel)
  deriving DecidableEq

/-- A module with a sample: its rows, its selection, and an element of its cache computed from the selected rows (such as the tree of the sample, sample.py:250-262, or the kernel matrix). -/
structure Obj (V : Type) where
  rows : List V
  held : Held
  kept : Option (List V)
  deriving DecidableEq

/-- The objects of the user that are used as selections, and a module with its parts (all with a sample), the module itself first. -/
structure World (V : Type) where
  user : Nat → Sel
  objs : List (Obj V)

variable {V : Type}

/-- What the selection of an object is now. -/
def World.sel (w : World V) (o : Obj V) : Sel := match o.held with
  | .user a => w.user a
  | .own s => s

/-- stochastic.py:30-36 `num_idx`. -/
def World.numIdx (w : World V) (o : Obj V) : Except Err Nat := (w.sel o).len

/-- sample.py:153-155 `current_sample`. -/
def World.current (w : World V) (o : Obj V) : Except Err (List V) := take o.rows (w.sel o)

/-- An evaluation on the sample: the element of the cache if there is one, otherwise computed from the current rows and kept. -/
def World.compute (w : World V) (o : Obj V) : Except Err (List V) × Obj V :=
  match o.kept with
  | some r => (.ok r, o)
  | none => match w.current o with
    | .error e => (.error e, o)
    | .ok r => (.ok r, { o with kept := some r })

/-- stochastic.py:60-105 for the module and its parts: the cache is emptied (line 83) and the same object is handed on (line 105). -/
def World.hold (w : World V) (h : Held) : World V := { w with objs := w.objs.map fun o => { o with held := h, kept := none } }

/-- Indices that select everything: `range(num_total)` of the module (stochastic.py:48-50), also handed to the parts. -/
def World.everything (w : World V) : Sel := .ints ((List.range ((w.objs.map fun o : Obj V => o.rows.length).head?.getD 0)).map Int.ofNat)

/-- The write `rows[idx, :] = values` (sample.py:233), row by row. -/
def put (rows : List V) : List (Nat × V) → List V
  | [] => rows
  | (p, v) :: l => put (rows.set p v) l

/-- sample.py:206-239 `update_sample(values, idx)`: the length is compared (lines 229-231); writing `n` rows where fewer are addressed is a `RuntimeError` unless there is a single one,
which is repeated as often as needed (here: never or once, as the lengths agree). The rows are written in order; torch leaves the order open. -/
def Obj.update (o : Obj V) (values : List V) (s : Sel) : Except Err Unit × Obj V :=
  match s.len with
  | .error e => (.error e, o)
  | .ok k => if k = values.length then
      match s.rows o.rows.length with
      | .error e => (.error e, o)
      | .ok ps => if ps.length = values.length ∨ values.length = 1 then (.ok (), { o with rows := put o.rows (ps.zip values), kept := none }) else (.error .runtimeError, o)
    else (.error .assertionError, o)

/-- What can happen to a module: a selection given by the user, a random one or all (`stochastic()`, `eval()`), the user changing an object of theirs, an evaluation of one of the parts,
the update of the rows of one of the parts. -/
inductive Op (V : Type)
  | select (a : Nat)
  | random (l : List Nat)
  | all
  | change (a : Nat) (s : Sel)
  | compute (i : Nat)
  | update (i : Nat) (values : List V) (s : Sel)

def World.step (w : World V) : Op V → World V
  | .select a => w.hold (.user a)
  | .random l => w.hold (.own (.ints (l.map Int.ofNat)))
  | .all => w.hold (.own w.everything)
  | .change a s => { w with user := Function.update w.user a s }
  | .compute i => { w with objs := w.objs.modify i fun o => (w.compute o).2 }
  | .update i v s => { w with objs := w.objs.modify i fun o => (o.update v s).2 }

def World.run (w : World V) (ops : List (Op V)) : World V := ops.foldl World.step w

end Selection
end Kerch
