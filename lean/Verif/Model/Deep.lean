import Verif.Model.Cache
/-!
# Training mode of models with several levels (kerch/model/Model.py:88-141)

A row of a tensor is an element of `X`. Simplifications: the dimensions of the rows are not represented (they fit together, C55), the samples are not trainable
(what `update_sample` does then is in `Verif/Model/Sample.lean`), the indices of a selection are natural numbers.
-/
namespace Kerch
namespace Deep

/-- A level of a model: its sample (`[]` before it is initialised), `_num_total`, the selected indices, its parameters (`none` before they are initialised),
`level_trainable`; what it does: `out p idx cur x` is `level(x)` with the parameters `p` and the selected rows `cur`, `fit idx cur p` the parameters `solve()` gives
from the selected rows, `start n` the random parameters for `n` points. -/
structure Lev (X P : Type) where
  sample : List X
  numTotal : Option Nat
  idx : List Nat
  par : Option P
  trainable : Bool
  out : P → List Nat → List X → List X → List X
  fit : List Nat → List X → P → P
  start : Nat → P

variable {X P : Type}

/-- `sample[idx, :]` (sample.py:153-155). -/
def select (s : List X) (idx : List Nat) : Except Err (List X) :=
  match idx.mapM fun i => s[i]? with
  | some l => .ok l
  | none => .error .indexError

/-- The current sample of a level; an empty one raises (sample.py:99-101, 119-125, 254-259). -/
def Lev.cur (l : Lev X P) : Except Err (List X) := if l.sample.isEmpty then .error .notInitialized else select l.sample l.idx

/-- `level(x)`, `none` being the call without argument. -/
def Lev.call (l : Lev X P) (x : Option (List X)) : Except Err (List X) := do
  let c ← l.cur
  match l.par with
  | none => .error .notInitialized
  | some p => .ok (l.out p l.idx c (x.getD c))

/-- stochastic.py:60-105 with `idx` given: nothing is done without sample. -/
def Lev.setIdx (l : Lev X P) (idx : List Nat) : Lev X P := if l.numTotal = none then l else { l with idx := idx }

/-- The assignments `sample[i] = v` (sample.py:232); for repeated indices torch leaves the order unspecified, here the last one remains. -/
def write : List X → List Nat → List X → List X
  | s, i :: idx, v :: x => write (s.set i v) idx x
  | s, _, _ => s

/-- sample.py:206-239 `update_sample`. -/
def Lev.update (l : Lev X P) (x : List X) (idx : List Nat) : Except Err Unit × Lev X P :=
  if l.sample.isEmpty then (.ok (), l)
  else if idx.length ≠ x.length then (.error .assertionError, l)
  else if idx.any fun i => l.sample.length ≤ i then (.error .indexError, l)
  else (.ok (), { l with sample := write l.sample idx x })

/-- Model.py:135-136: a level with hard constraint is solved, on its current sample. -/
def Lev.solveIfHard (l : Lev X P) : Except Err (Lev X P) :=
  if l.trainable then .ok l
  else match l.cur with
    | .error e => .error e
    | .ok c => match l.par with
      | none => .error .notInitialized
      | some p => .ok { l with par := some (l.fit l.idx c p) }

/-- Model.py:130-137, the body of the loop for one level. -/
def Lev.train (idx : List Nat) (l : Lev X P) (x : Option (List X)) : Except Err (List X) × Lev X P :=
  let r : Except Err Unit × Lev X P := match x with
    | none => (.ok (), l.setIdx idx)
    | some x => l.update x idx
  match r with
  | (.error e, l) => (.error e, l)
  | (.ok (), l) => match l.solveIfHard with
    | .error e => (.error e, l)
    | .ok l => (l.call none, l)

/-- Model.py:128-137 `forward` in training mode, `idx` being the selection of the model. -/
def forwardTrain (idx : List Nat) : List (Lev X P) → Option (List X) → Except Err (Option (List X)) × List (Lev X P)
  | [], x => (.ok x, [])
  | l :: t, x => match l.train idx x with
    | (.error e, l) => (.error e, l :: t)
    | (.ok y, l) => ((forwardTrain idx t (some y)).1, l :: (forwardTrain idx t (some y)).2)

/-- Model.py:138-141 `forward` in evaluation mode. -/
def forwardEval : List (Lev X P) → Option (List X) → Except Err (Option (List X))
  | [], x => .ok x
  | l :: t, x => match l.call x with
    | .error e => .error e
    | .ok y => forwardEval t (some y)

/-- Model.py:146-149 `stochastic(idx)` of a model that has a sample. -/
def stochastic (idx : List Nat) (ls : List (Lev X P)) : List (Lev X P) := ls.map fun l => l.setIdx idx

/-- One batch of the training loop (Trainer.py:193-198, 212-215) as far as the samples are concerned: `stochastic`, then the forward pass. -/
def batch (idx : List Nat) (ls : List (Lev X P)) : List (Lev X P) := (forwardTrain idx (stochastic idx ls) none).2

/-- sample.py:157-203 `init_sample` with given values. -/
def Lev.initSample (l : Lev X P) (x : List X) : Lev X P := { l with sample := x, numTotal := some x.length, idx := List.range x.length }

/-- Model.py:88-91 `init_sample`. -/
def initSample (x : List X) : List (Lev X P) → Except Err Unit × List (Lev X P)
  | [] => (.error .notInitialized, [])
  | l :: t => (.ok (), stochastic (List.range x.length) (l.initSample x :: t))

/-- _View.py:103-125 `init_parameters(overwrite=False)`; the number of points is asserted to be known (line 89). -/
def Lev.initPar (l : Lev X P) : Except Err (Lev X P) :=
  match l.par with
  | some _ => .ok l
  | none => match l.numTotal with
    | none => .error .assertionError
    | some n => .ok { l with par := some (l.start n) }

/-- Model.py:114-116, one deeper level: sample.py:111-117 (the setter of `num_sample`, the input dimension being known) fills the sample with random rows `rand n`. -/
def Lev.initRandom (rand : Nat → List X) (n : Nat) (l : Lev X P) : Except Err (Lev X P) :=
  if l.numTotal ≠ none then .error .assertionError
  else ({ l with sample := rand n, numTotal := some n, idx := List.range n } : Lev X P).initPar

/-- Model.py:113-116, the loop of `init_levels(full=False)`. -/
def initRandomAll (rand : Nat → List X) (n : Nat) : List (Lev X P) → Except Err Unit × List (Lev X P)
  | [] => (.ok (), [])
  | l :: t => match l.initRandom rand n with
    | .error e => (.error e, l :: t)
    | .ok l => ((initRandomAll rand n t).1, l :: (initRandomAll rand n t).2)

/-- Model.py:108-112, the loop of `init_levels(full=True)`. -/
def initFullAll : List (Lev X P) → List X → Except Err Unit × List (Lev X P)
  | [], _ => (.ok (), [])
  | l :: t, x => match (l.initSample x).initPar with
    | .error e => (.error e, l.initSample x :: t)
    | .ok l => match l.call none with
      | .error e => (.error e, l :: t)
      | .ok y => ((initFullAll t y).1, l :: (initFullAll t y).2)

/-- Model.py:97-116 `init_levels`. -/
def initLevels (rand : Nat → List X) (full : Bool) : List (Lev X P) → Except Err Unit × List (Lev X P)
  | [] => (.error .notInitialized, [])
  | l :: t => match l.initPar with
    | .error e => (.error e, l :: t)
    | .ok l =>
      if full then match l.call none with
        | .error e => (.error e, l :: t)
        | .ok x => ((initFullAll t x).1, l :: (initFullAll t x).2)
      else match t with
        | [] => (.ok (), [l])
        | _ => match l.sample.isEmpty, l.numTotal with      -- Model.py:52-54, sample.py:103-109
          | false, some n => ((initRandomAll rand n t).1, l :: (initRandomAll rand n t).2)
          | _, _ => (.error .notInitialized, l :: t)

/-- Trainer.py:156-162, the initialisations at the beginning of `fit`. -/
def initFit (rand : Nat → List X) (data : List X) (ls : List (Lev X P)) : Except Err Unit × List (Lev X P) :=
  match initSample data ls with
  | (.error e, ls) => (.error e, ls)
  | (.ok (), ls) => initLevels rand false ls

end Deep
end Kerch
