import Verif.Model.Cache
import Mathlib.Algebra.BigOperators.Group.Finset.Basic
import Mathlib.Data.Real.Basic
/-!
# What a training reports (kerch/train/Trainer.py)

Exact reals. The model is given by what it computes: predictions and losses from its parameters and the selected sample points, and what a step of the optimizer does to the parameters. Batches and settings are in
Model/Train, the selection in parts of a model in Model/Parts.
-/
namespace Kerch
namespace Report

/-- A matrix with its shape; entries outside of it mean nothing. -/
structure Mat where
  rows : Nat
  cols : Nat
  v : Nat → Nat → ℝ

/-- The size of a dimension after broadcasting two of them (torch): a size of one is stretched. -/
def bdim (a b : Nat) : Except Err Nat := if a = b then .ok a else if a = 1 then .ok b else if b = 1 then .ok a else .error .runtimeError

/-- The index in a dimension that may be stretched. -/
def bidx (size i : Nat) : Nat := if size = 1 then 0 else i

/-- `torch.nn.MSELoss(reduction='mean')` (Trainer.py:41) on matrices: the mean over all entries after broadcasting, NaN if there are none. -/
noncomputable def mseLoss (a b : Mat) : Except Err (Option ℝ) :=
  match bdim a.rows b.rows, bdim a.cols b.cols with
  | .ok r, .ok c =>
    if r * c = 0 then .ok none
    else .ok (some ((∑ i ∈ Finset.range r, ∑ j ∈ Finset.range c,
      (a.v (bidx a.rows i) (bidx a.cols j) - b.v (bidx b.rows i) (bidx b.cols j)) ^ 2) / ((r : ℝ) * (c : ℝ))))
  | .error e, _ => .error e
  | _, .error e => .error e

/-- A selection of sample points: `none` for all of them. -/
abbrev Sel := Option (List Nat)

/-- The model: number of outputs, number of sample points once the training data is its sample; prediction and loss with the points selected; what the optimizer does after the backward pass of a batch. -/
structure Env (P : Type) where
  dimOutput : Nat
  predict : P → Sel → Mat → Except Err Mat
  loss : P → Sel → Except Err ℝ
  update : P → Sel → P

/-- Parameters, training mode, selected points. -/
structure St (P : Type) where
  params : P
  training : Bool := true
  sel : Sel := none

/-- A learning set (data/_LearningSet.py): data and labels of the three sets. -/
structure LSet where
  training : Mat × Mat
  validation : Mat × Mat
  test : Mat × Mat

/-- What is handed to the watcher (Trainer.py:221-225); `none` is NaN. -/
structure Rec where
  epoch : Nat
  objective : ℝ
  training : Option ℝ
  validation : Option ℝ
  test : Option ℝ

variable {P : Type}

/-- Trainer.py:168-175 `_problem_loss`; `eval` selects all points (feature/stochastic.py:55-57), `train` leaves the selection. -/
noncomputable def problemLoss (E : Env P) (d : Mat × Mat) (s : St P) : Except Err (Option ℝ) × St P :=
  if d.1.rows = 0 then (.ok (some 0), s)
  else
    let s1 : St P := { s with training := false, sel := none }
    match E.predict s1.params s1.sel d.1 with
    | .error e => (.error e, s1)
    | .ok pred => (mseLoss pred d.2, { s1 with training := true })

/-- Trainer.py:211-215, one batch: the closure computes the loss (opt/stiefel/stiefel_optimizer.py:74-76, opt/Optimizer.py:88-91) and returns it; then the parameters are updated. -/
def batch (E : Env P) (acc : ℝ) (b : List Nat) (s : St P) : Except Err ℝ × St P :=
  let s1 : St P := { s with sel := some b }
  match E.loss s1.params s1.sel with
  | .error e => (.error e, s1)
  | .ok l => (.ok (acc + l), { s1 with params := E.update s1.params s1.sel })

/-- Trainer.py:211-215. -/
def batches (E : Env P) : ℝ → List (List Nat) → St P → Except Err ℝ × St P
  | acc, [], s => (.ok acc, s)
  | acc, b :: bs, s => match batch E acc b s with
    | (.error e, s) => (.error e, s)
    | (.ok acc, s) => batches E acc bs s

/-- Trainer.py:203-225, one epoch. -/
noncomputable def epoch (E : Env P) (L : LSet) (bs : List (List Nat)) (e : Nat) (s : St P) : Except Err Rec × St P :=
  match batches E 0 bs s with
  | (.error e, s) => (.error e, s)
  | (.ok obj, s) => match problemLoss E L.training s with
    | (.error e, s) => (.error e, s)
    | (.ok tr, s) => match problemLoss E L.validation s with
      | (.error e, s) => (.error e, s)
      | (.ok va, s) => match problemLoss E L.test s with
        | (.error e, s) => (.error e, s)
        | (.ok te, s) => (.ok ⟨e, obj, tr, va, te⟩, s)

/-- Trainer.py:203-225, the epochs from number `e` on. The records come with the state at that time. -/
noncomputable def epochs (E : Env P) (L : LSet) (bs : List (List Nat)) : Nat → Nat → St P → Except Err Unit × St P × List (Rec × P)
  | _, 0, s => (.ok (), s, [])
  | e, n + 1, s => match epoch E L bs e s with
    | (.error err, s) => (.error err, s, [])
    | (.ok r, s) => match epochs E L bs (e + 1) n s with
      | (res, s', l) => (res, s', (r, s.params) :: l)

/-- Trainer.py:155-229 `fit` of a model made of single levels: the labels of the training set must have as many columns as there are outputs and as many rows as there are sample points
(level/single_view/View.py:193-198). -/
noncomputable def fit (E : Env P) (L : LSet) (bs : List (List Nat)) (n : Nat) (s : St P) : Except Err Unit × St P × List (Rec × P) :=
  let s0 : St P := { s with sel := none }
  if E.dimOutput ≠ L.training.2.cols then (.error .assertionError, s0, [])
  else if L.training.1.rows ≠ L.training.2.rows then (.error .assertionError, s0, [])
  else match epochs E L bs 0 n { s0 with training := true } with
    | (.ok (), s, l) => (.ok (), { s with training := false, sel := none }, l)
    | (.error e, s, l) => (.error e, s, l)

end Report
end Kerch
