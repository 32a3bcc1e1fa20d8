import Mathlib.Analysis.Calculus.Deriv.Basic
import Verif.Model.LSSVMTrain
import Verif.Model.Train
/-!
# A LS-SVM trained by gradient on its whole sample
(kerch/level/single_view/LSSVM.py:41-45, 103-112, 122-163, kerch/train/Trainer.py:196-215, kerch/opt/stiefel/stiefel_optimizer.py:126-142)

One output, in dual representation, every epoch being one batch with the whole sample. As in `Model/LSSVMTrain.lean` the names `hidden` and `weight`, which
do not exist on a level, are read as its parameters.
-/
namespace Kerch
namespace LSTrain
open Finset

/-- What a LS-SVM hands to the optimiser (LSSVM.py:103-112): the entries of its dual parameter and its bias. `gamma` is not among them. -/
abbrev Par (n : ℕ) := Fin n ⊕ Unit → ℝ

/-- `loss('dual')` of a level with these parameters (LSSVM.py:122-154). `self.gamma` (line 125) is a number, through which nothing is differentiated. -/
noncomputable def lossAt {n : ℕ} (K : Fin n → Fin n → ℝ) (γ : ℝ) (y : Fin n → ℝ) (p : Par n) : ℝ :=
  lossDual K γ (fun i _ => y i) (fun i (_ : Fin 1) => p (.inl i)) (fun _ => p (.inr ()))

/-- `loss.backward()` (Trainer.py:200), by its contract: the partial derivatives of the loss. -/
noncomputable def grad {n : ℕ} (K : Fin n → Fin n → ℝ) (γ : ℝ) (y : Fin n → ℝ) (p : Par n) (_ : Unit) (q : Fin n ⊕ Unit) : ℝ :=
  deriv (fun t => lossAt K γ y (Function.update p q t)) (p q)

/-- LSSVM.py:41-45, 161-163 `after_step`: the dual parameter, stored as one row, is centred; the bias is left. -/
noncomputable def afterStep {n : ℕ} (s : Train.Opt (Fin n ⊕ Unit)) : Except Err (Train.Opt (Fin n ⊕ Unit)) :=
  match center (fun (_ : Fin 1) i => s.p (.inl i)) with
  | .error e => .error e
  | .ok D => .ok { s with p := Sum.elim (D 0) fun u => s.p (.inr u) }

/-- Trainer.py:204-215, one epoch of one batch: `zero_grad`, `step(closure)`, `after_step`. The two parameters are in the Euclidean group, of rate `η`. -/
noncomputable def epoch {n : ℕ} (K : Fin n → Fin n → ℝ) (γ η : ℝ) (y : Fin n → ℝ) (s : Train.Opt (Fin n ⊕ Unit)) : Except Err (Train.Opt (Fin n ⊕ Unit)) :=
  afterStep (Train.Opt.epoch (fun _ => η) (grad K γ y) [()] s)

/-- Trainer.py:204-215, the training loop. -/
noncomputable def train {n : ℕ} (K : Fin n → Fin n → ℝ) (γ η : ℝ) (y : Fin n → ℝ) : ℕ → Train.Opt (Fin n ⊕ Unit) → Except Err (Train.Opt (Fin n ⊕ Unit))
  | 0, s => .ok s
  | k + 1, s =>
    match train K γ η y k s with
    | .error e => .error e
    | .ok s => epoch K γ η y s

/-! ## Batches -/

/-- `loss('dual')` while the points `idx` are selected (LSSVM.py:122-154): `K`, `dual_param` (_View.py:168-176) and `current_target` (View.py:201-206) are
those of the selected points, `num_idx` is their number. -/
noncomputable def lossOn {n m : ℕ} (K : Fin n → Fin n → ℝ) (γ : ℝ) (y : Fin n → ℝ) (idx : Fin m → Fin n) (p : Par n) : ℝ :=
  lossDual (fun a b => K (idx a) (idx b)) γ (fun a _ => y (idx a)) (fun a (_ : Fin 1) => p (.inl (idx a))) (fun _ => p (.inr ()))

/-- `loss.backward()` for a batch: zero for the entries of the points which are not selected, as the loss does not depend on them. -/
noncomputable def gradOn {n : ℕ} (K : Fin n → Fin n → ℝ) (γ : ℝ) (y : Fin n → ℝ) (p : Par n) (idx : Σ m, Fin m → Fin n) (q : Fin n ⊕ Unit) : ℝ :=
  deriv (fun t => lossOn K γ y idx.2 (Function.update p q t)) (p q)

/-- Trainer.py:211-215, one batch: `stochastic(idx)`, `step(closure)`, `after_step` (which centres the whole dual parameter). -/
noncomputable def batch {n : ℕ} (K : Fin n → Fin n → ℝ) (γ η : ℝ) (y : Fin n → ℝ) (idx : Σ m, Fin m → Fin n) (s : Train.Opt (Fin n ⊕ Unit)) :
    Except Err (Train.Opt (Fin n ⊕ Unit)) :=
  afterStep (Train.Opt.batch (fun _ => η) (gradOn K γ y) s idx)

end LSTrain
end Kerch
