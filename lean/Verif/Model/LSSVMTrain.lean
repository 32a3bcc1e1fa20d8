import Mathlib.Data.Real.Basic
import Mathlib.Data.Fintype.BigOperators
import Verif.Model.Cache
import Verif.Model.LSSVM
/-!
# Training a LS-SVM by gradient, fitting it without bias, and ridge regression
(kerch/level/single_view/LSSVM.py:41-45, 73-101, 122-165, kerch/level/single_view/View.py:230-236, kerch/level/single_view/Ridge.py)

The parameters are read as the matrices of the current representation: LSSVM.py:134 and 138 read them under the names `weight` and `hidden`, which do not
exist on a level (`primal_param`, `dual_param` do), so that as it stands the loss raises AttributeError; the formulas below are those of the lines.
-/
namespace Kerch
namespace LSTrain
open Finset

/-- LSSVM.py:132-136, `torch.einsum('ij,ji', weight, weight)` for a weight of size `f × d`. The label `i` has size `f` in the first and `d` in the second
factor, the label `j` conversely; `einsum` broadcasts labels of size one and refuses other differences (RuntimeError). -/
def regPrimal {f d : ℕ} (W : Fin f → Fin d → ℝ) : Except Err ℝ :=
  if h : f = d then .ok (∑ i : Fin f, ∑ j : Fin f, W i (Fin.cast h j) * W j (Fin.cast h i))
  else if h : d = 1 then .ok (∑ i : Fin f, ∑ j : Fin f, W i (Fin.cast h.symm 0) * W j (Fin.cast h.symm 0))
  else if h : f = 1 then .ok (∑ i : Fin d, ∑ j : Fin d, W (Fin.cast h.symm 0) j * W (Fin.cast h.symm 0) i)
  else .error .runtimeError

/-- LSSVM.py:137-140, `torch.einsum('ji,jk,ki', hidden, K, hidden)`. -/
def regDual {n d : ℕ} (K : Fin n → Fin n → ℝ) (H : Fin n → Fin d → ℝ) : ℝ := ∑ i, ∑ j, ∑ k, H j i * K j k * H k i

/-- `torch.nn.MSELoss()` (LSSVM.py:26): the mean over all entries. -/
noncomputable def mse {n d : ℕ} (pred target : Fin n → Fin d → ℝ) : ℝ := (1 / ((n : ℝ) * d)) * ∑ i, ∑ c, (pred i c - target i c) ^ 2

/-- LSSVM.py:122-125, `1 / num_idx * regularization + gamma * mse`. -/
noncomputable def total (n : ℕ) (γ reg m : ℝ) : ℝ := 1 / (n : ℝ) * reg + γ * m

/-- `loss('dual')` with bias (LSSVM.py:122-154, View.py:230-232 with `kappa = 1`). -/
noncomputable def lossDual {n d : ℕ} (K : Fin n → Fin n → ℝ) (γ : ℝ) (Y : Fin n → Fin d → ℝ) (H : Fin n → Fin d → ℝ) (b : Fin d → ℝ) : ℝ :=
  total n γ (regDual K H) (mse (fun i c => LSSVM.outDual (K i) (fun j => H j c) (b c)) Y)

/-- `loss('primal')` with bias. -/
noncomputable def lossPrimal {n f d : ℕ} (Φ : Fin n → Fin f → ℝ) (γ : ℝ) (Y : Fin n → Fin d → ℝ) (W : Fin f → Fin d → ℝ) (b : Fin d → ℝ) : Except Err ℝ :=
  match regPrimal W with
  | .error e => .error e
  | .ok r => .ok (total n γ r (mse (fun i c => LSSVM.outPrimal (Φ i) (fun j => W j c) (b c)) Y))

/-! ## `after_step` -/

/-- LSSVM.py:41-43, 161-163: `_dual_param.data -= torch.mean(_dual_param.data, dim=1)`. The parameter is stored transposed, `d × n` (_View.py:178-181), so that
the mean is a vector of `d` entries; subtracted in place it is aligned with the last axis, of size `n`: it has to be of size one or `n`. -/
noncomputable def center {d n : ℕ} (D : Fin d → Fin n → ℝ) : Except Err (Fin d → Fin n → ℝ) :=
  if h : d = 1 then .ok (fun k i => D k i - (1 / (n : ℝ)) * ∑ l, D (Fin.cast h.symm 0) l)
  else if h : d = n then .ok (fun k i => D k i - (1 / (n : ℝ)) * ∑ l, D (Fin.cast h.symm i) l)
  else .error .runtimeError

/-! ## Output -/

/-- View.py:230-236 `_forward` in dual with `kappa = 1`: the bias is added only if `requires_bias`. -/
def out {n : ℕ} (requiresBias : Bool) (kx h : Fin n → ℝ) (b : ℝ) : ℝ := ∑ i, kx i * h i + if requiresBias then b else 0

/-! ## Ridge regression -/

/-- Ridge.py:34-45 `_solve_dual(target)`: `torch.linalg.solve(K + (1/γ) I, target)` (one output). -/
def RidgeDual {n : ℕ} (K : Fin n → Fin n → ℝ) (γ : ℝ) (y h : Fin n → ℝ) : Prop := ∀ i, ∑ j, K i j * h j + 1 / γ * h i = y i

/-- Ridge.py:18-32 `_solve_primal(target)`: `torch.linalg.solve(C + (1/γ) I, Φᵀ target)`, with `C` the covariance of the kernel, divided by the number of points;
`kernel.phi_sample` (line 20, an attribute that does not exist) is read as the features of the sample. -/
def RidgePrimal {n f : ℕ} (Φ : Fin n → Fin f → ℝ) (γ : ℝ) (y : Fin n → ℝ) (w : Fin f → ℝ) : Prop :=
  ∀ j, ∑ l, ((1 / (n : ℝ)) * ∑ a, Φ a j * Φ a l) * w l + 1 / γ * w j = ∑ a, Φ a j * y a

end LSTrain
end Kerch
