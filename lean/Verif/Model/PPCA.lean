import Mathlib.Analysis.SpecialFunctions.Pow.Real
import Mathlib.Algebra.BigOperators.Fin
import Verif.Model.Nystrom
/-!
# Probabilistic PCA (kerch/level/single_view/PPCA.py, kerch/level/_PPCA.py:127-134, 190-211)
-/
namespace Kerch
namespace PPCA
open Finset

variable {n : ℕ} {K : Fin n → Fin n → ℝ} (D : EigDecomp K) (k : ℕ)

/-- The components kept: `k` is `dim_output` (PPCA.py:60-66 reduces it to `num_idx` at most). -/
abbrev Comp (n k : ℕ) : Type := { l : Fin n // l.val < k }

/-- PPCA.py:70-73: `sigma`. -/
noncomputable def sigma : ℝ :=
  if k = n then 0 else (∑ i, K i i - ∑ l : Comp n k, D.lam l.1) / (n * (n - k))

/-- PPCA.py:75: what is under the square root (`none`: the division by a null eigenvalue gives an infinite value or `NaN`). -/
noncomputable def radicand (l : Comp n k) : Option ℝ :=
  if D.lam l.1 = 0 then none else some (1 / n - sigma D k ^ 2 / D.lam l.1)

/-- PPCA.py:75: `hidden`; the square root of a negative number is `NaN` (`none`). -/
noncomputable def hidden (l : Comp n k) (i : Fin n) : Option ℝ :=
  (radicand D k l).bind fun r => if r < 0 then none else some (D.V i l.1 * Real.sqrt r)

/-- PPCA.py:27-32 `h_map` with `k`: `k @ hidden @ diag(1 / vals) * num_idx`, `kx` being the kernel values of a point with the sample. -/
noncomputable def hMapDual (H : Comp n k → Fin n → ℝ) (kx : Fin n → ℝ) (l : Comp n k) : ℝ := (∑ j, kx j * H l j) * (1 / D.lam l.1) * n

/-- The attribute `_mu` is never created (_PPCA.py:127-134), so that `self.mu` raises. -/
def readMu : Except Err Unit := .error .attributeError

/-- PPCA.py:25-32 `h_map`: exactly one argument is to be given; `phi - self.mu` (the value in the absence of an exception is that of the formula with a null
mean). -/
noncomputable def hMap {m : Type} [Fintype m] (W : m → Comp n k → ℝ) (H : Comp n k → Fin n → ℝ) (φ : Option (m → ℝ)) (kx : Option (Fin n → ℝ)) :
    Except Err (Comp n k → ℝ) :=
  match φ, kx with
  | some φ, none => readMu.map fun _ l => (∑ a, φ a * W a l) * (1 / D.lam l.1) * n
  | none, some kx => .ok (hMapDual D k H kx)
  | _, _ => .error .attributeError

/-- What a fit in the dual does to the kernel. The class of a level derives from that of its kernel (View.py:46), hence PPCA.py:70-73 `self.sigma = ...` assigns the
property `sigma` of the kernel when there is one: the bandwidth (_distance.py:55-60). `bandwidth` is `none` for a kernel without one. -/
noncomputable def bandwidthAfter (bandwidth : Option ℝ) : Option ℝ := bandwidth.map fun _ => sigma D k

/-- _PPCA.py:262-267 `draw_phi` (posterior), with one row `u` of standard normal numbers: `u @ B`. -/
def drawPhi {d : ℕ} (B : Fin d → Fin d → ℝ) (u : Fin d → ℝ) (j : Fin d) : ℝ := ∑ i, u i * B i j

/-- _PPCA.py:142: contract of `torch.cholesky`: lower triangular factor `B` with non-negative diagonal and `B Bᵀ = M`. -/
structure IsCholesky {d : ℕ} (M B : Fin d → Fin d → ℝ) : Prop where
  lower : ∀ i j, i < j → B i j = 0
  diag : ∀ i, 0 ≤ B i i
  factor : ∀ i j, ∑ l, B i l * B j l = M i j

end PPCA
end Kerch
