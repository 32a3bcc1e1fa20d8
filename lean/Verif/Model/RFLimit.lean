import Verif.Model.RandomFeatures
import Mathlib.Analysis.SpecialFunctions.Trigonometric.Inverse
/-!
# Random features with an infinite number of weights (random_features.py:204-213, rf_lrelu.py:45-54)
-/
namespace Kerch
namespace RFLimit
open Finset

variable {m d : Type} [Fintype m] [Fintype d]

/-- random_features.py:207-211 `_implicit` with a finite number of weights, elementwise activation `f`. -/
noncomputable def rfKernel (f : ℝ → ℝ) (num : ℕ) (σ : ℝ) (W : Matrix m d ℝ) (x y : d → ℝ) : ℝ := ∑ i, rfPhi f num σ W x i * rfPhi f num σ W y i

/-- `torch.norm(x, p=2, dim=1)` of one row. -/
noncomputable def vnorm (x : d → ℝ) : ℝ := Real.sqrt (∑ i, x i ^ 2)

/-- rf_lrelu.py:51-53, as a function of the inner product `u` of the normalised rows. -/
noncomputable def lreluK (α u : ℝ) : ℝ :=
  (1 + α ^ 2) * u - ((1 - α) ^ 2 / Real.pi) * u * Real.arccos u + ((1 - α) ^ 2 / Real.pi) * Real.sqrt (1 - u ^ 2)

/-- rf_lrelu.py:45-54 `closed_form_kernel` for one row of each argument, the two arguments being different tensors; `none` is `NaN`, from the division of a
null row by its norm. -/
noncomputable def lreluForm (α : ℝ) (x y : d → ℝ) : Option ℝ :=
  if vnorm x = 0 ∨ vnorm y = 0 then none
  else some (vnorm x * vnorm y * lreluK α (∑ i, (x i / vnorm x) * (y i / vnorm y)) / 2)

/-- rf_lrelu.py:45-54 when the same tensor is given twice: lines 48-49 divide it twice by the norms computed before. One row; `acos` of a number above 1 is `NaN`. -/
noncomputable def lreluFormSame (α : ℝ) (x : d → ℝ) : Option ℝ :=
  if vnorm x = 0 ∨ 1 < ∑ i, (x i / vnorm x / vnorm x) * (x i / vnorm x / vnorm x) then none
  else some (vnorm x * vnorm x * lreluK α (∑ i, (x i / vnorm x / vnorm x) * (x i / vnorm x / vnorm x)) / 2)

/-- random_features.py:212-213 with rf_lrelu.py: `k(x, y)` for `num_weights='inf'`; both arguments are new tensors. -/
noncomputable def lreluInf (α σ : ℝ) (x y : d → ℝ) : Option ℝ := lreluForm α (fun i => 1 / σ * x i) fun i => 1 / σ * y i

end RFLimit
end Kerch
