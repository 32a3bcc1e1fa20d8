import Mathlib.Analysis.SpecialFunctions.Trigonometric.Basic
import Mathlib.Analysis.SpecialFunctions.Sigmoid
import Verif.Model.Transforms
/-!
# Kernel functions (kerch/kernel/{distance,statistics,generic,time,vision})

`_implicit(x, y)` computes a matrix whose entry `(i, j)` depends on the rows `x_i` and `y_j` only; the functions below are these entries. `d` is
the index type of the input dimensions.
-/
namespace Kerch
open Finset

/-- The distances of kerch/kernel/distance/select_distance.py:14-41 (`wasserstein` raises `NotImplementedError` at construction). -/
inductive DistKind
  | euclidean | manhattan | chebyshev | minkowski (order : ℝ)

section
variable {d : Type} [Fintype d]

/-- kerch/kernel/distance/euclidean.py:18-23 `_square_dist`. -/
noncomputable def euclidSq (x y : d → ℝ) : ℝ := ∑ i, (x i - y i) * (x i - y i)

/-- kerch/kernel/distance/manhattan.py:18-23 `_dist`. -/
noncomputable def manhattan (x y : d → ℝ) : ℝ := ∑ i, |x i - y i|

/-- kerch/kernel/distance/chebyshev.py:18-23 `_dist` (`torch.max` along the input dimensions, at least one). -/
noncomputable def chebyshev [Nonempty d] (x y : d → ℝ) : ℝ := univ.sup' univ_nonempty fun i => |x i - y i|

/-- `_dist` per class: distance_squared.py:45-46 for the Euclidean one; minkowski.py:32-37 reads the attribute `minksowski_order` (sic), which does
not exist. -/
noncomputable def dist [Nonempty d] (D : DistKind) (x y : d → ℝ) : Except Err ℝ :=
  match D with
  | .euclidean => .ok (Real.sqrt (euclidSq x y))
  | .manhattan => .ok (manhattan x y)
  | .chebyshev => .ok (chebyshev x y)
  | .minkowski _ => .error .attributeError

/-- `_dist_sigma`: distance_squared.py:28-37, distance.py:28-34 (`_distance.py:103-105`: `_sigma_fact = 1/σ`). -/
noncomputable def distSigma [Nonempty d] (D : DistKind) (σ : ℝ) (x y : d → ℝ) : Except Err ℝ :=
  match D with
  | .euclidean => .ok (Real.sqrt ((1 / σ) ^ 2 * euclidSq x y))
  | .manhattan => .ok (1 / σ * manhattan x y)
  | .chebyshev => .ok (1 / σ * chebyshev x y)
  | .minkowski _ => .error .attributeError

/-- `_square_dist_sigma`: distance_squared.py:31-37, distance.py:36-37. -/
noncomputable def sqDistSigma [Nonempty d] (D : DistKind) (σ : ℝ) (x y : d → ℝ) : Except Err ℝ :=
  match D with
  | .euclidean => .ok ((1 / σ) ^ 2 * euclidSq x y)
  | .manhattan => .ok ((1 / σ * manhattan x y) ^ 2)
  | .chebyshev => .ok ((1 / σ * chebyshev x y) ^ 2)
  | .minkowski _ => .error .attributeError

/-- The kernels of kerch/kernel/statistics (RBF and Laplacian are the exponential ones with the Euclidean distance, generic/rbf.py,
generic/laplacian.py). -/
inductive StatKind
  | epanechnikov | quartic | triweight | tricube | triangular | uniform | silverman | logistic
  | exponential (squared : Bool)
  deriving DecidableEq

/-- The statistics kernels as functions of the scaled distance: epanechnikov.py:37-39, quartic.py:37-39, triweight.py:37-39, tricube.py:37-39,
triangular.py:37-39, uniform.py:37-39, silverman.py:34-40, logistic.py:28-31. -/
noncomputable def profile (s : StatKind) (u : ℝ) : ℝ :=
  match s with
  | .epanechnikov => if u ≤ 1 then 1 - u ^ 2 else 0
  | .quartic => if u ≤ 1 then (1 - u ^ 2) ^ 2 else 0
  | .triweight => if u ≤ 1 then (1 - u ^ 2) ^ 3 else 0
  | .tricube => if u ≤ 1 then (1 - u ^ 3) ^ 3 else 0
  | .triangular => if u ≤ 1 then 1 - u else 0
  | .uniform => if u ≤ 1 then 1 else 0
  | .silverman => Real.exp (-(Real.sqrt (1 / 2) * u)) * Real.sin (0.25 * Real.pi + Real.sqrt (1 / 2) * u)
  | .logistic => 4 / (Real.exp u + Real.exp (-u) + 2)
  | .exponential false => Real.exp (u * -Real.sqrt (1 / 2))
  | .exponential true => Real.exp (u ^ 2 * -(1 / 2))

/-- `_implicit` of the statistics kernels: the profile of `_dist_sigma`; exponential.py:69-76 uses `_square_dist_sigma` if `squared`. -/
noncomputable def statKernel [Nonempty d] (s : StatKind) (D : DistKind) (σ : ℝ) (x y : d → ℝ) : Except Err ℝ :=
  match s with
  | .exponential true => (sqDistSigma D σ x y).map fun u2 => Real.exp (u2 * -(1 / 2))
  | s => (distSigma D σ x y).map (profile s)

/-- The property `_naturally_normalized` of the kernels (all of the above but the logistic one; `False` elsewhere, kernel.py:76-78). -/
def naturallyNormalized : StatKind → Bool
  | .logistic => false
  | _ => true

/-- kerch/kernel/explicit.py:42-47 and generic/linear.py: `phi_x @ phi_y.T` with the identity map. -/
noncomputable def linearKernel (x y : d → ℝ) : ℝ := x ⬝ᵥ y

/-- kerch/kernel/generic/polynomial.py:216-217 for a natural degree. -/
noncomputable def polyKernel (α : ℕ) (β : ℝ) (x y : d → ℝ) : ℝ := (x ⬝ᵥ y + β) ^ α

/-- kerch/kernel/generic/sigmoid.py:70-73. -/
noncomputable def sigmoidKernel (a b : ℝ) (x y : d → ℝ) : ℝ := Real.sigmoid (a * (x ⬝ᵥ y) + b)

/-- kerch/kernel/vision/additive_chi_2.py:41-49. -/
noncomputable def additiveChi2 (x y : d → ℝ) : ℝ := ∑ i, 2 * (x i * y i) / clampEps (x i + y i)

/-- kerch/kernel/vision/skewed_chi_2.py:67-75 (`torch.sqrt` of a negative number is `NaN`; `Real.sqrt` gives 0 there, the theorems require
non-negative arguments). -/
noncomputable def skewedChi2 (p : ℝ) (x y : d → ℝ) : ℝ :=
  ∏ i, 2 * (Real.sqrt (x i + p) * Real.sqrt (y i + p)) / clampEps (x i + y i + 2 * p)

end

/-- kerch/kernel/time/hat.py:90-100, entries (see `hatMatrix` for the shapes). -/
noncomputable def hatKernel (lag : ℝ) (s t : ℝ) : ℝ := max (lag + 1 - |s - t|) 0

/-- kerch/kernel/time/indicator.py:127-140, entries. -/
noncomputable def indicatorKernel (lag γ : ℝ) (s t : ℝ) : ℝ :=
  if s - t = 0 then γ else if |s - t| ≤ lag then 1 else 0

end Kerch
