import Verif.Model.PPCA
import Verif.Model.KPCA
/-!
# Probabilistic PCA in the primal (kerch/level/single_view/PPCA.py:34-55)
-/
namespace Kerch
namespace PPCALik
open Finset PPCA KPCA

variable {n d : ℕ} (Φ : Fin n → Fin d → ℝ) (D : EigDecomp (levelC Φ)) (k : ℕ)

/-- PPCA.py:50-53: `sigma` of a fit in the primal, `C` being the covariance (already divided by `num_idx`: _View.py:320-322, kernel.py:160-171). As in the dual, the
denominator counts the sample (`num_idx`), not the features. -/
noncomputable def sigmaPrimal : ℝ := if k = n then 0 else (∑ a, levelC Φ a a - ∑ l : Comp d k, D.lam l.1) / (n * (n - k))

/-- PPCA.py:55: `weight = w @ diag(sqrt(v / num_idx - sigma ** 2))`; the square root of a negative number is `NaN` (`none`). -/
noncomputable def weight (l : Comp d k) (a : Fin d) : Option ℝ :=
  if D.lam l.1 / n - sigmaPrimal Φ D k ^ 2 < 0 then none else some (D.V a l.1 * Real.sqrt (D.lam l.1 / n - sigmaPrimal Φ D k ^ 2))

end PPCALik
end Kerch
