import Verif.Model.Autograd
import Verif.Model.KernelFun
/-!
# The polynomial kernel of any degree (kerch/kernel/generic/polynomial.py)
-/
namespace Kerch
namespace Degree

/-- polynomial.py:216-217 `_implicit`: `(x @ y.T + beta) ** alpha`, both parameters being tensors of floating point numbers (lines 80-90), any real number here. `none` is `NaN` or an infinite value. -/
noncomputable def polyPow {d : Type} [Fintype d] (α β : ℝ) (x y : d → ℝ) : Option ℝ := Autograd.powVal (x ⬝ᵥ y + β) α

end Degree
end Kerch
