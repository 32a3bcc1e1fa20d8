import Verif.Model.Cache
import Mathlib.Data.Matrix.Mul
import Mathlib.LinearAlgebra.Matrix.Trace
import Mathlib.Data.Real.Basic
/-!
# Projections and retractions of the Stiefel manifold (opt/stiefel/gutils.py)

Points are matrices with orthonormal rows (`p` rows of length `n`), tensors of exact reals. `torch.svd` by contract.
-/
namespace Kerch
namespace Retract
open Matrix

variable {p n : Type} [Fintype p] [Fintype n] [DecidableEq p] [DecidableEq n]

/-- gutils.py:27-29 `sym_matrix` (on square matrices). -/
noncomputable def symMatrix (y : Matrix p p ℝ) : Matrix p p ℝ := (1 / 2 : ℝ) • (y + yᵀ)

/-- gutils.py:31-33 `skew_matrix`. -/
noncomputable def skewMatrix (y : Matrix p p ℝ) : Matrix p p ℝ := (1 / 2 : ℝ) • (y - yᵀ)

/-- gutils.py:37-43, the value of `stiefel_proj_tan`. -/
noncomputable def tanValue (y g : Matrix p n ℝ) : Matrix p n ℝ := (yᵀ * skewMatrix (y * gᵀ) + (1 - yᵀ * y) * gᵀ)ᵀ

/-- Where tensors live. -/
inductive Device
  | cpu | cuda
  deriving DecidableEq

/-- gutils.py:35-43 `stiefel_proj_tan`: the identity is put on the GPU (line 39), which raises `AssertionError` if there is none; tensors of different devices cannot be combined. -/
noncomputable def stiefelProjTan (gpu : Bool) (dev : Device) (y g : Matrix p n ℝ) : Except Err (Matrix p n ℝ) :=
  if gpu = false then .error .assertionError
  else if dev = .cpu then .error .runtimeError
  else .ok (tanValue y g)

/-- gutils.py:45-48 `stiefel_proj_norm`. -/
noncomputable def stiefelProjNorm (y g : Matrix p n ℝ) : Matrix p n ℝ := (yᵀ * symMatrix (y * gᵀ))ᵀ

/-- What `torch.svd` gives for a matrix with at most as many rows as columns: `U` orthogonal, singular values not negative, `V` with orthonormal columns. -/
structure SVD (x : Matrix p n ℝ) where
  U : Matrix p p ℝ
  s : p → ℝ
  V : Matrix n p ℝ
  orthU : Uᵀ * U = 1
  orthV : Vᵀ * V = 1
  nonneg : ∀ i, 0 ≤ s i
  eq : x = U * diagonal s * Vᵀ

/-- gutils.py:50-54 `polar_retraction` (the first `p` columns of `V` are all of them). -/
def polarRetraction {x : Matrix p n ℝ} (D : SVD x) : Matrix p n ℝ := D.U * D.Vᵀ

/-- gutils.py:81-82 `stiefel_transport`: the function it calls does not exist. -/
def stiefelTransport (_y _g : Matrix p n ℝ) : Except Err (Matrix p n ℝ) := .error .nameError

end Retract
end Kerch
