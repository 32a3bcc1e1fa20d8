import Mathlib.LinearAlgebra.Matrix.Trace
import Verif.Model.Memo
import Verif.Model.Polynomial
import Verif.Model.KernelList
/-!
# Matrices of a kernel on its sample: `Phi`, `C`, `K`, `cov`, `corr` (kerch/kernel/kernel.py:148-193, 266-282, 312-345)
-/
namespace Kerch
open Finset

/-- kernel.py:166-169 (`1/num_idx`) and 280-282 (`1/phi.shape[0]`): `scale * phi.T @ phi`. -/
noncomputable def matC {ι d : Type} [Fintype ι] (Φ : Matrix ι d ℝ) : Matrix d d ℝ := (1 / (Fintype.card ι : ℝ)) • (Φ.transpose * Φ)

/-- kernel.py:187-189: `phi @ phi.T`. -/
noncomputable def matK {ι d : Type} [Fintype d] (Φ : Matrix ι d ℝ) : Matrix ι ι ℝ := Φ * Φ.transpose

/-- The quantities kept in the cache of a kernel (`none`: a tensor of `NaN`). -/
inductive KVal (n d : Type)
  | feat (Y : Option (n → d → ℝ))
  | cmat (C : Option (d → d → ℝ))
  | kmat (K : Option (n → n → ℝ))

/-- The attributes of a kernel the cached quantities depend on: the feature map and the kernel function (hyper-parameters) and the current sample. -/
structure KEnv (X n d : Type) where
  φ : X → d → ℝ
  κ : X → X → ℝ
  pts : n → X

/-- kernel.py:148-193 `_phi`, `_C`, `_K` (with `explicit=None`, as `K` and all other readers do) for a kernel with default chain `p` (last transform
first). The level keys are `sample_phi`, `sample_C`, `sample_K`. -/
noncomputable def kernelMats {X n d : Type} [Fintype n] [Nonempty n] [Fintype d] (explicit : Bool) (p : List Kind) :
    Defs String (KEnv X n d) (KVal n d) where
  table := defaultCacheLevel
  body := fun key =>
    if key = "C" then .need "phi" fun v => .ret fun _ => match v with
      | .feat Y => .ok (.cmat (Y.map fun Y => matC (Matrix.of Y)))
      | _ => .error .runtimeError
    else if key = "K" then
      if explicit then .need "phi" fun v => .ret fun _ => match v with
        | .feat Y => .ok (.kmat (Y.map fun Y => matK (Matrix.of Y)))
        | _ => .error .runtimeError
      else .ret fun env => (ioos env.κ env.pts p .sample .sample).map fun K => .kmat (some K)
    else .ret fun env => .ok (.feat (esample env.φ env.pts p))
  cfg := fun key => { levelKey := some ("sample_" ++ key) }
  rank := fun key => if key = "C" ∨ key = "K" then 1 else 0

/-- kernel.py:312-331 `cov`, the chain it ends up applying: `'center'` is appended to a copy of the default transforms `T` (always: line 325 compares a
class with a string), simplified, and given to `c`, hence to `phi`, which simplifies and resolves it again (kernel.py:206-209). -/
def covChain (K : KCls) (T : List Kind) : Except Err (List Kind) :=
  (simplify K (T.map .cls ++ [.name "center"])).2.bind fun t => (evalChain K (t.map .cls)).2

section
variable {X n d : Type} [Fintype n] [Nonempty n] [Fintype d]

/-- kernel.py:312-331 `cov`. -/
noncomputable def covMat (K : KCls) (T : List Kind) (φ : X → d → ℝ) (pts : n → X) (a : Arg X) [Fintype (a.I n)] :
    Except Err (Option (Matrix d d ℝ)) :=
  (covChain K T).map fun t => (eoos φ pts t.reverse a).map fun Y => matC (Matrix.of Y)

/-- kernel.py:343-345 `corr` from `cov`. -/
noncomputable def corrMat (M : Matrix d d ℝ) : Matrix d d ℝ := fun i j => M i j / (Real.sqrt (M i i) * Real.sqrt (M j j))

end
end Kerch
