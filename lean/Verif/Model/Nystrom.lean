import Mathlib.Data.Matrix.Mul
import Verif.Model.Cache
import Verif.Model.Defaults
import Verif.Model.Transforms
/-!
# Nyström kernel (kerch/kernel/nystrom.py) and eigendecomposition (kerch/utils/math.py:6-66)
-/
namespace Kerch
open Finset

/-- What `utils.eigs` (math.py:6-66) is given by torch for a symmetric matrix: eigenvalues in decreasing order (after the flip of math.py:47-48) with
orthonormal eigenvectors as columns. By contract of `torch.linalg.eigh` / `torch.lobpcg`: any such decomposition may be returned. -/
structure EigDecomp {n : ℕ} (M : Fin n → Fin n → ℝ) where
  lam : Fin n → ℝ
  V : Fin n → Fin n → ℝ
  sorted : Antitone lam
  orth : ∀ k l, ∑ i, V i k * V i l = if k = l then 1 else 0
  eig : ∀ i k, ∑ j, M i j * V j k = lam k * V i k

namespace EigDecomp
variable {n : ℕ} {M : Fin n → Fin n → ℝ} (D : EigDecomp M)

/-- The columns kept with dimension `k`: the `k` greatest (math.py:45-48), without those below `EPS` (nystrom.py:134-144). -/
def Kept (k : ℕ) : Type := { l : Fin n // l.val < k ∧ EPS ≤ D.lam l }

noncomputable instance (k : ℕ) : Fintype (D.Kept k) := by unfold Kept; classical infer_instance

/-- nystrom.py:150-151: `H @ diag(sqrt(lambdas))`. -/
noncomputable def samplePhi (k : ℕ) (i : Fin n) (l : D.Kept k) : ℝ := D.V i l.1 * Real.sqrt (D.lam l.1)

/-- nystrom.py:162-163: `Kx @ H @ diag(1 / sqrt(lambdas))`, `kx` being the row of values of the base kernel between the point and the sample. -/
noncomputable def oosPhi (k : ℕ) (kx : Fin n → ℝ) (l : D.Kept k) : ℝ := (∑ j, kx j * D.V j l.1) * (1 / Real.sqrt (D.lam l.1))

end EigDecomp

/-- `Nystrom._dim`: `None` (only while the constructor runs: it then becomes the number of points, nystrom.py:69-71), the Python number given at
construction (line 69), or a tensor (lines 71, 85, 144). -/
inductive DimVal
  | unset
  | pyint (k : ℕ)
  | tensor (k : ℕ)

/-- nystrom.py:120-121: `if self._dim is None: self.dim = self._num_total`. -/
def DimVal.orTotal (n : ℕ) : DimVal → DimVal
  | .unset => .tensor n
  | d => d

/-- The attributes of a Nyström kernel that matter: `_dim`, the number of points and the values of the base kernel on them, and the own cache of which
only the level matters (the key `"H"` tested at line 117 is never used, so the decomposition is computed at each evaluation). All points are selected. -/
structure NysSt where
  dim : DimVal
  n : ℕ
  M : Fin n → Fin n → ℝ
  level : Lvl

namespace NysSt

/-- nystrom.py:73-78 `dim`: `self._dim.cpu()` exists for tensors only. -/
def getDim (s : NysSt) : Except Err ℕ :=
  match s.dim with
  | .tensor k => .ok k
  | _ => .error .attributeError

/-- nystrom.py:80-86, the setter of `dim`. -/
def setDim (s : NysSt) (k : ℕ) : Except Err Unit × NysSt :=
  if k ≤ s.n then (.ok (), { s with dim := .tensor k }) else (.error .assertionError, s)

/-- nystrom.py:110-113 `init_sample`: only the base kernel follows, `_dim` stays. -/
def newSample (s : NysSt) (n : ℕ) (M : Fin n → Fin n → ℝ) : NysSt := { s with n := n, M := M }

/-- The dimension asked to `eigs` (nystrom.py:120-124). -/
def reqDim (s : NysSt) : ℕ :=
  match s.dim with
  | .unset => s.n
  | .pyint k => k
  | .tensor k => k

/-- nystrom.py:115-151 `_compute_decomposition`, then 156-163 for the sample, returning the kernel matrix `phi @ phi.T` of the sample. The elements are
saved with level `_nystrom_elements` (`light`) and read back by `_get` without function: if they were not saved, calling `None` raises `TypeError`.
`math.py:36` refuses to compute more eigenvectors than points. A dimension of 0 is answered with no vector (as `torch.lobpcg` does; the fallback
`v[:, -0:]` would give all of them, see `Eigs.sliceStart`). -/
noncomputable def evalK (s : NysSt) (D : EigDecomp s.M) : Except Err (Fin s.n → Fin s.n → ℝ) × NysSt :=
  let k := s.reqDim
  if s.n < k then (.error .assertionError, s)
  else
    let kept := Fintype.card (D.Kept k)
    let s' : NysSt := { s with dim := if kept < k then .tensor kept else s.dim.orTotal s.n }
    match (Lvl.num 1).le s.level with
    | .ok true => (.ok fun i j => ∑ l : D.Kept k, D.samplePhi k i l * D.samplePhi k j l, s')
    | .ok false => (.error .typeError, s')
    | .error e => (.error e, s')

end NysSt
end Kerch
