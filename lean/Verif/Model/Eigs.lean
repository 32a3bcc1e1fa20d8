import Mathlib.Data.Matrix.Mul
import Mathlib.Data.Real.Basic
import Mathlib.LinearAlgebra.Matrix.Notation
import Mathlib.LinearAlgebra.Matrix.NonsingularInverse
import Verif.Model.Cache
/-!
# The eigendecomposition `utils.eigs` (kerch/utils/math.py:6-66)

The decompositions of torch are modelled by contract. `Verif.Model.Nystrom` and `Verif.Model.KPCA` start from the result of `eigs` on a symmetric matrix.
-/
namespace Kerch
namespace Eigs

/-- Eigenvalues and eigenvectors (the columns of `V`), `m` of them. -/
structure Pairs (n : ℕ) where
  m : ℕ
  s : Fin m → ℝ
  V : Matrix (Fin n) (Fin m) ℝ

/-- The functions of torch: `lobpcg(A, k, B, largest=True)` and `inv` may raise (`none`), `eigh`, `svd` (its `s`, `v`) and `eig` return as many pairs as the
size of the matrix. (`eig` returns complex numbers; only real ones are represented.) -/
structure Torch (n : ℕ) where
  lobpcg : Matrix (Fin n) (Fin n) ℝ → ℤ → Option (Matrix (Fin n) (Fin n) ℝ) → Option (Pairs n)
  inv : Matrix (Fin n) (Fin n) ℝ → Option (Matrix (Fin n) (Fin n) ℝ)
  eigh : Matrix (Fin n) (Fin n) ℝ → (Fin n → ℝ) × Matrix (Fin n) (Fin n) ℝ
  svd : Matrix (Fin n) (Fin n) ℝ → (Fin n → ℝ) × Matrix (Fin n) (Fin n) ℝ
  eig : Matrix (Fin n) (Fin n) ℝ → (Fin n → ℝ) × Matrix (Fin n) (Fin n) ℝ

/-- `eigh` reads the lower triangle only. -/
def lowerSym {n : ℕ} (M : Matrix (Fin n) (Fin n) ℝ) : Matrix (Fin n) (Fin n) ℝ := fun i j => if j ≤ i then M i j else M j i

/-- Contract of `torch.linalg.eigh`: eigenvalues in ascending order, orthonormal eigenvectors. -/
structure IsEigh {n : ℕ} (M : Matrix (Fin n) (Fin n) ℝ) (r : (Fin n → ℝ) × Matrix (Fin n) (Fin n) ℝ) : Prop where
  asc : Monotone r.1
  orth : r.2.transpose * r.2 = 1
  eig : lowerSym M * r.2 = r.2 * Matrix.diagonal r.1

/-- Contract of `torch.svd` (singular values in descending order; `U` is dropped by the code). -/
structure IsSvd {n : ℕ} (M : Matrix (Fin n) (Fin n) ℝ) (r : (Fin n → ℝ) × Matrix (Fin n) (Fin n) ℝ) : Prop where
  desc : Antitone r.1
  nonneg : ∀ i, 0 ≤ r.1 i
  orth : r.2.transpose * r.2 = 1
  prod : ∃ U : Matrix (Fin n) (Fin n) ℝ, U.transpose * U = 1 ∧ M = U * Matrix.diagonal r.1 * r.2.transpose

/-- Contract of `torch.linalg.eig` (real case): eigenpairs, in no particular order. -/
def IsEig {n : ℕ} (M : Matrix (Fin n) (Fin n) ℝ) (r : (Fin n → ℝ) × Matrix (Fin n) (Fin n) ℝ) : Prop := M * r.2 = r.2 * Matrix.diagonal r.1

/-- The first column of `v[:, -k:]`: a negative start counts from the end, and `-0` is the start. -/
def sliceStart (n : ℕ) (k : ℤ) : ℕ := if 0 < k then n - k.toNat else (-k).toNat ⊓ n

/-- math.py:45-48: the slice, then the flip. -/
def lastFlipped {n : ℕ} (r : (Fin n → ℝ) × Matrix (Fin n) (Fin n) ℝ) (k : ℤ) : Pairs n where
  m := n - sliceStart n k
  s := fun j => r.1 ⟨n - 1 - j, by omega⟩
  V := fun i j => r.2 i ⟨n - 1 - j, by omega⟩

/-- The number of columns of `v[:, :k]`: a negative end counts from the end. -/
def sliceEnd (n : ℕ) (k : ℤ) : ℕ := if 0 ≤ k then k.toNat ⊓ n else n - (-k).toNat

/-- math.py:55-56, 63-64. -/
def first {n : ℕ} (r : (Fin n → ℝ) × Matrix (Fin n) (Fin n) ℝ) (k : ℤ) : Pairs n where
  m := sliceEnd n k
  s := fun j => r.1 ⟨j, lt_of_lt_of_le j.2 (by unfold sliceEnd; split <;> omega)⟩
  V := fun i j => r.2 i ⟨j, lt_of_lt_of_le j.2 (by unfold sliceEnd; split <;> omega)⟩

/-- math.py:39-42, 50-53, 58-61: the matrix decomposed by the fallbacks. -/
def target {n : ℕ} (T : Torch n) (A : Matrix (Fin n) (Fin n) ℝ) : Option (Matrix (Fin n) (Fin n) ℝ) → Except Err (Matrix (Fin n) (Fin n) ℝ)
  | none => .ok A
  | some B => match T.inv B with
    | some Bi => .ok (Bi * A)
    | none => .error .runtimeError

/-- math.py:6-66 `eigs`. -/
def eigs {a b : ℕ} (T : Torch a) (A : Matrix (Fin a) (Fin b) ℝ) (k : Option ℤ) (B : Option (Matrix (Fin a) (Fin a) ℝ)) (psd sym : Bool) :
    Except Err (Pairs a) :=
  if h : a = b then
    let A : Matrix (Fin a) (Fin a) ℝ := fun i j => A i (Fin.cast h j)
    let k : ℤ := k.getD a
    if k ≤ a then
      match T.lobpcg A k B with
      | some r => .ok r
      | none => (target T A B).map fun M =>
        if sym then lastFlipped (T.eigh M) k else if psd then first (T.svd M) k else first (T.eig M) k
    else .error .assertionError
  else .error .assertionError

end Eigs
end Kerch
