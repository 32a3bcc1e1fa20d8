import Verif.Model.Level
import Verif.Model.Nystrom
import Verif.Model.KernelMat
/-!
# Kernel PCA levels (kerch/level/_KPCA.py)

Exact reals; `n` points in the current sample, `d` features.
-/
namespace Kerch
namespace KPCA
open Finset Level

/-! ## variances -/

/-- The cached variances (keys `total_variance_primal`, `total_variance_dual`). -/
instance : CacheKey Rep := ⟨fun _ => []⟩

/-- What `total_variance` reads: the default representation, `torch.trace(self.C)`, `torch.trace(self.K)` and `num_idx`. -/
structure VarEnv where
  dflt : Rep
  trC : ℝ
  trK : ℝ
  n : ℕ

/-- The trace computed in a representation (_KPCA.py:65-68). -/
def VarEnv.tr (E : VarEnv) : Rep → ℝ
  | .primal => E.trC
  | .dual => E.trK

/-- Level key (_KPCA.py:63-64). -/
def VarEnv.key (E : VarEnv) (r : Rep) : String :=
  if r = E.dflt then "KPCA_total_variance_default_representation" else "KPCA_total_variance_other_representation"

/-- _KPCA.py:46-73 `total_variance(normalize, representation)`: `var /= self.num_idx` (line 70) is done in place, on the very tensor that `_get` has
put in the cache, if it has. The value returned is that of the tensor at this moment (`as_tensor=True`, or read before any further call). -/
noncomputable def totalVariance (E : VarEnv) (r : Rep) (normalize : Bool) (c : CacheSt Rep ℝ) : Except Err ℝ × CacheSt Rep ℝ :=
  match CacheSt.get defaultCacheLevel r { levelKey := some (E.key r) } (fun c => (.ok (E.tr r), c)) c with
  | (.error e, c1) => (.error e, c1)
  | (.ok v, c1) =>
    if normalize then
      (.ok (v / E.n), match c1.dict.find r with
        | some e => { c1 with dict := c1.dict.set r { e with val := v / E.n } }
        | none => c1)
    else (.ok v, c1)

/-- Operations: calls, and `_reset_dual` (_KPCA.py:94-96), run by every assignment of primal parameters. -/
inductive VOp
  | call (r : Rep) (normalize : Bool)
  | resetDual

/-- Effect of an operation on the cache. -/
noncomputable def vstep (E : VarEnv) (c : CacheSt Rep ℝ) : VOp → CacheSt Rep ℝ
  | .call r b => (totalVariance E r b c).2
  | .resetDual => c.remove (.list [.primal, .dual])

/-- A history of operations. -/
noncomputable def vrun (E : VarEnv) (c : CacheSt Rep ℝ) (ops : List VOp) : CacheSt Rep ℝ := ops.foldl (vstep E) c

/-! ## solutions

`D` is any eigendecomposition `utils.eigs` may return (`EigDecomp`), `k` is `dim_output`; the components kept are `D.Kept k` (_KPCA.py:126-139, 159-173).
-/

section
variable {n d : ℕ}

/-- `self.C` of a level: the covariance of the unscaled kernel (kernel.py:160-171). -/
noncomputable def levelC (Φ : Fin n → Fin d → ℝ) : Fin d → Fin d → ℝ := matC (Matrix.of Φ)

/-- `self.K` of a level: the kernel matrix times `kappa` (single_view/View.py:227-229). -/
noncomputable def levelK (κ : ℝ) (Φ : Fin n → Fin d → ℝ) : Fin n → Fin n → ℝ := fun i j => κ * matK (Matrix.of Φ) i j

/-- `model_variance(normalize=False)` (_KPCA.py:87) after `_solve_primal`: the sum of `vals = v` (line 142). -/
noncomputable def modelVarP {M : Fin d → Fin d → ℝ} (D : EigDecomp M) (k : ℕ) : ℝ := ∑ l : D.Kept k, D.lam l.1

/-- The same after `_solve_dual`: `vals = fact * v`, `fact = 1 / num_idx` (lines 160, 176). -/
noncomputable def modelVarD {M : Fin n → Fin n → ℝ} (E : EigDecomp M) (k : ℕ) : ℝ := ∑ l : E.Kept k, (1 / (n : ℝ)) * E.lam l.1

/-- `total_variance(normalize=False)` in the default representation, first call. -/
noncomputable def totalVar (dflt : Rep) (κ : ℝ) (Φ : Fin n → Fin d → ℝ) : ℝ :=
  match dflt with
  | .primal => ∑ j, levelC Φ j j
  | .dual => ∑ i, levelK κ Φ i i

/-- `relative_variance` (_KPCA.py:98-109). -/
noncomputable def relVar (model total : ℝ) : ℝ := model / total

/-- `loss` (_KPCA.py:211-248): `trace(M) - trace(U.T @ U @ M)`, `U` holding the parameters as rows. -/
noncomputable def loss {m : ℕ} {A : Type} [Fintype A] (M : Fin m → Fin m → ℝ) (U : A → Fin m → ℝ) : ℝ :=
  ∑ i, M i i - ∑ i, ∑ j, (∑ a, U a i * U a j) * M j i

/-- The parameters after `solve` (lines 141, 175): the kept eigenvectors. -/
def solU {m : ℕ} {M : Fin m → Fin m → ℝ} (D : EigDecomp M) (k : ℕ) (a : D.Kept k) (i : Fin m) : ℝ := D.V i a.1

/-- Primal scores of a point with features `φ` (of the kernel, unscaled): `self.phi(x) @ self.W` (_View.py:333-338, View.py:221-222, _KPCA.py:209). -/
noncomputable def scoreP {M : Fin d → Fin d → ℝ} (D : EigDecomp M) (κ : ℝ) (φ : Fin d → ℝ) (l : Fin d) : ℝ :=
  ∑ j, Real.sqrt κ * φ j * (D.V j l * Real.sqrt (D.lam l))

/-- Dual scores: `self.kernel.k(x) @ self.H` (_View.py:339-344, _KPCA.py:205). -/
noncomputable def scoreD {M : Fin n → Fin n → ℝ} (E : EigDecomp M) (Φ : Fin n → Fin d → ℝ) (φ : Fin d → ℝ) (m : Fin n) : ℝ :=
  ∑ i, (∑ j, φ j * Φ i j) * E.V i m

/-- `h(phi=...)` (_KPCA.py:269): `phi @ W @ diag(1 / vals)` after a primal solve. -/
noncomputable def hPhi {M : Fin d → Fin d → ℝ} (D : EigDecomp M) (k : ℕ) (φ : Fin d → ℝ) (l : D.Kept k) : ℝ :=
  (∑ j, φ j * (D.V j l.1 * Real.sqrt (D.lam l.1))) * (1 / D.lam l.1)

/-- `phi_map` (_KPCA.py:288): `h @ W.T`. -/
noncomputable def phiMap {M : Fin d → Fin d → ℝ} (D : EigDecomp M) (k : ℕ) (h : D.Kept k → ℝ) (j : Fin d) : ℝ :=
  ∑ l, h l * (D.V j l.1 * Real.sqrt (D.lam l.1))

/-- `h(k=...)` (_KPCA.py:271): `k @ H @ diag(1 / vals)` after a dual solve. -/
noncomputable def hK {M : Fin n → Fin n → ℝ} (E : EigDecomp M) (k : ℕ) (kx : Fin n → ℝ) (l : E.Kept k) : ℝ :=
  (∑ i, kx i * E.V i l.1) * (1 / ((1 / (n : ℝ)) * E.lam l.1))

/-- `k_map` (_KPCA.py:305): `h @ H.T @ K`. -/
noncomputable def kMap {M : Fin n → Fin n → ℝ} (E : EigDecomp M) (k : ℕ) (h : E.Kept k → ℝ) (j : Fin n) : ℝ :=
  ∑ i, (∑ l, h l * E.V i l.1) * M i j

end
end KPCA
end Kerch
