import Verif.Model.KPCA
/-!
# Reconstructions of a KPCA level (kerch/level/single_view/KPCA.py:27-54)

`D` is any eigendecomposition `utils.eigs` may return, `k` is `dim_output`. The lines read the parameters under the names `hidden` and `weight`, which do not exist
on a level (`dual_param`, `primal_param` do), so that as it stands each of these raises AttributeError; the formulas below are those of the lines.
-/
namespace Kerch
namespace Recon
open Finset KPCA
variable {n d : ℕ}

/-- KPCA.py:27-33 `K_reconstructed` after a dual fit: `H @ diag(vals) @ H.T`, with `vals = v / num_idx` (_KPCA.py:160, 176). -/
noncomputable def Krec {M : Fin n → Fin n → ℝ} (E : EigDecomp M) (k : ℕ) (i j : Fin n) : ℝ := ∑ l : E.Kept k, E.V i l.1 * ((1 / (n : ℝ)) * E.lam l.1) * E.V j l.1

/-- KPCA.py:35-40 `C_reconstructed` after a primal fit: `U @ diag(vals) @ U.T`, with `vals = v` (_KPCA.py:142). -/
noncomputable def Crec {M : Fin d → Fin d → ℝ} (D : EigDecomp M) (k : ℕ) (i j : Fin d) : ℝ := ∑ l : D.Kept k, D.V i l.1 * D.lam l.1 * D.V j l.1

/-- KPCA.py:43-49 `reconstruct(x, 'primal')` of a point of features `φ`: `phi @ (U @ U.T)`. -/
noncomputable def reconP {M : Fin d → Fin d → ℝ} (D : EigDecomp M) (k : ℕ) (φ : Fin d → ℝ) (j : Fin d) : ℝ := ∑ i, φ i * ∑ l : D.Kept k, D.V i l.1 * D.V j l.1

/-- KPCA.py:50-54 `reconstruct(x, 'dual')` of a point of kernel values `kx`: `k @ (H @ H.T)`. -/
noncomputable def reconD {M : Fin n → Fin n → ℝ} (E : EigDecomp M) (k : ℕ) (kx : Fin n → ℝ) (j : Fin n) : ℝ := ∑ i, kx i * ∑ l : E.Kept k, E.V i l.1 * E.V j l.1

end Recon
end Kerch
