import Verif.Model.KPCA
/-!
# Correlations and projectors of the parameters of a level, draws of a KPCA level (kerch/level/_View.py:373-405, kerch/level/_KPCA.py:250-350)

Parameters are given with their components as rows (`U a i`: component `a`, entry `i`), as they are stored.
-/
namespace Kerch
namespace Draw
open Finset KPCA
noncomputable section

/-- `dual_correlation`, `primal_correlation` (_View.py:373-387): `param.T @ param`. -/
def correlation {m : ℕ} {A : Type} (U : A → Fin m → ℝ) (a b : A) : ℝ := ∑ i, U a i * U b i

/-- `dual_projector`, `primal_projector` (_View.py:389-405): `param @ param.T`. -/
def projector {m : ℕ} {A : Type} [Fintype A] (U : A → Fin m → ℝ) (i j : Fin m) : ℝ := ∑ a, U a i * U a j

/-- `draw_phi` (_KPCA.py:320-334) after a primal fit, for one row `h` of `draw_h` (lines 307-318): `phi_map(h)`; the argument `posterior` is not used. -/
def drawPhi {d : ℕ} {M : Fin d → Fin d → ℝ} (D : EigDecomp M) (k : ℕ) (_posterior : Bool) (h : D.Kept k → ℝ) : Fin d → ℝ := phiMap D k h

/-- `draw_k` (_KPCA.py:336-350) after a dual fit: `k_map(h)`; the argument `posterior` is not used. -/
def drawK {n : ℕ} {M : Fin n → Fin n → ℝ} (E : EigDecomp M) (k : ℕ) (_posterior : Bool) (h : E.Kept k → ℝ) : Fin n → ℝ := kMap E k h

/-- `h(phi, k)` (_KPCA.py:250-273) after a fit, `hphi` and `hk` being what is computed from one of them. -/
def hCall {F K H : Type} (hphi : F → H) (hk : K → H) : Option F → Option K → Except Err H
  | some φ, none => .ok (hphi φ)
  | none, some k => .ok (hk k)
  | _, _ => .error .attributeError

end
end Draw
end Kerch
