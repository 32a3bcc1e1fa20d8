import Mathlib.Analysis.SpecialFunctions.Pow.NNReal
import Verif.Model.KPCA
/-!
# Scaling of a view (kerch/level/single_view/View.py) and LS-SVM systems (kerch/level/single_view/LSSVM.py)
-/
namespace Kerch
open Finset

/-! ## the factor kappa -/
namespace Kappa

/-- `_kappa`, `_kappa_sqrt` (View.py:59-60). -/
structure St where
  kappa : ℝ
  kappaSqrt : ℝ

/-- View.py:59-60. -/
noncomputable def St.init (κ : ℝ) : St := ⟨κ, Real.sqrt κ⟩

/-- View.py:121-123, the setter of `kappa`. -/
def St.set (s : St) (κ : ℝ) : St := { s with kappa := κ }

/-- A construction with a factor followed by assignments. -/
noncomputable def St.run (κ : ℝ) (vals : List ℝ) : St := vals.foldl St.set (St.init κ)

section
variable {n d : Type} [Fintype n] [Fintype d]

/-- View.py:221-222 `phi(x)`, given the features of the kernel. -/
def St.phi (s : St) (Φ : n → d → ℝ) : n → d → ℝ := fun i j => s.kappaSqrt * Φ i j

/-- View.py:224-225 `k(x, y)`. -/
def St.k {m : Type} (s : St) (Φ : n → d → ℝ) (Ψ : m → d → ℝ) : n → m → ℝ := fun i j => s.kappa * ∑ a, Φ i a * Ψ j a

/-- View.py:227-229 `K`. -/
def St.K (s : St) (Φ : n → d → ℝ) : n → n → ℝ := fun i j => s.kappa * ∑ a, Φ i a * Φ j a

/-- `Phi` of a level is inherited from the kernel class (kernel/_base_kernel.py, in front of `_View` in the method resolution order): unscaled. -/
def St.Phi (_s : St) (Φ : n → d → ℝ) : n → d → ℝ := Φ

/-- `C` likewise (kernel.py:160-171). -/
noncomputable def St.C (_s : St) (Φ : n → d → ℝ) : d → d → ℝ := fun i j => (1 / (Fintype.card n : ℝ)) * ∑ a, Φ a i * Φ a j

/-- `c(x)` (kernel.py:266-282), from the scaled `phi`. -/
noncomputable def St.c (s : St) (Φ : n → d → ℝ) : d → d → ℝ := fun i j => (1 / (Fintype.card n : ℝ)) * ∑ a, s.phi Φ a i * s.phi Φ a j

end
end Kappa

/-! ## LS-SVM -/
namespace LSSVM
section
variable {n d : Type} [Fintype n] [Fintype d]

/-- LSSVM.py:73-98: `(h, b)` solves the dual system `[[K + γI, 1], [1ᵀ, 0]] [h; b] = [y; 0]` (one output). `torch.linalg.solve` returns such a pair. -/
def DualSol (K : n → n → ℝ) (γ : ℝ) (y : n → ℝ) (h : n → ℝ) (b : ℝ) : Prop :=
  (∀ i, ∑ j, K i j * h j + γ * h i + b = y i) ∧ ∑ i, h i = 0

/-- LSSVM.py:48-68: `(w, b)` solves the primal system `[[C + γI, Pᵀ], [P, N]] [w; b] = [Φᵀy; Σy]`, `C = ΦᵀΦ/n` being the covariance of the kernel
(line 49) and `phi` (line 50, an attribute that does not exist) read as the features of the sample. -/
def PrimalSol (Φ : n → d → ℝ) (γ : ℝ) (y : n → ℝ) (w : d → ℝ) (b : ℝ) : Prop :=
  (∀ j, ∑ l, ((1 / (Fintype.card n : ℝ)) * ∑ a, Φ a j * Φ a l) * w l + γ * w j + (∑ a, Φ a j) * b = ∑ a, Φ a j * y a) ∧
  ∑ l, (∑ a, Φ a l) * w l + (Fintype.card n : ℝ) * b = ∑ a, y a

/-- Output of a fitted model in dual representation: `k(x) @ h + b` (_View.py:336-337, View.py:231-233 with `kappa = 1`). -/
def outDual (kx : n → ℝ) (h : n → ℝ) (b : ℝ) : ℝ := ∑ i, kx i * h i + b

/-- Output in primal representation: `phi(x) @ w + b`. -/
def outPrimal (φ : d → ℝ) (w : d → ℝ) (b : ℝ) : ℝ := ∑ j, φ j * w j + b

end
end LSSVM
end Kerch
