import Verif.Model.KernelMat
import Mathlib.Analysis.SpecialFunctions.Pow.Real
/-!
# The scaling `kappa` of a view (kerch/level/single_view/View.py, kerch/level/_View.py)

Exact reals. `φ` and `k₀` are the features and the kernel of the underlying kernel class (`super(View, self)`), the sample is `pts`.
-/
namespace Kerch
namespace ViewScale

/-- `_kappa` and `_kappa_sqrt` (View.py:57-58). -/
structure St where
  kappa : ℝ
  kappaSqrt : ℝ

/-- View.py:57-58: `math.sqrt` raises `ValueError` on negative numbers. -/
noncomputable def construct (kappa : ℝ) : Except Err St :=
  if kappa < 0 then .error .valueError else .ok ⟨kappa, Real.sqrt kappa⟩

/-- View.py:116-118, the setter: `_kappa` only. -/
def St.setKappa (s : St) (v : ℝ) : St := { s with kappa := v }

/-- A history of assignments. -/
def St.run (s : St) (vs : List ℝ) : St := vs.foldl St.setKappa s

variable {X d n m : Type} [Fintype d] [Fintype n]

/-- View.py:219-220 `phi`. -/
def St.phi (s : St) (φ : X → d → ℝ) (x : X) : d → ℝ := s.kappaSqrt • φ x

/-- View.py:222-223 `k`. -/
def St.k (s : St) (k₀ : X → X → ℝ) (x y : X) : ℝ := s.kappa * k₀ x y

/-- View.py:225-227 `K`. -/
def St.K (s : St) (k₀ : X → X → ℝ) (pts : n → X) : Matrix n n ℝ := s.kappa • Matrix.of fun i j => k₀ (pts i) (pts j)

/-- `Phi`: the property of the kernel class (_base_kernel.py:286-293), which precedes that of `_View` in the resolution order, hence not scaled. -/
def St.Phi (_ : St) (φ : X → d → ℝ) (pts : n → X) : Matrix n d ℝ := Matrix.of fun i => φ (pts i)

/-- `phi()` on the sample: scaled. -/
def St.phiSample (s : St) (φ : X → d → ℝ) (pts : n → X) : Matrix n d ℝ := Matrix.of fun i => s.phi φ (pts i)

/-- `C`: the property of the kernel class (kernel.py:159-170), from the unscaled features. -/
noncomputable def St.C (s : St) (φ : X → d → ℝ) (pts : n → X) : Matrix d d ℝ := matC (s.Phi φ pts)

/-- `c()` (kernel.py:257-273): `self.phi` is the one of the view. -/
noncomputable def St.c (s : St) (φ : X → d → ℝ) (pts : n → X) : Matrix d d ℝ := matC (s.phiSample φ pts)

/-- View.py:205-213: `self.weight = self.Phi.T @ self.H` (read as the primal parameters). -/
def St.weight (s : St) (φ : X → d → ℝ) (pts : n → X) (H : Matrix n m ℝ) : Matrix d m ℝ := (s.Phi φ pts).transpose * H

/-- _View.py:328-329, primal `phiw` of one point. -/
def St.phiwPrimal (s : St) (φ : X → d → ℝ) (W : Matrix d m ℝ) (x : X) : m → ℝ := fun j => ∑ f, s.phi φ x f * W f j

/-- _View.py:331-332, dual `phiw` of one point: `self.kernel.k`, not scaled. -/
def St.phiwDual (_ : St) (k₀ : X → X → ℝ) (pts : n → X) (H : Matrix n m ℝ) (x : X) : m → ℝ := fun j => ∑ i, k₀ x (pts i) * H i j

end ViewScale
end Kerch
