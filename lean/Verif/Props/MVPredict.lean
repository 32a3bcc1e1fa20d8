import Verif.Props.MultiView
import Mathlib.LinearAlgebra.Matrix.NonsingularInverse
import Mathlib.Data.Matrix.Mul
import Mathlib.LinearAlgebra.Matrix.Notation
/-!
# C96: prediction of the missing views by a multi-view KPCA (kerch/level/multi_view/MVKPCA.py:22-41)

`q` points, `a` features of the known views, `b` features of the predicted ones, `s` components, `n` sample points.
-/
set_option linter.unusedSectionVars false
set_option linter.unusedSimpArgs false
namespace Kerch
namespace MVPredict
open Matrix MView
variable {q a b n s : Type} [Fintype q] [Fintype a] [Fintype b] [Fintype n] [Fintype s] [DecidableEq s] [DecidableEq n]

/-! ## Specification -/

/-- The stationarity conditions of the model for a point of known features `φk`: latent variables `h` with `h Λ = φk Wk + φp Wp` and `φp = h Wpᵀ`. -/
def Stationary (vals : s → ℝ) (φk : Matrix q a ℝ) (Wk : Matrix a s ℝ) (Wp : Matrix b s ℝ) (φp : Matrix q b ℝ) : Prop :=
  ∃ h : Matrix q s ℝ, h * diagonal vals = φk * Wk + φp * Wp ∧ φp = h * Wpᵀ

/-! ## C96 -/

/-- **C96**: what is predicted is the only solution of the stationarity conditions. -/
theorem C96_stationary (vals : s → ℝ) (φk : Matrix q a ℝ) (Wk : Matrix a s ℝ) (Wp : Matrix b s ℝ) (hinv : IsUnit (diagonal vals - Wpᵀ * Wp).det)
    (φp : Matrix q b ℝ) : Stationary vals φk Wk Wp φp ↔ φp = projectPrimal vals φk Wk Wp := by
  obtain ⟨A, hA⟩ : ∃ A, A = diagonal vals - Wpᵀ * Wp := ⟨_, rfl⟩
  rw [← hA] at hinv
  have e : projectPrimal vals φk Wk Wp = φk * Wk * A⁻¹ * Wpᵀ := by rw [projectPrimal, hA]
  rw [e]
  constructor
  · rintro ⟨h, h1, h2⟩
    have h3 : h * A = φk * Wk := by
      rw [hA, Matrix.mul_sub, h1, ← Matrix.mul_assoc, ← h2]; abel
    rw [← h3, Matrix.mul_nonsing_inv_cancel_right _ _ hinv]
    exact h2
  · intro h
    refine ⟨φk * Wk * A⁻¹, ?_, h⟩
    have h3 : φk * Wk * A⁻¹ * A = φk * Wk := Matrix.nonsing_inv_mul_cancel_right _ _ hinv
    have h4 : diagonal vals = A + Wpᵀ * Wp := by rw [hA]; abel
    rw [h4, Matrix.mul_add, h3, h, Matrix.mul_assoc _ Wpᵀ Wp]

/-- **C96**, when it holds: for a point which the model represents exactly (features `h Wᵀ`), the features of its missing views are recovered exactly if the
eigenvalues used are those of `WᵀW` along `h`. -/
theorem C96_recovers_iff (vals : s → ℝ) (Wk : Matrix a s ℝ) (Wp : Matrix b s ℝ) (hinv : IsUnit (diagonal vals - Wpᵀ * Wp).det) (L : Matrix s b ℝ)
    (hL : L * Wp = 1) (h : Matrix q s ℝ) :
    projectPrimal vals (h * Wkᵀ) Wk Wp = h * Wpᵀ ↔ h * diagonal vals = h * (Wkᵀ * Wk + Wpᵀ * Wp) := by
  obtain ⟨A, hA⟩ : ∃ A, A = diagonal vals - Wpᵀ * Wp := ⟨_, rfl⟩
  rw [← hA] at hinv
  have e : projectPrimal vals (h * Wkᵀ) Wk Wp = h * Wkᵀ * Wk * A⁻¹ * Wpᵀ := by rw [projectPrimal, hA]
  have hLT : Wpᵀ * Lᵀ = 1 := by rw [← Matrix.transpose_mul, hL, Matrix.transpose_one]
  have hcancel : ∀ X Y : Matrix q s ℝ, X * Wpᵀ = Y * Wpᵀ → X = Y := by
    intro X Y hXY
    have := congrArg (· * Lᵀ) hXY
    simpa [Matrix.mul_assoc, hLT] using this
  have hd : diagonal vals = A + Wpᵀ * Wp := by rw [hA]; abel
  rw [e, hd, Matrix.mul_add, Matrix.mul_add, add_left_inj]
  constructor
  · intro h1
    have h2 := hcancel _ _ h1
    have h3 : h * Wkᵀ * Wk * A⁻¹ * A = h * A := by rw [h2]
    rw [Matrix.nonsing_inv_mul_cancel_right _ _ hinv] at h3
    rw [← h3, Matrix.mul_assoc]
  · intro h1
    rw [Matrix.mul_assoc h, ← h1, Matrix.mul_nonsing_inv_cancel_right _ _ hinv]

/-- **C96**, the fitted model with the eigenvalues of the kernel matrix: the missing views of any point represented exactly are recovered, in dual as
inner products with the sample. `μ` are the eigenvalues of the sum of the kernel matrices, `H` the eigenvectors. -/
theorem C96_dual_partial (Φk : Matrix n a ℝ) (Φp : Matrix n b ℝ) (H : Matrix n s ℝ) (μ : s → ℝ) (hH : Hᵀ * H = 1)
    (hK : (Φk * Φkᵀ + Φp * Φpᵀ) * H = H * diagonal μ) (hinv : IsUnit ((Φkᵀ * H)ᵀ * (Φkᵀ * H)).det) (h : Matrix q s ℝ) :
    projectDual μ (h * (Φkᵀ * H)ᵀ * Φkᵀ) H (Φp * Φpᵀ) = h * (Φpᵀ * H)ᵀ * Φpᵀ := by
  have hG : (Φkᵀ * H)ᵀ * (Φkᵀ * H) + (Φpᵀ * H)ᵀ * (Φpᵀ * H) = diagonal μ := by
    have : Hᵀ * ((Φk * Φkᵀ + Φp * Φpᵀ) * H) = diagonal μ := by rw [hK, ← Matrix.mul_assoc, hH, Matrix.one_mul]
    rw [← this]
    simp only [Matrix.transpose_mul, Matrix.transpose_transpose, Matrix.add_mul, Matrix.mul_add, Matrix.mul_assoc]
  have hA : diagonal μ - (Φpᵀ * H)ᵀ * (Φpᵀ * H) = (Φkᵀ * H)ᵀ * (Φkᵀ * H) := by rw [← hG]; abel
  rw [← C54_project, projectPrimal, hA]
  congr 1
  rw [Matrix.mul_assoc h, Matrix.mul_nonsing_inv_cancel_right _ _ hinv]

/-- The eigenvalues stored by a dual fit (_KPCA.py:160, 176): those of the kernel matrix divided by the number of points. -/
noncomputable def storedDual (N : ℕ) (μ : s → ℝ) : s → ℝ := fun l => μ l / N

/-- **C96** does not hold after a dual fit: the eigenvalues stored are divided by the number of points, and with at least two points the prediction is wrong
for every point, but zero, which the model represents exactly. -/
theorem C96_dual_violated (Φk : Matrix n a ℝ) (Φp : Matrix n b ℝ) (H : Matrix n s ℝ) (μ : s → ℝ) (hμ : ∀ l, 0 < μ l) (hH : Hᵀ * H = 1)
    (hK : (Φk * Φkᵀ + Φp * Φpᵀ) * H = H * diagonal μ) (N : ℕ) (hN : 2 ≤ N)
    (hinv : IsUnit (diagonal (storedDual N μ) - (Φpᵀ * H)ᵀ * (Φpᵀ * H)).det) (L : Matrix s b ℝ) (hL : L * (Φpᵀ * H) = 1) (h : Matrix q s ℝ) (h0 : h ≠ 0) :
    projectPrimal (storedDual N μ) (h * (Φkᵀ * H)ᵀ) (Φkᵀ * H) (Φpᵀ * H) ≠ h * (Φpᵀ * H)ᵀ := by
  rw [Ne, C96_recovers_iff _ _ _ hinv L hL]
  have hG : (Φkᵀ * H)ᵀ * (Φkᵀ * H) + (Φpᵀ * H)ᵀ * (Φpᵀ * H) = diagonal μ := by
    have : Hᵀ * ((Φk * Φkᵀ + Φp * Φpᵀ) * H) = diagonal μ := by rw [hK, ← Matrix.mul_assoc, hH, Matrix.one_mul]
    rw [← this]
    simp only [Matrix.transpose_mul, Matrix.transpose_transpose, Matrix.add_mul, Matrix.mul_add, Matrix.mul_assoc]
  rw [hG]
  intro hEq
  refine h0 ?_
  ext i l
  have := congrFun (congrFun hEq i) l
  rw [Matrix.mul_diagonal, Matrix.mul_diagonal, storedDual] at this
  have hN2 : (2 : ℝ) ≤ N := by exact_mod_cast hN
  have hNp : (0 : ℝ) < N := by linarith
  have h2 : h i l * μ l * (N - 1) = 0 := by
    field_simp at this
    nlinarith [this]
  rcases mul_eq_zero.1 h2 with h3 | h3
  · rcases mul_eq_zero.1 h3 with h4 | h4
    · simpa using h4
    · exact absurd h4 (ne_of_gt (hμ l))
  · linarith

/-- **C96** does not hold after a primal fit either: the weights are orthonormal and the eigenvalues those of the covariance; unless these are one, the
prediction is wrong for every point, but zero, which the model represents exactly. -/
theorem C96_primal_violated (Wk : Matrix a s ℝ) (Wp : Matrix b s ℝ) (hW : Wkᵀ * Wk + Wpᵀ * Wp = 1) (vals : s → ℝ) (hv : ∀ l, vals l ≠ 1)
    (hinv : IsUnit (diagonal vals - Wpᵀ * Wp).det) (L : Matrix s b ℝ) (hL : L * Wp = 1) (h : Matrix q s ℝ) (h0 : h ≠ 0) :
    projectPrimal vals (h * Wkᵀ) Wk Wp ≠ h * Wpᵀ := by
  rw [Ne, C96_recovers_iff _ _ _ hinv L hL, hW]
  intro hEq
  refine h0 ?_
  ext i l
  have := congrFun (congrFun hEq i) l
  rw [Matrix.mul_diagonal, Matrix.mul_one] at this
  have h2 : h i l * (vals l - 1) = 0 := by linarith
  rcases mul_eq_zero.1 h2 with h4 | h4
  · simpa using h4
  · exact absurd (by linarith) (hv l)

/-! ## Non-vacuity -/

section
/-- Two views of one feature each, two points. -/
noncomputable def exK : Matrix (Fin 2) (Fin 1) ℝ := !![1; 0]
noncomputable def exH : Matrix (Fin 2) (Fin 1) ℝ := !![1; 0]

example : exHᵀ * exH = 1 ∧ (exK * exKᵀ + exK * exKᵀ) * exH = exH * diagonal (fun _ => (2 : ℝ)) ∧ IsUnit ((exKᵀ * exH)ᵀ * (exKᵀ * exH)).det ∧
    (1 : Matrix (Fin 1) (Fin 1) ℝ) * (exKᵀ * exH) = 1 ∧ IsUnit (diagonal (storedDual 3 fun _ : Fin 1 => (2 : ℝ)) - (exKᵀ * exH)ᵀ * (exKᵀ * exH)).det := by
  have h1 : exKᵀ * exH = 1 := by ext i j; fin_cases i; fin_cases j; simp [exK, exH, Matrix.mul_apply]
  refine ⟨?_, ?_, ?_, ?_, ?_⟩
  · exact h1
  · rw [Matrix.add_mul, Matrix.mul_assoc, h1, Matrix.mul_one]
    ext i j
    rw [Matrix.mul_diagonal, Matrix.add_apply, show exH = exK from rfl]; ring
  · rw [h1]; simp
  · rw [h1]; simp
  · rw [h1]; simp [storedDual, Matrix.det_fin_one]; norm_num

example : (!![(3 / 5 : ℝ)])ᵀ * !![(3 / 5 : ℝ)] + (!![(4 / 5 : ℝ)])ᵀ * !![(4 / 5 : ℝ)] = 1 ∧ !![(5 / 4 : ℝ)] * !![(4 / 5 : ℝ)] = 1 := by
  constructor
  · ext i j; fin_cases i; fin_cases j; simp [Matrix.mul_apply]; norm_num
  · ext i j; fin_cases i; fin_cases j; simp [Matrix.mul_apply]
end

end MVPredict
end Kerch
