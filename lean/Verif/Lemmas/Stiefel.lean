import Verif.Model.Stiefel
import Mathlib.LinearAlgebra.Matrix.NonsingularInverse
import Mathlib.LinearAlgebra.Matrix.ToLinearEquiv
import Mathlib.LinearAlgebra.Matrix.Trace
import Mathlib.LinearAlgebra.Matrix.DotProduct
import Mathlib.Algebra.Order.BigOperators.Ring.Finset
import Mathlib.Tactic.Ring
import Mathlib.Tactic.Linarith
import Mathlib.Tactic.NoncommRing
import Mathlib.Tactic.Positivity
/-! Helper lemmas on the Cayley transform. -/
set_option linter.unusedSectionVars false
set_option linter.unusedSimpArgs false
namespace Kerch
namespace Stiefel
open Matrix

variable {p n : Type} [Fintype p] [Fintype n]

/-- Sum of the absolute values of a column. -/
def colAbs (M : Matrix n p ℝ) (j : p) : ℝ := ∑ i, |M i j|

theorem colAbs_nonneg (M : Matrix n p ℝ) (j : p) : 0 ≤ colAbs M j := Finset.sum_nonneg fun _ _ => abs_nonneg _

theorem colAbs_add (A B : Matrix n p ℝ) (j : p) : colAbs (A + B) j ≤ colAbs A j + colAbs B j := by
  unfold colAbs
  rw [← Finset.sum_add_distrib]
  exact Finset.sum_le_sum fun i _ => abs_add_le _ _

theorem colAbs_smul (c : ℝ) (A : Matrix n p ℝ) (j : p) : colAbs (c • A) j = |c| * colAbs A j := by
  unfold colAbs
  rw [Finset.mul_sum]
  exact Finset.sum_congr rfl fun i _ => abs_mul _ _

theorem colAbs_neg (A : Matrix n p ℝ) (j : p) : colAbs (-A) j = colAbs A j := by
  unfold colAbs
  exact Finset.sum_congr rfl fun i _ => abs_neg _

theorem colAbs_mul (W : Matrix n n ℝ) (M : Matrix n p ℝ) (N : ℝ) (hN : ∀ k, ∑ i, |W i k| ≤ N) (j : p) : colAbs (W * M) j ≤ N * colAbs M j := by
  unfold colAbs
  calc ∑ i, |(W * M) i j| ≤ ∑ i, ∑ k, |W i k| * |M k j| := by
        apply Finset.sum_le_sum
        intro i _
        rw [Matrix.mul_apply]
        refine le_trans (Finset.abs_sum_le_sum_abs _ _) ?_
        exact le_of_eq (Finset.sum_congr rfl fun k _ => abs_mul _ _)
    _ = ∑ k, (∑ i, |W i k|) * |M k j| := by
        rw [Finset.sum_comm]
        exact Finset.sum_congr rfl fun k _ => by rw [Finset.sum_mul]
    _ ≤ ∑ k, N * |M k j| := Finset.sum_le_sum fun k _ => mul_le_mul_of_nonneg_right (hN k) (abs_nonneg _)
    _ = N * ∑ k, |M k j| := by rw [Finset.mul_sum]

theorem normOne_col [Nonempty n] (W : Matrix n n ℝ) (j : n) : ∑ i, |W i j| ≤ normOne W :=
  Finset.le_sup' (fun j => ∑ i, |W i j|) (Finset.mem_univ j)

theorem normOne_nonneg [Nonempty n] (W : Matrix n n ℝ) : 0 ≤ normOne W :=
  le_trans (Finset.sum_nonneg fun _ _ => abs_nonneg _) (normOne_col W (Classical.arbitrary n))

theorem eps_pos : 0 < eps := by unfold eps; norm_num

/-- `Y` is the Cayley point: the solution of the equation iterated by the loop. -/
def IsCayley (X : Matrix n p ℝ) (W : Matrix n n ℝ) (t : ℝ) (Y : Matrix n p ℝ) : Prop := Y = X + t • (W * ((1 / 2 : ℝ) • (X + Y)))

theorem skew_transpose (U : Matrix p n ℝ) (V : Matrix n p ℝ) : (skew U V)ᵀ = -skew U V := by
  unfold skew
  simp only
  rw [Matrix.transpose_sub, Matrix.transpose_transpose, neg_sub]

theorem det_ne_zero [DecidableEq n] (A : Matrix n n ℝ) (hA : Aᵀ = -A) : (1 - A).det ≠ 0 := by
  intro h
  obtain ⟨v, hv, he⟩ := (Matrix.exists_mulVec_eq_zero_iff (M := 1 - A)).mpr h
  rw [Matrix.sub_mulVec, Matrix.one_mulVec, sub_eq_zero] at he
  have h1 : v ⬝ᵥ (A *ᵥ v) = -(v ⬝ᵥ (A *ᵥ v)) := by
    conv_lhs => rw [Matrix.dotProduct_mulVec, ← Matrix.mulVec_transpose, hA, Matrix.neg_mulVec, neg_dotProduct, dotProduct_comm]
  have h2 : v ⬝ᵥ (A *ᵥ v) = 0 := by linarith
  rw [← he] at h2
  exact hv (_root_.dotProduct_self_eq_zero.mp h2)

theorem cayley_exists_unique (X : Matrix n p ℝ) (W : Matrix n n ℝ) (hW : Wᵀ = -W) (t : ℝ) : ∃! Y, IsCayley X W t Y := by
  classical
  obtain ⟨A, hA⟩ : ∃ A, A = (t / 2) • W := ⟨_, rfl⟩
  have hAs : Aᵀ = -A := by rw [hA, Matrix.transpose_smul, hW, smul_neg]
  have hd : IsUnit (1 - A).det := isUnit_iff_ne_zero.mpr (det_ne_zero A hAs)
  have key : ∀ Y, IsCayley X W t Y ↔ (1 - A) * Y = X + A * X := by
    intro Y
    unfold IsCayley
    have : t • (W * ((1 / 2 : ℝ) • (X + Y))) = A * X + A * Y := by
      rw [hA, Matrix.mul_smul, smul_smul, Matrix.mul_add, smul_add, Matrix.smul_mul, Matrix.smul_mul]
      congr 2 <;> ring
    rw [this, Matrix.sub_mul, Matrix.one_mul, sub_eq_iff_eq_add, add_assoc]
  refine ⟨(1 - A)⁻¹ * (X + A * X), ?_, ?_⟩
  · show IsCayley X W t _
    rw [key, ← Matrix.mul_assoc, Matrix.mul_nonsing_inv _ hd, Matrix.one_mul]
  · intro Y hY
    rw [key] at hY
    rw [← hY, ← Matrix.mul_assoc, Matrix.nonsing_inv_mul _ hd, Matrix.one_mul]

theorem cayley_gram (X : Matrix n p ℝ) (W : Matrix n n ℝ) (hW : Wᵀ = -W) (t : ℝ) (Y : Matrix n p ℝ) (h : IsCayley X W t Y) : Yᵀ * Y = Xᵀ * X := by
  have h1 : Y - X = (t / 2) • (W * (X + Y)) := by
    have : t • (W * ((1 / 2 : ℝ) • (X + Y))) = (t / 2) • (W * (X + Y)) := by
      rw [Matrix.mul_smul, smul_smul]
      congr 1
      ring
    unfold IsCayley at h
    rw [this] at h
    conv_lhs => rw [h]
    rw [add_sub_cancel_left]
  have h2 : (Y - X)ᵀ * (X + Y) + (X + Y)ᵀ * (Y - X) = 0 := by
    rw [h1, Matrix.transpose_smul, Matrix.transpose_mul, hW, Matrix.mul_smul, Matrix.smul_mul, Matrix.mul_neg, Matrix.neg_mul, Matrix.mul_assoc, smul_neg,
      neg_add_cancel]
  have h3 : (2 : ℝ) • (Yᵀ * Y - Xᵀ * X) = 0 := by
    rw [← h2, two_smul, Matrix.transpose_sub, Matrix.transpose_add, Matrix.sub_mul, Matrix.mul_add, Matrix.mul_add, Matrix.add_mul, Matrix.mul_sub, Matrix.mul_sub]
    abel
  rcases smul_eq_zero.mp h3 with h4 | h4
  · norm_num at h4
  · exact sub_eq_zero.mp h4

theorem iter_error (X : Matrix n p ℝ) (W : Matrix n n ℝ) (t N : ℝ) (hN : ∀ k, ∑ i, |W i k| ≤ N) (hN0 : 0 ≤ N) (Z : Matrix n p ℝ) (hZ : IsCayley X W t Z) (k : ℕ)
    (Y : Matrix n p ℝ) (j : p) : colAbs (cayleyIter X W t k Y - Z) j ≤ (|t| * N / 2) ^ k * colAbs (Y - Z) j := by
  induction k generalizing Y with
  | zero => simp [cayleyIter]
  | succ k ih =>
    rw [cayleyIter]
    refine le_trans (ih _) ?_
    have h1 : X + t • (W * ((1 / 2 : ℝ) • (X + Y))) - Z = (t / 2) • (W * (Y - Z)) := by
      conv_lhs => rw [show Z = X + t • (W * ((1 / 2 : ℝ) • (X + Z))) from hZ]
      rw [add_sub_add_left_eq_sub, ← smul_sub, ← Matrix.mul_sub, ← smul_sub, add_sub_add_left_eq_sub, Matrix.mul_smul, smul_smul]
      congr 1
      ring
    rw [h1, colAbs_smul, pow_succ, mul_assoc]
    apply mul_le_mul_of_nonneg_left _ (by positivity)
    have h2 := colAbs_mul W (Y - Z) N hN j
    calc |t / 2| * colAbs (W * (Y - Z)) j ≤ |t / 2| * (N * colAbs (Y - Z) j) := mul_le_mul_of_nonneg_left h2 (abs_nonneg _)
      _ = |t| * N / 2 * colAbs (Y - Z) j := by rw [abs_div, abs_two]; ring

theorem entry_le_of_gram [DecidableEq p] (Y : Matrix n p ℝ) (c : ℝ) (hc : c ^ 2 ≤ 1) (h : Yᵀ * Y = (c ^ 2) • (1 : Matrix p p ℝ)) (i : n) (j : p) : |Y i j| ≤ 1 := by
  have h1 : ∑ k, Y k j * Y k j = c ^ 2 := by
    have := congrFun (congrFun h j) j
    simpa [Matrix.mul_apply, Matrix.one_apply] using this
  have h2 : Y i j * Y i j ≤ ∑ k, Y k j * Y k j := Finset.single_le_sum (fun k _ => mul_self_nonneg (Y k j)) (Finset.mem_univ i)
  rw [← sq_le_one_iff_abs_le_one]
  nlinarith

theorem colAbs_le_card (Y : Matrix n p ℝ) (h : ∀ i j, |Y i j| ≤ 1) (j : p) : colAbs Y j ≤ Fintype.card n := by
  unfold colAbs
  calc ∑ i, |Y i j| ≤ ∑ _i : n, (1 : ℝ) := Finset.sum_le_sum fun i _ => h i j
    _ = Fintype.card n := by simp

/-- A direction with the admissible size gives a result near orthonormality. -/
theorem loop_gram [DecidableEq p] [Nonempty n] (X : Matrix n p ℝ) (c : ℝ) (hc : c ^ 2 ≤ 1) (hX : Xᵀ * X = (c ^ 2) • (1 : Matrix p p ℝ)) (W : Matrix n n ℝ) (hW : Wᵀ = -W)
    (V : Matrix n p ℝ) (t : ℝ) (ht : |t| * normOne W ≤ 1) (a b : p) :
    |(cayleyLoop X W V t * (cayleyLoop X W V t)ᵀ) a b - c ^ 2 * (1 : Matrix p p ℝ) a b| ≤
      (1 / 2) ^ 20 * (|t| * colAbs V a + Fintype.card n) + (1 / 2) ^ 20 * (|t| * colAbs V b + Fintype.card n) +
      (1 / 2) ^ 20 * (|t| * colAbs V a + Fintype.card n) * ((1 / 2) ^ 20 * (|t| * colAbs V b + Fintype.card n)) := by
  obtain ⟨Z, hZ, _⟩ := cayley_exists_unique X W hW t
  have hG := (cayley_gram X W hW t Z hZ).trans hX
  have hZ1 := entry_le_of_gram Z c hc hG
  have hX1 := entry_le_of_gram X c hc hX
  obtain ⟨Y, hY⟩ : ∃ Y, Y = cayleyIter X W t 20 (X + t • V) := ⟨_, rfl⟩
  have hN0 := normOne_nonneg W
  have herr : ∀ j, colAbs (Y - Z) j ≤ (1 / 2) ^ 20 * (|t| * colAbs V j + Fintype.card n) := by
    intro j
    have h1 := iter_error X W t (normOne W) (normOne_col W) hN0 Z hZ 20 (X + t • V) j
    rw [← hY] at h1
    have h2 : colAbs (X + t • V - Z) j ≤ |t| * colAbs V j + Fintype.card n := by
      have e1 : X + t • V - Z = t • V + -((t / 2) • (W * (X + Z))) := by
        have : Z = X + (t / 2) • (W * (X + Z)) := by
          have hz : Z = X + t • (W * ((1 / 2 : ℝ) • (X + Z))) := hZ
          have : t • (W * ((1 / 2 : ℝ) • (X + Z))) = (t / 2) • (W * (X + Z)) := by
            rw [Matrix.mul_smul, smul_smul]
            congr 1
            ring
          rwa [this] at hz
        conv_lhs => rw [this]
        abel
      rw [e1]
      refine le_trans (colAbs_add _ _ _) ?_
      rw [colAbs_smul, colAbs_neg, colAbs_smul]
      have e2 := colAbs_mul W (X + Z) (normOne W) (normOne_col W) j
      have e3 := colAbs_add X Z j
      have e4 := colAbs_le_card X hX1 j
      have e5 := colAbs_le_card Z hZ1 j
      have e6 : |t / 2| * colAbs (W * (X + Z)) j ≤ |t / 2| * (normOne W * (2 * Fintype.card n)) := by
        apply mul_le_mul_of_nonneg_left _ (abs_nonneg _)
        refine le_trans e2 (mul_le_mul_of_nonneg_left ?_ hN0)
        linarith
      have e7 : |t / 2| * (normOne W * (2 * Fintype.card n)) = (|t| * normOne W) * Fintype.card n := by
        rw [abs_div, abs_two]
        ring
      have e8 : (|t| * normOne W) * (Fintype.card n : ℝ) ≤ 1 * Fintype.card n := mul_le_mul_of_nonneg_right ht (by positivity)
      linarith
    have h3 : (|t| * normOne W / 2) ^ 20 ≤ (1 / 2 : ℝ) ^ 20 := by
      apply pow_le_pow_left₀ (by positivity)
      linarith
    calc colAbs (Y - Z) j ≤ (|t| * normOne W / 2) ^ 20 * colAbs (X + t • V - Z) j := h1
      _ ≤ (1 / 2) ^ 20 * colAbs (X + t • V - Z) j := mul_le_mul_of_nonneg_right h3 (colAbs_nonneg _ _)
      _ ≤ (1 / 2) ^ 20 * (|t| * colAbs V j + Fintype.card n) := mul_le_mul_of_nonneg_left h2 (by positivity)
  have hloop : cayleyLoop X W V t = Yᵀ := by unfold cayleyLoop; rw [hY]
  rw [hloop, Matrix.transpose_transpose]
  obtain ⟨E, hE⟩ : ∃ E, E = Y - Z := ⟨_, rfl⟩
  have hYE : Y = Z + E := by rw [hE]; abel
  have h4 : (Yᵀ * Y) a b - c ^ 2 * (1 : Matrix p p ℝ) a b = (Eᵀ * Z) a b + (Zᵀ * E) a b + (Eᵀ * E) a b := by
    have : Yᵀ * Y = Zᵀ * Z + (Eᵀ * Z + Zᵀ * E + Eᵀ * E) := by
      rw [hYE, Matrix.transpose_add, Matrix.add_mul, Matrix.mul_add, Matrix.mul_add]
      abel
    rw [this, hG]
    simp only [Matrix.add_apply, Matrix.smul_apply, smul_eq_mul]
    ring
  rw [h4]
  rw [← hE] at herr
  have b1 : |(Eᵀ * Z) a b| ≤ colAbs E a := by
    rw [Matrix.mul_apply]
    refine le_trans (Finset.abs_sum_le_sum_abs _ _) ?_
    unfold colAbs
    apply Finset.sum_le_sum
    intro i _
    rw [abs_mul, Matrix.transpose_apply]
    exact mul_le_of_le_one_right (abs_nonneg _) (hZ1 i b)
  have b2 : |(Zᵀ * E) a b| ≤ colAbs E b := by
    rw [Matrix.mul_apply]
    refine le_trans (Finset.abs_sum_le_sum_abs _ _) ?_
    unfold colAbs
    apply Finset.sum_le_sum
    intro i _
    rw [abs_mul, Matrix.transpose_apply]
    exact mul_le_of_le_one_left (abs_nonneg _) (hZ1 i a)
  have b3 : |(Eᵀ * E) a b| ≤ colAbs E a * colAbs E b := by
    rw [Matrix.mul_apply]
    refine le_trans (Finset.abs_sum_le_sum_abs _ _) ?_
    unfold colAbs
    rw [Finset.sum_mul]
    apply Finset.sum_le_sum
    intro i _
    rw [abs_mul, Matrix.transpose_apply]
    exact mul_le_mul_of_nonneg_left (Finset.single_le_sum (f := fun i => |E i b|) (fun i _ => abs_nonneg _) (Finset.mem_univ i)) (abs_nonneg _)
  have b4 := abs_add_le ((Eᵀ * Z) a b + (Zᵀ * E) a b) ((Eᵀ * E) a b)
  have b5 := abs_add_le ((Eᵀ * Z) a b) ((Zᵀ * E) a b)
  have b6 : colAbs E a * colAbs E b ≤ (1 / 2) ^ 20 * (|t| * colAbs V a + Fintype.card n) * ((1 / 2) ^ 20 * (|t| * colAbs V b + Fintype.card n)) :=
    mul_le_mul (herr a) (herr b) (colAbs_nonneg _ _) (le_trans (colAbs_nonneg _ _) (herr a))
  have := herr a
  have := herr b
  linarith

theorem stepSize_ok [Nonempty n] (W : Matrix n n ℝ) (lr : ℝ) (hlr : 0 ≤ lr) : 0 ≤ stepSize W lr ∧ stepSize W lr ≤ lr ∧ stepSize W lr * normOne W ≤ 1 := by
  have h0 := normOne_nonneg W
  have he := eps_pos
  have hpos : 0 ≤ 1 / 2 * 2 / (normOne W + eps) := by positivity
  refine ⟨le_min hpos hlr, min_le_right _ _, ?_⟩
  have h1 : stepSize W lr ≤ 1 / 2 * 2 / (normOne W + eps) := min_le_left _ _
  calc stepSize W lr * normOne W ≤ 1 / 2 * 2 / (normOne W + eps) * normOne W := mul_le_mul_of_nonneg_right h1 h0
    _ ≤ 1 := by
      rw [div_mul_eq_mul_div, div_le_one (by positivity)]
      linarith

theorem unit_orthonormal [DecidableEq p] (P : Matrix p n ℝ) (h : P * Pᵀ = 1) : unit P = (1 / (1 + eps)) • P := by
  ext i j
  have h1 : ∑ k, P i k ^ 2 = 1 := by
    have := congrFun (congrFun h i) i
    simp only [Matrix.mul_apply, Matrix.transpose_apply, Matrix.one_apply_eq] at this
    rw [← this]
    exact Finset.sum_congr rfl fun k _ => by ring
  show P i j / (Real.sqrt (∑ k, P i k ^ 2) + eps) = _
  rw [h1, Real.sqrt_one, Matrix.smul_apply, smul_eq_mul]
  ring

theorem unit_gram [DecidableEq p] (P : Matrix p n ℝ) (h : P * Pᵀ = 1) : ((unit P)ᵀ)ᵀ * (unit P)ᵀ = ((1 / (1 + eps)) ^ 2) • (1 : Matrix p p ℝ) := by
  rw [Matrix.transpose_transpose, unit_orthonormal P h, Matrix.transpose_smul, Matrix.smul_mul, Matrix.mul_smul, h, smul_smul, pow_two]

theorem scale_sq : (1 / (1 + eps)) ^ 2 ≤ (1 : ℝ) := by
  have := eps_pos
  have h1 : 1 / (1 + eps) ≤ (1 : ℝ) := by
    rw [div_le_one (by linarith)]
    linarith
  have h0 : (0 : ℝ) ≤ 1 / (1 + eps) := by positivity
  nlinarith

theorem iter_zero (X : Matrix n p ℝ) (t : ℝ) (k : ℕ) : cayleyIter X (0 : Matrix n n ℝ) t k X = X := by
  induction k with
  | zero => rfl
  | succ k ih =>
    rw [cayleyIter, Matrix.zero_mul, smul_zero, add_zero]
    exact ih

end Stiefel
end Kerch
