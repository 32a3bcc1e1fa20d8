import Mathlib.Algebra.Group.ForwardDiff
import Mathlib.Analysis.SpecialFunctions.Pow.Deriv
import Mathlib.Analysis.Calculus.MeanValue
import Mathlib.Analysis.Calculus.Deriv.MeanValue
import Verif.Lemmas.PSD
namespace Kerch
namespace Degree
open Finset

/-- `α (α - 1) ⋯ (α - m + 1)`. -/
noncomputable def desc (α : ℝ) (m : ℕ) : ℝ := ∏ j ∈ range m, (α - j)

/-- Unless the degree is natural one of these products is negative. -/
theorem desc_neg {α : ℝ} (hα : ∀ n : ℕ, α ≠ n) : ∃ k, desc α k < 0 := by
  rcases lt_or_ge α 0 with h | h
  · exact ⟨1, by simpa [desc] using h⟩
  · refine ⟨⌊α⌋₊ + 2, ?_⟩
    unfold desc
    rw [prod_range_succ]
    refine mul_neg_of_pos_of_neg (prod_pos fun j hj => ?_) ?_
    · have hj' : j ≤ ⌊α⌋₊ := by rw [mem_range] at hj; omega
      have h1 : (j : ℝ) ≤ α := (Nat.le_floor_iff h).1 hj'
      have h2 := hα j
      rcases h1.lt_or_eq with h3 | h3
      · linarith
      · exact absurd h3.symm h2
    · have := Nat.lt_floor_add_one α
      push_cast
      linarith

/-- The weights of the `k`-th difference. -/
def wt (k : ℕ) (i : Fin (k + 1)) : ℝ := (((-1 : ℤ) ^ (k - i.1) * k.choose i.1 : ℤ) : ℝ)

theorem wt_sum (k m : ℕ) : ∑ i : Fin (k + 1), wt k i * (i.1 : ℝ) ^ m = (fwdDiff (1 : ℝ))^[k] (fun r : ℝ => r ^ m) 0 := by
  rw [fwdDiff_iter_eq_sum_shift, ← Fin.sum_univ_eq_sum_range (fun i => ((-1 : ℤ) ^ (k - i) * k.choose i) • (fun r : ℝ => r ^ m) (0 + i • 1))]
  refine sum_congr rfl fun i _ => ?_
  simp [wt]

theorem wt_lt {k m : ℕ} (h : m < k) : ∑ i : Fin (k + 1), wt k i * (i.1 : ℝ) ^ m = 0 := by
  rw [wt_sum, fwdDiff_iter_pow_eq_zero_of_lt h]; rfl

theorem wt_eq (k : ℕ) : ∑ i : Fin (k + 1), wt k i * (i.1 : ℝ) ^ k = k.factorial := by
  rw [wt_sum, fwdDiff_iter_eq_factorial]; simp

/-- The `m`-th derivative of the quadratic form. -/
noncomputable def form (α : ℝ) (k m : ℕ) (h : ℝ) : ℝ :=
  desc α m * ∑ i : Fin (k + 1), ∑ j : Fin (k + 1), wt k i * wt k j * ((i.1 : ℝ) * j.1) ^ m * (1 + h * (i.1 * j.1)) ^ (α - m)

theorem form_zero (α : ℝ) (k m : ℕ) : form α k m 0 = desc α m * (∑ i : Fin (k + 1), wt k i * (i.1 : ℝ) ^ m) ^ 2 := by
  unfold form
  rw [sq, sum_mul_sum]
  congr 1
  refine sum_congr rfl fun i _ => sum_congr rfl fun j _ => ?_
  rw [zero_mul, add_zero, Real.one_rpow, mul_pow]; ring

theorem form_deriv (α : ℝ) (k m : ℕ) {h : ℝ} (hh : 0 ≤ h) : HasDerivAt (form α k m) (form α k (m + 1) h) h := by
  have key : ∀ i j : Fin (k + 1), HasDerivAt (fun h : ℝ => wt k i * wt k j * ((i.1 : ℝ) * j.1) ^ m * (1 + h * (i.1 * j.1)) ^ (α - m))
      (wt k i * wt k j * ((i.1 : ℝ) * j.1) ^ m * ((i.1 * j.1) * (α - m) * (1 + h * (i.1 * j.1)) ^ (α - m - 1))) h := by
    intro i j
    have h1 : HasDerivAt (fun h : ℝ => 1 + h * ((i.1 : ℝ) * j.1)) ((i.1 : ℝ) * j.1) h := by
      simpa using ((hasDerivAt_id h).mul_const ((i.1 : ℝ) * j.1)).const_add 1
    exact (h1.rpow_const (p := α - m) (Or.inl (by positivity))).const_mul _
  have hs := (HasDerivAt.fun_sum (u := univ) fun i _ => HasDerivAt.fun_sum (u := univ) fun j _ => key i j).const_mul (desc α m)
  refine hs.congr_deriv ?_
  unfold form desc
  rw [prod_range_succ, mul_assoc]
  congr 1
  rw [mul_sum]
  refine sum_congr rfl fun i _ => ?_
  rw [mul_sum]
  refine sum_congr rfl fun j _ => ?_
  rw [show α - ((m + 1 : ℕ) : ℝ) = α - m - 1 by push_cast; ring, pow_succ]
  ring

/-- Close to the origin, the quadratic form is negative. -/
theorem form_neg {α : ℝ} {k : ℕ} (hk : desc α k < 0) : ∃ δ > 0, ∀ h, 0 < h → h < δ → form α k 0 h < 0 := by
  have h0 : form α k k 0 < 0 := by
    rw [form_zero, wt_eq]
    exact mul_neg_of_neg_of_pos hk (by positivity)
  have hc : ContinuousAt (form α k k) 0 := (form_deriv α k k le_rfl).continuousAt
  obtain ⟨δ, hδ, hδ2⟩ := Metric.eventually_nhds_iff.1 (hc.eventually (gt_mem_nhds h0))
  have hm : ∀ j, j ≤ k → ∀ h, 0 < h → h < δ → form α k (k - j) h < 0 := by
    intro j
    induction j with
    | zero => intro _ h h1 h2; exact hδ2 (by rw [Real.dist_eq, sub_zero, abs_of_pos h1]; exact h2)
    | succ j ih =>
      intro hj h h1 h2
      have e : k - (j + 1) + 1 = k - j := by omega
      have hz : form α k (k - (j + 1)) 0 = 0 := by rw [form_zero, wt_lt (by omega)]; simp
      have ha : StrictAntiOn (form α k (k - (j + 1))) (Set.Icc 0 h) := by
        refine strictAntiOn_of_deriv_neg (convex_Icc 0 h) (fun t ht => (form_deriv α k _ ht.1).continuousAt.continuousWithinAt) fun t ht => ?_
        rw [interior_Icc] at ht
        rw [(form_deriv α k _ ht.1.le).deriv, e]
        exact ih (by omega) t ht.1 (ht.2.trans h2)
      have := ha (Set.left_mem_Icc.2 h1.le) (Set.right_mem_Icc.2 h1.le) h1
      rwa [hz] at this
  exact ⟨δ, hδ, fun h h1 h2 => by simpa using hm k le_rfl h h1 h2⟩

/-- **FitzGerald and Horn**: powers that are not natural do not keep matrices positive semi-definite. -/
theorem power_not_psd {α : ℝ} (hα : ∀ n : ℕ, α ≠ n) : ∃ k, ∃ δ > 0, ∀ h, 0 < h → h < δ →
    ¬ PSDMat fun i j : Fin (k + 1) => (1 + h * ((i.1 : ℝ) * j.1)) ^ α := by
  obtain ⟨k, hk⟩ := desc_neg hα
  obtain ⟨δ, hδ, hn⟩ := form_neg hk
  refine ⟨k, δ, hδ, fun h h1 h2 hp => ?_⟩
  have := hn h h1 h2
  have h3 := hp.2 (wt k)
  unfold form at this
  simp only [desc, range_zero, prod_empty, one_mul, pow_zero, mul_one, Nat.cast_zero, sub_zero] at this
  linarith
end Degree
end Kerch
