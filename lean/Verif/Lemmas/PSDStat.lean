import Mathlib.Analysis.SpecialFunctions.Trigonometric.EulerSineProd
import Mathlib.Analysis.SpecialFunctions.Arsinh
import Verif.Lemmas.Subordination
set_option linter.unusedSectionVars false
set_option linter.unusedSimpArgs false
/-!
# Positive semi-definiteness of the logistic and of Silverman's kernel
-/
namespace Kerch
namespace PSDStat
open Finset MeasureTheory Set Filter Topology

section
variable {ι : Type} [Fintype ι]

/-- A pointwise limit of positive semi-definite matrices is positive semi-definite. -/
theorem psdMat_lim (N : ℕ → ι → ι → ℝ) (M : ι → ι → ℝ) (hN : ∀ n, PSDMat (N n)) (h : ∀ i j, Tendsto (fun n => N n i j) atTop (𝓝 (M i j))) : PSDMat M := by
  refine ⟨fun i j => ?_, fun c => ?_⟩
  · refine tendsto_nhds_unique (h i j) ?_
    simp only [(hN _).1 i j]
    exact h j i
  · refine ge_of_tendsto' (tendsto_finsetSum univ fun i _ => tendsto_finsetSum univ fun j _ => (h i j).const_mul (c i * c j)) fun n => ?_
    exact (hN n).2 c

variable {d : Type} [Fintype d]

/-- The rational quadratic kernel. -/
theorem psdMat_rational {t : ℝ} (ht : 0 ≤ t) (x : ι → d → ℝ) : PSDMat fun i j => 1 / (1 + t * euclidSq (x i) (x j)) := by
  have hn : ∀ i j, -(1 + t * euclidSq (x i) (x j)) < 0 := fun i j => by have := mul_nonneg ht (euclidSq_nn (x i) (x j)); linarith
  have hi : ∀ i j s, Real.exp (-s) * Real.exp (-(euclidSq (x i) (x j) * (t * s))) = Real.exp (-(1 + t * euclidSq (x i) (x j)) * s) := by
    intro i j s; rw [← Real.exp_add]; congr 1; ring
  have := psdMat_mixture (volume.restrict (Ioi (0 : ℝ))) (fun s i j => Real.exp (-s) * Real.exp (-(euclidSq (x i) (x j) * (t * s)))) (by
      filter_upwards [self_mem_ae_restrict (measurableSet_Ioi : MeasurableSet (Ioi (0 : ℝ)))] with s hs
      exact (psdMat_gauss (mul_nonneg ht (le_of_lt hs)) x).smul (Real.exp_pos _).le)
    (fun s i j => by
      have : euclidSq (x i) (x j) = euclidSq (x j) (x i) := sum_congr rfl fun k _ => by ring
      rw [this]) (fun i j => by
      simp only [hi]; exact integrableOn_exp_mul_Ioi (hn i j) 0)
  refine (funext₂ fun i j => ?_ : (fun i j => 1 / (1 + t * euclidSq (x i) (x j))) = _) ▸ this
  simp only [hi]
  rw [integral_exp_mul_Ioi (hn i j), mul_zero, Real.exp_zero, neg_div_neg_eq]

/-- Partial products of `sinh(πx)/(πx)`. -/
noncomputable def P (n : ℕ) (x : ℝ) : ℝ := ∏ j ∈ range n, (1 + x ^ 2 / ((j : ℝ) + 1) ^ 2)

/-- Partial products of `cosh(πx)`. -/
noncomputable def Q (n : ℕ) (x : ℝ) : ℝ := ∏ j ∈ range n, (1 + 4 * x ^ 2 / (2 * (j : ℝ) + 1) ^ 2)

theorem P_pos (n : ℕ) (x : ℝ) : 0 < P n x := prod_pos fun j _ => by positivity

theorem Q_pos (n : ℕ) (x : ℝ) : 0 < Q n x := prod_pos fun j _ => by positivity

theorem P_double (n : ℕ) (x : ℝ) : P (2 * n) (2 * x) = P n x * Q n x := by
  induction n with
  | zero => simp [P, Q]
  | succ n ih =>
    have e : 2 * (n + 1) = 2 * n + 1 + 1 := by ring
    have e1 : P (2 * n + 1 + 1) (2 * x) = P (2 * n) (2 * x) * (1 + (2 * x) ^ 2 / (((2 * n : ℕ) : ℝ) + 1) ^ 2) *
        (1 + (2 * x) ^ 2 / (((2 * n + 1 : ℕ) : ℝ) + 1) ^ 2) := by
      unfold P; rw [prod_range_succ, prod_range_succ]
    have e2 : P (n + 1) x = P n x * (1 + x ^ 2 / ((n : ℝ) + 1) ^ 2) := by unfold P; rw [prod_range_succ]
    have e3 : Q (n + 1) x = Q n x * (1 + 4 * x ^ 2 / (2 * (n : ℝ) + 1) ^ 2) := by unfold Q; rw [prod_range_succ]
    rw [e, e1, ih, e2, e3]
    have h1 : (2 * x) ^ 2 / (((2 * n : ℕ) : ℝ) + 1) ^ 2 = 4 * x ^ 2 / (2 * (n : ℝ) + 1) ^ 2 := by push_cast; ring
    have h2 : (2 * x) ^ 2 / (((2 * n + 1 : ℕ) : ℝ) + 1) ^ 2 = x ^ 2 / ((n : ℝ) + 1) ^ 2 := by
      push_cast
      have : (2 * (n : ℝ) + 1 + 1) = 2 * ((n : ℝ) + 1) := by ring
      rw [this, mul_pow, mul_pow, mul_div_mul_left _ _ (by norm_num)]
    rw [h1, h2]; ring

theorem P_tendsto (x : ℝ) : Tendsto (fun n => Real.pi * x * P n x) atTop (𝓝 (Real.sinh (Real.pi * x))) := by
  have h := (Complex.continuous_im.tendsto _).comp (Complex.tendsto_euler_sin_prod (x * Complex.I))
  have e1 : (Complex.sin (Real.pi * (x * Complex.I))).im = Real.sinh (Real.pi * x) := by
    rw [← mul_assoc, Complex.sin_mul_I]
    rw [← Complex.ofReal_mul, ← Complex.ofReal_sinh, Complex.mul_I_im, Complex.ofReal_re]
  rw [e1] at h
  refine h.congr fun n => ?_
  simp only [Function.comp]
  have e2 : ∀ j : ℕ, (1 - (x * Complex.I) ^ 2 / ((j : ℂ) + 1) ^ 2) = ((1 + x ^ 2 / ((j : ℝ) + 1) ^ 2 : ℝ) : ℂ) := by
    intro j
    push_cast
    rw [mul_pow, Complex.I_sq]; ring
  simp only [e2]
  rw [← Complex.ofReal_prod]
  have e3 : (Real.pi : ℂ) * (x * Complex.I) * ((∏ j ∈ range n, (1 + x ^ 2 / ((j : ℝ) + 1) ^ 2) : ℝ) : ℂ) = ((Real.pi * x * P n x : ℝ) : ℂ) * Complex.I := by
    rw [P]; push_cast; ring
  rw [e3]
  simp

theorem Q_tendsto (x : ℝ) : Tendsto (fun n => Q n x) atTop (𝓝 (Real.cosh (Real.pi * x))) := by
  by_cases hx : x = 0
  · subst hx
    simp [Q]
  have hpx : Real.pi * x ≠ 0 := mul_ne_zero Real.pi_ne_zero hx
  have h1 := (P_tendsto (2 * x)).comp (tendsto_id.const_mul_atTop' (r := 2) (by norm_num) : Tendsto (fun n : ℕ => 2 * n) atTop atTop)
  have h2 := P_tendsto x
  have hs : Real.sinh (Real.pi * x) ≠ 0 := fun h => hpx (Real.sinh_injective (by rw [h, Real.sinh_zero]))
  have h3 := (h1.div h2 hs).const_mul (1 / 2)
  have e : 1 / 2 * (Real.sinh (Real.pi * (2 * x)) / Real.sinh (Real.pi * x)) = Real.cosh (Real.pi * x) := by
    rw [show Real.pi * (2 * x) = 2 * (Real.pi * x) by ring, Real.sinh_two_mul]
    field_simp
  rw [e] at h3
  refine h3.congr fun n => ?_
  simp only [Function.comp, Pi.div_apply]
  have hP : P n x ≠ 0 := (P_pos n x).ne'
  have h4 := P_double n x
  rw [h4]
  field_simp

/-- The squared hyperbolic secant of the distance is positive semi-definite in every dimension. -/
theorem psdMat_sech (a : ℝ) (x : ι → d → ℝ) : PSDMat fun i j => (1 / Real.cosh (Real.sqrt (a ^ 2 * euclidSq (x i) (x j)) / 2)) ^ 2 := by
  refine psdMat_lim (fun n i j => (1 / Q n (Real.sqrt (a ^ 2 * euclidSq (x i) (x j)) / (2 * Real.pi))) ^ 2) _ (fun n => ?_) fun i j => ?_
  · have hprod := psdMat_finprod (range n) (fun k i j => 1 / (1 + (a ^ 2 / (Real.pi ^ 2 * (2 * (k : ℝ) + 1) ^ 2)) * euclidSq (x i) (x j)))
      fun k _ => psdMat_rational (by positivity) x
    have h2 := hprod.pow 2
    refine (funext₂ fun i j => ?_ : (fun i j => (1 / Q n (Real.sqrt (a ^ 2 * euclidSq (x i) (x j)) / (2 * Real.pi))) ^ 2) = _) ▸ h2
    congr 1
    rw [Q, one_div, ← prod_inv_distrib]
    refine prod_congr rfl fun k _ => ?_
    rw [one_div]
    congr 2
    rw [div_pow, Real.sq_sqrt (mul_nonneg (sq_nonneg _) (euclidSq_nn _ _))]
    have := Real.pi_ne_zero
    field_simp
    ring
  · have h := Q_tendsto (Real.sqrt (a ^ 2 * euclidSq (x i) (x j)) / (2 * Real.pi))
    have e : Real.pi * (Real.sqrt (a ^ 2 * euclidSq (x i) (x j)) / (2 * Real.pi)) = Real.sqrt (a ^ 2 * euclidSq (x i) (x j)) / 2 := by
      have := Real.pi_ne_zero
      field_simp
    rw [e] at h
    have h2 := (h.inv₀ (Real.cosh_pos _).ne').pow 2
    simpa only [one_div] using h2

/-- The autocorrelation of the damped oscillation. -/
theorem psdMat_silverman {a : ℝ} (ha : 0 < a) (s : ι → ℝ) :
    PSDMat fun i j => Real.exp (-(a * |s i - s j|)) * (Real.cos (a * |s i - s j|) + Real.sin (a * |s i - s j|)) := by
  obtain ⟨g, hg⟩ : ∃ g : ι → ℝ → ℝ, g = fun i t => Real.exp (-(a * (t - s i))) * Real.sin (a * (t - s i)) := ⟨_, rfl⟩
  obtain ⟨F, hF⟩ : ∃ F : ι → ι → ℝ → ℝ, F = fun i j t => Real.exp (-(a * (2 * t - s i - s j))) *
    (1 / (8 * a) * (-2 * Real.cos (a * (s i - s j)) + Real.cos (a * (2 * t - s i - s j)) - Real.sin (a * (2 * t - s i - s j)))) := ⟨_, rfl⟩
  have hder : ∀ i j t, HasDerivAt (F i j) (g i t * g j t) t := by
    intro i j t
    have h0 : HasDerivAt (fun t : ℝ => a * (2 * t - s i - s j)) (a * 2) t := by
      simpa using (((((hasDerivAt_id t).const_mul 2).sub_const (s i)).sub_const (s j)).const_mul a)
    have h1 : HasDerivAt (fun t : ℝ => Real.exp (-(a * (2 * t - s i - s j)))) (Real.exp (-(a * (2 * t - s i - s j))) * -(a * 2)) t := h0.neg.exp
    have h2 := h0.cos
    have h3 := h0.sin
    have h4 := h1.mul (((h2.const_add (-2 * Real.cos (a * (s i - s j)))).sub h3).const_mul (1 / (8 * a)))
    rw [hF]
    refine h4.congr_deriv ?_
    rw [hg]
    have ep : Real.exp (-(a * (t - s i))) * Real.sin (a * (t - s i)) * (Real.exp (-(a * (t - s j))) * Real.sin (a * (t - s j))) =
        Real.exp (-(a * (2 * t - s i - s j))) * (Real.sin (a * (t - s i)) * Real.sin (a * (t - s j))) := by
      have : Real.exp (-(a * (2 * t - s i - s j))) = Real.exp (-(a * (t - s i))) * Real.exp (-(a * (t - s j))) := by
        rw [← Real.exp_add]; congr 1; ring
      rw [this]; ring
    have es : Real.sin (a * (t - s i)) * Real.sin (a * (t - s j)) = (Real.cos (a * (s i - s j)) - Real.cos (a * (2 * t - s i - s j))) / 2 := by
      have e1 : a * (s i - s j) = a * (t - s j) - a * (t - s i) := by ring
      have e2 : a * (2 * t - s i - s j) = a * (t - s j) + a * (t - s i) := by ring
      rw [e1, e2, Real.cos_sub, Real.cos_add]; ring
    rw [ep, es]
    simp only [Pi.sub_apply]
    generalize Real.cos (a * (2 * t - s i - s j)) = c1
    generalize Real.sin (a * (2 * t - s i - s j)) = s1
    generalize Real.cos (a * (s i - s j)) = c2
    generalize Real.exp (-(a * (2 * t - s i - s j))) = e0
    field_simp
    ring
  have hlim : ∀ i j, Tendsto (F i j) atTop (𝓝 0) := by
    intro i j
    have h1 : Tendsto (fun t : ℝ => Real.exp (-(a * (2 * t - s i - s j)))) atTop (𝓝 0) := by
      refine Real.tendsto_exp_neg_atTop_nhds_zero.comp ?_
      have : Tendsto (fun t : ℝ => 2 * a * t + (-(a * (s i + s j)))) atTop atTop :=
        tendsto_atTop_add_const_right _ _ (tendsto_id.const_mul_atTop (by positivity))
      exact this.congr fun t => by ring
    rw [hF]
    refine squeeze_zero_norm (a := fun t => Real.exp (-(a * (2 * t - s i - s j))) * (1 / (8 * a) * 4)) (fun t => ?_) (by simpa using h1.mul_const (1 / (8 * a) * 4))
    rw [norm_mul, Real.norm_of_nonneg (Real.exp_pos _).le, norm_mul, Real.norm_of_nonneg (by positivity : 0 ≤ 1 / (8 * a))]
    refine mul_le_mul_of_nonneg_left (mul_le_mul_of_nonneg_left ?_ (by positivity)) (Real.exp_pos _).le
    rw [Real.norm_eq_abs, abs_le]
    constructor <;> linarith [Real.neg_one_le_cos (a * (s i - s j)), Real.cos_le_one (a * (s i - s j)), Real.neg_one_le_cos (a * (2 * t - s i - s j)),
      Real.cos_le_one (a * (2 * t - s i - s j)), Real.neg_one_le_sin (a * (2 * t - s i - s j)), Real.sin_le_one (a * (2 * t - s i - s j))]
  have hint : ∀ i j m, IntegrableOn (fun t => g i t * g j t) (Ioi m) := by
    intro i j m
    have hb : IntegrableOn (fun t => Real.exp (a * (s i + s j)) * Real.exp (-(2 * a) * t)) (Ioi m) :=
      (integrableOn_exp_mul_Ioi (by linarith) m).const_mul _
    refine Integrable.mono' hb ?_ ?_
    · rw [hg]
      exact (by fun_prop : Continuous fun t => Real.exp (-(a * (t - s i))) * Real.sin (a * (t - s i)) * (Real.exp (-(a * (t - s j))) * Real.sin (a * (t - s j)))).aestronglyMeasurable
    · refine Eventually.of_forall fun t => ?_
      rw [hg]
      have e : Real.exp (a * (s i + s j)) * Real.exp (-(2 * a) * t) = Real.exp (-(a * (t - s i))) * Real.exp (-(a * (t - s j))) := by
        rw [← Real.exp_add, ← Real.exp_add]; congr 1; ring
      rw [e]
      simp only [norm_mul, Real.norm_eq_abs, Real.abs_exp]
      have h1 := Real.abs_sin_le_one (a * (t - s i))
      have h2 := Real.abs_sin_le_one (a * (t - s j))
      have h3 := Real.exp_pos (-(a * (t - s i)))
      have h4 := Real.exp_pos (-(a * (t - s j)))
      exact mul_le_mul (by nlinarith) (by nlinarith) (by positivity) h3.le
  have hp : ∀ i j t, (Ioi (s i)).indicator (g i) t * (Ioi (s j)).indicator (g j) t = (Ioi (max (s i) (s j))).indicator (fun t => g i t * g j t) t := by
    intro i j t
    by_cases hi : s i < t <;> by_cases hj : s j < t <;> simp [indicator, hi, hj]
  have key := psdMat_integral (volume : Measure ℝ) (fun i => (Ioi (s i)).indicator (g i)) (fun i j => by
    simp only [hp]
    exact (integrable_indicator_iff measurableSet_Ioi).2 (hint i j _))
  simp only [hp] at key
  simp only [integral_indicator measurableSet_Ioi] at key
  have hval : ∀ i j, ∫ t in Ioi (max (s i) (s j)), g i t * g j t = 1 / (8 * a) * (Real.exp (-(a * |s i - s j|)) *
      (Real.cos (a * |s i - s j|) + Real.sin (a * |s i - s j|))) := by
    intro i j
    rw [integral_Ioi_of_hasDerivAt_of_tendsto' (fun t _ => hder i j t) (hint i j _) (hlim i j), hF]
    have e1 : 2 * max (s i) (s j) - s i - s j = |s i - s j| := by
      rcases le_total (s i) (s j) with h | h
      · rw [max_eq_right h, abs_of_nonpos (by linarith)]; ring
      · rw [max_eq_left h, abs_of_nonneg (by linarith)]; ring
    have e2 : Real.cos (a * (s i - s j)) = Real.cos (a * |s i - s j|) := by
      rw [← Real.cos_abs (a * (s i - s j)), abs_mul, abs_of_pos ha]
    simp only [e1, e2]
    ring
  simp only [hval] at key
  have := key.smul (a := 8 * a) (by positivity)
  refine (funext₂ fun i j => ?_ : (fun i j => Real.exp (-(a * |s i - s j|)) * (Real.cos (a * |s i - s j|) + Real.sin (a * |s i - s j|))) = _) ▸ this
  field_simp

end
end PSDStat
end Kerch
