import Verif.Model.RFLimit
import Mathlib.Analysis.SpecialFunctions.PolarCoord
import Mathlib.Analysis.SpecialFunctions.Integrals.Basic
import Mathlib.MeasureTheory.Integral.Gamma
import Mathlib.MeasureTheory.Integral.Prod
import Mathlib.MeasureTheory.Integral.IntervalIntegral.Periodic
import Mathlib.Probability.Distributions.Gaussian.Multivariate
import Mathlib.Probability.Distributions.Gaussian.Real
/-!
# Gaussian integrals of products of leaky rectifiers
-/
set_option linter.unusedSectionVars false
set_option linter.unusedSimpArgs false
namespace Kerch
namespace RFLimit
open Real MeasureTheory intervalIntegral

theorem continuous_lrelu (α : ℝ) : Continuous (lrelu α) := by unfold lrelu; fun_prop

theorem lrelu_nonneg (α : ℝ) {x : ℝ} (h : 0 ≤ x) : lrelu α x = x := by
  unfold lrelu; rw [max_eq_right h, min_eq_left h]; ring

theorem lrelu_nonpos (α : ℝ) {x : ℝ} (h : x ≤ 0) : lrelu α x = α * x := by
  unfold lrelu; rw [max_eq_left h, min_eq_right h]; ring

theorem lrelu_mul (α : ℝ) {r : ℝ} (hr : 0 ≤ r) (x : ℝ) : lrelu α (r * x) = r * lrelu α x := by
  rcases le_total 0 x with h | h
  · rw [lrelu_nonneg α h, lrelu_nonneg α (mul_nonneg hr h)]
  · rw [lrelu_nonpos α h, lrelu_nonpos α (mul_nonpos_of_nonneg_of_nonpos hr h)]; ring

theorem piece (θ k a b : ℝ) (g : ℝ → ℝ) (hab : a ≤ b) (hg : ∀ t ∈ Set.Icc a b, g t = k * (cos t * cos (t - θ))) :
    ∫ t in a..b, g t = k * ((b - a) * cos θ / 2 + (sin (2 * b - θ) - sin (2 * a - θ)) / 4) := by
  have h1 : ∫ t in a..b, g t = ∫ t in a..b, k * (cos t * cos (t - θ)) := by
    refine integral_congr fun t ht => hg t ?_
    rwa [Set.uIcc_of_le hab] at ht
  rw [h1, intervalIntegral.integral_const_mul]
  congr 1
  have hd : ∀ t ∈ Set.uIcc a b, HasDerivAt (fun t => t * cos θ / 2 + sin (2 * t - θ) / 4) (cos t * cos (t - θ)) t := by
    intro t _
    have h2 : HasDerivAt (fun t : ℝ => 2 * t - θ) 2 t := by
      simpa using ((hasDerivAt_id t).const_mul 2).sub_const θ
    have h3 : HasDerivAt (fun t : ℝ => t * cos θ / 2 + sin (2 * t - θ) / 4) (1 * cos θ / 2 + cos (2 * t - θ) * 2 / 4) t :=
      (((hasDerivAt_id t).mul_const (cos θ)).div_const 2).add ((h2.sin).div_const 4)
    have e : 1 * cos θ / 2 + cos (2 * t - θ) * 2 / 4 = cos t * cos (t - θ) := by
      have e1 : 2 * t - θ = t + (t - θ) := by ring
      have e2 : cos θ = cos (t - (t - θ)) := by congr 1; ring
      rw [e1, e2, cos_add, cos_sub]; ring
    rwa [e] at h3
  rw [integral_eq_sub_of_hasDerivAt hd (by apply Continuous.intervalIntegrable; fun_prop)]
  ring

/-- The angular integral. -/
theorem angular (α θ : ℝ) (h0 : 0 ≤ θ) (hπ : θ ≤ π) :
    ∫ t in (-π)..π, lrelu α (cos t) * lrelu α (cos (t - θ)) =
      π / 2 * ((1 + α ^ 2) * cos θ - (1 - α) ^ 2 / π * cos θ * θ + (1 - α) ^ 2 / π * sin θ) := by
  set g : ℝ → ℝ := fun t => lrelu α (cos t) * lrelu α (cos (t - θ)) with hg
  have hc : Continuous g := by
    have := continuous_lrelu α
    exact (this.comp continuous_cos).mul (this.comp (continuous_cos.comp (by fun_prop)))
  have hper : Function.Periodic g (2 * π) := by
    intro t
    simp only [hg, cos_add_two_pi]
    rw [show t + 2 * π - θ = t - θ + 2 * π by ring, cos_add_two_pi]
  have hpi := pi_pos
  have h1 : ∫ t in (-π)..π, g t = ∫ t in (-(π / 2))..(3 * π / 2), g t := by
    have := hper.intervalIntegral_add_eq (-π) (-(π / 2))
    rw [show -π + 2 * π = π by ring, show -(π / 2) + 2 * π = 3 * π / 2 by ring] at this
    exact this
  have hi : ∀ a b, IntervalIntegrable g volume a b := fun a b => hc.intervalIntegrable a b
  rw [h1, ← integral_add_adjacent_intervals (hi (-(π / 2)) (-(π / 2) + θ)) (hi _ (3 * π / 2)),
    ← integral_add_adjacent_intervals (hi (-(π / 2) + θ) (π / 2)) (hi _ (3 * π / 2)),
    ← integral_add_adjacent_intervals (hi (π / 2) (π / 2 + θ)) (hi _ (3 * π / 2))]
  have pos : ∀ t, -(π / 2) ≤ t → t ≤ π / 2 → 0 ≤ cos t := fun t a b => cos_nonneg_of_neg_pi_div_two_le_of_le a b
  have neg : ∀ t, π / 2 ≤ t → t ≤ 3 * π / 2 → cos t ≤ 0 := fun t a b => cos_nonpos_of_pi_div_two_le_of_le a (by linarith)
  have neg' : ∀ t, -(3 * π / 2) ≤ t → t ≤ -(π / 2) → cos t ≤ 0 := fun t a b => by
    rw [← cos_neg]; exact neg (-t) (by linarith) (by linarith)
  rw [piece θ α (-(π / 2)) (-(π / 2) + θ) g (by linarith) ?_, piece θ 1 (-(π / 2) + θ) (π / 2) g (by linarith) ?_,
    piece θ α (π / 2) (π / 2 + θ) g (by linarith) ?_, piece θ (α ^ 2) (π / 2 + θ) (3 * π / 2) g (by linarith) ?_]
  · have s1 : sin (2 * (-(π / 2)) - θ) = sin θ := by
      rw [show 2 * (-(π / 2)) - θ = -(θ + π) by ring, sin_neg, sin_add_pi]; ring
    have s2 : sin (2 * (-(π / 2) + θ) - θ) = -sin θ := by
      rw [show 2 * (-(π / 2) + θ) - θ = θ - π by ring, sin_sub_pi]
    have s3 : sin (2 * (π / 2) - θ) = sin θ := by
      rw [show 2 * (π / 2) - θ = π - θ by ring, sin_pi_sub]
    have s4 : sin (2 * (π / 2 + θ) - θ) = -sin θ := by
      rw [show 2 * (π / 2 + θ) - θ = θ + π by ring, sin_add_pi]
    have s5 : sin (2 * (3 * π / 2) - θ) = sin θ := by
      rw [show 2 * (3 * π / 2) - θ = (π - θ) + 2 * π by ring, sin_add_two_pi, sin_pi_sub]
    rw [s1, s2, s3, s4, s5]
    field_simp
    ring
  · rintro t ⟨ha, hb⟩
    simp only [hg]
    rw [lrelu_nonpos α (neg t (by linarith) (by linarith)), lrelu_nonpos α (neg (t - θ) (by linarith) (by linarith))]; ring
  · rintro t ⟨ha, hb⟩
    simp only [hg]
    rw [lrelu_nonpos α (neg t (by linarith) (by linarith)), lrelu_nonneg α (pos (t - θ) (by linarith) (by linarith))]; ring
  · rintro t ⟨ha, hb⟩
    simp only [hg]
    rw [lrelu_nonneg α (pos t (by linarith) (by linarith)), lrelu_nonneg α (pos (t - θ) (by linarith) (by linarith))]; ring
  · rintro t ⟨ha, hb⟩
    simp only [hg]
    rw [lrelu_nonneg α (pos t (by linarith) (by linarith)), lrelu_nonpos α (neg' (t - θ) (by linarith) (by linarith))]; ring

theorem radial : ∫ r in Set.Ioi (0 : ℝ), r ^ 3 * exp (-(r ^ 2 / 2)) = 2 := by
  have h := integral_rpow_mul_exp_neg_mul_rpow (p := 2) (q := 3) (b := 1 / 2) (by norm_num) (by norm_num) (by norm_num)
  have e : ∫ r in Set.Ioi (0 : ℝ), r ^ 3 * exp (-(r ^ 2 / 2)) = ∫ r in Set.Ioi (0 : ℝ), r ^ (3 : ℝ) * exp (-(1 / 2) * r ^ (2 : ℝ)) := by
    refine setIntegral_congr_fun measurableSet_Ioi fun r _ => ?_
    rw [show r ^ (3 : ℝ) = r ^ 3 by exact_mod_cast rpow_natCast r 3, show r ^ (2 : ℝ) = r ^ 2 by exact_mod_cast rpow_natCast r 2]
    congr 2
    ring
  rw [e, h]
  have h2 : ((3 : ℝ) + 1) / 2 = 2 := by norm_num
  have hG : Gamma 2 = 1 := by
    rw [show (2 : ℝ) = ((1 : ℕ) : ℝ) + 1 by norm_num, Gamma_nat_eq_factorial 1]
    norm_num
  rw [h2, show -(3 + 1 : ℝ) / 2 = -2 by norm_num, hG]
  rw [show (-2 : ℝ) = ((-2 : ℤ) : ℝ) by norm_num, rpow_intCast]
  norm_num

open ProbabilityTheory

/-- The integral of a function of two independent standard Gaussians, in polar coordinates. -/
theorem gauss_polar (F : ℝ × ℝ → ℝ) :
    ∫ z, F z ∂((gaussianReal 0 1).prod (gaussianReal 0 1)) =
      ∫ p in Set.Ioi (0 : ℝ) ×ˢ Set.Ioo (-π) π, p.1 * ((2 * π)⁻¹ * exp (-(p.1 ^ 2 / 2)) * F (p.1 * cos p.2, p.1 * sin p.2)) := by
  have hg : gaussianReal 0 1 = volume.withDensity (gaussianPDF 0 1) := gaussianReal_of_var_ne_zero 0 one_ne_zero
  have hp : (gaussianReal 0 1).prod (gaussianReal 0 1) = (volume : Measure (ℝ × ℝ)).withDensity fun z => gaussianPDF 0 1 z.1 * gaussianPDF 0 1 z.2 := by
    rw [hg, prod_withDensity (measurable_gaussianPDF 0 1) (measurable_gaussianPDF 0 1)]
    rfl
  have hm : Measurable fun z : ℝ × ℝ => gaussianPDF 0 1 z.1 * gaussianPDF 0 1 z.2 :=
    ((measurable_gaussianPDF 0 1).comp measurable_fst).mul ((measurable_gaussianPDF 0 1).comp measurable_snd)
  rw [hp, integral_withDensity_eq_integral_toReal_smul hm (Filter.Eventually.of_forall fun z => ENNReal.mul_lt_top gaussianPDF_lt_top gaussianPDF_lt_top),
    ← integral_comp_polarCoord_symm]
  refine setIntegral_congr_fun (measurableSet_Ioi.prod measurableSet_Ioo) fun p _ => ?_
  simp only [polarCoord_symm_apply, smul_eq_mul, ENNReal.toReal_mul, toReal_gaussianPDF, gaussianPDFReal_def, NNReal.coe_one, mul_one, sub_zero]
  have h1 : (√(2 * π))⁻¹ * exp (-(p.1 * cos p.2) ^ 2 / 2) * ((√(2 * π))⁻¹ * exp (-(p.1 * sin p.2) ^ 2 / 2)) = (2 * π)⁻¹ * exp (-(p.1 ^ 2 / 2)) := by
    have h2 : (√(2 * π))⁻¹ * (√(2 * π))⁻¹ = (2 * π)⁻¹ := by
      rw [← mul_inv, mul_self_sqrt (by positivity)]
    have h3 : exp (-(p.1 * cos p.2) ^ 2 / 2) * exp (-(p.1 * sin p.2) ^ 2 / 2) = exp (-(p.1 ^ 2 / 2)) := by
      rw [← exp_add]
      congr 1
      have := sin_sq_add_cos_sq p.2
      have e : (p.1 * cos p.2) ^ 2 + (p.1 * sin p.2) ^ 2 = p.1 ^ 2 := by
        calc _ = p.1 ^ 2 * (sin p.2 ^ 2 + cos p.2 ^ 2) := by ring
          _ = _ := by rw [this, mul_one]
      linarith
    rw [← h2, ← h3]; ring
  rw [h1]

/-- The mean of the product of two leaky rectifiers of correlated Gaussians. -/
theorem mean_pair (α θ : ℝ) (h0 : 0 ≤ θ) (hπ : θ ≤ π) :
    ∫ z, lrelu α z.1 * lrelu α (cos θ * z.1 + sin θ * z.2) ∂((gaussianReal 0 1).prod (gaussianReal 0 1)) =
      ((1 + α ^ 2) * cos θ - (1 - α) ^ 2 / π * cos θ * θ + (1 - α) ^ 2 / π * sin θ) / 2 := by
  rw [gauss_polar]
  have e : ∫ p in Set.Ioi (0 : ℝ) ×ˢ Set.Ioo (-π) π, p.1 * ((2 * π)⁻¹ * exp (-(p.1 ^ 2 / 2)) * (lrelu α (p.1 * cos p.2) *
        lrelu α (cos θ * (p.1 * cos p.2) + sin θ * (p.1 * sin p.2)))) =
      ∫ p in Set.Ioi (0 : ℝ) ×ˢ Set.Ioo (-π) π, (p.1 ^ 3 * exp (-(p.1 ^ 2 / 2))) * ((2 * π)⁻¹ * (lrelu α (cos p.2) * lrelu α (cos (p.2 - θ)))) := by
    refine setIntegral_congr_fun (measurableSet_Ioi.prod measurableSet_Ioo) fun p hp => ?_
    have hr : 0 ≤ p.1 := le_of_lt hp.1
    have e1 : cos θ * (p.1 * cos p.2) + sin θ * (p.1 * sin p.2) = p.1 * cos (p.2 - θ) := by rw [cos_sub]; ring
    simp only [e1, lrelu_mul α hr]
    ring
  simp only
  rw [e]
  have e2 := setIntegral_prod_mul (μ := (volume : Measure ℝ)) (ν := (volume : Measure ℝ)) (fun r : ℝ => r ^ 3 * exp (-(r ^ 2 / 2)))
    (fun t : ℝ => (2 * π)⁻¹ * (lrelu α (cos t) * lrelu α (cos (t - θ)))) (Set.Ioi 0) (Set.Ioo (-π) π)
  refine Eq.trans e2 ?_
  rw [radial, MeasureTheory.integral_const_mul, ← integral_Ioc_eq_integral_Ioo, ← intervalIntegral.integral_of_le (by linarith [pi_pos]), angular α θ h0 hπ]
  field_simp

open scoped RealInnerProductSpace

section law
variable {E : Type*} [NormedAddCommGroup E] [InnerProductSpace ℝ E] [FiniteDimensional ℝ E] [MeasurableSpace E] [BorelSpace E]

theorem charFun_pair (x y : E) (t : WithLp 2 (ℝ × ℝ)) :
    charFun ((stdGaussian E).map fun w => WithLp.toLp 2 (⟪w, x⟫, ⟪w, y⟫)) t = Complex.exp (-(‖t.fst • x + t.snd • y‖ ^ 2 : ℝ) / 2) := by
  have hm : Measurable fun w : E => WithLp.toLp 2 (⟪w, x⟫, ⟪w, y⟫) := by fun_prop
  rw [charFun_apply, integral_map hm.aemeasurable (Measurable.aestronglyMeasurable (by fun_prop))]
  have := charFun_stdGaussian (E := E) (t.fst • x + t.snd • y)
  rw [charFun_apply] at this
  push_cast at this ⊢
  rw [← this]
  refine integral_congr_ae (Filter.Eventually.of_forall fun w => ?_)
  simp only [WithLp.prod_inner_apply, inner_add_right, inner_smul_right, RCLike.inner_apply, conj_trivial]
  rfl

theorem charFun_plane (c s : ℝ) (t : WithLp 2 (ℝ × ℝ)) :
    charFun (((gaussianReal 0 1).prod (gaussianReal 0 1)).map fun z : ℝ × ℝ => WithLp.toLp 2 (z.1, c * z.1 + s * z.2)) t =
      Complex.exp (-((t.fst + t.snd * c) ^ 2 + (t.snd * s) ^ 2 : ℝ) / 2) := by
  have hm : Measurable fun z : ℝ × ℝ => WithLp.toLp 2 (z.1, c * z.1 + s * z.2) := by fun_prop
  have hm' : Measurable fun z : ℝ × ℝ => (WithLp.toLp 2 z : WithLp 2 (ℝ × ℝ)) := by fun_prop
  have h := charFun_prod (μ := gaussianReal 0 1) (ν := gaussianReal 0 1) (WithLp.toLp 2 (t.fst + t.snd * c, t.snd * s))
  rw [charFun_apply, integral_map hm.aemeasurable (Measurable.aestronglyMeasurable (by fun_prop))]
  rw [charFun_apply, integral_map hm'.aemeasurable (Measurable.aestronglyMeasurable (by fun_prop)), charFun_gaussianReal, charFun_gaussianReal,
    ← Complex.exp_add] at h
  refine Eq.trans ?_ (h.trans ?_)
  · refine integral_congr_ae (Filter.Eventually.of_forall fun z => ?_)
    simp only [WithLp.prod_inner_apply, RCLike.inner_apply, conj_trivial]
    congr 3
    show t.fst * z.1 + t.snd * (c * z.1 + s * z.2) = (t.fst + t.snd * c) * z.1 + t.snd * s * z.2
    ring
  · congr 1
    push_cast
    simp
    ring

/-- The law of the values of two unit vectors on a standard Gaussian. -/
theorem law_pair (x y : E) (hx : ‖x‖ = 1) (hy : ‖y‖ = 1) (θ : ℝ) (hθ : cos θ = ⟪x, y⟫) :
    ((stdGaussian E).map fun w => WithLp.toLp 2 (⟪w, x⟫, ⟪w, y⟫)) =
      ((gaussianReal 0 1).prod (gaussianReal 0 1)).map fun z : ℝ × ℝ => WithLp.toLp 2 (z.1, cos θ * z.1 + sin θ * z.2) := by
  have i1 : IsProbabilityMeasure ((stdGaussian E).map fun w => WithLp.toLp 2 (⟪w, x⟫, ⟪w, y⟫)) :=
    Measure.isProbabilityMeasure_map (Measurable.aemeasurable (by fun_prop))
  have i2 : IsProbabilityMeasure (((gaussianReal 0 1).prod (gaussianReal 0 1)).map fun z : ℝ × ℝ => WithLp.toLp 2 (z.1, cos θ * z.1 + sin θ * z.2)) :=
    Measure.isProbabilityMeasure_map (Measurable.aemeasurable (by fun_prop))
  refine Measure.ext_of_charFun (funext fun t => ?_)
  rw [charFun_pair, charFun_plane]
  congr 4
  rw [norm_add_sq_real, norm_smul, norm_smul, hx, hy, inner_smul_left, inner_smul_right, ← hθ]
  simp only [mul_one, Real.norm_eq_abs, sq_abs, conj_trivial]
  have := sin_sq_add_cos_sq θ
  calc _ = t.fst ^ 2 + 2 * (t.fst * (t.snd * cos θ)) + t.snd ^ 2 * (sin θ ^ 2 + cos θ ^ 2) := by rw [this]; ring
    _ = _ := by ring

/-- The mean of the product of the leaky rectifiers of the values of two unit vectors. -/
theorem mean_unit (α : ℝ) (x y : E) (hx : ‖x‖ = 1) (hy : ‖y‖ = 1) :
    ∫ w, lrelu α ⟪w, x⟫ * lrelu α ⟪w, y⟫ ∂(stdGaussian E) = lreluK α ⟪x, y⟫ / 2 := by
  have hu := abs_le.1 ((abs_real_inner_le_norm x y).trans (by rw [hx, hy, mul_one]))
  have hθ : cos (arccos ⟪x, y⟫) = ⟪x, y⟫ := cos_arccos hu.1 hu.2
  have hf : Continuous fun t : WithLp 2 (ℝ × ℝ) => lrelu α t.fst * lrelu α t.snd :=
    ((continuous_lrelu α).comp (by fun_prop)).mul ((continuous_lrelu α).comp (by fun_prop))
  have hl := congrArg (fun μ : Measure (WithLp 2 (ℝ × ℝ)) => ∫ t, lrelu α t.fst * lrelu α t.snd ∂μ) (law_pair x y hx hy _ hθ)
  rw [integral_map (Measurable.aemeasurable (by fun_prop)) hf.aestronglyMeasurable,
    integral_map (Measurable.aemeasurable (by fun_prop)) hf.aestronglyMeasurable] at hl
  refine hl.trans ((mean_pair α _ (arccos_nonneg _) (arccos_le_pi _)).trans ?_)
  rw [hθ, sin_arccos, lreluK]

/-- The mean for any two vectors but 0. -/
theorem mean_lrelu (α : ℝ) (x y : E) (hx : x ≠ 0) (hy : y ≠ 0) :
    ∫ w, lrelu α ⟪w, x⟫ * lrelu α ⟪w, y⟫ ∂(stdGaussian E) = ‖x‖ * ‖y‖ * lreluK α (⟪x, y⟫ / (‖x‖ * ‖y‖)) / 2 := by
  have nx : ‖x‖ ≠ 0 := norm_ne_zero_iff.2 hx
  have ny : ‖y‖ ≠ 0 := norm_ne_zero_iff.2 hy
  have h := mean_unit α (‖x‖⁻¹ • x) (‖y‖⁻¹ • y) (by rw [norm_smul, norm_inv, norm_norm, inv_mul_cancel₀ nx])
    (by rw [norm_smul, norm_inv, norm_norm, inv_mul_cancel₀ ny])
  have e : ∀ w : E, lrelu α ⟪w, x⟫ * lrelu α ⟪w, y⟫ = ‖x‖ * ‖y‖ * (lrelu α ⟪w, ‖x‖⁻¹ • x⟫ * lrelu α ⟪w, ‖y‖⁻¹ • y⟫) := by
    intro w
    rw [inner_smul_right, inner_smul_right, lrelu_mul α (by positivity), lrelu_mul α (by positivity)]
    field_simp
  simp_rw [e]
  rw [MeasureTheory.integral_const_mul, h, inner_smul_left, inner_smul_right]
  simp only [conj_trivial]
  rw [show ‖x‖⁻¹ * (‖y‖⁻¹ * ⟪x, y⟫) = ⟪x, y⟫ / (‖x‖ * ‖y‖) by field_simp]
  ring

/-- The mean of a cosine. -/
theorem mean_cos (t : E) : ∫ w, cos ⟪w, t⟫ ∂(stdGaussian E) = exp (-(‖t‖ ^ 2 / 2)) := by
  have h := congrArg Complex.re (charFun_stdGaussian (E := E) t)
  rw [charFun_apply] at h
  have hi : Integrable (fun w : E => Complex.exp (⟪w, t⟫ * Complex.I)) (stdGaussian E) := by
    refine (integrable_const (1 : ℝ)).mono' (Measurable.aestronglyMeasurable (by fun_prop)) (Filter.Eventually.of_forall fun w => ?_)
    rw [Complex.norm_exp_ofReal_mul_I]
  have e : ∫ w, cos ⟪w, t⟫ ∂(stdGaussian E) = (∫ w, Complex.exp (⟪w, t⟫ * Complex.I) ∂(stdGaussian E)).re := by
    rw [← Complex.reCLM_apply, ← Complex.reCLM.integral_comp_comm hi]
    refine integral_congr_ae (Filter.Eventually.of_forall fun w => ?_)
    simp only [Complex.reCLM_apply]
    rw [Complex.exp_ofReal_mul_I_re]
  rw [e, h]
  have : (-(‖t‖ : ℂ) ^ 2 / 2) = ((-(‖t‖ ^ 2 / 2) : ℝ) : ℂ) := by push_cast; ring
  rw [this, Complex.exp_ofReal_re]

end law

end RFLimit
end Kerch
