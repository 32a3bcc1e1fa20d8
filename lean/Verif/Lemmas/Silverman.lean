import Mathlib.Probability.Independence.Basic
import Mathlib.Probability.Independence.Integration
import Verif.Lemmas.PSD
import Mathlib.Analysis.SpecialFunctions.Gaussian.FourierTransform
import Mathlib.MeasureTheory.Constructions.HaarToSphere
import Mathlib.MeasureTheory.Integral.IntegralEqImproper
import Mathlib.Analysis.SpecialFunctions.Gamma.Basic
import Verif.Model.KernelFun
import Mathlib.Analysis.Fourier.Inversion
import Mathlib.Analysis.Real.Pi.Bounds
import Mathlib.MeasureTheory.Measure.Lebesgue.Integral
import Mathlib.Analysis.SpecialFunctions.ImproperIntegrals
import Mathlib.MeasureTheory.Measure.Haar.InnerProductSpace
import Mathlib.Analysis.InnerProductSpace.ProdL2
set_option linter.unusedSectionVars false
set_option linter.unusedSimpArgs false
/-!
# The Silverman kernel is positive semi-definite up to three dimensions, and not beyond

Not beyond: the integral of an integrable radial positive semi-definite kernel is non-negative, and that of the Silverman kernel in four dimensions is negative.
Up to three: the kernel is a mixture of cosines, with an explicit non-negative density.
-/
open MeasureTheory ProbabilityTheory
open scoped FourierTransform
namespace Kerch
namespace Silverman

/-! ## Means of kernels -/

/-- The mean of a bounded positive semi-definite kernel over two independent points is not negative. -/
theorem psd_mean {X : Type} [MeasurableSpace X] (μ : Measure X) [IsProbabilityMeasure μ] (κ : X → X → ℝ) (hm : Measurable fun p : X × X => κ p.1 p.2)
    (B : ℝ) (hB : ∀ x y, |κ x y| ≤ B) (h : PSDOn Set.univ κ) : 0 ≤ ∫ p, κ p.1 p.2 ∂(μ.prod μ) := by
  classical
  by_contra hneg
  push Not at hneg
  obtain ⟨I, hI⟩ : ∃ I, I = ∫ p, κ p.1 p.2 ∂(μ.prod μ) := ⟨_, rfl⟩
  rw [← hI] at hneg
  have key : ∀ N : ℕ, 0 ≤ (N : ℝ) * B + ((N : ℝ) * N - N) * I := by
    intro N
    have h1 : ∀ x : Fin N → X, 0 ≤ ∑ i, ∑ j, κ (x i) (x j) := fun x => by
      simpa using (h (Fin N) x fun _ => trivial).2 fun _ => 1
    have h2 : 0 ≤ ∫ x : Fin N → X, ∑ i, ∑ j, κ (x i) (x j) ∂(Measure.pi fun _ => μ) := integral_nonneg h1
    have hint : ∀ i j : Fin N, Integrable (fun x : Fin N → X => κ (x i) (x j)) (Measure.pi fun _ => μ) := fun i j => by
      have hij : Measurable fun x : Fin N → X => κ (x i) (x j) := hm.comp (g := fun p : X × X => κ p.1 p.2) (f := fun x : Fin N → X => (x i, x j)) ((measurable_pi_apply i).prodMk (measurable_pi_apply j))
      exact Integrable.of_bound (C := B) hij.aestronglyMeasurable (Filter.Eventually.of_forall fun x => hB _ _)
    rw [integral_finsetSum _ fun i _ => integrable_finsetSum _ fun j _ => hint i j] at h2
    simp only [integral_finsetSum _ fun j _ => hint _ j] at h2
    have hoff : ∀ i j : Fin N, i ≠ j → ∫ x : Fin N → X, κ (x i) (x j) ∂(Measure.pi fun _ => μ) = I := by
      intro i j hij
      have hi := (iIndepFun_pi (μ := fun _ : Fin N => μ) (X := fun _ => id) fun _ => aemeasurable_id).indepFun hij
      simp only [id] at hi
      rw [indepFun_iff_map_prod_eq_prod_map_map (measurable_pi_apply i).aemeasurable (measurable_pi_apply j).aemeasurable] at hi
      have e : ∀ k : Fin N, (Measure.pi fun _ : Fin N => μ).map (fun ω => ω k) = μ := fun k =>
        (measurePreserving_eval (fun _ : Fin N => μ) k).map_eq
      rw [e, e] at hi
      rw [hI, ← hi, integral_map ((measurable_pi_apply i).prodMk (measurable_pi_apply j)).aemeasurable hm.aestronglyMeasurable]
    have hon : ∀ i : Fin N, ∫ x : Fin N → X, κ (x i) (x i) ∂(Measure.pi fun _ => μ) ≤ B := by
      intro i
      refine (integral_mono (hint i i) (integrable_const B) fun x => (abs_le.1 (hB _ _)).2).trans ?_
      simp
    refine h2.trans ?_
    have : ∀ i : Fin N, ∑ j, ∫ x : Fin N → X, κ (x i) (x j) ∂(Measure.pi fun _ => μ) ≤ B + ((N : ℝ) - 1) * I := by
      intro i
      rw [← Finset.add_sum_erase _ _ (Finset.mem_univ i)]
      refine add_le_add (hon i) ?_
      rw [Finset.sum_congr rfl fun j hj => hoff i j (Finset.ne_of_mem_erase hj).symm, Finset.sum_const, Finset.card_erase_of_mem (Finset.mem_univ i)]
      have hN : 1 ≤ N := i.pos
      simp [Nat.cast_sub hN]
    refine (Finset.sum_le_sum fun i _ => this i).trans ?_
    simp
    ring_nf
    rfl
  obtain ⟨N, hN⟩ := exists_nat_gt (1 + B / -I)
  have hI' : 0 < -I := by linarith
  have h3 : B < (N - 1) * -I := by
    rw [← div_lt_iff₀ hI']; linarith
  have hBp : 0 ≤ B := by
    obtain ⟨x⟩ := nonempty_of_isProbabilityMeasure μ
    exact (abs_nonneg _).trans (hB x x)
  have hN1 : (0 : ℝ) < N := by
    have : 0 ≤ B / -I := by positivity
    linarith
  nlinarith [key N]

section
variable {E : Type} [NormedAddCommGroup E] [InnerProductSpace ℝ E] [FiniteDimensional ℝ E] [MeasurableSpace E] [BorelSpace E]

theorem gauss_pos {b : ℝ} (hb : 0 < b) : 0 < ∫ x : E, Real.exp (-b * ‖x‖ ^ 2) := by
  rw [GaussianFourier.integral_rexp_neg_mul_sq_norm hb]
  have := Real.pi_pos
  positivity

theorem gauss_int {b : ℝ} (hb : 0 < b) : Integrable fun x : E => Real.exp (-b * ‖x‖ ^ 2) :=
  Integrable.of_integral_ne_zero (gauss_pos hb).ne'

/-- A radial positive semi-definite kernel has a non-negative mean under every Gaussian. -/
theorem psd_gauss (F : ℝ → ℝ) (hF : Continuous F) (B : ℝ) (hB : ∀ r, |F r| ≤ B) (h : PSDOn Set.univ fun x y : E => F ‖x - y‖) {b : ℝ} (hb : 0 < b) :
    0 ≤ ∫ z : E, F ‖z‖ * Real.exp (-(b / 2) * ‖z‖ ^ 2) := by
  obtain ⟨g, hg⟩ : ∃ g : E → ℝ, g = fun x => Real.exp (-b * ‖x‖ ^ 2) := ⟨_, rfl⟩
  have gpos : ∀ x, 0 < g x := fun x => by rw [hg]; exact Real.exp_pos _
  have gcont : Continuous g := by rw [hg]; fun_prop
  have gint : Integrable g := by rw [hg]; exact gauss_int hb
  obtain ⟨m, hm⟩ : ∃ m, m = ∫ x, g x := ⟨_, rfl⟩
  have mpos : 0 < m := by rw [hm, hg]; exact gauss_pos hb
  let μ : Measure E := volume.withDensity fun x => ENNReal.ofReal (g x / m)
  have hμ : IsProbabilityMeasure μ := by
    constructor
    rw [withDensity_apply _ MeasurableSet.univ, Measure.restrict_univ, ← ofReal_integral_eq_lintegral_ofReal (gint.div_const m)
      (Filter.Eventually.of_forall fun x => (div_pos (gpos x) mpos).le), integral_div, ← hm, div_self mpos.ne', ENNReal.ofReal_one]
  have hκ : Measurable fun p : E × E => F ‖p.1 - p.2‖ := by
    have : Continuous fun p : E × E => F ‖p.1 - p.2‖ := by fun_prop
    exact this.measurable
  have h0 := psd_mean μ (fun x y => F ‖x - y‖) hκ B (fun x y => hB _) h
  have hi : Integrable (fun p : E × E => F ‖p.1 - p.2‖) (μ.prod μ) :=
    Integrable.of_bound (C := B) hκ.aestronglyMeasurable (Filter.Eventually.of_forall fun x => hB _)
  have hw : ∀ f : E → ℝ, ∫ x, f x ∂μ = m⁻¹ * ∫ x, g x * f x := by
    intro f
    rw [integral_withDensity_eq_integral_toReal_smul (by fun_prop) (Filter.Eventually.of_forall fun x => ENNReal.ofReal_lt_top), ← integral_const_mul]
    refine integral_congr_ae (Filter.Eventually.of_forall fun x => ?_)
    simp only [smul_eq_mul]
    rw [ENNReal.toReal_ofReal (div_pos (gpos x) mpos).le]
    field_simp
  rw [integral_prod_symm _ hi, hw] at h0
  simp only [hw] at h0
  -- the substitution `x = z + y`
  have e1 : ∀ y, ∫ x, g x * F ‖x - y‖ = ∫ z, g (z + y) * F ‖z‖ := fun y => by
    rw [← integral_add_right_eq_self (fun x => g x * F ‖x - y‖) y]; simp
  simp only [e1] at h0
  have e2 : ∫ y, g y * (m⁻¹ * ∫ z, g (z + y) * F ‖z‖) = m⁻¹ * ∫ y, ∫ z, g y * (g (z + y) * F ‖z‖) := by
    rw [← integral_const_mul]
    refine integral_congr_ae (Filter.Eventually.of_forall fun y => ?_)
    simp only
    rw [integral_const_mul]; ring
  rw [e2] at h0
  have hb3 : 0 < b / 3 := by positivity
  have hint : Integrable (Function.uncurry fun (y z : E) => g y * (g (z + y) * F ‖z‖)) (volume.prod volume) := by
    refine (((gauss_int hb3 (E := E)).mul_prod (gauss_int hb3 (E := E))).const_mul B).mono' ?_ (Filter.Eventually.of_forall fun p => ?_)
    · have : Continuous (Function.uncurry fun (y z : E) => g y * (g (z + y) * F ‖z‖)) := by
        unfold Function.uncurry; fun_prop
      exact this.aestronglyMeasurable
    · obtain ⟨y, z⟩ := p
      simp only [Function.uncurry, Real.norm_eq_abs]
      rw [abs_mul, abs_mul, abs_of_pos (gpos _), abs_of_pos (gpos _), ← mul_assoc, mul_comm]
      refine mul_le_mul (hB _) ?_ (mul_pos (gpos _) (gpos _)).le ((abs_nonneg _).trans (hB 0))
      rw [hg, ← Real.exp_add, ← Real.exp_add]
      refine Real.exp_le_exp.2 ?_
      have t1 : ‖z‖ ≤ ‖z + y‖ + ‖y‖ := by simpa using norm_sub_le (z + y) y
      have t2 : ‖z‖ ^ 2 ≤ 2 * ‖z + y‖ ^ 2 + 2 * ‖y‖ ^ 2 := by nlinarith [norm_nonneg z, norm_nonneg y, norm_nonneg (z + y), sq_nonneg (‖z + y‖ - ‖y‖)]
      nlinarith [sq_nonneg ‖z + y‖, sq_nonneg ‖y‖]
  rw [integral_integral_swap hint] at h0
  have e3 : ∀ z, ∫ y, g y * (g (z + y) * F ‖z‖) = (∫ y : E, Real.exp (-(2 * b) * ‖y‖ ^ 2)) * (F ‖z‖ * Real.exp (-(b / 2) * ‖z‖ ^ 2)) := by
    intro z
    rw [← integral_add_right_eq_self (fun y : E => Real.exp (-(2 * b) * ‖y‖ ^ 2)) ((1 / 2 : ℝ) • z), ← integral_mul_const]
    refine integral_congr_ae (Filter.Eventually.of_forall fun y => ?_)
    simp only [hg]
    have : -b * ‖y‖ ^ 2 + -b * ‖z + y‖ ^ 2 = -(2 * b) * ‖y + (1 / 2 : ℝ) • z‖ ^ 2 + -(b / 2) * ‖z‖ ^ 2 := by
      rw [norm_add_sq_real, norm_add_sq_real, inner_smul_right, norm_smul, real_inner_comm y z]
      norm_num
      ring
    calc Real.exp (-b * ‖y‖ ^ 2) * (Real.exp (-b * ‖z + y‖ ^ 2) * F ‖z‖) = Real.exp (-b * ‖y‖ ^ 2 + -b * ‖z + y‖ ^ 2) * F ‖z‖ := by rw [Real.exp_add]; ring
      _ = _ := by rw [this, Real.exp_add]; ring
  simp only [e3] at h0
  rw [integral_const_mul] at h0
  have hC : 0 < ∫ y : E, Real.exp (-(2 * b) * ‖y‖ ^ 2) := gauss_pos (by positivity)
  have hm1 : 0 < m⁻¹ := inv_pos.2 mpos
  exact nonneg_of_mul_nonneg_right (nonneg_of_mul_nonneg_right (nonneg_of_mul_nonneg_right h0 hm1) hm1) hC

/-- A radial positive semi-definite kernel that is integrable has a non-negative integral. -/
theorem psd_total (F : ℝ → ℝ) (hF : Continuous F) (B : ℝ) (hB : ∀ r, |F r| ≤ B) (h : PSDOn Set.univ fun x y : E => F ‖x - y‖)
    (hi : Integrable fun z : E => F ‖z‖) : 0 ≤ ∫ z : E, F ‖z‖ := by
  have ht : Filter.Tendsto (fun n : ℕ => ∫ z : E, F ‖z‖ * Real.exp (-((1 / ((n : ℝ) + 1)) / 2) * ‖z‖ ^ 2)) Filter.atTop (nhds (∫ z : E, F ‖z‖)) := by
    refine tendsto_integral_of_dominated_convergence (fun z => |F ‖z‖|) (fun n => ?_) hi.abs (fun n => Filter.Eventually.of_forall fun z => ?_)
      (Filter.Eventually.of_forall fun z => ?_)
    · have : Continuous fun z : E => F ‖z‖ * Real.exp (-((1 / ((n : ℝ) + 1)) / 2) * ‖z‖ ^ 2) := by fun_prop
      exact this.aestronglyMeasurable
    · rw [Real.norm_eq_abs, abs_mul, Real.abs_exp]
      refine mul_le_of_le_one_right (abs_nonneg _) (Real.exp_le_one_iff.2 ?_)
      have : 0 ≤ 1 / ((n : ℝ) + 1) / 2 * ‖z‖ ^ 2 := by positivity
      linarith
    · have h1 : Filter.Tendsto (fun n : ℕ => 1 / ((n : ℝ) + 1)) Filter.atTop (nhds 0) := tendsto_one_div_add_atTop_nhds_zero_nat
      have h2 : Filter.Tendsto (fun n : ℕ => F ‖z‖ * Real.exp (-((1 / ((n : ℝ) + 1)) / 2) * ‖z‖ ^ 2)) Filter.atTop (nhds (F ‖z‖ * Real.exp (-(0 / 2) * ‖z‖ ^ 2))) :=
        Filter.Tendsto.const_mul _ ((Real.continuous_exp.tendsto _).comp (((h1.div_const 2).neg).mul_const _))
      simpa using h2
  exact ge_of_tendsto' ht fun n => psd_gauss F hF B hB h (by positivity)

/-! ## Four dimensions -/

/-- The profile of the Silverman kernel, with the factors removed. -/
noncomputable def silv (r : ℝ) : ℝ := Real.exp (-r) * (Real.sin r + Real.cos r)

theorem silv_le (r : ℝ) : |silv r| ≤ 2 * Real.exp (-r) := by
  unfold silv
  rw [abs_mul, Real.abs_exp]
  have h1 := Real.abs_sin_le_one r
  have h2 := Real.abs_cos_le_one r
  have h3 := abs_add_le (Real.sin r) (Real.cos r)
  nlinarith [Real.exp_pos (-r)]

theorem silv_cont : Continuous silv := by unfold silv; fun_prop

theorem silv_moment_int (k : ℕ) : IntegrableOn (fun r : ℝ => r ^ k * silv r) (Set.Ioi 0) := by
  have h := (Real.GammaIntegral_convergent (s := (k : ℝ) + 1) (by positivity)).const_mul 2
  refine h.mono' ?_ ?_
  · have := silv_cont
    have h2 : Continuous fun r : ℝ => r ^ k * silv r := by fun_prop
    exact h2.aestronglyMeasurable
  · refine (ae_restrict_mem measurableSet_Ioi).mono fun r hr => ?_
    have hr : 0 < r := hr
    rw [Real.norm_eq_abs, abs_mul, abs_of_pos (pow_pos hr k), add_sub_cancel_right, Real.rpow_natCast]
    nlinarith [silv_le r, pow_pos hr k]

/-- `∫ r³ e^{-r} (sin r + cos r) dr = -3/2`. -/
theorem silv_third : ∫ r in Set.Ioi (0 : ℝ), r ^ 3 * silv r = -(3 / 2) := by
  have hd : ∀ r ∈ Set.Ici (0 : ℝ), HasDerivAt (fun r : ℝ => Real.exp (-r) * ((3 / 2 * r ^ 2 + 3 * r + 3 / 2) * Real.sin r + (-r ^ 3 - 3 / 2 * r ^ 2 + 3 / 2) * Real.cos r))
      (r ^ 3 * silv r) r := by
    intro r _
    have h1 : HasDerivAt (fun r : ℝ => 3 / 2 * r ^ 2 + 3 * r + 3 / 2) (3 / 2 * (2 * r) + 3) r := by
      simpa using (((hasDerivAt_pow 2 r).const_mul (3 / 2 : ℝ)).add ((hasDerivAt_id r).const_mul (3 : ℝ))).add_const (3 / 2 : ℝ)
    have h2 : HasDerivAt (fun r : ℝ => -r ^ 3 - 3 / 2 * r ^ 2 + 3 / 2) (-(3 * r ^ 2) - 3 / 2 * (2 * r)) r := by
      simpa using (((hasDerivAt_pow 3 r).neg).sub ((hasDerivAt_pow 2 r).const_mul (3 / 2 : ℝ))).add_const (3 / 2 : ℝ)
    have h3 : HasDerivAt (fun r : ℝ => Real.exp (-r)) (-Real.exp (-r)) r := by simpa using (hasDerivAt_neg r).exp
    refine (h3.mul ((h1.mul (Real.hasDerivAt_sin r)).add (h2.mul (Real.hasDerivAt_cos r)))).congr_deriv ?_
    unfold silv
    simp only [Pi.add_apply, Pi.mul_apply]
    ring
  have ht : Filter.Tendsto (fun r : ℝ => Real.exp (-r) * ((3 / 2 * r ^ 2 + 3 * r + 3 / 2) * Real.sin r + (-r ^ 3 - 3 / 2 * r ^ 2 + 3 / 2) * Real.cos r))
      Filter.atTop (nhds 0) := by
    have hp := fun n => Real.tendsto_pow_mul_exp_neg_atTop_nhds_zero n
    have hB : Filter.Tendsto (fun r : ℝ => r ^ 3 * Real.exp (-r) + 3 * (r ^ 2 * Real.exp (-r)) + 3 * (r ^ 1 * Real.exp (-r)) + 3 * (r ^ 0 * Real.exp (-r)))
        Filter.atTop (nhds 0) := by
      simpa using (((hp 3).add ((hp 2).const_mul 3)).add ((hp 1).const_mul 3)).add ((hp 0).const_mul 3)
    refine squeeze_zero_norm' ?_ hB
    filter_upwards [Filter.eventually_ge_atTop 0] with r hr
    rw [Real.norm_eq_abs, abs_mul, Real.abs_exp]
    have h1 := Real.abs_sin_le_one r
    have h2 := Real.abs_cos_le_one r
    have h3 : |(3 / 2 * r ^ 2 + 3 * r + 3 / 2) * Real.sin r + (-r ^ 3 - 3 / 2 * r ^ 2 + 3 / 2) * Real.cos r| ≤ r ^ 3 + 3 * r ^ 2 + 3 * r + 3 := by
      refine (abs_add_le _ _).trans ?_
      rw [abs_mul, abs_mul]
      have a1 : |3 / 2 * r ^ 2 + 3 * r + 3 / 2| ≤ 3 / 2 * r ^ 2 + 3 * r + 3 / 2 := (abs_of_nonneg (by positivity)).le
      have a2 : |-r ^ 3 - 3 / 2 * r ^ 2 + 3 / 2| ≤ r ^ 3 + 3 / 2 * r ^ 2 + 3 / 2 := by
        rw [abs_le]; constructor <;> nlinarith [pow_nonneg hr 3, pow_nonneg hr 2]
      have b1 := mul_le_mul a1 h1 (abs_nonneg _) (by positivity)
      have b2 := mul_le_mul a2 h2 (abs_nonneg _) (by positivity)
      linarith
    nlinarith [Real.exp_pos (-r)]
  rw [integral_Ioi_of_hasDerivAt_of_tendsto' hd (silv_moment_int 3) ht]
  norm_num

/-- Silverman's kernel is not positive semi-definite in four dimensions. -/
theorem silv_not_psd (hE : Module.finrank ℝ E = 4) : ¬ PSDOn Set.univ fun x y : E => silv ‖x - y‖ := by
  intro h
  have hn : Nontrivial E := Module.nontrivial_of_finrank_pos (R := ℝ) (by omega)
  have hs : (PSDOn Set.univ fun x y : E => silv |‖x - y‖|) := by simpa using h
  have hi : Integrable fun z : E => silv |‖z‖| := by
    simp only [abs_norm]
    rw [integrable_fun_norm_addHaar volume (f := silv), hE]
    exact silv_moment_int 3
  have h0 := psd_total (fun r => silv |r|) (silv_cont.comp continuous_abs) 2 (fun r => (silv_le _).trans (by
    have := Real.exp_le_one_iff.2 (neg_nonpos.2 (abs_nonneg r)); linarith)) hs hi
  simp only [abs_norm] at h0
  rw [integral_fun_norm_addHaar volume silv, hE] at h0
  simp only [smul_eq_mul, nsmul_eq_mul] at h0
  rw [show (4 - 1 : ℕ) = 3 from rfl, silv_third] at h0
  have hb : 0 < volume.real (Metric.ball (0 : E) 1) := by
    rw [measureReal_def]
    exact ENNReal.toReal_pos (Metric.measure_ball_pos _ _ one_pos).ne' measure_ball_lt_top.ne
  norm_num at h0
  linarith

theorem profile_silv (u : ℝ) : profile .silverman u = Real.sqrt 2 / 2 * silv (Real.sqrt (1 / 2) * u) := by
  simp only [profile, silv]
  rw [Real.sin_add, show (0.25 : ℝ) * Real.pi = Real.pi / 4 by ring, Real.sin_pi_div_four, Real.cos_pi_div_four]
  ring

/-- From four coordinates on, Silverman's kernel is not positive semi-definite, whatever the bandwidth. -/
theorem silverman_not_psd {d : Type} [Fintype d] (hd : 4 ≤ Fintype.card d) {σ : ℝ} (hσ : 0 < σ) :
    ¬ PSDOn Set.univ fun x y : d → ℝ => profile .silverman (Real.sqrt ((1 / σ) ^ 2 * euclidSq x y)) := by
  intro h
  obtain ⟨e⟩ : Nonempty (Fin 4 ↪ d) := Function.Embedding.nonempty_of_card_le (by simpa using hd)
  refine silv_not_psd (E := EuclideanSpace ℝ (Fin 4)) (by simp) fun ι _ x _ => ?_
  have h2 : Real.sqrt (1 / 2) * Real.sqrt 2 = 1 := by rw [← Real.sqrt_mul (by norm_num)]; norm_num
  have h3 := (h ι (fun i => Function.extend e (fun k => σ * Real.sqrt 2 * x i k) 0) fun _ => trivial).smul (a := Real.sqrt 2) (by positivity)
  refine (funext₂ fun i j => ?_ : (fun i j => silv ‖x i - x j‖) = _) ▸ h3
  have hq : euclidSq (Function.extend e (fun k => σ * Real.sqrt 2 * x i k) 0) (Function.extend e (fun k => σ * Real.sqrt 2 * x j k) (0 : d → ℝ)) =
      (σ * Real.sqrt 2) ^ 2 * ‖x i - x j‖ ^ 2 := by
    unfold euclidSq
    rw [EuclideanSpace.norm_sq_eq, Finset.mul_sum]
    refine (Fintype.sum_of_injective e e.injective _ _ (fun k hk => ?_) fun k => ?_).symm
    · rw [Function.extend_apply' _ _ _ (by simpa using hk), Function.extend_apply' _ _ _ (by simpa using hk)]; simp
    · rw [e.injective.extend_apply, e.injective.extend_apply, Real.norm_eq_abs, sq_abs, PiLp.sub_apply]; ring
  have hr : Real.sqrt ((1 / σ) ^ 2 * ((σ * Real.sqrt 2) ^ 2 * ‖x i - x j‖ ^ 2)) = Real.sqrt 2 * ‖x i - x j‖ := by
    rw [show (1 / σ) ^ 2 * ((σ * Real.sqrt 2) ^ 2 * ‖x i - x j‖ ^ 2) = (Real.sqrt 2 * ‖x i - x j‖) ^ 2 by field_simp, Real.sqrt_sq (by positivity)]
  simp only
  rw [hq, hr, profile_silv, ← mul_assoc, ← mul_assoc, h2, one_mul]
  rw [show Real.sqrt 2 * (Real.sqrt 2 / 2) = 1 by rw [← mul_div_assoc, Real.mul_self_sqrt (by norm_num)]; norm_num, one_mul]
end

/-! ## Mixtures of cosines -/

/-- `∫ e^{-t} (sin t + cos t) cos wt dt = 4 / (4 + w⁴)`. -/
theorem silv_cos (w : ℝ) : ∫ t in Set.Ioi (0 : ℝ), silv t * Real.cos (w * t) = 4 / (4 + w ^ 4) := by
  have hp : 0 < 4 + w ^ 4 := by positivity
  obtain ⟨β, hβ⟩ : ∃ β : ℝ, β = -(4 / (4 + w ^ 4)) := ⟨_, rfl⟩
  obtain ⟨α, hα⟩ : ∃ α : ℝ, α = -(2 * w ^ 2) / (4 + w ^ 4) := ⟨_, rfl⟩
  obtain ⟨δ, hδ⟩ : ∃ δ : ℝ, δ = w * (2 + w ^ 2) / (4 + w ^ 4) := ⟨_, rfl⟩
  obtain ⟨γ, hγ⟩ : ∃ γ : ℝ, γ = -(w * (2 - w ^ 2)) / (4 + w ^ 4) := ⟨_, rfl⟩
  have q1 : -α - β + w * γ = 1 := by rw [hα, hβ, hγ]; field_simp; ring
  have q2 : -β + α + w * δ = 1 := by rw [hα, hβ, hδ]; field_simp; ring
  have q3 : -γ - δ - w * α = 0 := by rw [hα, hδ, hγ]; field_simp; ring
  have q4 : -δ + γ - w * β = 0 := by rw [hβ, hδ, hγ]; field_simp; ring
  obtain ⟨G, hG⟩ : ∃ G : ℝ → ℝ, G = fun t => Real.exp (-t) * (α * Real.sin t * Real.cos (w * t) + β * Real.cos t * Real.cos (w * t) +
      γ * Real.sin t * Real.sin (w * t) + δ * Real.cos t * Real.sin (w * t)) := ⟨_, rfl⟩
  have hd : ∀ t ∈ Set.Ici (0 : ℝ), HasDerivAt G (silv t * Real.cos (w * t)) t := by
    intro t _
    have h0 : HasDerivAt (fun t : ℝ => w * t) w t := by simpa using (hasDerivAt_id t).const_mul w
    have h3 : HasDerivAt (fun r : ℝ => Real.exp (-r)) (-Real.exp (-t)) t := by simpa using (hasDerivAt_neg t).exp
    have s := Real.hasDerivAt_sin t
    have c := Real.hasDerivAt_cos t
    have h := h3.mul ((((((s.const_mul α).mul h0.cos).add ((c.const_mul β).mul h0.cos)).add ((s.const_mul γ).mul h0.sin)).add ((c.const_mul δ).mul h0.sin)))
    rw [hG]
    refine h.congr_deriv ?_
    unfold silv
    simp only [Pi.add_apply, Pi.mul_apply]
    linear_combination Real.exp (-t) * (Real.sin t * Real.cos (w * t) * q1 + Real.cos t * Real.cos (w * t) * q2 + Real.sin t * Real.sin (w * t) * q3 +
      Real.cos t * Real.sin (w * t) * q4)
  have hi : IntegrableOn (fun t => silv t * Real.cos (w * t)) (Set.Ioi 0) := by
    refine Integrable.mono (silv_moment_int 0) ?_ (Filter.Eventually.of_forall fun t => ?_)
    · have := silv_cont
      have h2 : Continuous fun t => silv t * Real.cos (w * t) := by fun_prop
      exact h2.aestronglyMeasurable
    · rw [norm_mul, pow_zero, one_mul]
      exact mul_le_of_le_one_right (norm_nonneg _) (Real.abs_cos_le_one _)
  have ht : Filter.Tendsto G Filter.atTop (nhds 0) := by
    have hp := Real.tendsto_pow_mul_exp_neg_atTop_nhds_zero 0
    have hB : Filter.Tendsto (fun t : ℝ => (|α| + |β| + |γ| + |δ|) * (t ^ 0 * Real.exp (-t))) Filter.atTop (nhds 0) := by
      simpa using hp.const_mul (|α| + |β| + |γ| + |δ|)
    refine squeeze_zero_norm (fun t => ?_) hB
    rw [hG, Real.norm_eq_abs, abs_mul, Real.abs_exp, pow_zero, one_mul, mul_comm]
    refine mul_le_mul_of_nonneg_right ?_ (Real.exp_pos _).le
    have k : ∀ a x y : ℝ, |x| ≤ 1 → |y| ≤ 1 → |a * x * y| ≤ |a| := fun a x y hx hy => by
      rw [abs_mul, abs_mul, mul_assoc]
      exact mul_le_of_le_one_right (abs_nonneg _) (mul_le_one₀ hx (abs_nonneg _) hy)
    have hs := Real.abs_sin_le_one
    have hc := Real.abs_cos_le_one
    exact (abs_add_le _ _).trans (add_le_add ((abs_add_le _ _).trans (add_le_add ((abs_add_le _ _).trans (add_le_add (k _ _ _ (hs _) (hc _)) (k _ _ _ (hc _) (hc _))))
      (k _ _ _ (hs _) (hs _)))) (k _ _ _ (hc _) (hs _)))
  rw [integral_Ioi_of_hasDerivAt_of_tendsto' hd hi ht, hG]
  simp [hβ]

/-- The transform of an even function has no imaginary part. -/
theorem even_transform (g : ℝ → ℝ) (hg : Integrable g) (he : ∀ v, g (-v) = g v) (a : ℝ) :
    ∫ v : ℝ, Complex.exp (↑(a * v) * Complex.I) * (g v : ℂ) = ((∫ v : ℝ, Real.cos (a * v) * g v : ℝ) : ℂ) := by
  have hi : ∀ a : ℝ, Integrable fun v : ℝ => Complex.exp (↑(a * v) * Complex.I) * (g v : ℂ) := fun a => by
    refine hg.ofReal.bdd_mul (c := 1) ?_ (Filter.Eventually.of_forall fun v => ?_)
    · have : Continuous fun v : ℝ => Complex.exp (↑(a * v) * Complex.I) := by fun_prop
      exact this.aestronglyMeasurable
    · rw [Complex.norm_exp_ofReal_mul_I]
  have h1 : ∫ v : ℝ, Complex.exp (↑(a * v) * Complex.I) * (g v : ℂ) = ∫ v : ℝ, Complex.exp (↑(-a * v) * Complex.I) * (g v : ℂ) := by
    rw [← integral_neg_eq_self]
    refine integral_congr_ae (Filter.Eventually.of_forall fun v => ?_)
    simp only [he]
    congr 3
    push_cast; ring
  have h2 : 2 * ∫ v : ℝ, Complex.exp (↑(a * v) * Complex.I) * (g v : ℂ) = ∫ v : ℝ, 2 * ((Real.cos (a * v) * g v : ℝ) : ℂ) := by
    rw [two_mul]
    nth_rw 2 [h1]
    rw [← integral_add (hi a) (hi (-a))]
    refine integral_congr_ae (Filter.Eventually.of_forall fun v => ?_)
    simp only
    rw [← add_mul]
    push_cast
    rw [← mul_assoc, Complex.two_cos]
    congr 4
    ring
  rw [integral_const_mul, integral_complex_ofReal] at h2
  exact mul_left_cancel₀ two_ne_zero h2

theorem silv_abs_int : Integrable fun v : ℝ => silv |v| := by
  have h := (integrable_fun_norm_addHaar (volume : Measure ℝ) (f := silv)).2 (by simpa using silv_moment_int 0)
  simpa using h

theorem quartic_int : Integrable fun w : ℝ => 8 / (4 + (2 * Real.pi * w) ^ 4) := by
  refine (integrable_inv_one_add_sq.const_mul 8).mono' ?_ (Filter.Eventually.of_forall fun w => ?_)
  · have : Continuous fun w : ℝ => 8 / (4 + (2 * Real.pi * w) ^ 4) := by
      refine continuous_const.div (by fun_prop) fun w => by positivity
    exact this.aestronglyMeasurable
  · rw [Real.norm_eq_abs, abs_of_pos (by positivity), ← div_eq_mul_inv]
    refine div_le_div_of_nonneg_left (by norm_num) (by positivity) ?_
    have h1 : 1 ≤ (2 * Real.pi) ^ 4 := one_le_pow₀ (by have := Real.pi_gt_three; linarith)
    rw [mul_pow]
    nlinarith [sq_nonneg (w ^ 2 - 1), pow_nonneg (sq_nonneg w) 2, mul_le_mul_of_nonneg_right h1 (pow_nonneg (sq_nonneg w) 2)]

theorem silv_fourier (w : ℝ) : 𝓕 (fun v : ℝ => (silv |v| : ℂ)) w = ((8 / (4 + (2 * Real.pi * w) ^ 4) : ℝ) : ℂ) := by
  rw [Real.fourier_real_eq_integral_exp_smul]
  have h := even_transform (fun v => silv |v|) silv_abs_int (fun v => by rw [abs_neg]) (-2 * Real.pi * w)
  have e : ∫ v : ℝ, Real.cos (-2 * Real.pi * w * v) * silv |v| = 8 / (4 + (2 * Real.pi * w) ^ 4) := by
    have : ∀ v : ℝ, Real.cos (-2 * Real.pi * w * v) * silv |v| = silv |v| * Real.cos (2 * Real.pi * w * |v|) := fun v => by
      rw [mul_comm, show -2 * Real.pi * w * v = -(2 * Real.pi * w * v) by ring, Real.cos_neg]
      rcases abs_choice v with h | h <;> rw [h]
      rw [mul_neg, Real.cos_neg]
    simp only [this]
    rw [integral_comp_abs (f := fun t => silv t * Real.cos (2 * Real.pi * w * t)), silv_cos]
    ring
  rw [← e, ← h]
  refine integral_congr_ae (Filter.Eventually.of_forall fun v => ?_)
  simp only [smul_eq_mul]
  congr 3
  push_cast; ring

/-- Silverman's profile as a mixture of cosines. -/
theorem silv_inversion (r : ℝ) : ∫ w : ℝ, Real.cos (2 * Real.pi * r * w) * (8 / (4 + (2 * Real.pi * w) ^ 4)) = silv |r| := by
  have hF : 𝓕 (fun v : ℝ => (silv |v| : ℂ)) = fun w => ((8 / (4 + (2 * Real.pi * w) ^ 4) : ℝ) : ℂ) := funext silv_fourier
  have hc : Continuous fun v : ℝ => (silv |v| : ℂ) := Complex.continuous_ofReal.comp (silv_cont.comp continuous_abs)
  have h := congrFun (hc.fourierInv_fourier_eq silv_abs_int.ofReal (by rw [hF]; exact quartic_int.ofReal)) r
  rw [hF, Real.fourierInv_eq'] at h
  have h2 := even_transform _ quartic_int (fun w => by ring) (2 * Real.pi * r)
  have h3 : ((∫ w : ℝ, Real.cos (2 * Real.pi * r * w) * (8 / (4 + (2 * Real.pi * w) ^ 4)) : ℝ) : ℂ) = silv |r| := by
    rw [← h2, ← h]
    refine integral_congr_ae (Filter.Eventually.of_forall fun v => ?_)
    simp only [smul_eq_mul]
    congr 3
    simp; ring
  exact_mod_cast h3

section
variable {E : Type} [NormedAddCommGroup E] [InnerProductSpace ℝ E] [FiniteDimensional ℝ E] [MeasurableSpace E] [BorelSpace E]

theorem cos_weight_int (R : E → ℝ) (hi : Integrable R) (x : E) : Integrable fun u : E => Real.cos (2 * Real.pi * inner ℝ u x) * R u := by
  refine hi.bdd_mul (c := 1) ?_ (Filter.Eventually.of_forall fun v => Real.abs_cos_le_one _)
  have : Continuous fun u : E => Real.cos (2 * Real.pi * inner ℝ u x) := by fun_prop
  exact this.aestronglyMeasurable

/-- A mixture of cosines is positive semi-definite. -/
theorem psd_cos (R : E → ℝ) (hR : ∀ u, 0 ≤ R u) (hi : Integrable R) :
    PSDOn Set.univ fun x y : E => ∫ u : E, Real.cos (2 * Real.pi * inner ℝ u (x - y)) * R u := by
  intro ι _ x _
  constructor
  · intro i j
    refine integral_congr_ae (Filter.Eventually.of_forall fun u => ?_)
    simp only
    rw [← neg_sub (x i) (x j), inner_neg_right, mul_neg, Real.cos_neg]
  · intro c
    have e : ∑ i, ∑ j, c i * c j * ∫ u : E, Real.cos (2 * Real.pi * inner ℝ u (x i - x j)) * R u =
        ∫ u : E, ∑ i, ∑ j, c i * c j * (Real.cos (2 * Real.pi * inner ℝ u (x i - x j)) * R u) := by
      rw [integral_finsetSum _ fun i _ => integrable_finsetSum _ fun j _ => (cos_weight_int R hi _).const_mul _]
      refine Finset.sum_congr rfl fun i _ => ?_
      rw [integral_finsetSum _ fun j _ => (cos_weight_int R hi _).const_mul _]
      exact Finset.sum_congr rfl fun j _ => (integral_const_mul _ _).symm
    rw [e]
    refine integral_nonneg fun u => ?_
    have e2 : ∑ i, ∑ j, c i * c j * (Real.cos (2 * Real.pi * inner ℝ u (x i - x j)) * R u) =
        R u * ((∑ i, c i * Real.cos (2 * Real.pi * inner ℝ u (x i))) ^ 2 + (∑ i, c i * Real.sin (2 * Real.pi * inner ℝ u (x i))) ^ 2) := by
      rw [sq, sq, Finset.sum_mul_sum, Finset.sum_mul_sum, ← Finset.sum_add_distrib, Finset.mul_sum]
      refine Finset.sum_congr rfl fun i _ => ?_
      rw [← Finset.sum_add_distrib, Finset.mul_sum]
      refine Finset.sum_congr rfl fun j _ => ?_
      rw [inner_sub_right, mul_sub, Real.cos_sub]; ring
    simp only [Pi.zero_apply]
    rw [e2]
    exact mul_nonneg (hR u) (add_nonneg (sq_nonneg _) (sq_nonneg _))

/-- With a radial weight the mixture depends on the norm only. -/
theorem cos_radial (R : ℝ → ℝ) {x y : E} (hxy : ‖x‖ = ‖y‖) :
    ∫ u : E, Real.cos (2 * Real.pi * inner ℝ u x) * R ‖u‖ = ∫ u : E, Real.cos (2 * Real.pi * inner ℝ u y) * R ‖u‖ := by
  let A : E ≃ₗᵢ[ℝ] E := (Submodule.span ℝ {x - y})ᗮ.reflection
  have hA : A x = y := Submodule.reflection_sub hxy
  symm
  rw [← A.measurePreserving.integral_comp A.toHomeomorph.measurableEmbedding]
  refine integral_congr_ae (Filter.Eventually.of_forall fun u => ?_)
  simp only
  rw [← hA, A.inner_map_map, A.norm_map]
end

/-- The spectral density of Silverman's kernel in three dimensions. -/
noncomputable def dens (q : ℝ) : ℝ := q ^ 2 / (4 + (2 * Real.pi) ^ 4 * (q ^ 2) ^ 2) ^ 2

theorem dens_nonneg (q : ℝ) : 0 ≤ dens q := by unfold dens; positivity

theorem dens_cont : Continuous dens := by
  unfold dens
  exact (continuous_pow 2).div (by fun_prop) fun q => by positivity

theorem two_pi_pow : 1 ≤ (2 * Real.pi) ^ 4 := one_le_pow₀ (by have := Real.pi_gt_three; linarith)

theorem dens_int : IntegrableOn (fun q : ℝ => q ^ 2 * dens q) (Set.Ioi 0) := by
  refine (integrable_inv_one_add_sq.integrableOn).mono' ?_ (Filter.Eventually.of_forall fun q => ?_)
  · have := dens_cont
    have h2 : Continuous fun q : ℝ => q ^ 2 * dens q := by fun_prop
    exact h2.aestronglyMeasurable
  · rw [Real.norm_eq_abs, abs_of_nonneg (mul_nonneg (sq_nonneg _) (dens_nonneg _))]
    unfold dens
    have h1 := two_pi_pow
    obtain ⟨m, hm⟩ : ∃ m, m = q ^ 2 := ⟨_, rfl⟩
    have hm0 : 0 ≤ m := hm ▸ sq_nonneg q
    rw [← hm, ← mul_div_assoc, div_le_iff₀ (by positivity), inv_mul_eq_div, le_div_iff₀ (by positivity)]
    have h2 : 4 + m ^ 2 ≤ 4 + (2 * Real.pi) ^ 4 * m ^ 2 := by nlinarith [sq_nonneg m]
    have h3 : (4 + m ^ 2) ^ 2 ≤ (4 + (2 * Real.pi) ^ 4 * m ^ 2) ^ 2 := pow_le_pow_left₀ (by positivity) h2 2
    nlinarith [sq_nonneg (m ^ 2 - m), sq_nonneg m]

/-- The space, seen as a line and a plane. -/
abbrev E3 := WithLp 2 (ℝ × EuclideanSpace ℝ (Fin 2))

theorem E3_dim : Module.finrank ℝ E3 = 3 := by
  rw [(WithLp.linearEquiv 2 ℝ (ℝ × EuclideanSpace ℝ (Fin 2))).finrank_eq]
  simp

theorem dens_int3 : Integrable fun u : E3 => dens ‖u‖ := by
  have : Nontrivial E3 := Module.nontrivial_of_finrank_pos (R := ℝ) (by rw [E3_dim]; norm_num)
  rw [integrable_fun_norm_addHaar volume (f := dens), E3_dim]
  exact dens_int

/-- `∫ s ρ(√(t² + s²)) ds`. -/
theorem dens_radial (t : ℝ) : ∫ s in Set.Ioi (0 : ℝ), s * dens (Real.sqrt (t ^ 2 + s ^ 2)) = 1 / (4 * (2 * Real.pi) ^ 4) * (1 / (4 + (2 * Real.pi * t) ^ 4)) := by
  obtain ⟨A, hA⟩ : ∃ A, A = (2 * Real.pi) ^ 4 := ⟨_, rfl⟩
  have hA0 : 1 ≤ A := hA ▸ two_pi_pow
  have hApos : 0 < A := by linarith
  have e : ∀ s, s * dens (Real.sqrt (t ^ 2 + s ^ 2)) = s * ((t ^ 2 + s ^ 2) / (4 + A * (t ^ 2 + s ^ 2) ^ 2) ^ 2) := fun s => by
    unfold dens; rw [Real.sq_sqrt (by positivity), hA]
  simp only [e]
  have hd : ∀ s ∈ Set.Ici (0 : ℝ), HasDerivAt (fun s : ℝ => -(1 / (4 * A)) * (4 + A * (t ^ 2 + s ^ 2) ^ 2)⁻¹) (s * ((t ^ 2 + s ^ 2) / (4 + A * (t ^ 2 + s ^ 2) ^ 2) ^ 2)) s := by
    intro s _
    have h1 : HasDerivAt (fun s : ℝ => t ^ 2 + s ^ 2) (2 * s) s := by simpa using (hasDerivAt_pow 2 s).const_add (t ^ 2)
    have h2 : HasDerivAt (fun s : ℝ => 4 + A * (t ^ 2 + s ^ 2) ^ 2) (A * (2 * (t ^ 2 + s ^ 2) * (2 * s))) s := by
      simpa using ((h1.pow 2).const_mul A).const_add 4
    have hp : 4 + A * (t ^ 2 + s ^ 2) ^ 2 ≠ 0 := by positivity
    refine ((h2.inv hp).const_mul (-(1 / (4 * A)))).congr_deriv ?_
    field_simp
    norm_num
  have ht : Filter.Tendsto (fun s : ℝ => -(1 / (4 * A)) * (4 + A * (t ^ 2 + s ^ 2) ^ 2)⁻¹) Filter.atTop (nhds 0) := by
    have h1 : Filter.Tendsto (fun s : ℝ => 4 + A * (t ^ 2 + s ^ 2) ^ 2) Filter.atTop Filter.atTop := by
      refine Filter.tendsto_atTop_mono' _ ?_ Filter.tendsto_id
      filter_upwards [Filter.eventually_ge_atTop 1] with s hs
      simp only [id]
      have h3 : s ^ 2 ≤ t ^ 2 + s ^ 2 := by nlinarith [sq_nonneg t]
      have h4 : s ≤ s ^ 2 := by nlinarith
      have h5 : (s ^ 2) ^ 2 ≤ (t ^ 2 + s ^ 2) ^ 2 := pow_le_pow_left₀ (sq_nonneg s) h3 2
      have h6 : s ^ 2 ≤ (s ^ 2) ^ 2 := by nlinarith
      nlinarith [sq_nonneg (t ^ 2 + s ^ 2)]
    simpa using h1.inv_tendsto_atTop.const_mul (-(1 / (4 * A)))
  rw [integral_Ioi_of_hasDerivAt_of_nonneg' hd (fun s hs => mul_nonneg (le_of_lt hs) (by positivity)) ht, mul_pow (2 * Real.pi) t, ← hA]
  field_simp
  ring

/-- The mixture with that density is Silverman's kernel, up to a positive factor. -/
theorem mix_silv (x : E3) : ∫ u : E3, Real.cos (2 * Real.pi * inner ℝ u x) * dens ‖u‖ =
    volume.real (Metric.ball (0 : EuclideanSpace ℝ (Fin 2)) 1) / (16 * (2 * Real.pi) ^ 4) * silv ‖x‖ := by
  let y : E3 := WithLp.toLp 2 (‖x‖, 0)
  have hy : ‖x‖ = ‖y‖ := by
    have : ‖y‖ ^ 2 = ‖x‖ ^ 2 := by rw [WithLp.prod_norm_sq_eq_of_L2]; simp [y]
    exact ((sq_eq_sq₀ (norm_nonneg _) (norm_nonneg _)).1 this).symm
  rw [cos_radial dens hy]
  have hmp := WithLp.volume_preserving_toLp ℝ (EuclideanSpace ℝ (Fin 2))
  have hem : MeasurableEmbedding (@WithLp.toLp 2 (ℝ × EuclideanSpace ℝ (Fin 2))) := (MeasurableEquiv.toLp 2 (ℝ × EuclideanSpace ℝ (Fin 2))).measurableEmbedding
  have hf : ∀ p : ℝ × EuclideanSpace ℝ (Fin 2), Real.cos (2 * Real.pi * inner ℝ (WithLp.toLp 2 p) y) * dens ‖WithLp.toLp 2 p‖ =
      Real.cos (2 * Real.pi * ‖x‖ * p.1) * dens (Real.sqrt (p.1 ^ 2 + ‖p.2‖ ^ 2)) := fun p => by
    have e1 : inner ℝ (WithLp.toLp 2 p) y = p.1 * ‖x‖ := by rw [WithLp.prod_inner_apply]; simp [y, mul_comm]
    have e2 : ‖WithLp.toLp 2 p‖ = Real.sqrt (p.1 ^ 2 + ‖p.2‖ ^ 2) := by
      rw [← Real.sqrt_sq (norm_nonneg (WithLp.toLp 2 p)), WithLp.prod_norm_sq_eq_of_L2]; simp
    rw [e1, e2]; congr 2; ring
  have hint := (hmp.integrable_comp_emb hem).2 (cos_weight_int (fun u : E3 => dens ‖u‖) dens_int3 y)
  rw [← hmp.integral_comp hem]
  simp only [Function.comp_def, hf] at hint ⊢
  rw [Measure.volume_eq_prod] at hint ⊢
  rw [integral_prod _ hint]
  have e3 : ∀ t : ℝ, ∫ v : EuclideanSpace ℝ (Fin 2), Real.cos (2 * Real.pi * ‖x‖ * t) * dens (Real.sqrt (t ^ 2 + ‖v‖ ^ 2)) =
      volume.real (Metric.ball (0 : EuclideanSpace ℝ (Fin 2)) 1) / (16 * (2 * Real.pi) ^ 4) * (Real.cos (2 * Real.pi * ‖x‖ * t) * (8 / (4 + (2 * Real.pi * t) ^ 4))) := by
    intro t
    rw [integral_const_mul, integral_fun_norm_addHaar volume (fun s => dens (Real.sqrt (t ^ 2 + s ^ 2)))]
    simp only [finrank_euclideanSpace, Fintype.card_fin, smul_eq_mul, nsmul_eq_mul, Nat.add_one_sub_one, pow_one]
    rw [dens_radial]
    have hp : 0 < 4 + (2 * Real.pi * t) ^ 4 := by positivity
    have := Real.pi_pos
    field_simp
    ring
  simp only [e3]
  rw [integral_const_mul, silv_inversion, abs_norm]

/-- Silverman's kernel is positive semi-definite in three dimensions. -/
theorem silv_psd3 : PSDOn Set.univ fun x y : E3 => silv ‖x - y‖ := by
  have h := psd_cos (fun u : E3 => dens ‖u‖) (fun u => dens_nonneg _) dens_int3
  intro ι _ x hx
  have hb : 0 < volume.real (Metric.ball (0 : EuclideanSpace ℝ (Fin 2)) 1) := by
    rw [measureReal_def]
    exact ENNReal.toReal_pos (Metric.measure_ball_pos _ _ one_pos).ne' measure_ball_lt_top.ne
  have hp := Real.pi_pos
  have h2 := (h ι x hx).smul (a := (volume.real (Metric.ball (0 : EuclideanSpace ℝ (Fin 2)) 1) / (16 * (2 * Real.pi) ^ 4))⁻¹) (by positivity)
  refine (funext₂ fun i j => ?_ : (fun i j => silv ‖x i - x j‖) = _) ▸ h2
  simp only
  rw [mix_silv, inv_mul_cancel_left₀ (by positivity)]

/-- Up to three coordinates, Silverman's kernel is positive semi-definite, whatever the bandwidth. -/
theorem silverman_psd {d : Type} [Fintype d] (hd : Fintype.card d ≤ 3) (σ : ℝ) :
    PSDOn Set.univ fun x y : d → ℝ => profile .silverman (Real.sqrt ((1 / σ) ^ 2 * euclidSq x y)) := by
  intro ι _ x _
  obtain ⟨e⟩ : Nonempty (d ↪ Fin 3) := Function.Embedding.nonempty_of_card_le (by simpa using hd)
  let z : ι → Fin 3 → ℝ := fun i => Function.extend e (fun k => Real.sqrt (1 / 2) * (1 / σ) * x i k) 0
  have h := (silv_psd3 ι (fun i => WithLp.toLp 2 (z i 0, WithLp.toLp 2 ![z i 1, z i 2])) fun _ => trivial).smul (a := Real.sqrt 2 / 2) (by positivity)
  refine (funext₂ fun i j => ?_ : (fun i j => profile .silverman (Real.sqrt ((1 / σ) ^ 2 * euclidSq (x i) (x j)))) = _) ▸ h
  simp only
  rw [profile_silv]
  congr 2
  rw [← Real.sqrt_mul (by norm_num), ← Real.sqrt_sq (norm_nonneg _), WithLp.prod_norm_sq_eq_of_L2, EuclideanSpace.norm_sq_eq]
  congr 1
  have hz : ∑ k, (z i k - z j k) ^ 2 = 1 / 2 * ((1 / σ) ^ 2 * euclidSq (x i) (x j)) := by
    unfold euclidSq
    rw [Finset.mul_sum, Finset.mul_sum]
    refine (Fintype.sum_of_injective e e.injective _ _ (fun k hk => ?_) fun k => ?_).symm
    · simp only [z]
      rw [Function.extend_apply' _ _ _ (by simpa using hk), Function.extend_apply' _ _ _ (by simpa using hk)]; simp
    · simp only [z]
      rw [e.injective.extend_apply, e.injective.extend_apply, ← mul_sub, mul_pow, mul_pow, Real.sq_sqrt (by norm_num)]; ring
  rw [← hz, Fin.sum_univ_three]
  simp [Fin.sum_univ_two]
  ring

end Silverman
end Kerch
