import Verif.Lemmas.GaussRelu
import Verif.Lemmas.PSD
import Verif.Props.RandomFeatures
import Mathlib.Probability.StrongLaw
import Mathlib.Probability.Independence.InfinitePi
/-!
# C104: the kernel with infinitely many random weights is the limit of those with finitely many
-/
set_option linter.unusedSectionVars false
set_option linter.unusedSimpArgs false
namespace Kerch
namespace RFLimit
open Finset MeasureTheory ProbabilityTheory Filter Topology
open scoped RealInnerProductSpace

variable {d : Type} [Fintype d]

/-! ## Specification -/

/-- The law of one weight: independent standard Gaussian entries (random_features.py:111-114). -/
noncomputable def weightLaw (d : Type) [Fintype d] : Measure (d → ℝ) := Measure.pi fun _ : d => gaussianReal 0 1

variable {Ω : Type} [MeasurableSpace Ω]

/-- A sequence of weights drawn independently. -/
structure Drawn (P : Measure Ω) (w : ℕ → Ω → d → ℝ) : Prop where
  meas : ∀ i, Measurable (w i)
  law : ∀ i, P.map (w i) = weightLaw d
  indep : Pairwise fun i j => IndepFun (w i) (w j) P

/-- The first `n` weights, as a kernel with `num_weights = n` holds them. -/
def first (w : ℕ → Ω → d → ℝ) (n : ℕ) (ω : Ω) : Matrix (Fin n) d ℝ := Matrix.of fun i => w i ω

/-! ## Helper lemmas -/

instance : IsProbabilityMeasure (weightLaw d) := by unfold weightLaw; infer_instance

theorem integral_weightLaw (G : EuclideanSpace ℝ d → ℝ) (hG : Continuous G) :
    ∫ w, G (WithLp.toLp 2 w) ∂(weightLaw d) = ∫ w, G w ∂(stdGaussian (EuclideanSpace ℝ d)) := by
  rw [← map_pi_eq_stdGaussian, integral_map (Measurable.aemeasurable (by fun_prop)) hG.aestronglyMeasurable]
  rfl

theorem integrable_weightLaw (G : EuclideanSpace ℝ d → ℝ) (hG : Integrable G (stdGaussian (EuclideanSpace ℝ d))) :
    Integrable (fun w => G (WithLp.toLp 2 w)) (weightLaw d) := by
  rw [← map_pi_eq_stdGaussian] at hG
  exact hG.comp_measurable (by fun_prop)

theorem inner_toLp (w x : d → ℝ) : ⟪(WithLp.toLp 2 w : EuclideanSpace ℝ d), WithLp.toLp 2 x⟫ = ∑ i, w i * x i := by
  simp [PiLp.inner_apply, mul_comm]

theorem vnorm_eq (x : d → ℝ) : vnorm x = ‖(WithLp.toLp 2 x : EuclideanSpace ℝ d)‖ := by
  simp [vnorm, EuclideanSpace.norm_eq]

theorem toLp_ne_zero (x : d → ℝ) (hx : x ≠ 0) : (WithLp.toLp 2 x : EuclideanSpace ℝ d) ≠ 0 := by
  intro h
  exact hx ((WithLp.toLp_eq_zero 2).1 h)

theorem slln (P : Measure Ω) [IsProbabilityMeasure P] (w : ℕ → Ω → d → ℝ) (h : Drawn P w) (F : (d → ℝ) → ℝ) (hF : Measurable F)
    (hi : Integrable F (weightLaw d)) :
    ∀ᵐ ω ∂P, Tendsto (fun n : ℕ => (∑ i : Fin n, F (w i ω)) / n) atTop (𝓝 (∫ v, F v ∂(weightLaw d))) := by
  have e : ∫ v, F v ∂(weightLaw d) = ∫ ω, F (w 0 ω) ∂P := by
    rw [← h.law 0, integral_map (h.meas 0).aemeasurable hF.aestronglyMeasurable]
  have h0 : Integrable (fun ω => F (w 0 ω)) P := by
    rw [← h.law 0] at hi
    exact hi.comp_measurable (h.meas 0)
  have := strong_law_ae_real (fun i ω => F (w i ω)) h0 (fun i j hij => (h.indep hij).comp hF hF) fun i =>
    ⟨(hF.comp (h.meas i)).aemeasurable, (hF.comp (h.meas 0)).aemeasurable, by
      show P.map (F ∘ w i) = P.map (F ∘ w 0)
      rw [← Measure.map_map hF (h.meas i), ← Measure.map_map hF (h.meas 0), h.law i, h.law 0]⟩
  filter_upwards [this] with ω hω
  rw [e]
  refine hω.congr fun n => ?_
  rw [Finset.sum_range fun i => F (w i ω)]

theorem rfKernel_mean (f : ℝ → ℝ) (n : ℕ) (hn : 0 < n) (σ : ℝ) (W : Matrix (Fin n) d ℝ) (x y : d → ℝ) :
    rfKernel f n σ W x y = (∑ i, f (∑ j, W i j * (1 / σ * x j)) * f (∑ j, W i j * (1 / σ * y j))) / n := by
  have hm : (0 : ℝ) < n := by exact_mod_cast hn
  have hs : Real.sqrt n * Real.sqrt n = n := Real.mul_self_sqrt hm.le
  have hs0 := Real.sqrt_pos.2 hm
  have e : ∀ (z : d → ℝ) i, W.mulVec z i * (1 / σ) = ∑ j, W i j * (1 / σ * z j) := fun z i => by
    rw [Matrix.mulVec, dotProduct, sum_mul]
    exact sum_congr rfl fun j _ => by ring
  rw [rfKernel, sum_div]
  refine sum_congr rfl fun i _ => ?_
  rw [rfPhi, rfPhi, e, e]
  generalize f (∑ j, W i j * (1 / σ * x j)) = a
  generalize f (∑ j, W i j * (1 / σ * y j)) = b
  have h1 : (1 / Real.sqrt (n : ℝ)) * (1 / Real.sqrt (n : ℝ)) = 1 / (n : ℝ) := by rw [div_mul_div_comm, hs, one_mul]
  calc _ = a * b * ((1 / Real.sqrt (n : ℝ)) * (1 / Real.sqrt (n : ℝ))) := by ring
    _ = _ := by rw [h1, mul_one_div]

/-- The general statement: the kernel with `n` weights tends to the mean over one weight. -/
theorem rfKernel_tendsto (f : ℝ → ℝ) (hf : Measurable f) (σ : ℝ) (x y : d → ℝ)
    (hi : Integrable (fun v : d → ℝ => f (∑ j, v j * (1 / σ * x j)) * f (∑ j, v j * (1 / σ * y j))) (weightLaw d))
    (P : Measure Ω) [IsProbabilityMeasure P] (w : ℕ → Ω → d → ℝ) (h : Drawn P w) :
    ∀ᵐ ω ∂P, Tendsto (fun n : ℕ => rfKernel f n σ (first w n ω) x y) atTop
      (𝓝 (∫ v, f (∑ j, v j * (1 / σ * x j)) * f (∑ j, v j * (1 / σ * y j)) ∂(weightLaw d))) := by
  have hm : Measurable fun v : d → ℝ => f (∑ j, v j * (1 / σ * x j)) * f (∑ j, v j * (1 / σ * y j)) :=
    (hf.comp (by fun_prop)).mul (hf.comp (by fun_prop))
  filter_upwards [slln P w h _ hm hi] with ω hω
  refine hω.congr' ?_
  filter_upwards [eventually_gt_atTop 0] with n hn
  rw [rfKernel_mean f n hn]
  rfl

theorem abs_lrelu_le (α t : ℝ) : ‖lrelu α t‖ ≤ (1 + |α|) * ‖t‖ := by
  have := abs_nonneg α
  have := abs_nonneg t
  rw [Real.norm_eq_abs, Real.norm_eq_abs]
  rcases le_total 0 t with h | h
  · rw [lrelu_nonneg α h]; nlinarith
  · rw [lrelu_nonpos α h, abs_mul]; nlinarith

theorem integrable_lrelu (α : ℝ) (x y : EuclideanSpace ℝ d) :
    Integrable (fun w => lrelu α ⟪w, x⟫ * lrelu α ⟪w, y⟫) (stdGaussian (EuclideanSpace ℝ d)) := by
  have hL : ∀ z : EuclideanSpace ℝ d, MemLp (fun w => lrelu α ⟪w, z⟫) 2 (stdGaussian (EuclideanSpace ℝ d)) := by
    intro z
    have h1 : MemLp (fun w : EuclideanSpace ℝ d => ⟪w, z⟫) 2 (stdGaussian (EuclideanSpace ℝ d)) :=
      (IsGaussian.memLp_two_id (μ := stdGaussian (EuclideanSpace ℝ d))).inner_const z
    refine h1.of_le_mul (((continuous_lrelu α).comp (by fun_prop)).aestronglyMeasurable) (c := 1 + |α|) (Eventually.of_forall fun w => abs_lrelu_le α _)
  exact (hL x).integrable_mul (hL y)

/-! ## The limits -/

/-- **C104**, random Fourier features: for weights drawn independently, almost surely the kernel with the first `n` weights tends to the closed form used for an infinite number of
weights, for every pair of points of any dimension and every bandwidth. -/
theorem C104_rff (σ : ℝ) (x y : d → ℝ) (P : Measure Ω) [IsProbabilityMeasure P] (w : ℕ → Ω → d → ℝ) (h : Drawn P w) :
    ∀ᵐ ω ∂P, Tendsto (fun n : ℕ => rffKernel n σ (first w n ω) x y) atTop (𝓝 (rffClosed σ x y)) := by
  have hm : Measurable fun v : d → ℝ => Real.cos (∑ j, v j * (1 / σ * x j - 1 / σ * y j)) := by fun_prop
  have hi : Integrable (fun v : d → ℝ => Real.cos (∑ j, v j * (1 / σ * x j - 1 / σ * y j))) (weightLaw d) :=
    (integrable_const (1 : ℝ)).mono' hm.aestronglyMeasurable (Eventually.of_forall fun v => Real.abs_cos_le_one _)
  have e : ∫ v : d → ℝ, Real.cos (∑ j, v j * (1 / σ * x j - 1 / σ * y j)) ∂(weightLaw d) = rffClosed σ x y := by
    have h1 := integral_weightLaw (d := d) (fun u => Real.cos ⟪u, WithLp.toLp 2 fun j => 1 / σ * x j - 1 / σ * y j⟫) (by fun_prop)
    rw [mean_cos] at h1
    simp only [inner_toLp] at h1
    rw [h1, rffClosed, EuclideanSpace.real_norm_sq_eq]
    congr 1
    rw [show (fun i => (1 / σ * x i - 1 / σ * y i) * (1 / σ * x i - 1 / σ * y i)) = fun i => (1 / σ * x i - 1 / σ * y i) ^ 2 from funext fun i => by ring]
    ring
  filter_upwards [slln P w h _ hm hi] with ω hω
  rw [e] at hω
  refine hω.congr' ?_
  filter_upwards [eventually_gt_atTop 0] with n hn
  have : Nonempty (Fin n) := ⟨⟨0, hn⟩⟩
  have := C35_formula (m := Fin n) σ (first w n ω) x y
  rw [Fintype.card_fin] at this
  rw [this]
  congr 1
  refine sum_congr rfl fun i _ => ?_
  congr 1
  rw [Matrix.mulVec, dotProduct, sum_div]
  refine sum_congr rfl fun j _ => ?_
  simp only [first, Matrix.of_apply, Pi.sub_apply]
  ring

theorem lreluForm_eq (α : ℝ) (x y : d → ℝ) (hx : x ≠ 0) (hy : y ≠ 0) :
    lreluForm α x y = some (∫ v, lrelu α (∑ j, v j * x j) * lrelu α (∑ j, v j * y j) ∂(weightLaw d)) := by
  have nx : vnorm x ≠ 0 := by rw [vnorm_eq]; exact norm_ne_zero_iff.2 (toLp_ne_zero x hx)
  have ny : vnorm y ≠ 0 := by rw [vnorm_eq]; exact norm_ne_zero_iff.2 (toLp_ne_zero y hy)
  have hc : Continuous fun u : EuclideanSpace ℝ d => lrelu α ⟪u, WithLp.toLp 2 x⟫ * lrelu α ⟪u, WithLp.toLp 2 y⟫ :=
    ((continuous_lrelu α).comp (by fun_prop)).mul ((continuous_lrelu α).comp (by fun_prop))
  have h1 := integral_weightLaw (d := d) _ hc
  rw [mean_lrelu α _ _ (toLp_ne_zero x hx) (toLp_ne_zero y hy)] at h1
  simp only [inner_toLp] at h1
  rw [h1, lreluForm, if_neg (by simp [nx, ny]), ← vnorm_eq, ← vnorm_eq]
  congr 4
  rw [sum_div]
  refine sum_congr rfl fun i _ => ?_
  field_simp

theorem scaled_ne_zero (σ : ℝ) (hσ : σ ≠ 0) (x : d → ℝ) (hx : x ≠ 0) : (fun i => 1 / σ * x i) ≠ 0 := by
  intro h
  refine hx (funext fun i => ?_)
  have := congrFun h i
  simpa [hσ] using this

/-- **C104**, leaky rectifiers: almost surely the kernel with the first `n` weights tends to the closed form, for every slope, bandwidth and pair of points but the origin. Missing: the
origin, where the closed form is not defined, see `C104_origin_violated`. -/
theorem C104_lrelu_partial (α σ : ℝ) (hσ : σ ≠ 0) (x y : d → ℝ) (hx : x ≠ 0) (hy : y ≠ 0) (P : Measure Ω) [IsProbabilityMeasure P] (w : ℕ → Ω → d → ℝ)
    (h : Drawn P w) :
    ∃ k, lreluInf α σ x y = some k ∧ ∀ᵐ ω ∂P, Tendsto (fun n : ℕ => rfKernel (lrelu α) n σ (first w n ω) x y) atTop (𝓝 k) := by
  refine ⟨_, lreluForm_eq α _ _ (scaled_ne_zero σ hσ x hx) (scaled_ne_zero σ hσ y hy), ?_⟩
  refine rfKernel_tendsto (lrelu α) (continuous_lrelu α).measurable σ x y ?_ P w h
  have := integrable_weightLaw (d := d) _ (integrable_lrelu α (WithLp.toLp 2 fun j => 1 / σ * x j) (WithLp.toLp 2 fun j => 1 / σ * y j))
  simpa only [inner_toLp] using this

/-- **C104**: the closed form for leaky rectifiers is a positive semi-definite kernel outside of the origin, for every slope. -/
theorem C104_psd (α σ : ℝ) (hσ : σ ≠ 0) : PSDOn {x : d → ℝ | x ≠ 0} fun x y => (lreluInf α σ x y).getD 0 := by
  intro ι _ x hx
  have e : ∀ i j, (lreluInf α σ (x i) (x j)).getD 0 =
      ∫ v, lrelu α (∑ k, v k * (1 / σ * x i k)) * lrelu α (∑ k, v k * (1 / σ * x j k)) ∂(weightLaw d) := fun i j => by
    rw [lreluInf, lreluForm_eq α _ _ (scaled_ne_zero σ hσ _ (hx i)) (scaled_ne_zero σ hσ _ (hx j))]; rfl
  have hi : ∀ i j, Integrable (fun v : d → ℝ => lrelu α (∑ k, v k * (1 / σ * x i k)) * lrelu α (∑ k, v k * (1 / σ * x j k))) (weightLaw d) := fun i j => by
    have := integrable_weightLaw (d := d) _ (integrable_lrelu α (WithLp.toLp 2 fun k => 1 / σ * x i k) (WithLp.toLp 2 fun k => 1 / σ * x j k))
    simpa only [inner_toLp] using this
  refine ⟨fun i j => ?_, fun c => ?_⟩
  · show (lreluInf α σ (x i) (x j)).getD 0 = (lreluInf α σ (x j) (x i)).getD 0
    rw [e, e]
    exact integral_congr_ae (Eventually.of_forall fun v => mul_comm _ _)
  · simp only [e]
    have h1 : ∑ i, ∑ j, c i * c j * ∫ v, lrelu α (∑ k, v k * (1 / σ * x i k)) * lrelu α (∑ k, v k * (1 / σ * x j k)) ∂(weightLaw d) =
        ∫ v, (∑ i, c i * lrelu α (∑ k, v k * (1 / σ * x i k))) ^ 2 ∂(weightLaw d) := by
      have h2 : ∀ v : d → ℝ, (∑ i, c i * lrelu α (∑ k, v k * (1 / σ * x i k))) ^ 2 =
          ∑ i, ∑ j, c i * c j * (lrelu α (∑ k, v k * (1 / σ * x i k)) * lrelu α (∑ k, v k * (1 / σ * x j k))) := fun v => by
        rw [sq, sum_mul_sum]
        exact sum_congr rfl fun i _ => sum_congr rfl fun j _ => by ring
      simp only [h2]
      rw [integral_finsetSum _ fun i _ => integrable_finsetSum _ fun j _ => (hi i j).const_mul _]
      refine sum_congr rfl fun i _ => ?_
      rw [integral_finsetSum _ fun j _ => (hi i j).const_mul _]
      refine sum_congr rfl fun j _ => ?_
      rw [integral_const_mul]
    rw [h1]
    exact integral_nonneg fun v => sq_nonneg _

/-- **C104**: with slope 1 the activation is the identity, and the closed form is the linear kernel of the scaled points. -/
theorem C104_identity (σ : ℝ) (hσ : σ ≠ 0) (x y : d → ℝ) (hx : x ≠ 0) (hy : y ≠ 0) :
    lreluInf 1 σ x y = some (∑ i, (1 / σ * x i) * (1 / σ * y i)) := by
  have nx : vnorm (fun i => 1 / σ * x i) ≠ 0 := by rw [vnorm_eq]; exact norm_ne_zero_iff.2 (toLp_ne_zero _ (scaled_ne_zero σ hσ x hx))
  have ny : vnorm (fun i => 1 / σ * y i) ≠ 0 := by rw [vnorm_eq]; exact norm_ne_zero_iff.2 (toLp_ne_zero _ (scaled_ne_zero σ hσ y hy))
  rw [lreluInf, lreluForm, if_neg (by simp only [nx, ny, or_self, not_false_eq_true])]
  congr 1
  simp only [lreluK, sub_self]
  have : ∑ i, 1 / σ * x i / vnorm (fun i => 1 / σ * x i) * (1 / σ * y i / vnorm fun i => 1 / σ * y i) =
      (∑ i, (1 / σ * x i) * (1 / σ * y i)) / (vnorm (fun i => 1 / σ * x i) * vnorm fun i => 1 / σ * y i) := by
    rw [sum_div]
    exact sum_congr rfl fun i _ => by rw [div_mul_div_comm]
  rw [this]
  generalize vnorm (fun i => 1 / σ * x i) = a at nx ⊢
  generalize vnorm (fun i => 1 / σ * y i) = b at ny ⊢
  generalize ∑ i, (1 / σ * x i) * (1 / σ * y i) = c
  field_simp
  ring

/-- **C104 is violated** at the origin: the kernels with finitely many weights are 0 there, the closed form is NaN, for every slope and bandwidth. -/
theorem C104_origin_violated (α σ : ℝ) (y : d → ℝ) :
    lreluInf α σ 0 y = none ∧ ∀ (n : ℕ) (W : Matrix (Fin n) d ℝ), rfKernel (lrelu α) n σ W 0 y = 0 := by
  constructor
  · simp [lreluInf, lreluForm, vnorm]
  · intro n W
    rw [rfKernel]
    refine sum_eq_zero fun i _ => ?_
    simp [rfPhi, lrelu]

/-- The closed form with the same tensor twice outside of the unit ball, where it is a number: the kernel function at `1/‖x‖²` instead of 1. At the origin it is NaN. -/
theorem C104_same_value (α : ℝ) (x : d → ℝ) (h1 : 1 ≤ vnorm x) :
    lreluFormSame α x = some (vnorm x ^ 2 * lreluK α (1 / vnorm x ^ 2) / 2) ∧ lreluFormSame α (0 : d → ℝ) = none := by
  have hp : 0 < vnorm x := by linarith
  have hsq : ∑ i, x i ^ 2 = vnorm x ^ 2 := (Real.sq_sqrt (sum_nonneg fun i _ => sq_nonneg _)).symm
  have hs : ∑ i, (x i / vnorm x / vnorm x) * (x i / vnorm x / vnorm x) = 1 / vnorm x ^ 2 := by
    have : ∑ i, (x i / vnorm x / vnorm x) * (x i / vnorm x / vnorm x) = (∑ i, x i ^ 2) / vnorm x ^ 4 := by
      rw [sum_div]
      exact sum_congr rfl fun i _ => by field_simp
    rw [this, hsq]
    field_simp
  constructor
  · rw [lreluFormSame, hs, if_neg]
    · rw [← sq]
    · rintro (h | h)
      · exact hp.ne' h
      · rw [lt_div_iff₀ (by positivity)] at h
        nlinarith
  · rw [lreluFormSame, if_pos (.inl (by simp [vnorm]))]

/-- **C104 is violated** by a direct call of the closed form with the same tensor twice: the value is NaN for all points within the unit ball (but its
boundary), instead of `(1 + α²)/2` times the squared norm. -/
theorem C104_same_violated (α : ℝ) (x : d → ℝ) (hx : x ≠ 0) (h1 : vnorm x < 1) :
    lreluFormSame α x = none ∧ lreluForm α x x = some ((1 + α ^ 2) / 2 * vnorm x ^ 2) := by
  have nx : vnorm x ≠ 0 := by rw [vnorm_eq]; exact norm_ne_zero_iff.2 (toLp_ne_zero x hx)
  have hp : 0 < vnorm x := lt_of_le_of_ne (Real.sqrt_nonneg _) (Ne.symm nx)
  have hsq : ∑ i, x i ^ 2 = vnorm x ^ 2 := (Real.sq_sqrt (sum_nonneg fun i _ => sq_nonneg _)).symm
  constructor
  · rw [lreluFormSame, if_pos]
    refine .inr ?_
    have : ∑ i, (x i / vnorm x / vnorm x) * (x i / vnorm x / vnorm x) = (∑ i, x i ^ 2) / vnorm x ^ 4 := by
      rw [sum_div]
      exact sum_congr rfl fun i _ => by field_simp
    rw [this, hsq, lt_div_iff₀ (by positivity)]
    have : vnorm x ^ 2 < 1 := by nlinarith
    have h2 : 0 < vnorm x ^ 2 := by positivity
    nlinarith
  · rw [lreluForm, if_neg (by simp [nx])]
    have : ∑ i, (x i / vnorm x) * (x i / vnorm x) = 1 := by
      have : ∑ i, (x i / vnorm x) * (x i / vnorm x) = (∑ i, x i ^ 2) / vnorm x ^ 2 := by
        rw [sum_div]
        exact sum_congr rfl fun i _ => by field_simp
      rw [this, hsq, div_self (by positivity)]
    rw [this, lreluK, Real.arccos_one]
    norm_num
    ring

/-! ## Concrete cases -/

/-- Weights drawn independently exist. -/
example : ∃ (w : ℕ → (ℕ → Fin 2 → ℝ) → Fin 2 → ℝ), Drawn (Measure.infinitePi fun _ : ℕ => weightLaw (Fin 2)) w := by
  refine ⟨fun i ω => ω i, fun i => measurable_pi_apply i, fun i => ?_, ?_⟩
  · exact (measurePreserving_eval_infinitePi (fun _ : ℕ => weightLaw (Fin 2)) i).map_eq
  · intro i j hij
    exact (iIndepFun_infinitePi (P := fun _ : ℕ => weightLaw (Fin 2)) (X := fun _ v => v) fun _ => measurable_id).indepFun hij

/-- Orthogonal points: the closed form of plain rectifiers is `1/(2π)`. -/
example : lreluInf 0 1 ![1, 0] ![0, 1] = some (1 / (2 * Real.pi)) := by
  simp [lreluInf, lreluForm, vnorm, lreluK, Fin.sum_univ_two]
  ring

end RFLimit
end Kerch
