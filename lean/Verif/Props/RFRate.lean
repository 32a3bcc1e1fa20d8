import Verif.Props.RFLimit
import Mathlib.Probability.Moments.SubGaussian
/-!
# C166: how many random weights are enough
-/
set_option linter.unusedSectionVars false
set_option linter.unusedSimpArgs false
namespace Kerch
namespace RFLimit
open Finset MeasureTheory ProbabilityTheory Filter Topology
open scoped RealInnerProductSpace

variable {d : Type} [Fintype d] {Ω : Type} [MeasurableSpace Ω]

/-! ## Specification -/

/-- Weights drawn independently of all the others (not only in pairs). -/
structure DrawnAll (P : Measure Ω) (w : ℕ → Ω → d → ℝ) : Prop where
  meas : ∀ i, Measurable (w i)
  law : ∀ i, P.map (w i) = weightLaw d
  indep : iIndepFun w P

/-! ## Helper lemmas -/

theorem DrawnAll.drawn {P : Measure Ω} {w : ℕ → Ω → d → ℝ} (h : DrawnAll P w) : Drawn P w := ⟨h.meas, h.law, fun _ _ hij => h.indep.indepFun hij⟩

/-- What one weight adds to the kernel. -/
noncomputable def term (σ : ℝ) (x y v : d → ℝ) : ℝ := Real.cos (∑ j, v j * (1 / σ * x j - 1 / σ * y j))

theorem term_meas (σ : ℝ) (x y : d → ℝ) : Measurable (term σ x y) := by unfold term; fun_prop

theorem term_abs (σ : ℝ) (x y v : d → ℝ) : |term σ x y v| ≤ 1 := Real.abs_cos_le_one _

theorem term_sq (σ : ℝ) (x y v : d → ℝ) : term σ x y v ^ 2 = 1 / 2 + term σ (fun j => 2 * x j) (fun j => 2 * y j) v / 2 := by
  rw [term, term, Real.cos_sq]
  congr 3
  rw [mul_sum]
  exact sum_congr rfl fun j _ => by ring

theorem term_integrable (σ : ℝ) (x y : d → ℝ) : Integrable (term σ x y) (weightLaw d) :=
  (integrable_const (1 : ℝ)).mono' (term_meas σ x y).aestronglyMeasurable (Eventually.of_forall fun v => term_abs σ x y v)

theorem term_mean (σ : ℝ) (x y : d → ℝ) : ∫ v, term σ x y v ∂(weightLaw d) = rffClosed σ x y := by
  have h1 := integral_weightLaw (d := d) (fun u => Real.cos ⟪u, WithLp.toLp 2 fun j => 1 / σ * x j - 1 / σ * y j⟫) (by fun_prop)
  rw [mean_cos] at h1
  simp only [inner_toLp] at h1
  simp only [term]
  rw [h1, rffClosed, EuclideanSpace.real_norm_sq_eq]
  congr 1
  rw [show (fun i => (1 / σ * x i - 1 / σ * y i) * (1 / σ * x i - 1 / σ * y i)) = fun i => (1 / σ * x i - 1 / σ * y i) ^ 2 from funext fun i => by ring]
  ring

theorem closed_double (σ : ℝ) (x y : d → ℝ) : rffClosed σ (fun j => 2 * x j) (fun j => 2 * y j) = rffClosed σ x y ^ 4 := by
  rw [rffClosed, rffClosed, ← Real.exp_nat_mul]
  congr 1
  have : ∑ i, (1 / σ * (2 * x i) - 1 / σ * (2 * y i)) * (1 / σ * (2 * x i) - 1 / σ * (2 * y i)) =
      4 * ∑ i, (1 / σ * x i - 1 / σ * y i) * (1 / σ * x i - 1 / σ * y i) := by
    rw [mul_sum]
    exact sum_congr rfl fun i _ => by ring
  rw [this]
  push_cast
  ring

theorem term_mean_sq (σ : ℝ) (x y : d → ℝ) : ∫ v, term σ x y v ^ 2 ∂(weightLaw d) = 1 / 2 + rffClosed σ x y ^ 4 / 2 := by
  simp only [term_sq]
  rw [integral_add (integrable_const _) ((term_integrable σ _ _).div_const 2), integral_div 2 (term σ (fun j => 2 * x j) (fun j => 2 * y j)), term_mean, closed_double]
  simp

section
variable {P : Measure Ω} [IsProbabilityMeasure P] {w : ℕ → Ω → d → ℝ}

theorem drawn_integral (h : Drawn P w) (i : ℕ) (F : (d → ℝ) → ℝ) (hF : Measurable F) : ∫ ω, F (w i ω) ∂P = ∫ v, F v ∂(weightLaw d) := by
  rw [← h.law i, integral_map (h.meas i).aemeasurable hF.aestronglyMeasurable]

theorem drawn_memLp (h : Drawn P w) (i : ℕ) (σ : ℝ) (x y : d → ℝ) : MemLp (fun ω => term σ x y (w i ω)) 2 P :=
  MemLp.of_bound ((term_meas σ x y).comp (h.meas i)).aestronglyMeasurable 1 (Eventually.of_forall fun _ => term_abs σ x y _)

theorem drawn_variance (h : Drawn P w) (i : ℕ) (σ : ℝ) (x y : d → ℝ) :
    variance (fun ω => term σ x y (w i ω)) P = (1 - rffClosed σ x y ^ 2) ^ 2 / 2 := by
  rw [variance_eq_sub (drawn_memLp h i σ x y), drawn_integral h i _ (term_meas σ x y), term_mean]
  have : ∫ ω, ((fun ω => term σ x y (w i ω)) ^ 2) ω ∂P = 1 / 2 + rffClosed σ x y ^ 4 / 2 := by
    rw [← term_mean_sq, ← drawn_integral h i _ ((term_meas σ x y).pow_const 2)]
    rfl
  rw [this]
  ring

theorem kernel_eq (w : ℕ → Ω → d → ℝ) (n : ℕ) (hn : 0 < n) (σ : ℝ) (x y : d → ℝ) (ω : Ω) :
    rffKernel n σ (first w n ω) x y = (n : ℝ)⁻¹ * ∑ i ∈ range n, term σ x y (w i ω) := by
  have : Nonempty (Fin n) := ⟨⟨0, hn⟩⟩
  have := C35_formula (m := Fin n) σ (first w n ω) x y
  rw [Fintype.card_fin] at this
  rw [this, div_eq_inv_mul, Finset.sum_range fun i => term σ x y (w i ω)]
  congr 1
  refine sum_congr rfl fun i _ => ?_
  rw [term]
  congr 1
  rw [Matrix.mulVec, dotProduct, sum_div]
  refine sum_congr rfl fun j _ => ?_
  simp only [first, Matrix.of_apply, Pi.sub_apply]
  ring

/-! ## The properties -/

/-- **C166**: a kernel with any number of random Fourier weights is right in the mean. -/
theorem C166_mean (h : Drawn P w) (n : ℕ) (hn : 0 < n) (σ : ℝ) (x y : d → ℝ) :
    ∫ ω, rffKernel n σ (first w n ω) x y ∂P = rffClosed σ x y := by
  have hn' : (n : ℝ) ≠ 0 := by positivity
  simp only [kernel_eq w n hn]
  rw [integral_const_mul, integral_finsetSum _ fun i _ => (drawn_memLp h i σ x y).integrable (by norm_num)]
  simp only [drawn_integral h _ _ (term_meas σ x y), term_mean, sum_const, card_range, nsmul_eq_mul]
  field_simp

/-- **C166**: its mean squared error is exactly `(1 - k²)² / (2 n)`, where `k` is the value with infinitely many weights: halved when the weights are doubled, zero on the diagonal. -/
theorem C166_error (h : Drawn P w) (n : ℕ) (hn : 0 < n) (σ : ℝ) (x y : d → ℝ) :
    ∫ ω, (rffKernel n σ (first w n ω) x y - rffClosed σ x y) ^ 2 ∂P = (1 - rffClosed σ x y ^ 2) ^ 2 / (2 * n) := by
  have hn' : (n : ℝ) ≠ 0 := by positivity
  have hL : ∀ i ∈ range n, MemLp (fun ω => term σ x y (w i ω)) 2 P := fun i _ => drawn_memLp h i σ x y
  have hv := IndepFun.variance_sum hL fun i _ j _ hij => (h.indep hij).comp (term_meas σ x y) (term_meas σ x y)
  have e : variance (fun ω => rffKernel n σ (first w n ω) x y) P = (1 - rffClosed σ x y ^ 2) ^ 2 / (2 * n) := by
    rw [show (fun ω => rffKernel n σ (first w n ω) x y) = fun ω => (n : ℝ)⁻¹ * (∑ i ∈ range n, fun ω => term σ x y (w i ω)) ω from
      funext fun ω => by rw [kernel_eq w n hn, Finset.sum_apply], variance_const_mul, hv]
    simp only [drawn_variance h, sum_const, card_range, nsmul_eq_mul]
    field_simp
  have hm : AEMeasurable (fun ω => rffKernel n σ (first w n ω) x y) P := by
    rw [show (fun ω => rffKernel n σ (first w n ω) x y) = fun ω => (n : ℝ)⁻¹ * ∑ i ∈ range n, term σ x y (w i ω) from funext fun ω => kernel_eq w n hn σ x y ω]
    exact ((Finset.measurable_fun_sum _ fun i _ => (term_meas σ x y).comp (h.meas i)).const_mul _).aemeasurable
  rw [← e, variance_eq_integral hm, C166_mean h n hn]

/-- **C166**, leaky rectifiers: for any number of weights the kernel is right in the mean, for every slope and pair of points but the origin. -/
theorem C166_lrelu_mean (h : Drawn P w) (α σ : ℝ) (hσ : σ ≠ 0) (x y : d → ℝ) (hx : x ≠ 0) (hy : y ≠ 0) (n : ℕ) (hn : 0 < n) :
    lreluInf α σ x y = some (∫ ω, rfKernel (lrelu α) n σ (first w n ω) x y ∂P) := by
  have hn' : (n : ℝ) ≠ 0 := by positivity
  have hi : Integrable (fun v : d → ℝ => lrelu α (∑ j, v j * (1 / σ * x j)) * lrelu α (∑ j, v j * (1 / σ * y j))) (weightLaw d) := by
    have := integrable_weightLaw (d := d) _ (integrable_lrelu α (WithLp.toLp 2 fun j => 1 / σ * x j) (WithLp.toLp 2 fun j => 1 / σ * y j))
    simpa only [inner_toLp] using this
  have hm : Measurable fun v : d → ℝ => lrelu α (∑ j, v j * (1 / σ * x j)) * lrelu α (∑ j, v j * (1 / σ * y j)) :=
    ((continuous_lrelu α).measurable.comp (by fun_prop)).mul ((continuous_lrelu α).measurable.comp (by fun_prop))
  rw [lreluInf, lreluForm_eq α _ _ (scaled_ne_zero σ hσ x hx) (scaled_ne_zero σ hσ y hy)]
  congr 1
  have hk : ∀ ω, rfKernel (lrelu α) n σ (first w n ω) x y =
      (∑ i : Fin n, (fun v : d → ℝ => lrelu α (∑ j, v j * (1 / σ * x j)) * lrelu α (∑ j, v j * (1 / σ * y j))) (w i ω)) / n := fun ω => by
    rw [rfKernel_mean _ n hn]; rfl
  generalize (fun v : d → ℝ => lrelu α (∑ j, v j * (1 / σ * x j)) * lrelu α (∑ j, v j * (1 / σ * y j))) = F at hi hm hk ⊢
  simp only [hk]
  have hF : ∀ i : ℕ, Integrable (fun ω => F (w i ω)) P := fun i => by
    have h1 := hi
    rw [← h.law i] at h1
    exact h1.comp_measurable (h.meas i)
  rw [integral_div, integral_finsetSum _ fun (i : Fin n) _ => hF i]
  simp only [drawn_integral h _ F hm, sum_const, card_univ, Fintype.card_fin, nsmul_eq_mul]
  field_simp

theorem subG (h : DrawnAll P w) (σ : ℝ) (x y : d → ℝ) (s : ℝ) (hs : s = 1 ∨ s = -1) (i : ℕ) :
    HasSubgaussianMGF (fun ω => s * (term σ x y (w i ω) - rffClosed σ x y)) 1 P := by
  have hm : Measurable fun ω => s * term σ x y (w i ω) := ((term_meas σ x y).comp (h.meas i)).const_mul s
  have h1 := hasSubgaussianMGF_of_mem_Icc (X := fun ω => s * term σ x y (w i ω)) (a := -1) (b := 1) (μ := P) hm.aemeasurable
    (Eventually.of_forall fun ω => by
      have := abs_le.1 (term_abs σ x y (w i ω))
      rcases hs with rfl | rfl
      · simpa using this
      · constructor <;> linarith [this.1, this.2])
  have e : ∫ ω, s * term σ x y (w i ω) ∂P = s * rffClosed σ x y := by
    rw [integral_const_mul, drawn_integral h.drawn i _ (term_meas σ x y), term_mean]
  have e2 : ((‖(1 : ℝ) - -1‖₊ / 2) ^ 2 : NNReal) = 1 := by
    ext
    push_cast
    norm_num
  rw [e, e2] at h1
  simpa only [mul_sub] using h1

theorem tail (h : DrawnAll P w) (n : ℕ) (hn : 0 < n) (σ : ℝ) (x y : d → ℝ) (ε : ℝ) (hε : 0 ≤ ε) (s : ℝ) (hs : s = 1 ∨ s = -1) :
    P.real {ω | ε ≤ s * (rffKernel n σ (first w n ω) x y - rffClosed σ x y)} ≤ Real.exp (-(n * ε ^ 2 / 2)) := by
  have hn' : (0 : ℝ) < n := by exact_mod_cast hn
  have hind : iIndepFun (fun i ω => s * (term σ x y (w i ω) - rffClosed σ x y)) P :=
    h.indep.comp (fun _ v => s * (term σ x y v - rffClosed σ x y)) fun _ => ((term_meas σ x y).sub_const _).const_mul s
  have := HasSubgaussianMGF.measure_sum_range_ge_le_of_iIndepFun hind (c := 1) (n := n) (fun i _ => subG h σ x y s hs i) (ε := n * ε) (by positivity)
  refine le_trans (le_of_eq ?_) (this.trans (le_of_eq ?_))
  · congr 1
    ext ω
    simp only [Set.mem_ofPred_eq]
    rw [kernel_eq w n hn, ← mul_sum, sum_sub_distrib, sum_const, card_range, nsmul_eq_mul]
    rw [show s * ((n : ℝ)⁻¹ * ∑ i ∈ range n, term σ x y (w i ω) - rffClosed σ x y) =
      (n : ℝ)⁻¹ * (s * (∑ i ∈ range n, term σ x y (w i ω) - n * rffClosed σ x y)) by field_simp]
    rw [inv_mul_eq_div, le_div_iff₀ hn', mul_comm]
  · congr 1
    push_cast
    field_simp

/-- **C166**: a kernel with `n` weights is off by `ε` or more with a probability of at most `2 exp(-n ε² / 2)`, for all points of any dimension and every bandwidth. -/
theorem C166_tail (h : DrawnAll P w) (n : ℕ) (hn : 0 < n) (σ : ℝ) (x y : d → ℝ) (ε : ℝ) (hε : 0 ≤ ε) :
    P.real {ω | ε ≤ |rffKernel n σ (first w n ω) x y - rffClosed σ x y|} ≤ 2 * Real.exp (-(n * ε ^ 2 / 2)) := by
  have h1 := tail h n hn σ x y ε hε 1 (.inl rfl)
  have h2 := tail h n hn σ x y ε hε (-1) (.inr rfl)
  refine le_trans (measureReal_mono (s₂ := {ω | ε ≤ 1 * (rffKernel n σ (first w n ω) x y - rffClosed σ x y)} ∪
    {ω | ε ≤ -1 * (rffKernel n σ (first w n ω) x y - rffClosed σ x y)}) ?_) ((measureReal_union_le _ _).trans (by linarith))
  intro ω hω
  simp only [Set.mem_ofPred_eq, Set.mem_union] at hω ⊢
  rcases le_abs.1 hω with h | h
  · left; linarith
  · right; linarith

/-- **C166**, the kernel matrix: for `N` points, with `n ≥ 2 / ε² · log (2 N² / δ)` weights all entries of the kernel matrix are within `ε` of those with infinitely many weights, up to
a probability `δ`. -/
theorem C166_enough (h : DrawnAll P w) {N : ℕ} (x : Fin N → d → ℝ) (σ : ℝ) (n : ℕ) (hn : 0 < n) (ε δ : ℝ) (hε : 0 < ε) (hδ : 0 < δ)
    (hnum : 2 / ε ^ 2 * Real.log (2 * N ^ 2 / δ) ≤ n) :
    P.real {ω | ∃ i j, ε ≤ |rffKernel n σ (first w n ω) (x i) (x j) - rffClosed σ (x i) (x j)|} ≤ δ := by
  have hset : {ω | ∃ i j, ε ≤ |rffKernel n σ (first w n ω) (x i) (x j) - rffClosed σ (x i) (x j)|} =
      ⋃ p : Fin N × Fin N, {ω | ε ≤ |rffKernel n σ (first w n ω) (x p.1) (x p.2) - rffClosed σ (x p.1) (x p.2)|} := by
    ext ω
    simp [Prod.exists]
  rw [hset]
  refine (measureReal_iUnion_fintype_le _).trans ?_
  refine (sum_le_sum fun p _ => C166_tail h n hn σ (x p.1) (x p.2) ε hε.le).trans ?_
  rw [sum_const, card_univ, Fintype.card_prod, Fintype.card_fin, nsmul_eq_mul]
  rcases Nat.eq_zero_or_pos N with rfl | hN
  · simpa using hδ.le
  have hN' : (0 : ℝ) < N := by exact_mod_cast hN
  have hlog : Real.log (2 * N ^ 2 / δ) ≤ n * ε ^ 2 / 2 := by
    rw [div_mul_eq_mul_div, div_le_iff₀ (by positivity)] at hnum
    linarith
  have hexp : Real.exp (-(n * ε ^ 2 / 2)) ≤ δ / (2 * N ^ 2) := by
    rw [Real.exp_neg, show δ / (2 * (N : ℝ) ^ 2) = (2 * N ^ 2 / δ)⁻¹ by rw [inv_div]]
    exact inv_anti₀ (by positivity) ((Real.log_le_iff_le_exp (by positivity)).1 hlog)
  calc ((N * N : ℕ) : ℝ) * (2 * Real.exp (-(n * ε ^ 2 / 2))) ≤ ((N * N : ℕ) : ℝ) * (2 * (δ / (2 * N ^ 2))) := by gcongr
    _ = δ := by push_cast; field_simp

end

/-! ## Concrete cases -/

theorem drawnAll_exists : DrawnAll (Measure.infinitePi fun _ : ℕ => weightLaw (Fin 2)) (fun i (ω : ℕ → Fin 2 → ℝ) => ω i) :=
  ⟨fun i => measurable_pi_apply i, fun i => (measurePreserving_eval_infinitePi (fun _ : ℕ => weightLaw (Fin 2)) i).map_eq,
    iIndepFun_infinitePi (P := fun _ : ℕ => weightLaw (Fin 2)) (X := fun _ v => v) fun _ => measurable_id⟩

/-- One weight. -/
example (x y : Fin 2 → ℝ) : ∫ ω, rffKernel 1 3 (first (fun i (ω : ℕ → Fin 2 → ℝ) => ω i) 1 ω) x y ∂(Measure.infinitePi fun _ : ℕ => weightLaw (Fin 2)) = rffClosed 3 x y :=
  C166_mean drawnAll_exists.drawn 1 one_pos 3 x y

example : ∃ k, lreluInf 0 1 ![1, 0] ![0, 1] = some k ∧
    k = ∫ ω, rfKernel (lrelu 0) 5 1 (first (fun i (ω : ℕ → Fin 2 → ℝ) => ω i) 5 ω) ![1, 0] ![0, 1] ∂(Measure.infinitePi fun _ : ℕ => weightLaw (Fin 2)) :=
  ⟨_, C166_lrelu_mean drawnAll_exists.drawn 0 1 one_ne_zero _ _ (by simp) (by simp) 5 (by norm_num), rfl⟩

/-- Far points: with 8 weights the mean squared error is at most 1/16, and it is 0 for equal points. -/
example (x y : Fin 2 → ℝ) : ∫ ω, (rffKernel 8 3 (first (fun i (ω : ℕ → Fin 2 → ℝ) => ω i) 8 ω) x y - rffClosed 3 x y) ^ 2 ∂(Measure.infinitePi fun _ : ℕ => weightLaw (Fin 2))
    = (1 - rffClosed 3 x y ^ 2) ^ 2 / 16 := by
  rw [C166_error drawnAll_exists.drawn 8 (by norm_num) 3 x y]
  norm_num

/-- 200 weights: an error of 1/2 has a probability of at most `2 exp(-25)`. -/
example (x y : Fin 2 → ℝ) : (Measure.infinitePi fun _ : ℕ => weightLaw (Fin 2)).real
    {ω | (1 / 2 : ℝ) ≤ |rffKernel 200 3 (first (fun i (ω : ℕ → Fin 2 → ℝ) => ω i) 200 ω) x y - rffClosed 3 x y|} ≤ 2 * Real.exp (-25) := by
  refine (C166_tail drawnAll_exists 200 (by norm_num) 3 x y (1 / 2) (by norm_num)).trans (le_of_eq ?_)
  norm_num

/-- Numbers meeting the condition of `C166_enough`: 10 points, errors of 1/2, 8000 weights and `δ = 1/5`. -/
example : 2 / (1 / 2 : ℝ) ^ 2 * Real.log (2 * (10 : ℕ) ^ 2 / (1 / 5)) ≤ (8000 : ℕ) := by
  have := Real.log_le_sub_one_of_pos (show (0 : ℝ) < 1000 by norm_num)
  norm_num at this ⊢
  linarith

end RFLimit
end Kerch
