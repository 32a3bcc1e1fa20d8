import Mathlib.Analysis.SpecialFunctions.Exp
import Mathlib.Topology.Instances.Matrix
import Verif.Props.Bandwidth
/-!
# C127: what the bandwidth of a distance kernel does
-/
set_option linter.unusedSectionVars false
set_option linter.unusedSimpArgs false
namespace Kerch
namespace Tuning
open Finset Filter Topology

variable {d : Type} [Fintype d] [Nonempty d]

/-! ## Helper lemmas -/

theorem profile_atTop (s : StatKind) : Tendsto (profile s) atTop (𝓝 0) := by
  have hc : ∀ f : ℝ → ℝ, Tendsto (fun u => if u ≤ 1 then f u else 0) atTop (𝓝 0) := by
    intro f
    refine tendsto_const_nhds.congr' ?_
    filter_upwards [eventually_gt_atTop (1 : ℝ)] with u hu
    rw [if_neg (not_le.2 hu)]
  have h2 : (0 : ℝ) < Real.sqrt (1 / 2) := Real.sqrt_pos.2 (by norm_num)
  have he : Tendsto (fun u : ℝ => Real.exp (-(Real.sqrt (1 / 2) * u))) atTop (𝓝 0) :=
    Real.tendsto_exp_neg_atTop_nhds_zero.comp (tendsto_id.const_mul_atTop h2)
  cases s with
  | silverman =>
    refine squeeze_zero_norm (fun u => ?_) he
    unfold profile
    rw [norm_mul, Real.norm_eq_abs, abs_of_pos (Real.exp_pos _), Real.norm_eq_abs]
    exact mul_le_of_le_one_right (Real.exp_pos _).le (Real.abs_sin_le_one _)
  | logistic =>
    unfold profile
    refine Tendsto.div_atTop tendsto_const_nhds ?_
    refine tendsto_atTop_mono (fun u => ?_) Real.tendsto_exp_atTop
    have := Real.exp_pos (-u)
    linarith
  | exponential b =>
    cases b with
    | false =>
      unfold profile
      exact he.congr fun u => by rw [mul_comm u, neg_mul]
    | true =>
      unfold profile
      refine (Real.tendsto_exp_neg_atTop_nhds_zero.comp ((tendsto_pow_atTop (two_ne_zero)).const_mul_atTop (show (0 : ℝ) < 1 / 2 by norm_num))).congr fun u => ?_
      show Real.exp (-(1 / 2 * u ^ 2)) = _
      congr 1; ring
  | _ => exact hc _

theorem profile_at_zero (s : StatKind) : Tendsto (profile s) (𝓝[≥] 0) (𝓝 (profile s 0)) := by
  have hc : ∀ f : ℝ → ℝ, Continuous f → Tendsto (fun u => if u ≤ 1 then f u else 0) (𝓝[≥] 0) (𝓝 (if (0 : ℝ) ≤ 1 then f 0 else 0)) := by
    intro f hf
    rw [if_pos zero_le_one]
    refine (hf.continuousAt.tendsto.mono_left nhdsWithin_le_nhds).congr' ?_
    have : ∀ᶠ u : ℝ in 𝓝 0, u < 1 := (isOpen_gt' (1 : ℝ)).eventually_mem (by norm_num)
    filter_upwards [nhdsWithin_le_nhds this] with u hu
    rw [if_pos hu.le]
  have hcont : ∀ f : ℝ → ℝ, Continuous f → Tendsto f (𝓝[≥] 0) (𝓝 (f 0)) := fun f hf => hf.continuousAt.tendsto.mono_left nhdsWithin_le_nhds
  cases s with
  | silverman => unfold profile; exact hcont _ (by fun_prop)
  | logistic =>
    unfold profile
    refine hcont _ (Continuous.div continuous_const (by fun_prop) fun u => ?_)
    have := Real.exp_pos u
    have := Real.exp_pos (-u)
    positivity
  | exponential b => cases b <;> (unfold profile; exact hcont _ (by fun_prop))
  | epanechnikov => exact hc (fun u => 1 - u ^ 2) (by fun_prop)
  | quartic => exact hc (fun u => (1 - u ^ 2) ^ 2) (by fun_prop)
  | triweight => exact hc (fun u => (1 - u ^ 2) ^ 3) (by fun_prop)
  | tricube => exact hc (fun u => (1 - u ^ 3) ^ 3) (by fun_prop)
  | triangular => exact hc (fun u => 1 - u) (by fun_prop)
  | uniform => exact hc (fun _ => 1) (by fun_prop)

theorem profile_zero (s : StatKind) (hs : s ≠ .silverman) : profile s 0 = 1 := by
  cases s with
  | silverman => exact absurd rfl hs
  | logistic => simp only [profile]; norm_num
  | exponential b => cases b <;> simp [profile]
  | _ => simp [profile]

/-! ## Properties -/

/-- **C127** A greater bandwidth never decreases a kernel value, for every statistics kernel but Silverman's, every distance and every two points. -/
theorem C127_monotone_partial (s : StatKind) (hs : s ≠ .silverman) (D : DistKind) (hD : ∀ p, D ≠ .minkowski p) (x y : d → ℝ) (σ σ' : ℝ) (hσ : 0 < σ) (hle : σ ≤ σ') :
    ∃ v v', statKernel s D σ x y = .ok v ∧ statKernel s D σ' x y = .ok v' ∧ v ≤ v' := by
  obtain ⟨δ, hδ⟩ := C25_dist_defined D hD x y
  have h0 := dist_nonneg' hδ
  exact ⟨_, _, statKernel_eq s hσ hδ, statKernel_eq s (hσ.trans_le hle) hδ,
    profile_antitone s hs (div_nonneg h0 (hσ.trans_le hle).le) (div_le_div_of_nonneg_left h0 hσ hle)⟩

/-- **C127** For the kernels that are nowhere zero, the value of two distinct points strictly increases with the bandwidth: two bandwidths never give the same kernel. -/
theorem C127_strict (s : StatKind) (hs : s = .logistic ∨ ∃ b, s = .exponential b) (D : DistKind) (hD : ∀ p, D ≠ .minkowski p) (x y : d → ℝ) (hxy : x ≠ y)
    (σ σ' : ℝ) (hσ : 0 < σ) (hlt : σ < σ') :
    ∃ v v', statKernel s D σ x y = .ok v ∧ statKernel s D σ' x y = .ok v' ∧ v < v' := by
  obtain ⟨δ, hδ⟩ := C25_dist_defined D hD x y
  have h0 : 0 < δ := lt_of_le_of_ne (dist_nonneg' hδ) fun h => hxy ((dist_eq_zero_iff hδ).1 h.symm)
  refine ⟨_, _, statKernel_eq s hσ hδ, statKernel_eq s (hσ.trans hlt) hδ, ?_⟩
  have hu : 0 < δ / σ' := div_pos h0 (hσ.trans hlt)
  have huv : δ / σ' < δ / σ := div_lt_div_of_pos_left h0 hσ hlt
  have h2 : (0 : ℝ) < Real.sqrt (1 / 2) := Real.sqrt_pos.2 (by norm_num)
  generalize δ / σ' = u at *
  generalize δ / σ = v at *
  rcases hs with rfl | ⟨b, rfl⟩
  · simp only [profile]
    have key : Real.exp u + Real.exp (-u) < Real.exp v + Real.exp (-v) := by
      have h1 : Real.exp u < Real.exp v := Real.exp_lt_exp.2 huv
      have hu1 : 1 < Real.exp u := Real.one_lt_exp_iff.2 hu
      have e1 : Real.exp (-u) = 1 / Real.exp u := by rw [Real.exp_neg, one_div]
      have e2 : Real.exp (-v) = 1 / Real.exp v := by rw [Real.exp_neg, one_div]
      rw [e1, e2]
      have hv1 : 1 < Real.exp v := hu1.trans h1
      generalize Real.exp u = a at *
      generalize Real.exp v = b at *
      have hab : 1 < a * b := by nlinarith
      have : b + 1 / b - (a + 1 / a) = (b - a) * (a * b - 1) / (a * b) := by field_simp; ring
      have h3 : 0 < (b - a) * (a * b - 1) / (a * b) := by
        apply div_pos (mul_pos (by linarith) (by linarith)) (by linarith)
      linarith
    have := Real.exp_pos u
    have := Real.exp_pos (-u)
    exact div_lt_div_of_pos_left (by norm_num) (by linarith) (by linarith)
  · cases b with
    | false =>
      simp only [profile]
      exact Real.exp_lt_exp.2 (by nlinarith)
    | true =>
      simp only [profile]
      exact Real.exp_lt_exp.2 (by nlinarith)

/-- **C127** As the bandwidth goes to zero, the value of any two distinct points goes to zero, for every statistics kernel and every distance. -/
theorem C127_narrow (s : StatKind) (D : DistKind) (hD : ∀ p, D ≠ .minkowski p) (x y : d → ℝ) (hxy : x ≠ y) :
    ∃ f : ℝ → ℝ, (∀ σ, 0 < σ → statKernel s D σ x y = .ok (f σ)) ∧ Tendsto f (𝓝[>] 0) (𝓝 0) := by
  obtain ⟨δ, hδ⟩ := C25_dist_defined D hD x y
  have h0 : 0 < δ := lt_of_le_of_ne (dist_nonneg' hδ) fun h => hxy ((dist_eq_zero_iff hδ).1 h.symm)
  refine ⟨fun σ => profile s (δ / σ), fun σ hσ => statKernel_eq s hσ hδ, (profile_atTop s).comp ?_⟩
  have : Tendsto (fun σ : ℝ => δ * σ⁻¹) (𝓝[>] 0) atTop := tendsto_inv_nhdsGT_zero.const_mul_atTop h0
  exact this.congr fun σ => (div_eq_mul_inv _ _).symm

/-- **C127** As the bandwidth grows, all values go to the one on the diagonal, which is 1 for every statistics kernel but Silverman's. -/
theorem C127_wide (s : StatKind) (D : DistKind) (hD : ∀ p, D ≠ .minkowski p) (x y : d → ℝ) :
    ∃ (f : ℝ → ℝ) (v : ℝ), (∀ σ, 0 < σ → statKernel s D σ x y = .ok (f σ)) ∧ (∀ σ, 0 < σ → statKernel s D σ x x = .ok v) ∧ Tendsto f atTop (𝓝 v) ∧
      (s ≠ .silverman → v = 1) := by
  obtain ⟨δ, hδ⟩ := C25_dist_defined D hD x y
  obtain ⟨δ0, hδ0⟩ := C25_dist_defined D hD x x
  obtain rfl : δ0 = 0 := (dist_eq_zero_iff hδ0).2 rfl
  refine ⟨fun σ => profile s (δ / σ), profile s 0, fun σ hσ => statKernel_eq s hσ hδ, fun σ hσ => ?_, (profile_at_zero s).comp ?_, profile_zero s⟩
  · simpa using statKernel_eq s hσ hδ0
  · refine tendsto_nhdsWithin_iff.2 ⟨?_, ?_⟩
    · exact tendsto_const_nhds.div_atTop tendsto_id
    · filter_upwards [eventually_gt_atTop (0 : ℝ)] with σ hσ
      exact div_nonneg (dist_nonneg' hδ) hσ.le

/-- **C127** The kernel matrix of a sample without repetitions goes to the identity as the bandwidth goes to zero, for every statistics kernel but Silverman's. -/
theorem C127_identity_partial {n : Type} [Fintype n] [DecidableEq n] (s : StatKind) (hs : s ≠ .silverman) (D : DistKind) (hD : ∀ p, D ≠ .minkowski p) (pts : n → d → ℝ)
    (hp : Function.Injective pts) :
    ∃ K : ℝ → Matrix n n ℝ, (∀ σ, 0 < σ → ∀ i j, statKernel s D σ (pts i) (pts j) = .ok (K σ i j)) ∧ Tendsto K (𝓝[>] 0) (𝓝 1) := by
  have h : ∀ i j, ∃ f : ℝ → ℝ, (∀ σ, 0 < σ → statKernel s D σ (pts i) (pts j) = .ok (f σ)) ∧ Tendsto f (𝓝[>] 0) (𝓝 ((1 : Matrix n n ℝ) i j)) := by
    intro i j
    by_cases hij : i = j
    · subst hij
      refine ⟨fun _ => 1, fun σ _ => C25_diagonal_partial s hs D hD σ _, ?_⟩
      rw [Matrix.one_apply_eq]; exact tendsto_const_nhds
    · rw [Matrix.one_apply_ne hij]
      exact C127_narrow s D hD _ _ fun e => hij (hp e)
  choose f h1 h2 using h
  exact ⟨fun σ i j => f i j σ, fun σ hσ i j => h1 i j σ hσ, tendsto_pi_nhds.2 fun i => tendsto_pi_nhds.2 fun j => h2 i j⟩

/-- **C127** violated: with Silverman's kernel there are two points and two bandwidths such that the greater one gives the smaller value; the diagonal is not 1 at any
bandwidth. -/
theorem C127_silverman_violated (D : DistKind) (hD : ∀ p, D ≠ .minkowski p) :
    (∃ (x y : Fin 1 → ℝ) (σ σ' v v' : ℝ), 0 < σ ∧ σ < σ' ∧ statKernel .silverman D σ x y = .ok v ∧ statKernel .silverman D σ' x y = .ok v' ∧ v' < v) ∧
    ∀ (x : d → ℝ) (σ : ℝ), 0 < σ → statKernel .silverman D σ x x ≠ .ok 1 := by
  obtain ⟨h0, u, v, hu, huv, hneg, hlt⟩ := C25_silverman_violated
  constructor
  · have hu' : 0 < u := by
      refine lt_of_le_of_ne hu fun h => ?_
      rw [← h] at hneg
      simp only [profile, mul_zero, neg_zero, Real.exp_zero, one_mul, add_zero] at hneg
      have : Real.sin (0.25 * Real.pi) = Real.sqrt 2 / 2 := by rw [← Real.sin_pi_div_four]; congr 1; ring
      rw [this] at hneg
      have := Real.sqrt_nonneg 2
      linarith
    have hd : dist D (fun _ : Fin 1 => (0 : ℝ)) (fun _ => 1) = .ok 1 := by
      cases D with
      | euclidean => simp [dist, euclidSq]
      | manhattan => simp [dist, manhattan]
      | chebyshev => simp [dist, chebyshev]
      | minkowski p => exact absurd rfl (hD p)
    refine ⟨fun _ => 0, fun _ => 1, 1 / v, 1 / u, profile .silverman v, profile .silverman u, one_div_pos.2 (hu'.trans huv),
      one_div_lt_one_div_of_lt hu' huv, ?_, ?_, hlt⟩
    · simpa using statKernel_eq (s := .silverman) (one_div_pos.2 (hu'.trans huv)) hd
    · simpa using statKernel_eq (s := .silverman) (one_div_pos.2 hu') hd
  · intro x σ hσ h
    obtain ⟨δ0, hδ0⟩ := C25_dist_defined D hD x x
    obtain rfl : δ0 = 0 := (dist_eq_zero_iff hδ0).2 rfl
    rw [statKernel_eq .silverman hσ hδ0, zero_div] at h
    exact h0 (Except.ok.inj h)

/-! ## Examples -/

example : ∃ v v', statKernel .tricube .manhattan 1 ![0, 0] ![0, 1 / 2] = .ok v ∧ statKernel .tricube .manhattan 3 ![0, 0] ![0, 1 / 2] = .ok v' ∧ v ≤ v' :=
  C127_monotone_partial .tricube (by decide) .manhattan (by simp) _ _ 1 3 (by norm_num) (by norm_num)

example : ∃ v v', statKernel .logistic .chebyshev 1 ![0, 0] ![0, 1] = .ok v ∧ statKernel .logistic .chebyshev 3 ![0, 0] ![0, 1] = .ok v' ∧ v < v' :=
  C127_strict .logistic (.inl rfl) .chebyshev (by simp) _ _ (fun h => by simpa using congrFun h 1) 1 3 (by norm_num) (by norm_num)

example : ∃ f : ℝ → ℝ, (∀ σ, 0 < σ → statKernel .silverman .euclidean σ ![0, 0] ![0, 1] = .ok (f σ)) ∧ Tendsto f (𝓝[>] 0) (𝓝 0) :=
  C127_narrow .silverman .euclidean (by simp) _ _ fun h => by simpa using congrFun h 1

example : ∃ K : ℝ → Matrix (Fin 2) (Fin 2) ℝ, (∀ σ, 0 < σ → ∀ i j, statKernel (.exponential true) .euclidean σ (fun _ : Fin 1 => (![0, 1] : Fin 2 → ℝ) i)
    (fun _ => (![0, 1] : Fin 2 → ℝ) j) = .ok (K σ i j)) ∧ Tendsto K (𝓝[>] 0) (𝓝 1) := by
  refine C127_identity_partial (.exponential true) (by decide) .euclidean (by simp) (fun i _ => (![0, 1] : Fin 2 → ℝ) i) fun i j h => ?_
  have := congrFun h 0
  revert this
  fin_cases i <;> fin_cases j <;> simp

end Tuning
end Kerch
