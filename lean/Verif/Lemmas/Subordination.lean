import Mathlib.Analysis.SpecialFunctions.ImproperIntegrals
import Mathlib.Analysis.SpecialFunctions.Integrability.Basic
import Mathlib.MeasureTheory.Integral.IntegralEqImproper
import Verif.Lemmas.Overlap
import Verif.Model.KernelFun
set_option linter.unusedSectionVars false
set_option linter.unusedSimpArgs false
/-!
# The distance as a mixture of Gaussians; minima; Cauchy matrices
-/
namespace Kerch
open Finset MeasureTheory Set

section
variable {ι : Type} [Fintype ι]

/-- A mixture of positive semi-definite matrices is positive semi-definite. -/
theorem psdMat_mixture {α : Type} [MeasurableSpace α] (μ : Measure α) (N : α → ι → ι → ℝ) (hN : ∀ᵐ a ∂μ, PSDMat (N a))
    (hs : ∀ a i j, N a i j = N a j i) (hint : ∀ i j, Integrable (fun a => N a i j) μ) : PSDMat fun i j => ∫ a, N a i j ∂μ := by
  refine ⟨fun i j => by simp only [hs], fun c => ?_⟩
  have h : ∑ i, ∑ j, c i * c j * ∫ a, N a i j ∂μ = ∫ a, ∑ i, ∑ j, c i * c j * N a i j ∂μ := by
    rw [integral_finsetSum _ fun i _ => integrable_finsetSum _ fun j _ => (hint i j).const_mul _]
    refine sum_congr rfl fun i _ => ?_
    rw [integral_finsetSum _ fun j _ => (hint i j).const_mul _]
    exact sum_congr rfl fun j _ => by rw [integral_const_mul]
  rw [h]
  refine integral_nonneg_of_ae ?_
  filter_upwards [hN] with a ha using ha.2 c

theorem psdMat_finprod {d : Type} (s : Finset d) (M : d → ι → ι → ℝ) (h : ∀ k ∈ s, PSDMat (M k)) : PSDMat fun i j => ∏ k ∈ s, M k i j := by
  classical
  induction s using Finset.induction_on with
  | empty => simpa using psdMat_one
  | insert a s ha ih =>
    simp only [Finset.prod_insert ha]
    exact (h a (Finset.mem_insert_self _ _)).mul (ih fun k hk => h k (Finset.mem_insert_of_mem hk))

theorem psdMat_finsum {d : Type} (s : Finset d) (M : d → ι → ι → ℝ) (h : ∀ k ∈ s, PSDMat (M k)) : PSDMat fun i j => ∑ k ∈ s, M k i j := by
  classical
  induction s using Finset.induction_on with
  | empty => exact ⟨fun _ _ => rfl, fun c => by simp⟩
  | insert a s ha ih =>
    simp only [Finset.sum_insert ha]
    exact (h a (Finset.mem_insert_self _ _)).add (ih fun k hk => h k (Finset.mem_insert_of_mem hk))

/-- The exponential of a minimum. -/
theorem psdMat_exp_min (s : ι → ℝ) : PSDMat fun i j => Real.exp (min (s i) (s j)) := by
  have hp : ∀ i j u, (Iic (s i)).indicator (fun u => Real.exp (u / 2)) u * (Iic (s j)).indicator (fun u => Real.exp (u / 2)) u
      = (Iic (min (s i) (s j))).indicator (fun u => Real.exp u) u := by
    intro i j u
    by_cases hi : u ≤ s i <;> by_cases hj : u ≤ s j <;> simp [indicator, hi, hj, ← Real.exp_add]
  have := psdMat_integral (volume : Measure ℝ) (fun i => (Iic (s i)).indicator fun u => Real.exp (u / 2)) (fun i j => by
    simp only [hp]
    exact (integrable_indicator_iff measurableSet_Iic).2 (integrableOn_exp_Iic _))
  simp only [hp] at this
  simpa only [integral_indicator measurableSet_Iic, integral_exp_Iic] using this

/-- The exponential kernel of the line. -/
theorem psdMat_exp_abs {a : ℝ} (ha : 0 ≤ a) (s : ι → ℝ) : PSDMat fun i j => Real.exp (-(a * |s i - s j|)) := by
  have := (psdMat_exp_min fun i => 2 * a * s i).scale fun i => Real.exp (-(a * s i))
  refine (funext₂ fun i j => ?_ : (fun i j => Real.exp (-(a * |s i - s j|))) = _) ▸ this
  rw [← Real.exp_add, ← Real.exp_add]
  congr 1
  rw [← mul_min_of_nonneg _ _ (by positivity : 0 ≤ 2 * a)]
  rcases le_total (s i) (s j) with h | h
  · rw [min_eq_left h, abs_of_nonpos (by linarith)]; ring
  · rw [min_eq_right h, abs_of_nonneg (by linarith)]; ring

/-- Cauchy matrices. -/
theorem psdMat_cauchy (x : ι → ℝ) (hx : ∀ i, 0 < x i) : PSDMat fun i j => 1 / (x i + x j) := by
  have hi : ∀ i j, (fun t : ℝ => Real.exp (-(x i * t)) * Real.exp (-(x j * t))) = fun t => Real.exp (-(x i + x j) * t) := by
    intro i j; funext t; rw [← Real.exp_add]; congr 1; ring
  have hn : ∀ i j, -(x i + x j) < 0 := fun i j => by linarith [hx i, hx j]
  have := psdMat_integral (volume.restrict (Ioi (0 : ℝ))) (fun i t => Real.exp (-(x i * t))) (fun i j => by
    rw [hi]; exact integrableOn_exp_mul_Ioi (hn i j) 0)
  refine (funext₂ fun i j => ?_ : (fun i j => 1 / (x i + x j)) = _) ▸ this
  rw [hi, integral_exp_mul_Ioi (hn i j), mul_zero, Real.exp_zero, neg_div_neg_eq]

end

/-! ## the square root -/

/-- The density of the mixture. -/
noncomputable def levy (t : ℝ) : ℝ := (1 - Real.exp (-t)) * t ^ (-(3 / 2) : ℝ)

theorem levy_nonneg {t : ℝ} (ht : 0 < t) : 0 ≤ levy t :=
  mul_nonneg (by rw [sub_nonneg, Real.exp_le_one_iff]; linarith) (Real.rpow_nonneg ht.le _)

theorem levy_pos {t : ℝ} (ht : 0 < t) : 0 < levy t :=
  mul_pos (by rw [sub_pos, Real.exp_lt_one_iff]; linarith) (Real.rpow_pos_of_pos ht _)

theorem levy_contOn : ContinuousOn levy (Ioi 0) := by
  intro t ht
  have ht : t ≠ 0 := ne_of_gt ht
  exact ((continuous_const.sub (Real.continuous_exp.comp continuous_neg)).continuousAt.mul
    (Real.continuousAt_rpow_const _ _ (Or.inl ht))).continuousWithinAt

theorem levy_integrable : IntegrableOn levy (Ioi 0) := by
  rw [← Ioc_union_Ioi_eq_Ioi (zero_le_one (α := ℝ))]
  refine IntegrableOn.union ?_ ?_
  · have h : IntegrableOn (fun t : ℝ => t ^ (-(1 / 2) : ℝ)) (Ioc 0 1) := by
      have := intervalIntegral.intervalIntegrable_rpow' (a := 0) (b := 1) (r := -(1 / 2)) (by norm_num)
      rwa [intervalIntegrable_iff_integrableOn_Ioc_of_le zero_le_one] at this
    refine Integrable.mono' h ((levy_contOn.mono fun t ht => ht.1).aestronglyMeasurable measurableSet_Ioc) ?_
    filter_upwards [ae_restrict_mem measurableSet_Ioc] with t ht
    rw [Real.norm_of_nonneg (levy_nonneg ht.1)]
    have h1 : 1 - Real.exp (-t) ≤ t := by have := Real.add_one_le_exp (-t); linarith
    calc levy t ≤ t * t ^ (-(3 / 2) : ℝ) := mul_le_mul_of_nonneg_right h1 (Real.rpow_nonneg ht.1.le _)
      _ = t ^ (-(1 / 2) : ℝ) := by
        have := Real.rpow_add ht.1 1 (-(3 / 2))
        rw [Real.rpow_one] at this
        rw [← this]; norm_num
  · refine Integrable.mono' (integrableOn_Ioi_rpow_of_lt (a := -(3 / 2)) (by norm_num) zero_lt_one)
      ((levy_contOn.mono fun t (ht : 1 < t) => zero_lt_one.trans ht).aestronglyMeasurable measurableSet_Ioi) ?_
    filter_upwards [ae_restrict_mem measurableSet_Ioi] with t ht
    have ht0 : 0 < t := zero_lt_one.trans ht
    rw [Real.norm_of_nonneg (levy_nonneg ht0)]
    have h1 : 1 - Real.exp (-t) ≤ 1 := by linarith [Real.exp_pos (-t)]
    calc levy t ≤ 1 * t ^ (-(3 / 2) : ℝ) := mul_le_mul_of_nonneg_right h1 (Real.rpow_nonneg ht0.le _)
      _ = _ := one_mul _

theorem levy_integral_pos : 0 < ∫ t in Ioi 0, levy t := by
  rw [setIntegral_pos_iff_support_of_nonneg_ae]
  · have : Function.support levy ∩ Ioi 0 = Ioi (0 : ℝ) := by
      ext t; constructor
      · exact fun h => h.2
      · exact fun h => ⟨(levy_pos h).ne', h⟩
    rw [this]; simp
  · filter_upwards [ae_restrict_mem measurableSet_Ioi] with t ht using levy_nonneg ht
  · exact levy_integrable

theorem levy_scale {a t : ℝ} (ha : 0 < a) (ht : 0 < t) : (1 - Real.exp (-(a * t))) * t ^ (-(3 / 2) : ℝ) = a ^ (3 / 2 : ℝ) * levy (a * t) := by
  unfold levy
  rw [Real.mul_rpow ha.le ht.le]
  have : a ^ (3 / 2 : ℝ) * a ^ (-(3 / 2) : ℝ) = 1 := by rw [← Real.rpow_add ha]; norm_num
  calc _ = (a ^ (3 / 2 : ℝ) * a ^ (-(3 / 2) : ℝ)) * ((1 - Real.exp (-(a * t))) * t ^ (-(3 / 2) : ℝ)) := by rw [this, one_mul]
    _ = _ := by ring

theorem mixture_integrable {a : ℝ} (ha : 0 ≤ a) : IntegrableOn (fun t => (1 - Real.exp (-(a * t))) * t ^ (-(3 / 2) : ℝ)) (Ioi 0) := by
  rcases ha.eq_or_lt with rfl | ha
  · simp
  · have h : IntegrableOn (fun t => a ^ (3 / 2 : ℝ) * levy (a * t)) (Ioi 0) := by
      refine Integrable.const_mul ?_ _
      have := (integrableOn_Ioi_comp_mul_left_iff levy 0 ha).2 (by rw [mul_zero]; exact levy_integrable)
      exact this
    exact h.congr_fun (fun t ht => (levy_scale ha ht).symm) measurableSet_Ioi

/-- The square root is a mixture of the functions `1 - exp (-(a t))`. -/
theorem sqrt_mixture {a : ℝ} (ha : 0 ≤ a) :
    ∫ t in Ioi 0, (1 - Real.exp (-(a * t))) * t ^ (-(3 / 2) : ℝ) = Real.sqrt a * ∫ t in Ioi 0, levy t := by
  rcases ha.eq_or_lt with rfl | ha
  · simp
  · rw [setIntegral_congr_fun measurableSet_Ioi (g := fun t => a ^ (3 / 2 : ℝ) * levy (a * t)) fun t ht => levy_scale ha ht,
      integral_const_mul, integral_comp_mul_left_Ioi levy 0 ha, mul_zero, smul_eq_mul, ← mul_assoc]
    congr 1
    rw [Real.sqrt_eq_rpow, ← Real.rpow_neg_one, ← Real.rpow_add ha]
    norm_num

section
variable {ι d : Type} [Fintype ι] [Fintype d]

theorem euclidSq_nn (x y : d → ℝ) : 0 ≤ euclidSq x y := Finset.sum_nonneg fun _ _ => mul_self_nonneg _

/-- Gaussian matrices. -/
theorem psdMat_gauss {t : ℝ} (ht : 0 ≤ t) (x : ι → d → ℝ) : PSDMat fun i j => Real.exp (-(euclidSq (x i) (x j) * t)) := by
  have := (((psdMat_gram x).smul (a := 2 * t) (by positivity)).exp).scale fun i => Real.exp (-(t * (x i ⬝ᵥ x i)))
  refine (funext₂ fun i j => ?_ : (fun i j => Real.exp (-(euclidSq (x i) (x j) * t))) = _) ▸ this
  rw [← Real.exp_add, ← Real.exp_add]
  congr 1
  have : euclidSq (x i) (x j) = x i ⬝ᵥ x i - 2 * (x i ⬝ᵥ x j) + x j ⬝ᵥ x j := by
    simp only [euclidSq, dotProduct, mul_sum, ← sum_sub_distrib, ← sum_add_distrib]
    exact sum_congr rfl fun k _ => by ring
  rw [this]; ring

/-- A positive semi-definite matrix seen from an additional point. -/
theorem PSDMat.based {M : Option ι → Option ι → ℝ} (h : PSDMat M) :
    PSDMat fun i j : ι => M (some i) (some j) - M (some i) none - M none (some j) + M none none := by
  refine ⟨fun i j => ?_, fun c => ?_⟩
  · show _ - _ - _ + _ = _ - _ - _ + _
    rw [h.1 (some i) (some j), h.1 (some i) none, h.1 none (some j)]; ring
  · have := h.2 fun o => o.elim (-∑ i, c i) c
    simp only [Fintype.sum_option, Option.elim] at this
    refine this.trans_eq ?_
    simp only [mul_sub, mul_add, sum_sub_distrib, sum_add_distrib]
    have e1 : ∑ i, ∑ j, c i * c j * M (some i) none = ∑ i, c i * (∑ j, c j) * M (some i) none :=
      sum_congr rfl fun i _ => by rw [mul_sum, sum_mul]
    have e2 : ∑ i, ∑ j, c i * c j * M none (some j) = ∑ j, (∑ i, c i) * c j * M none (some j) := by
      rw [sum_comm]
      exact sum_congr rfl fun i _ => by rw [sum_mul, sum_mul]
    have e3 : ∑ i, ∑ j, c i * c j * M none none = (∑ i, c i) * (∑ i, c i) * M none none := by
      simp only [← sum_mul, ← mul_sum]
    rw [e1, e2, e3]
    have e4 : ∑ i, c i * -(∑ j, c j) * M (some i) none = -∑ i, c i * (∑ j, c j) * M (some i) none := by
      generalize ∑ j, c j = S
      rw [← sum_neg_distrib]; exact sum_congr rfl fun i _ => by ring
    have e5 : ∑ j, -(∑ i, c i) * c j * M none (some j) = -∑ j, (∑ i, c i) * c j * M none (some j) := by
      generalize ∑ j, c j = S
      rw [← sum_neg_distrib]; exact sum_congr rfl fun i _ => by ring
    rw [e4, e5]; ring

/-- The Euclidean distance is conditionally negative definite. -/
theorem psdMat_distance (x : ι → d → ℝ) :
    PSDMat fun i j => Real.sqrt (euclidSq (x i) 0) + Real.sqrt (euclidSq (x j) 0) - Real.sqrt (euclidSq (x i) (x j)) := by
  obtain ⟨I, hI⟩ : ∃ I, I = ∫ t in Ioi 0, levy t := ⟨_, rfl⟩
  have hpos : 0 < I := hI ▸ levy_integral_pos
  have hsymm : ∀ x y : d → ℝ, euclidSq x y = euclidSq y x := fun x y => Finset.sum_congr rfl fun k _ => by ring
  let g : (d → ℝ) → (d → ℝ) → ℝ → ℝ := fun x y t => (1 - Real.exp (-(euclidSq x y * t))) * t ^ (-(3 / 2) : ℝ)
  have hg : ∀ x y : d → ℝ, IntegrableOn (g x y) (Ioi 0) := fun x y => mixture_integrable (euclidSq_nn x y)
  have hgi : ∀ x y : d → ℝ, ∫ t in Ioi 0, g x y t = Real.sqrt (euclidSq x y) * I := fun x y => by
    rw [hI]; exact sqrt_mixture (euclidSq_nn x y)
  have key := psdMat_mixture (volume.restrict (Ioi (0 : ℝ))) (fun t i j => g (x i) 0 t + g (x j) 0 t - g (x i) (x j) t) ?_ ?_ ?_
  · have h2 := key.smul (a := 1 / I) (by positivity)
    refine (funext₂ fun i j => ?_ : (fun i j => Real.sqrt (euclidSq (x i) 0) + Real.sqrt (euclidSq (x j) 0) - Real.sqrt (euclidSq (x i) (x j))) = _) ▸ h2
    rw [integral_sub, integral_add, hgi, hgi, hgi]
    · field_simp
    · exact hg _ _
    · exact hg _ _
    · exact (hg _ _).add (hg _ _)
    · exact hg _ _
  · filter_upwards [ae_restrict_mem measurableSet_Ioi] with t ht
    have ht : 0 < t := ht
    have h1 := (psdMat_gauss ht.le fun o : Option ι => o.elim 0 x).based.smul (Real.rpow_nonneg ht.le (-(3 / 2)))
    refine (funext₂ fun i j => ?_ : (fun i j => g (x i) 0 t + g (x j) 0 t - g (x i) (x j) t) = _) ▸ h1
    simp only [Option.elim, g, hsymm 0 (x j)]
    have : euclidSq (0 : d → ℝ) 0 = 0 := by simp [euclidSq]
    rw [this, zero_mul, neg_zero, Real.exp_zero]
    ring
  · intro t i j
    simp only [g, hsymm (x j) (x i)]; ring
  · intro i j
    exact ((hg _ _).add (hg _ _)).sub (hg _ _)

/-- The exponential kernel of the Euclidean distance. -/
theorem psdMat_exp_euclid {a : ℝ} (ha : 0 ≤ a) (x : ι → d → ℝ) : PSDMat fun i j => Real.exp (-(a * Real.sqrt (euclidSq (x i) (x j)))) := by
  have := (((psdMat_distance x).smul ha).exp).scale fun i => Real.exp (-(a * Real.sqrt (euclidSq (x i) 0)))
  refine (funext₂ fun i j => ?_ : (fun i j => Real.exp (-(a * Real.sqrt (euclidSq (x i) (x j))))) = _) ▸ this
  rw [← Real.exp_add, ← Real.exp_add]
  congr 1; ring

end
end Kerch
