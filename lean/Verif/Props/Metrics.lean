import Mathlib.Algebra.Order.Chebyshev
import Mathlib.Analysis.InnerProductSpace.PiL2
import Mathlib.Tactic.FinCases
import Verif.Props.KernelFun
import Verif.Props.Bandwidth
set_option linter.unusedSectionVars false
set_option linter.unusedSimpArgs false
/-!
# C152: choosing the distance of a kernel
-/
namespace Kerch
namespace Metrics
open Finset

section
variable {d : Type} [Fintype d] [Nonempty d]

/-! ## Helpers -/

theorem cheb_ge (x y : d → ℝ) (i : d) : |x i - y i| ≤ chebyshev x y := le_sup' (fun i => |x i - y i|) (mem_univ i)

theorem cheb_le {x y : d → ℝ} {c : ℝ} (h : ∀ i, |x i - y i| ≤ c) : chebyshev x y ≤ c := sup'_le _ _ fun i _ => h i

theorem sqrt_euclid (x y : d → ℝ) : Real.sqrt (euclidSq x y) = ‖WithLp.toLp 2 (x - y)‖ := by
  rw [EuclideanSpace.norm_eq]
  congr 1
  exact sum_congr rfl fun i _ => by simp [sq]

theorem euclid_nonneg (x y : d → ℝ) : 0 ≤ euclidSq x y := sum_nonneg fun _ _ => mul_self_nonneg _

theorem cheb_le_euclid (x y : d → ℝ) : chebyshev x y ≤ Real.sqrt (euclidSq x y) := by
  refine cheb_le fun i => Real.abs_le_sqrt ?_
  rw [sq]
  exact single_le_sum (f := fun i => (x i - y i) * (x i - y i)) (fun _ _ => mul_self_nonneg _) (mem_univ i)

theorem euclid_le_manhattan (x y : d → ℝ) : Real.sqrt (euclidSq x y) ≤ manhattan x y := by
  refine Real.sqrt_le_iff.2 ⟨sum_nonneg fun _ _ => abs_nonneg _, ?_⟩
  have := sum_sq_le_sq_sum_of_nonneg (s := univ) (f := fun i => |x i - y i|) fun _ _ => abs_nonneg _
  simpa [euclidSq, manhattan, sq_abs, sq] using this

theorem manhattan_le (x y : d → ℝ) : manhattan x y ≤ Real.sqrt (Fintype.card d) * Real.sqrt (euclidSq x y) := by
  rw [← Real.sqrt_mul (by positivity)]
  refine Real.le_sqrt_of_sq_le ?_
  have := sq_sum_le_card_mul_sum_sq (s := univ) (f := fun i => |x i - y i|)
  simpa [euclidSq, manhattan, sq_abs, sq] using this

theorem euclid_le_cheb (x y : d → ℝ) : Real.sqrt (euclidSq x y) ≤ Real.sqrt (Fintype.card d) * chebyshev x y := by
  have h0 : 0 ≤ chebyshev x y := (abs_nonneg _).trans (cheb_ge x y (Classical.arbitrary d))
  rw [← Real.sqrt_sq h0, ← Real.sqrt_mul (by positivity)]
  refine Real.sqrt_le_sqrt ?_
  have : euclidSq x y ≤ ∑ _i : d, chebyshev x y ^ 2 := sum_le_sum fun i _ => by
    have := cheb_ge x y i
    nlinarith [abs_nonneg (x i - y i), abs_mul_abs_self (x i - y i)]
  simpa using this

/-! ## C152 -/

/-- The distances that can be evaluated are distances: positive, zero between equal points only, symmetric, and no way round is shorter. -/
theorem C152_metric (D : DistKind) {x y : d → ℝ} {δ : ℝ} (h : dist D x y = .ok δ) :
    0 ≤ δ ∧ (δ = 0 ↔ x = y) ∧ dist D y x = .ok δ ∧ ∀ z δ₁ δ₂, dist D x z = .ok δ₁ → dist D z y = .ok δ₂ → δ ≤ δ₁ + δ₂ := by
  refine ⟨dist_nonneg' h, ?_⟩
  cases D with
  | minkowski p => cases h
  | euclidean =>
    have h := Except.ok.inj h
    refine ⟨?_, ?_, fun z δ₁ δ₂ h₁ h₂ => ?_⟩
    · rw [← h, sqrt_euclid, norm_eq_zero]
      constructor
      · intro e
        have : x - y = 0 := by simpa using congrArg WithLp.ofLp e
        exact sub_eq_zero.1 this
      · rintro rfl; simp
    · rw [← h, dist, euclidSq_comm]
    · rw [← h, ← Except.ok.inj h₁, ← Except.ok.inj h₂, sqrt_euclid, sqrt_euclid, sqrt_euclid]
      have : WithLp.toLp 2 (x - y) = WithLp.toLp 2 (x - z) + WithLp.toLp 2 (z - y) := by
        rw [← WithLp.toLp_add]; congr 1; abel
      rw [this]
      exact norm_add_le _ _
  | manhattan =>
    have h := Except.ok.inj h
    refine ⟨?_, ?_, fun z δ₁ δ₂ h₁ h₂ => ?_⟩
    · rw [← h, manhattan, sum_eq_zero_iff_of_nonneg fun _ _ => abs_nonneg _]
      simp [funext_iff, sub_eq_zero]
    · rw [← h, dist, manhattan_comm]
    · rw [← h, ← Except.ok.inj h₁, ← Except.ok.inj h₂, manhattan, manhattan, manhattan, ← sum_add_distrib]
      exact sum_le_sum fun i _ => abs_sub_le _ _ _
  | chebyshev =>
    have h := Except.ok.inj h
    refine ⟨?_, ?_, fun z δ₁ δ₂ h₁ h₂ => ?_⟩
    · rw [← h]
      constructor
      · intro e
        funext i
        have := cheb_ge x y i
        rw [e] at this
        exact sub_eq_zero.1 (abs_eq_zero.1 (le_antisymm this (abs_nonneg _)))
      · rintro rfl; exact chebyshev_self x
    · rw [← h, dist, chebyshev_comm]
    · rw [← h, ← Except.ok.inj h₁, ← Except.ok.inj h₂]
      exact cheb_le fun i => (abs_sub_le _ (z i) _).trans (add_le_add (cheb_ge x z i) (cheb_ge z y i))

/-- The Chebyshev distance is the least and the Manhattan distance the greatest, and they differ by at most the factor of the number of dimensions. -/
theorem C152_order (x y : d → ℝ) {c e m : ℝ} (hc : dist .chebyshev x y = .ok c) (he : dist .euclidean x y = .ok e) (hm : dist .manhattan x y = .ok m) :
    c ≤ e ∧ e ≤ m ∧ m ≤ Real.sqrt (Fintype.card d) * e ∧ e ≤ Real.sqrt (Fintype.card d) * c ∧ m ≤ Fintype.card d * c := by
  rw [← Except.ok.inj hc, ← Except.ok.inj he, ← Except.ok.inj hm]
  refine ⟨cheb_le_euclid x y, euclid_le_manhattan x y, manhattan_le x y, euclid_le_cheb x y, ?_⟩
  have : manhattan x y ≤ ∑ _i : d, chebyshev x y := sum_le_sum fun i _ => cheb_ge x y i
  simpa using this

/-- The bounds are attained: along one axis the distances agree, along the diagonal they differ by these factors. -/
theorem C152_sharp [DecidableEq d] (t : ℝ) (ht : 0 ≤ t) (i : d) :
    (∀ D ∈ [DistKind.chebyshev, .euclidean, .manhattan], dist D (Pi.single i t) 0 = .ok t) ∧
    dist .chebyshev (fun _ : d => t) 0 = .ok t ∧ dist .euclidean (fun _ : d => t) 0 = .ok (Real.sqrt (Fintype.card d) * t) ∧
    dist .manhattan (fun _ : d => t) 0 = .ok (Fintype.card d * t) := by
  have hm : manhattan (Pi.single i t) 0 = t := by
    simp only [manhattan, Pi.zero_apply, sub_zero]
    rw [sum_eq_single i (fun j _ hj => by simp [Pi.single_eq_of_ne hj]) (by simp)]
    simp [abs_of_nonneg ht]
  have hc : t ≤ chebyshev (Pi.single i t) 0 := by
    have := cheb_ge (Pi.single i t) 0 i
    simpa [abs_of_nonneg ht] using this
  have h1 := cheb_le_euclid (Pi.single i t) (0 : d → ℝ)
  have h2 := euclid_le_manhattan (Pi.single i t) (0 : d → ℝ)
  rw [hm] at h2
  refine ⟨?_, ?_, ?_, ?_⟩
  · intro D hD
    simp only [List.mem_cons, List.not_mem_nil, or_false] at hD
    rcases hD with rfl | rfl | rfl
    · exact congrArg Except.ok (le_antisymm (h1.trans h2) hc)
    · exact congrArg Except.ok (le_antisymm h2 (hc.trans h1))
    · exact congrArg Except.ok hm
  · refine congrArg Except.ok (le_antisymm (cheb_le fun i => by simp [abs_of_nonneg ht]) ?_)
    have := cheb_ge (fun _ : d => t) 0 i
    simpa [abs_of_nonneg ht] using this
  · refine congrArg Except.ok ?_
    simp only [euclidSq, Pi.zero_apply, sub_zero, sum_const, card_univ, nsmul_eq_mul]
    rw [Real.sqrt_mul (by positivity), Real.sqrt_mul_self ht]
  · refine congrArg Except.ok ?_
    simp [manhattan, abs_of_nonneg ht]

/-- In one dimension the choice makes no difference, for the distance, the bandwidth and the kernel. -/
theorem C152_one_dimension (h1 : Fintype.card d = 1) (D : DistKind) (hD : ∀ p, D ≠ .minkowski p) (x y : d → ℝ) :
    dist D x y = dist .euclidean x y ∧ ∀ s σ, 0 < σ → statKernel s D σ x y = statKernel s .euclidean σ x y := by
  have key : dist D x y = dist .euclidean x y := by
    obtain ⟨a, b, c, e, f⟩ := C152_order x y rfl rfl rfl
    rw [h1] at c e f
    simp only [Nat.cast_one, Real.sqrt_one, one_mul] at c e f
    cases D with
    | minkowski p => exact absurd rfl (hD p)
    | euclidean => rfl
    | manhattan => exact congrArg Except.ok (le_antisymm c b)
    | chebyshev => exact congrArg Except.ok (le_antisymm a e)
  refine ⟨key, fun s σ hσ => ?_⟩
  have he : dist .euclidean x y = .ok (Real.sqrt (euclidSq x y)) := rfl
  rw [statKernel_eq s hσ he, statKernel_eq s hσ (key.trans he)]

/-- At equal bandwidth, the kernel with the Chebyshev distance is the greatest and the one with the Manhattan distance the least. -/
theorem C152_kernels (s : StatKind) (hs : s ≠ .silverman) (σ : ℝ) (hσ : 0 < σ) (x y : d → ℝ) :
    ∃ kc ke km, statKernel s .chebyshev σ x y = .ok kc ∧ statKernel s .euclidean σ x y = .ok ke ∧ statKernel s .manhattan σ x y = .ok km ∧
      km ≤ ke ∧ ke ≤ kc := by
  obtain ⟨a, b, -⟩ := C152_order x y rfl rfl rfl
  refine ⟨_, _, _, statKernel_eq s hσ rfl, statKernel_eq s hσ rfl, statKernel_eq s hσ rfl, profile_antitone s hs ?_ ?_, profile_antitone s hs ?_ ?_⟩
  · exact div_nonneg (Real.sqrt_nonneg _) hσ.le
  · exact (div_le_div_iff_of_pos_right hσ).2 b
  · exact div_nonneg ((abs_nonneg _).trans (cheb_ge x y (Classical.arbitrary d))) hσ.le
  · exact (div_le_div_iff_of_pos_right hσ).2 a

/-- Similarity along a way: a kernel with the exponential of the distance is at least the product over the way, the triangular one at least the sum less one,
and the squared exponential at least the square of the product. -/
theorem C152_way (D : DistKind) (σ : ℝ) (hσ : 0 < σ) (x y z : d → ℝ) {δ : ℝ} (h : dist D x z = .ok δ) :
    (∃ a b c, statKernel (.exponential false) D σ x y = .ok a ∧ statKernel (.exponential false) D σ y z = .ok b ∧
      statKernel (.exponential false) D σ x z = .ok c ∧ a * b ≤ c) ∧
    (∃ a b c, statKernel .triangular D σ x y = .ok a ∧ statKernel .triangular D σ y z = .ok b ∧
      statKernel .triangular D σ x z = .ok c ∧ a + b - 1 ≤ c) ∧
    ∃ a b c, statKernel (.exponential true) D σ x y = .ok a ∧ statKernel (.exponential true) D σ y z = .ok b ∧
      statKernel (.exponential true) D σ x z = .ok c ∧ (a * b) ^ 2 ≤ c := by
  have hD : ∀ p, D ≠ .minkowski p := by rintro p rfl; cases h
  obtain ⟨δ₁, h₁⟩ := C25_dist_defined D hD x y
  obtain ⟨δ₂, h₂⟩ := C25_dist_defined D hD y z
  have tri := (C152_metric D h).2.2.2 y δ₁ δ₂ h₁ h₂
  have p0 := dist_nonneg' h
  have p1 := dist_nonneg' h₁
  have p2 := dist_nonneg' h₂
  have tri' : δ / σ ≤ δ₁ / σ + δ₂ / σ := by rw [← add_div]; exact (div_le_div_iff_of_pos_right hσ).2 tri
  have q0 : 0 ≤ δ / σ := div_nonneg p0 hσ.le
  have q1 : 0 ≤ δ₁ / σ := div_nonneg p1 hσ.le
  have q2 : 0 ≤ δ₂ / σ := div_nonneg p2 hσ.le
  obtain ⟨u, hu⟩ : ∃ u, u = δ / σ := ⟨_, rfl⟩
  obtain ⟨v, hv⟩ : ∃ v, v = δ₁ / σ := ⟨_, rfl⟩
  obtain ⟨w, hw⟩ : ∃ w, w = δ₂ / σ := ⟨_, rfl⟩
  rw [← hu, ← hv, ← hw] at tri'
  rw [← hu] at q0
  rw [← hv] at q1
  rw [← hw] at q2
  refine ⟨⟨_, _, _, statKernel_eq _ hσ h₁, statKernel_eq _ hσ h₂, statKernel_eq _ hσ h, ?_⟩,
    ⟨_, _, _, statKernel_eq _ hσ h₁, statKernel_eq _ hσ h₂, statKernel_eq _ hσ h, ?_⟩,
    ⟨_, _, _, statKernel_eq _ hσ h₁, statKernel_eq _ hσ h₂, statKernel_eq _ hσ h, ?_⟩⟩ <;> rw [← hu, ← hv, ← hw] <;> simp only [profile]
  · rw [← Real.exp_add]
    refine Real.exp_le_exp.2 ?_
    nlinarith [Real.sqrt_nonneg (1 / 2 : ℝ)]
  · split_ifs <;> linarith
  · rw [← Real.exp_add, ← Real.exp_nat_mul]
    refine Real.exp_le_exp.2 ?_
    push_cast
    nlinarith [sq_nonneg (v - w)]

/-- The square in the last case is needed: three points on a line, equally spaced. -/
theorem C152_way_sharp (D : DistKind) (hD : ∀ p, D ≠ .minkowski p) (σ : ℝ) (hσ : 0 < σ) :
    ∃ x y z : d → ℝ, ∃ a b c, statKernel (.exponential true) D σ x y = .ok a ∧ statKernel (.exponential true) D σ y z = .ok b ∧
      statKernel (.exponential true) D σ x z = .ok c ∧ c < a * b := by
  classical
  have i : d := Classical.arbitrary d
  have hmem : D ∈ [DistKind.chebyshev, .euclidean, .manhattan] := by
    cases D with
    | minkowski p => exact absurd rfl (hD p)
    | _ => simp
  have h1 := (C152_sharp σ hσ.le i).1 D hmem
  have h2 := (C152_sharp (2 * σ) (by positivity) i).1 D hmem
  have sub : ∀ x y z : d → ℝ, dist D (x - z) (y - z) = dist D x y := by
    intro x y z
    cases D <;> simp [dist, euclidSq, manhattan, chebyshev]
  have h3 : dist D (Pi.single i (2 * σ)) (Pi.single i σ) = .ok σ := by
    rw [← sub _ _ (Pi.single i σ), sub_self, ← h1]
    congr 1
    rw [← Pi.single_sub]
    congr 1; ring
  refine ⟨Pi.single i (2 * σ), Pi.single i σ, 0, _, _, _, statKernel_eq _ hσ h3, statKernel_eq _ hσ h1, statKernel_eq _ hσ h2, ?_⟩
  simp only [profile]
  rw [← Real.exp_add]
  refine Real.exp_lt_exp.2 ?_
  rw [div_self hσ.ne', mul_div_assoc, div_self hσ.ne']
  norm_num

/-- Kernels of bounded support: if `y` is seen from `x` at one bandwidth and `z` from `y` at another, then `z` is seen from `x` at the sum of both. -/
theorem C152_reach (s : StatKind) (hs : s.compact = true) (D : DistKind) (σ σ' : ℝ) (hσ : 0 < σ) (hσ' : 0 < σ') (x y z : d → ℝ) {a b : ℝ}
    (ha : statKernel s D σ x y = .ok a) (hb : statKernel s D σ' y z = .ok b) (ha0 : a ≠ 0) (hb0 : b ≠ 0) :
    ∃ c, statKernel s D (σ + σ') x z = .ok c ∧ 0 < c := by
  have hD : ∀ p, D ≠ .minkowski p := by rintro p rfl; rw [C25_minkowski_violated] at ha; cases ha
  obtain ⟨δ₁, h₁⟩ := C25_dist_defined D hD x y
  obtain ⟨δ₂, h₂⟩ := C25_dist_defined D hD y z
  obtain ⟨δ, h⟩ := C25_dist_defined D hD x z
  have tri := (C152_metric D h).2.2.2 y δ₁ δ₂ h₁ h₂
  obtain ⟨v, e1, -, -, k1⟩ := C25_compact s hs D x y δ₁ σ hσ h₁
  obtain ⟨w, e2, -, -, k2⟩ := C25_compact s hs D y z δ₂ σ' hσ' h₂
  obtain ⟨c, e3, c0, -, k3⟩ := C25_compact s hs D x z δ (σ + σ') (by positivity) h
  rw [ha] at e1
  rw [hb] at e2
  rw [← Except.ok.inj e1] at k1
  rw [← Except.ok.inj e2] at k2
  have k1 := (not_congr k1).1 ha0
  have k2 := (not_congr k2).1 hb0
  refine ⟨c, e3, lt_of_le_of_ne c0 (Ne.symm ((not_congr k3).2 ?_))⟩
  split_ifs at k1 k2 ⊢ <;> push Not at * <;> linarith

end

section
variable {n d : Type} [Fintype n] [Nonempty n] [Fintype d] [Nonempty d]

theorem median_le {N : Type} [Fintype N] {f g : N → ℝ} {a b c : ℝ} (hc : 0 ≤ c) (hf : IsLowerMedian f a) (hg : IsLowerMedian g b) (h : ∀ i, f i ≤ c * g i) :
    a ≤ c * b := by
  by_contra hab
  push Not at hab
  have : (univ.filter fun i => g i ≤ b).card ≤ (univ.filter fun i => f i < a).card := card_le_card fun i hi => by
    simp only [mem_filter, mem_univ, true_and] at *
    exact ((h i).trans (mul_le_mul_of_nonneg_left hi hc)).trans_lt hab
  have := hf.2.1
  have := hg.2.2
  omega

/-- The bandwidths found for a sample are in the same order, with the same factors. -/
theorem C152_bandwidth (pts : n → d → ℝ) : ∃ c e m, heuristicSigma .chebyshev pts = .ok c ∧ heuristicSigma .euclidean pts = .ok e ∧
    heuristicSigma .manhattan pts = .ok m ∧ c ≤ e ∧ e ≤ m ∧ m ≤ Real.sqrt (Fintype.card d) * e ∧ m ≤ Fintype.card d * c := by
  obtain ⟨δc, c, hc, mc, ec⟩ := C30_half_median .chebyshev (by simp) pts
  obtain ⟨δe, e, he, me, ee⟩ := C30_half_median .euclidean (by simp) pts
  obtain ⟨δm, m, hm, mm, em⟩ := C30_half_median .manhattan (by simp) pts
  have ord := fun ij : n × n => C152_order (pts ij.1) (pts ij.2) (hc ij) (he ij) (hm ij)
  refine ⟨_, _, _, ec, ee, em, ?_, ?_, ?_, ?_⟩
  · have := median_le zero_le_one mc me fun ij => by rw [one_mul]; exact (ord ij).1
    linarith
  · have := median_le zero_le_one me mm fun ij => by rw [one_mul]; exact (ord ij).2.1
    linarith
  · have := median_le (Real.sqrt_nonneg _) mm me fun ij => (ord ij).2.2.1
    linarith
  · have := median_le (by positivity) mm mc fun ij => (ord ij).2.2.2.2
    linarith

end

/-! ## Concrete cases -/

example : dist .manhattan (![3, 4] : Fin 2 → ℝ) 0 = .ok 7 ∧ dist .chebyshev (![3, 4] : Fin 2 → ℝ) 0 = .ok 4 := by
  constructor
  · simp [dist, manhattan, Fin.sum_univ_two]; norm_num
  · refine congrArg Except.ok (le_antisymm (cheb_le fun i => ?_) ?_)
    · fin_cases i <;> simp
      norm_num
    · have := cheb_ge (![3, 4] : Fin 2 → ℝ) 0 1
      simpa using this

example : (4 : ℝ) ≤ Real.sqrt (euclidSq (![3, 4] : Fin 2 → ℝ) 0) ∧ Real.sqrt (euclidSq (![3, 4] : Fin 2 → ℝ) 0) ≤ 7 := by
  have hm : dist .manhattan (![3, 4] : Fin 2 → ℝ) 0 = .ok 7 := by simp [dist, manhattan, Fin.sum_univ_two]; norm_num
  have hc : dist .chebyshev (![3, 4] : Fin 2 → ℝ) 0 = .ok 4 := by
    refine congrArg Except.ok (le_antisymm (cheb_le fun i => ?_) ?_)
    · fin_cases i <;> simp
      norm_num
    · have := cheb_ge (![3, 4] : Fin 2 → ℝ) 0 1
      simpa using this
  obtain ⟨a, b, -⟩ := C152_order (![3, 4] : Fin 2 → ℝ) 0 hc rfl hm
  exact ⟨a, b⟩

example : ∃ c, statKernel .triangular .manhattan 2 (fun _ : Fin 1 => 0) (fun _ => 3 / 2) = .ok c ∧ 0 < c := by
  have h : ∀ x y : ℝ, |x - y| = 3 / 4 → statKernel .triangular .manhattan 1 (fun _ : Fin 1 => x) (fun _ => y) = .ok (1 / 4) := fun x y e => by
    rw [statKernel_eq (δ := 3 / 4) _ one_pos (by simp [dist, manhattan, e])]
    simp only [profile]
    norm_num
  have := C152_reach .triangular rfl .manhattan 1 1 one_pos one_pos (fun _ : Fin 1 => 0) (fun _ => 3 / 4) (fun _ => 3 / 2)
    (h 0 (3 / 4) (by rw [abs_of_neg] <;> norm_num)) (h (3 / 4) (3 / 2) (by rw [abs_of_neg] <;> norm_num)) (by norm_num) (by norm_num)
  norm_num at this ⊢
  exact this

end Metrics
end Kerch
