import Mathlib.LinearAlgebra.LinearIndependent.Basic
import Mathlib.Analysis.Calculus.Deriv.Abs
import Mathlib.Analysis.SpecialFunctions.Sqrt
import Mathlib.Analysis.SpecialFunctions.Log.Deriv
import Mathlib.Tactic.FinCases
import Verif.Lemmas.Silverman
import Verif.Lemmas.PSDStat
set_option linter.unusedSectionVars false
set_option linter.unusedSimpArgs false
/-!
# Strictly positive definite kernels
-/
namespace Kerch
namespace Strict
open Finset

/-- The matrices of pairwise different points are positive definite. -/
def PDOn {X : Type} (Z : Set X) (κ : X → X → ℝ) : Prop :=
  ∀ (ι : Type) [Fintype ι] (x : ι → X), Function.Injective x → (∀ i, x i ∈ Z) → ∀ c : ι → ℝ, c ≠ 0 → 0 < ∑ i, ∑ j, c i * c j * κ (x i) (x j)

/-- A vector whose quadratic form vanishes is mapped to zero. -/
theorem psd_null {ι : Type} [Fintype ι] {M : ι → ι → ℝ} (hM : PSDMat M) {c : ι → ℝ} (h : ∑ i, ∑ j, c i * c j * M i j = 0) (i : ι) : ∑ j, c j * M i j = 0 := by
  classical
  have h1 := (psdMat_iff M).1 hM
  have h2 := (h1.dotProduct_mulVec_zero_iff c).1 (by
    rw [← h]
    simp only [dotProduct, Matrix.mulVec, mul_sum, Pi.star_apply, star_trivial, Matrix.of_apply]
    exact sum_congr rfl fun i _ => sum_congr rfl fun j _ => by ring)
  have h3 := congrFun h2 i
  simp only [Matrix.mulVec, dotProduct, Matrix.of_apply, Pi.zero_apply] at h3
  rw [← h3]
  exact sum_congr rfl fun j _ => mul_comm _ _

/-- A positive semi-definite kernel whose sections are linearly independent is strictly positive definite. -/
theorem strict_of_null {X : Type} {κ : X → X → ℝ} (h : PSDOn Set.univ κ)
    (hn : ∀ (ι : Type) [Fintype ι] (x : ι → X), Function.Injective x → ∀ c : ι → ℝ, (∀ z, ∑ i, c i * κ z (x i) = 0) → c = 0) : PDOn Set.univ κ := by
  intro ι _ x hx _ c hc
  refine lt_of_le_of_ne ((h ι x fun _ => trivial).2 c) fun h0 => hc (hn ι x hx c fun z => ?_)
  have h1 := h (Option ι) (fun o => o.elim z x) fun _ => trivial
  have h2 := psd_null h1 (c := fun o => o.elim 0 c) (by
    simp [Fintype.sum_option, ← h0]) none
  simpa [Fintype.sum_option] using h2

theorem PDOn.comp {X Y : Type} {κ : Y → Y → ℝ} (h : PDOn Set.univ κ) (f : X → Y) (hf : Function.Injective f) : PDOn Set.univ fun x y => κ (f x) (f y) :=
  fun ι _ x hx _ => h ι (fun i => f (x i)) (hf.comp hx) fun _ => trivial

theorem PDOn.smul {X : Type} {κ : X → X → ℝ} (h : PDOn Set.univ κ) {a : ℝ} (ha : 0 < a) : PDOn Set.univ fun x y => a * κ x y := by
  intro ι _ x hx hZ c hc
  have := mul_pos ha (h ι x hx hZ c hc)
  simp only [mul_sum] at this
  refine this.trans_eq (sum_congr rfl fun i _ => sum_congr rfl fun j _ => by ring)

open scoped MatrixOrder in
theorem gram_of {ι : Type} [Fintype ι] [DecidableEq ι] {M : Matrix ι ι ℝ} (hM : M.PosSemidef) : ∃ B : Matrix ι ι ℝ, M = B.conjTranspose * B := by
  refine ⟨CFC.sqrt M, ?_⟩
  have h2 : (CFC.sqrt M).conjTranspose = CFC.sqrt M := (Matrix.nonneg_iff_posSemidef.1 (CFC.sqrt_nonneg M)).isHermitian
  rw [h2, CFC.sqrt_mul_sqrt_self M hM.nonneg]

/-- The product with a positive semi-definite kernel whose diagonal does not vanish. -/
theorem PDOn.mul {X : Type} {κ μ : X → X → ℝ} (h : PDOn Set.univ κ) (hμ : PSDOn Set.univ μ) (hd : ∀ x, μ x x ≠ 0) : PDOn Set.univ fun x y => κ x y * μ x y := by
  classical
  intro ι _ x hx hZ c hc
  obtain ⟨B, hB⟩ := gram_of ((psdMat_iff _).1 (hμ ι x hZ))
  have hB' : ∀ i j, μ (x i) (x j) = ∑ k, B k i * B k j := fun i j => by
    have := congrFun (congrFun hB i) j
    simpa [Matrix.mul_apply, Matrix.conjTranspose_apply] using this
  have e : ∑ i, ∑ j, c i * c j * (κ (x i) (x j) * μ (x i) (x j)) = ∑ k, ∑ i, ∑ j, (c i * B k i) * (c j * B k j) * κ (x i) (x j) := by
    simp only [hB', mul_sum]
    rw [sum_comm]
    refine (sum_congr rfl fun j _ => sum_comm).trans ?_
    rw [sum_comm]
    refine sum_congr rfl fun k _ => ?_
    rw [sum_comm]
    exact sum_congr rfl fun i _ => sum_congr rfl fun j _ => by ring
  rw [e]
  have hn : ∀ k, 0 ≤ ∑ i, ∑ j, (c i * B k i) * (c j * B k j) * κ (x i) (x j) := fun k => by
    by_cases hz : (fun i => c i * B k i) = 0
    · refine le_of_eq (sum_eq_zero fun i _ => sum_eq_zero fun j _ => ?_).symm
      have := congrFun hz i
      simp only [Pi.zero_apply] at this
      rw [this]; ring
    · exact (h ι x hx hZ _ hz).le
  obtain ⟨i, hi⟩ := Function.ne_iff.1 hc
  obtain ⟨k, hk⟩ : ∃ k, B k i ≠ 0 := by
    by_contra hcon
    push Not at hcon
    exact hd (x i) (by rw [hB']; exact sum_eq_zero fun k _ => by rw [hcon k]; ring)
  refine sum_pos' (fun k _ => hn k) ⟨k, mem_univ k, h ι x hx hZ _ fun h0 => ?_⟩
  have := congrFun h0 i
  simp only [Pi.zero_apply] at this
  exact (mul_ne_zero hi hk) this

variable {d : Type} [Fintype d]

/-- The multiplicative function `z ↦ exp ⟨x, z⟩`. -/
noncomputable def expChar (x : d → ℝ) : Multiplicative (d → ℝ) →* ℝ where
  toFun z := Real.exp (x ⬝ᵥ z.toAdd)
  map_one' := by simp
  map_mul' y z := by simp [dotProduct_add, Real.exp_add]

theorem expChar_inj : Function.Injective (expChar (d := d)) := by
  intro x y h
  classical
  funext k
  have := DFunLike.congr_fun h (Multiplicative.ofAdd (Pi.single k 1))
  simpa [expChar] using this

/-- Gaussian kernels. -/
theorem gauss {s : ℝ} (hs : 0 < s) : PDOn Set.univ fun x y : d → ℝ => Real.exp (-(euclidSq x y * s)) := by
  refine strict_of_null (fun ι _ x _ => psdMat_gauss hs.le x) fun ι _ x hx c h => ?_
  have hli := (linearIndependent_monoidHom (Multiplicative (d → ℝ)) ℝ).comp (fun i => expChar ((2 * s) • x i))
    (expChar_inj.comp fun i j hij => hx (smul_right_injective _ (by positivity : (2 * s) ≠ 0) hij))
  have h2 := Fintype.linearIndependent_iff.1 hli (fun i => c i * Real.exp (-(s * (x i ⬝ᵥ x i)))) (by
    funext z
    have h3 := h z.toAdd
    have e : ∀ i, c i * Real.exp (-(euclidSq z.toAdd (x i) * s)) = Real.exp (-(s * (z.toAdd ⬝ᵥ z.toAdd))) * (c i * Real.exp (-(s * (x i ⬝ᵥ x i))) * Real.exp ((2 * s) • x i ⬝ᵥ z.toAdd)) := fun i => by
      have : -(euclidSq z.toAdd (x i) * s) = -(s * (z.toAdd ⬝ᵥ z.toAdd)) + -(s * (x i ⬝ᵥ x i)) + (2 * s) • x i ⬝ᵥ z.toAdd := by
        simp only [euclidSq, dotProduct, mul_sum, sum_mul, Pi.smul_apply, smul_eq_mul]
        rw [← sum_neg_distrib, ← sum_neg_distrib, ← sum_neg_distrib, ← sum_add_distrib, ← sum_add_distrib]
        exact sum_congr rfl fun k _ => by ring
      rw [this, Real.exp_add, Real.exp_add]; ring
    simp only [e] at h3
    rw [← mul_sum] at h3
    have h4 := (mul_eq_zero.1 h3).resolve_left (Real.exp_pos _).ne'
    simpa [expChar, smul_eq_mul] using h4)
  funext i
  exact (mul_eq_zero.1 (h2 i)).resolve_right (Real.exp_pos _).ne'

/-- Exponentials of the distance to a point have a kink there and nowhere else. -/
theorem kink {s : ℝ} (hs : 0 < s) {ι : Type} (I : Finset ι) (a p : ι → ℝ) (q : ℝ) (h : ∀ t, ∑ i ∈ I, a i * Real.exp (-(s * |p i - (q + t)|)) = 0) :
    ∑ i ∈ I with p i = q, a i = 0 := by
  by_contra hA
  obtain ⟨A, hA'⟩ : ∃ A, A = ∑ i ∈ I with p i = q, a i := ⟨_, rfl⟩
  rw [← hA'] at hA
  have hd : DifferentiableAt ℝ (fun t : ℝ => ∑ i ∈ I with ¬ p i = q, a i * Real.exp (-(s * |p i - (q + t)|))) 0 := by
    refine DifferentiableAt.fun_sum fun i hi => ?_
    have : p i - (q + 0) ≠ 0 := by rw [add_zero]; exact sub_ne_zero.2 (mem_filter.1 hi).2
    have h1 : DifferentiableAt ℝ (fun t : ℝ => |p i - (q + t)|) 0 := (show DifferentiableAt ℝ (fun t : ℝ => p i - (q + t)) 0 by fun_prop).abs this
    fun_prop
  have e : (fun t : ℝ => |t|) = fun t => -(1 / s) * Real.log (-(1 / A) * ∑ i ∈ I with ¬ p i = q, a i * Real.exp (-(s * |p i - (q + t)|))) := by
    funext t
    have h1 := h t
    rw [← sum_filter_add_sum_filter_not I (fun i => p i = q)] at h1
    have h2 : ∑ i ∈ I with p i = q, a i * Real.exp (-(s * |p i - (q + t)|)) = A * Real.exp (-(s * |t|)) := by
      rw [hA', sum_mul]
      refine sum_congr rfl fun i hi => ?_
      rw [(mem_filter.1 hi).2]
      congr 4
      rw [sub_add_cancel_left, abs_neg]
    rw [h2] at h1
    have h3 : -(1 / A) * ∑ i ∈ I with ¬ p i = q, a i * Real.exp (-(s * |p i - (q + t)|)) = Real.exp (-(s * |t|)) := by
      rw [show ∑ i ∈ I with ¬ p i = q, a i * Real.exp (-(s * |p i - (q + t)|)) = -(A * Real.exp (-(s * |t|))) by linarith]
      field_simp
    rw [h3, Real.log_exp]
    field_simp
  refine not_differentiableAt_abs_zero (show DifferentiableAt ℝ (fun t : ℝ => |t|) 0 from ?_)
  rw [e]
  refine (DifferentiableAt.log (hd.const_mul _) ?_).const_mul _
  have h1 := h 0
  rw [← sum_filter_add_sum_filter_not I (fun i => p i = q)] at h1
  have h2 : ∑ i ∈ I with p i = q, a i * Real.exp (-(s * |p i - (q + 0)|)) = A := by
    rw [hA']
    refine sum_congr rfl fun i hi => ?_
    rw [(mem_filter.1 hi).2]; simp
  rw [h2] at h1
  refine mul_ne_zero (neg_ne_zero.2 (one_div_ne_zero hA)) fun h3 => hA ?_
  rw [h3] at h1; linarith

/-- The exponential of the Manhattan distance. -/
theorem taxi {s : ℝ} (hs : 0 < s) (hp : PSDOn Set.univ fun x y : d → ℝ => Real.exp (-(s * manhattan x y))) : PDOn Set.univ fun x y : d → ℝ => Real.exp (-(s * manhattan x y)) := by
  classical
  refine strict_of_null hp fun ι _ x hx c h => ?_
  have key : ∀ S : Finset d, ∀ j (w : d → ℝ), ∑ i with ∀ k ∈ S, x i k = x j k, c i * Real.exp (-(s * ∑ k ∈ univ \ S, |x i k - w k|)) = 0 := by
    intro S
    induction S using Finset.induction_on with
    | empty =>
      intro j w
      have := h w
      simp only [manhattan] at this
      simp only [notMem_empty, false_imp_iff, implies_true, filter_true, sdiff_empty]
      rw [← this]
      exact sum_congr rfl fun i _ => by simp only [abs_sub_comm]
    | insert k S hk ih =>
      intro j w
      have h1 := kink hs (univ.filter fun i => ∀ l ∈ S, x i l = x j l) (fun i => c i * Real.exp (-(s * ∑ l ∈ univ \ insert k S, |x i l - w l|))) (fun i => x i k) (x j k) fun t => by
        rw [← ih j (Function.update w k (x j k + t))]
        refine sum_congr rfl fun i _ => ?_
        have h2 : univ \ S = insert k (univ \ insert k S) := by
          ext l
          simp only [mem_sdiff, mem_univ, true_and, mem_insert]
          constructor
          · intro hl
            by_cases hlk : l = k
            · exact Or.inl hlk
            · exact Or.inr fun h => h.elim hlk hl
          · rintro (rfl | hl)
            · exact hk
            · exact fun h => hl (Or.inr h)
        rw [h2, sum_insert (by simp), Function.update_self, mul_add, neg_add, Real.exp_add]
        have h3 : ∑ l ∈ univ \ insert k S, |x i l - Function.update w k (x j k + t) l| = ∑ l ∈ univ \ insert k S, |x i l - w l| :=
          sum_congr rfl fun l hl => by
            rw [Function.update_of_ne]
            rintro rfl
            simp at hl
        rw [h3]; ring
      rw [filter_filter] at h1
      rw [← h1]
      refine sum_congr ?_ fun _ _ => rfl
      ext i
      simp only [mem_filter, mem_univ, true_and, mem_insert, forall_eq_or_imp]
      exact and_comm
  funext j
  have h1 := key univ j 0
  simp only [mem_univ, true_imp_iff, sdiff_self] at h1
  have h2 : (univ.filter fun i => ∀ k, x i k = x j k) = {j} := by
    ext i
    simp only [mem_filter, mem_univ, true_and, mem_singleton]
    exact ⟨fun h => hx (funext h), fun h => by rw [h]; exact fun _ => rfl⟩
  rw [h2, sum_singleton] at h1
  simpa using h1

/-- The exponential of the Euclidean distance. -/
theorem laplace [Nonempty d] {s : ℝ} (hs : 0 < s) (hp : PSDOn Set.univ fun x y : d → ℝ => Real.exp (-(s * Real.sqrt (euclidSq x y)))) :
    PDOn Set.univ fun x y : d → ℝ => Real.exp (-(s * Real.sqrt (euclidSq x y))) := by
  classical
  refine strict_of_null hp fun ι _ x hx c h => ?_
  funext j
  by_contra hA
  simp only [Pi.zero_apply] at hA
  obtain ⟨a⟩ := (inferInstance : Nonempty d)
  obtain ⟨z, hz⟩ : ∃ z : ℝ → d → ℝ, z = fun t k => x j k + t * (Pi.single a 1 : d → ℝ) k := ⟨_, rfl⟩
  have hd : DifferentiableAt ℝ (fun t : ℝ => ∑ i ∈ univ.erase j, c i * Real.exp (-(s * Real.sqrt (euclidSq (z t) (x i))))) 0 := by
    refine DifferentiableAt.fun_sum fun i hi => ?_
    have h1 : DifferentiableAt ℝ (fun t : ℝ => euclidSq (z t) (x i)) 0 := by
      rw [hz]; unfold euclidSq
      refine DifferentiableAt.fun_sum fun k _ => ?_
      fun_prop
    have h2 : euclidSq (z 0) (x i) ≠ 0 := fun h0 => (mem_erase.1 hi).1 (hx (funext fun k => by
      have h3 := (sum_eq_zero_iff_of_nonneg fun k _ => mul_self_nonneg (z 0 k - x i k)).1 h0 k (mem_univ k)
      have h4 := mul_self_eq_zero.1 h3
      rw [hz] at h4
      simp only [zero_mul, add_zero] at h4
      linarith))
    have h3 := h1.sqrt h2
    fun_prop
  have hj : ∀ t, Real.sqrt (euclidSq (z t) (x j)) = |t| := fun t => by
    rw [hz]; unfold euclidSq
    rw [← Real.sqrt_sq_eq_abs]
    congr 1
    rw [sum_eq_single a (fun k _ hk => by simp [Pi.single_eq_of_ne hk]) (by simp)]
    simp; ring
  have hs' : ∀ t, ∑ i ∈ univ.erase j, c i * Real.exp (-(s * Real.sqrt (euclidSq (z t) (x i)))) = -(c j * Real.exp (-(s * |t|))) := fun t => by
    have h1 := h (z t)
    rw [← add_sum_erase _ _ (mem_univ j), hj] at h1
    linarith
  have e : (fun t : ℝ => |t|) = fun t => -(1 / s) * Real.log (-(1 / c j) * ∑ i ∈ univ.erase j, c i * Real.exp (-(s * Real.sqrt (euclidSq (z t) (x i))))) := by
    funext t
    rw [hs', show -(1 / c j) * -(c j * Real.exp (-(s * |t|))) = Real.exp (-(s * |t|)) by field_simp, Real.log_exp]
    field_simp
  refine not_differentiableAt_abs_zero (show DifferentiableAt ℝ (fun t : ℝ => |t|) 0 from ?_)
  rw [e]
  refine (DifferentiableAt.log (hd.const_mul _) ?_).const_mul _
  rw [hs']
  exact mul_ne_zero (neg_ne_zero.2 (one_div_ne_zero hA)) (neg_ne_zero.2 (mul_ne_zero hA (Real.exp_pos _).ne'))

/-- The triangular kernel on the line. -/
theorem hat (hp : PSDOn Set.univ fun x y : ℝ => max 0 (1 - |x - y|)) : PDOn Set.univ fun x y : ℝ => max 0 (1 - |x - y|) := by
  classical
  refine strict_of_null hp fun ι _ x hx c h => ?_
  by_contra hc
  have hne : (univ.filter fun i => c i ≠ 0).Nonempty := by
    obtain ⟨i, hi⟩ := Function.ne_iff.1 hc
    exact ⟨i, by simpa using hi⟩
  obtain ⟨j, hj, hmax⟩ := exists_max_image _ x hne
  have hj0 := (mem_filter.1 hj).2
  obtain ⟨δ, h0, h1, h2⟩ : ∃ δ : ℝ, 0 < δ ∧ δ ≤ 1 ∧ ∀ i, x i < x j → δ ≤ x j - x i := by
    obtain ⟨m, hm⟩ : ∃ m : Finset ℝ, m = insert 1 ((univ.filter fun i => x i < x j).image fun i => x j - x i) := ⟨_, rfl⟩
    have hmn : m.Nonempty := hm ▸ insert_nonempty _ _
    refine ⟨m.min' hmn, ?_, ?_, fun i hi => ?_⟩
    · rw [lt_min'_iff]
      intro y hy
      rw [hm, mem_insert, mem_image] at hy
      rcases hy with rfl | ⟨i, hi, rfl⟩
      · exact one_pos
      · exact sub_pos.2 (mem_filter.1 hi).2
    · exact min'_le _ _ (by simp [hm])
    · exact min'_le _ _ (by rw [hm]; exact mem_insert_of_mem (mem_image.2 ⟨i, by simpa using hi, rfl⟩))
  have h3 := h (x j + 1 - δ)
  rw [sum_eq_single j] at h3
  · rw [show x j + 1 - δ - x j = 1 - δ by ring, abs_of_nonneg (by linarith), max_eq_right (by linarith)] at h3
    have := (mul_eq_zero.1 h3).resolve_left hj0
    linarith
  · intro i _ hij
    by_cases hi : c i = 0
    · rw [hi, zero_mul]
    · have h4 := h2 i (lt_of_le_of_ne (hmax i (by simpa using hi)) fun h => hij (hx h))
      rw [abs_of_nonneg (by linarith), max_eq_left (by linarith), mul_zero]
  · simp

open MeasureTheory Filter Topology in
/-- The rational quadratic kernel, a mixture of Gaussian kernels. -/
theorem rational {t : ℝ} (ht : 0 < t) : PDOn Set.univ fun x y : d → ℝ => 1 / (1 + t * euclidSq x y) := by
  intro ι _ x hx hZ c hc
  have hn : ∀ i j, -(1 + t * euclidSq (x i) (x j)) < 0 := fun i j => by have := mul_nonneg ht.le (euclidSq_nn (x i) (x j)); linarith
  have hi : ∀ i j s, Real.exp (-s) * Real.exp (-(euclidSq (x i) (x j) * (t * s))) = Real.exp (-(1 + t * euclidSq (x i) (x j)) * s) := by
    intro i j s; rw [← Real.exp_add]; congr 1; ring
  have hint : ∀ i j, Integrable (fun s => Real.exp (-(1 + t * euclidSq (x i) (x j)) * s)) (volume.restrict (Set.Ioi (0 : ℝ))) :=
    fun i j => integrableOn_exp_mul_Ioi (hn i j) 0
  have hv : ∀ i j, 1 / (1 + t * euclidSq (x i) (x j)) = ∫ s in Set.Ioi (0 : ℝ), Real.exp (-(1 + t * euclidSq (x i) (x j)) * s) := fun i j => by
    rw [integral_exp_mul_Ioi (hn i j), mul_zero, Real.exp_zero, neg_div_neg_eq]
  have e : ∑ i, ∑ j, c i * c j * (1 / (1 + t * euclidSq (x i) (x j))) = ∫ s in Set.Ioi (0 : ℝ), ∑ i, ∑ j, c i * c j * Real.exp (-(1 + t * euclidSq (x i) (x j)) * s) := by
    simp only [hv]
    rw [integral_finsetSum _ fun i _ => integrable_finsetSum _ fun j _ => (hint i j).const_mul _]
    refine sum_congr rfl fun i _ => ?_
    rw [integral_finsetSum _ fun j _ => (hint i j).const_mul _]
    exact sum_congr rfl fun j _ => by rw [integral_const_mul]
  have hpos : ∀ s ∈ Set.Ioi (0 : ℝ), 0 < ∑ i, ∑ j, c i * c j * Real.exp (-(1 + t * euclidSq (x i) (x j)) * s) := fun s hs => by
    have h1 := mul_pos (Real.exp_pos (-s)) (gauss (mul_pos ht hs) ι x hx hZ c hc)
    simp only [mul_sum] at h1
    refine h1.trans_eq (sum_congr rfl fun i _ => sum_congr rfl fun j _ => ?_)
    rw [← hi]; ring
  rw [e]
  refine (integral_pos_iff_support_of_nonneg_ae ?_ ?_).2 ?_
  · filter_upwards [self_mem_ae_restrict (measurableSet_Ioi : MeasurableSet (Set.Ioi (0 : ℝ)))] with s hs using (hpos s hs).le
  · exact integrable_finsetSum _ fun i _ => integrable_finsetSum _ fun j _ => (hint i j).const_mul _
  · refine lt_of_lt_of_le ?_ (measure_mono (fun s hs => (hpos s hs).ne' : Set.Ioi (0 : ℝ) ⊆ _))
    rw [Measure.restrict_apply measurableSet_Ioi, Set.inter_self, Real.volume_Ioi]
    exact ENNReal.zero_lt_top

open PSDStat Filter Topology in
/-- The squared hyperbolic secant without the first of its factors. -/
theorem sech_rest (a : ℝ) : PSDOn Set.univ fun x y : d → ℝ => (1 + a ^ 2 / Real.pi ^ 2 * euclidSq x y) * (1 / Real.cosh (Real.sqrt (a ^ 2 * euclidSq x y) / 2)) ^ 2 := by
  intro ι _ x _
  have hw : ∀ i j (k : ℕ), 4 * (Real.sqrt (a ^ 2 * euclidSq (x i) (x j)) / (2 * Real.pi)) ^ 2 / (2 * (k : ℝ) + 1) ^ 2 = (a ^ 2 / (Real.pi ^ 2 * (2 * (k : ℝ) + 1) ^ 2)) * euclidSq (x i) (x j) := fun i j k => by
    rw [div_pow, Real.sq_sqrt (mul_nonneg (sq_nonneg _) (euclidSq_nn _ _))]
    have := Real.pi_ne_zero
    field_simp
    ring
  refine psdMat_lim (fun n i j => (1 + a ^ 2 / Real.pi ^ 2 * euclidSq (x i) (x j)) * (1 / Q (n + 1) (Real.sqrt (a ^ 2 * euclidSq (x i) (x j)) / (2 * Real.pi))) ^ 2) _ (fun n => ?_) fun i j => ?_
  · have h1 := psdMat_finprod (range (n + 1)) (fun k i j => 1 / (1 + (a ^ 2 / (Real.pi ^ 2 * (2 * (k : ℝ) + 1) ^ 2)) * euclidSq (x i) (x j)))
      fun k _ => psdMat_rational (by positivity) x
    have h2 := psdMat_finprod (range n) (fun k i j => 1 / (1 + (a ^ 2 / (Real.pi ^ 2 * (2 * ((k + 1 : ℕ) : ℝ) + 1) ^ 2)) * euclidSq (x i) (x j)))
      fun k _ => psdMat_rational (by positivity) x
    refine (funext₂ fun i j => ?_ : (fun i j => (1 + a ^ 2 / Real.pi ^ 2 * euclidSq (x i) (x j)) * (1 / Q (n + 1) (Real.sqrt (a ^ 2 * euclidSq (x i) (x j)) / (2 * Real.pi))) ^ 2) = _) ▸ h1.mul h2
    have e1 : 1 / Q (n + 1) (Real.sqrt (a ^ 2 * euclidSq (x i) (x j)) / (2 * Real.pi)) = ∏ k ∈ range (n + 1), 1 / (1 + (a ^ 2 / (Real.pi ^ 2 * (2 * (k : ℝ) + 1) ^ 2)) * euclidSq (x i) (x j)) := by
      rw [Q, one_div, ← prod_inv_distrib]
      exact prod_congr rfl fun k _ => by rw [hw, one_div]
    have hp : 1 + a ^ 2 / Real.pi ^ 2 * euclidSq (x i) (x j) ≠ 0 := by
      have := euclidSq_nn (x i) (x j)
      positivity
    have e2 : ∏ k ∈ range (n + 1), 1 / (1 + (a ^ 2 / (Real.pi ^ 2 * (2 * (k : ℝ) + 1) ^ 2)) * euclidSq (x i) (x j)) =
        (∏ k ∈ range n, 1 / (1 + (a ^ 2 / (Real.pi ^ 2 * (2 * ((k + 1 : ℕ) : ℝ) + 1) ^ 2)) * euclidSq (x i) (x j))) * (1 / (1 + a ^ 2 / Real.pi ^ 2 * euclidSq (x i) (x j))) := by
      rw [prod_range_succ']
      congr 3
      norm_num
    rw [e1, e2]
    generalize ∏ k ∈ range n, 1 / (1 + (a ^ 2 / (Real.pi ^ 2 * (2 * ((k + 1 : ℕ) : ℝ) + 1) ^ 2)) * euclidSq (x i) (x j)) = P
    generalize 1 + a ^ 2 / Real.pi ^ 2 * euclidSq (x i) (x j) = f at hp
    field_simp
  · have h := Q_tendsto (Real.sqrt (a ^ 2 * euclidSq (x i) (x j)) / (2 * Real.pi))
    have e : Real.pi * (Real.sqrt (a ^ 2 * euclidSq (x i) (x j)) / (2 * Real.pi)) = Real.sqrt (a ^ 2 * euclidSq (x i) (x j)) / 2 := by
      have := Real.pi_ne_zero
      field_simp
    rw [e] at h
    have h2 := ((h.comp (tendsto_add_atTop_nat 1)).inv₀ (Real.cosh_pos _).ne').pow 2
    have h3 := h2.const_mul (1 + a ^ 2 / Real.pi ^ 2 * euclidSq (x i) (x j))
    simpa only [one_div, Function.comp] using h3

/-- The squared hyperbolic secant of the distance. -/
theorem sech {a : ℝ} (ha : 0 < a) : PDOn Set.univ fun x y : d → ℝ => (1 / Real.cosh (Real.sqrt (a ^ 2 * euclidSq x y) / 2)) ^ 2 := by
  have h := (rational (d := d) (t := a ^ 2 / Real.pi ^ 2) (by have := Real.pi_pos; positivity)).mul (sech_rest a) fun x => by
    have : euclidSq x x = 0 := sum_eq_zero fun k _ => by simp
    simp [this]
  refine (funext₂ fun x y => ?_ : (fun x y : d → ℝ => (1 / Real.cosh (Real.sqrt (a ^ 2 * euclidSq x y) / 2)) ^ 2) = _) ▸ h
  have hp : 1 + a ^ 2 / Real.pi ^ 2 * euclidSq x y ≠ 0 := by
    have := euclidSq_nn x y
    positivity
  rw [← mul_assoc, one_div_mul_cancel hp, one_mul]

section
open MeasureTheory
variable {E : Type} [NormedAddCommGroup E] [InnerProductSpace ℝ E] [FiniteDimensional ℝ E] [MeasurableSpace E] [BorelSpace E] [Nontrivial E]

/-- The multiplicative function `u ↦ exp (2 π i ⟨u, x⟩)`. -/
noncomputable def wave (x : E) : Multiplicative E →* ℂ where
  toFun u := Complex.exp ((2 * Real.pi * inner ℝ u.toAdd x : ℝ) * Complex.I)
  map_one' := by simp
  map_mul' u v := by
    rw [← Complex.exp_add]
    congr 1
    simp [inner_add_left]
    ring

theorem wave_inj : Function.Injective (wave (E := E)) := by
  intro x y h
  by_contra hxy
  have hn : 0 < ‖x - y‖ := norm_pos_iff.2 (sub_ne_zero.2 hxy)
  have h1 := DFunLike.congr_fun h (Multiplicative.ofAdd ((1 / 2 / ‖x - y‖ ^ 2) • (x - y)))
  simp only [wave, MonoidHom.coe_mk, OneHom.coe_mk, toAdd_ofAdd] at h1
  obtain ⟨n, hn2⟩ := Complex.exp_eq_exp_iff_exists_int.1 h1
  have h2 : ((2 * Real.pi * inner ℝ ((1 / 2 / ‖x - y‖ ^ 2) • (x - y)) x : ℝ) : ℂ) = ((2 * Real.pi * inner ℝ ((1 / 2 / ‖x - y‖ ^ 2) • (x - y)) y + n * (2 * Real.pi) : ℝ) : ℂ) := by
    refine mul_right_cancel₀ Complex.I_ne_zero (hn2.trans ?_)
    push_cast; ring
  have h3 := Complex.ofReal_injective h2
  have h4 : inner ℝ ((1 / 2 / ‖x - y‖ ^ 2) • (x - y)) x - inner ℝ ((1 / 2 / ‖x - y‖ ^ 2) • (x - y)) y = (n : ℝ) := by
    have := Real.pi_pos
    nlinarith
  rw [← inner_sub_right, real_inner_smul_left, real_inner_self_eq_norm_sq] at h4
  have h5 : (1 : ℝ) / 2 = n := by rw [← h4]; field_simp
  have h6 : (1 : ℝ) = ((2 * n : ℤ) : ℝ) := by push_cast; linarith
  have h7 : (1 : ℤ) = 2 * n := by exact_mod_cast h6
  omega

/-- A mixture of cosines of all frequencies. -/
theorem cosines (R : E → ℝ) (hR : ∀ u, 0 ≤ R u) (hR0 : ∀ u, u ≠ 0 → R u ≠ 0) (hc : Continuous R) (hi : Integrable R) :
    PDOn Set.univ fun x y : E => ∫ u : E, Real.cos (2 * Real.pi * inner ℝ u (x - y)) * R u := by
  intro ι _ x hx hZ c hc0
  refine lt_of_le_of_ne ((Silverman.psd_cos R hR hi ι x hZ).2 c) fun h0 => hc0 ?_
  have hint : ∀ i j, Integrable fun u : E => c i * c j * (Real.cos (2 * Real.pi * inner ℝ u (x i - x j)) * R u) := fun i j => (Silverman.cos_weight_int R hi _).const_mul _
  have e : ∑ i, ∑ j, c i * c j * ∫ u : E, Real.cos (2 * Real.pi * inner ℝ u (x i - x j)) * R u =
      ∫ u : E, ∑ i, ∑ j, c i * c j * (Real.cos (2 * Real.pi * inner ℝ u (x i - x j)) * R u) := by
    rw [integral_finsetSum _ fun i _ => integrable_finsetSum _ fun j _ => hint i j]
    refine Finset.sum_congr rfl fun i _ => ?_
    rw [integral_finsetSum _ fun j _ => hint i j]
    exact Finset.sum_congr rfl fun j _ => (integral_const_mul _ _).symm
  have e2 : ∀ u, ∑ i, ∑ j, c i * c j * (Real.cos (2 * Real.pi * inner ℝ u (x i - x j)) * R u) =
      R u * ((∑ i, c i * Real.cos (2 * Real.pi * inner ℝ u (x i))) ^ 2 + (∑ i, c i * Real.sin (2 * Real.pi * inner ℝ u (x i))) ^ 2) := fun u => by
    rw [sq, sq, Finset.sum_mul_sum, Finset.sum_mul_sum, ← Finset.sum_add_distrib, Finset.mul_sum]
    refine Finset.sum_congr rfl fun i _ => ?_
    rw [← Finset.sum_add_distrib, Finset.mul_sum]
    refine Finset.sum_congr rfl fun j _ => ?_
    rw [inner_sub_right, mul_sub, Real.cos_sub]; ring
  have hint2 : Integrable fun u : E => ∑ i, ∑ j, c i * c j * (Real.cos (2 * Real.pi * inner ℝ u (x i - x j)) * R u) :=
    integrable_finsetSum _ fun i _ => integrable_finsetSum _ fun j _ => hint i j
  rw [e] at h0
  simp only [e2] at h0 hint2
  have hz := (integral_eq_zero_iff_of_nonneg (fun u => mul_nonneg (hR u) (add_nonneg (sq_nonneg _) (sq_nonneg _))) hint2).1 h0.symm
  have hcont : Continuous fun u : E => R u * ((∑ i, c i * Real.cos (2 * Real.pi * inner ℝ u (x i))) ^ 2 + (∑ i, c i * Real.sin (2 * Real.pi * inner ℝ u (x i))) ^ 2) := by fun_prop
  have hz2 := (hcont.ae_eq_iff_eq volume continuous_const).1 hz
  have hcont2 : Continuous fun u : E => ∑ i, c i * wave (x i) (Multiplicative.ofAdd u) := by
    simp only [wave, MonoidHom.coe_mk, OneHom.coe_mk, toAdd_ofAdd]
    fun_prop
  have hz3 : (fun u : E => ∑ i, c i * wave (x i) (Multiplicative.ofAdd u)) = fun _ => 0 := by
    refine hcont2.ext_on (dense_compl_singleton 0) continuous_const fun u hu => ?_
    have h1 := (mul_eq_zero.1 (congrFun hz2 u)).resolve_left (hR0 u hu)
    have hC : ∑ i, c i * Real.cos (2 * Real.pi * inner ℝ u (x i)) = 0 := by nlinarith [sq_nonneg (∑ i, c i * Real.cos (2 * Real.pi * inner ℝ u (x i))), sq_nonneg (∑ i, c i * Real.sin (2 * Real.pi * inner ℝ u (x i)))]
    have hS : ∑ i, c i * Real.sin (2 * Real.pi * inner ℝ u (x i)) = 0 := by nlinarith [sq_nonneg (∑ i, c i * Real.cos (2 * Real.pi * inner ℝ u (x i))), sq_nonneg (∑ i, c i * Real.sin (2 * Real.pi * inner ℝ u (x i)))]
    have h2 : ∑ i, (c i : ℂ) * wave (x i) (Multiplicative.ofAdd u) = ((∑ i, c i * Real.cos (2 * Real.pi * inner ℝ u (x i)) : ℝ) : ℂ) + ((∑ i, c i * Real.sin (2 * Real.pi * inner ℝ u (x i)) : ℝ) : ℂ) * Complex.I := by
      rw [Complex.ofReal_sum, Complex.ofReal_sum, Finset.sum_mul, ← Finset.sum_add_distrib]
      refine Finset.sum_congr rfl fun i _ => ?_
      simp only [wave, MonoidHom.coe_mk, OneHom.coe_mk, toAdd_ofAdd]
      rw [Complex.exp_mul_I, ← Complex.ofReal_cos, ← Complex.ofReal_sin]
      push_cast; ring
    simp only
    rw [h2, hC, hS]; simp
  have hli := (linearIndependent_monoidHom (Multiplicative E) ℂ).comp (fun i => wave (x i)) (wave_inj.comp hx)
  have h2 := Fintype.linearIndependent_iff.1 hli (fun i => (c i : ℂ)) (by
    funext u
    have := congrFun hz3 u.toAdd
    simpa using this)
  funext i
  exact_mod_cast h2 i
end

open Silverman MeasureTheory in
theorem silv3 : PDOn Set.univ fun x y : E3 => silv ‖x - y‖ := by
  have : Nontrivial E3 := Module.nontrivial_of_finrank_pos (R := ℝ) (by rw [E3_dim]; norm_num)
  have h := cosines (fun u : E3 => dens ‖u‖) (fun u => dens_nonneg _) (fun u hu => by
    have := norm_pos_iff.2 hu
    unfold Silverman.dens
    positivity) (dens_cont.comp continuous_norm) dens_int3
  have hb : 0 < volume.real (Metric.ball (0 : EuclideanSpace ℝ (Fin 2)) 1) := by
    rw [measureReal_def]
    exact ENNReal.toReal_pos (Metric.measure_ball_pos _ _ one_pos).ne' measure_ball_lt_top.ne
  have hp := Real.pi_pos
  have h2 := h.smul (a := (volume.real (Metric.ball (0 : EuclideanSpace ℝ (Fin 2)) 1) / (16 * (2 * Real.pi) ^ 4))⁻¹) (by positivity)
  refine (funext₂ fun x y => ?_ : (fun x y : E3 => silv ‖x - y‖) = _) ▸ h2
  rw [mix_silv, inv_mul_cancel_left₀ (by positivity)]

open Silverman in
/-- Up to three coordinates, Silverman's kernel is strictly positive definite. -/
theorem silverman (hd : Fintype.card d ≤ 3) {σ : ℝ} (hσ : 0 < σ) : PDOn Set.univ fun x y : d → ℝ => profile .silverman (Real.sqrt ((1 / σ) ^ 2 * euclidSq x y)) := by
  obtain ⟨e⟩ : Nonempty (d ↪ Fin 3) := Function.Embedding.nonempty_of_card_le (by simpa using hd)
  obtain ⟨z, hzdef⟩ : ∃ z : (d → ℝ) → Fin 3 → ℝ, z = fun x => Function.extend e (fun k => Real.sqrt (1 / 2) * (1 / σ) * x k) 0 := ⟨_, rfl⟩
  have h := (silv3.comp (fun x : d → ℝ => (WithLp.toLp 2 (z x 0, WithLp.toLp 2 ![z x 1, z x 2]) : E3)) fun x y hxy => by
    have h1 : z x 0 = z y 0 := congrArg (fun w : E3 => w.fst) hxy
    have h2 : z x 1 = z y 1 := congrArg (fun w : E3 => w.snd 0) hxy
    have h3 : z x 2 = z y 2 := congrArg (fun w : E3 => w.snd 1) hxy
    have h4 : ∀ m, z x m = z y m := by
      intro m; fin_cases m
      · exact h1
      · exact h2
      · exact h3
    funext k
    have h5 := h4 (e k)
    rw [hzdef] at h5
    simp only [e.injective.extend_apply] at h5
    exact mul_left_cancel₀ (by positivity) h5).smul (a := Real.sqrt 2 / 2) (by positivity)
  refine (funext₂ fun x y => ?_ : (fun x y : d → ℝ => profile .silverman (Real.sqrt ((1 / σ) ^ 2 * euclidSq x y))) = _) ▸ h
  simp only
  rw [profile_silv]
  congr 2
  rw [← Real.sqrt_mul (by norm_num), ← Real.sqrt_sq (norm_nonneg _), WithLp.prod_norm_sq_eq_of_L2, EuclideanSpace.norm_sq_eq]
  congr 1
  have hz : ∑ k, (z x k - z y k) ^ 2 = 1 / 2 * ((1 / σ) ^ 2 * euclidSq x y) := by
    unfold euclidSq
    rw [Finset.mul_sum, Finset.mul_sum, hzdef]
    refine (Fintype.sum_of_injective e e.injective _ _ (fun k hk => ?_) fun k => ?_).symm
    · simp only
      rw [Function.extend_apply' _ _ _ (by simpa using hk), Function.extend_apply' _ _ _ (by simpa using hk)]; simp
    · simp only
      rw [e.injective.extend_apply, e.injective.extend_apply, ← mul_sub, mul_pow, mul_pow, Real.sq_sqrt (by norm_num)]; ring
  rw [← hz, Fin.sum_univ_three]
  simp [Fin.sum_univ_two]
  ring

end Strict
end Kerch
