import Mathlib.Algebra.Polynomial.Roots
import Mathlib.Order.Interval.Set.Infinite
import Verif.Props.Strict
import Verif.Props.PSDMore
import Verif.Props.Time
set_option linter.unusedSectionVars false
set_option linter.unusedSimpArgs false
/-!
# C149: the time and vision kernels that tell all points apart
-/
namespace Kerch
namespace Apart
open Finset Strict LSSVM

/-! ### Helpers -/

/-- A combination of points with a null norm is orthogonal to all points. -/
theorem null_at {X : Type} {κ : X → X → ℝ} (h : PSDOn Set.univ κ) {ι : Type} [Fintype ι] (x : ι → X) (c : ι → ℝ)
    (h0 : ∑ i, ∑ j, c i * c j * κ (x i) (x j) = 0) (z : X) : ∑ i, c i * κ z (x i) = 0 := by
  have h1 := h (Option ι) (fun o => o.elim z x) fun _ => trivial
  have := psd_null h1 (c := fun o => o.elim 0 c) (by simp [Fintype.sum_option, h0]) none
  simpa [Fintype.sum_option] using this

/-- Fractions with different poles are independent. -/
theorem poles {ι : Type} (I : Finset ι) (a p : ι → ℝ) (hp : ∀ i ∈ I, 0 < p i) (h : ∀ z > 0, ∑ i ∈ I, a i * (1 / (p i + z)) = 0) (q : ℝ) :
    ∑ i ∈ I with p i = q, a i = 0 := by
  classical
  by_cases hq : ∃ i ∈ I, p i = q
  swap
  · rw [filter_eq_empty_iff.2 fun i hi h => hq ⟨i, hi, h⟩, sum_empty]
  obtain ⟨j, hj, hjq⟩ := hq
  obtain ⟨S, hS⟩ : ∃ S, S = I.image p := ⟨_, rfl⟩
  obtain ⟨A, hA⟩ : ∃ A : ℝ → ℝ, ∀ v, A v = ∑ i ∈ I with p i = v, a i := ⟨_, fun _ => rfl⟩
  rw [← hA]
  obtain ⟨P, hP⟩ : ∃ P : Polynomial ℝ, P = ∑ v ∈ S, Polynomial.C (A v) * ∏ w ∈ S.erase v, (Polynomial.X + Polynomial.C w) := ⟨_, rfl⟩
  have hev : ∀ z, P.eval z = ∑ v ∈ S, A v * ∏ w ∈ S.erase v, (z + w) := fun z => by
    rw [hP, Polynomial.eval_finsetSum]
    exact sum_congr rfl fun v _ => by simp [Polynomial.eval_prod]
  have hpos : ∀ v ∈ S, 0 < v := fun v hv => by
    rw [hS] at hv
    obtain ⟨i, hi, rfl⟩ := mem_image.1 hv
    exact hp i hi
  have hroot : ∀ z > 0, P.eval z = 0 := by
    intro z hz
    have h1 : ∑ v ∈ S, A v * (1 / (v + z)) = 0 := by
      rw [← h z hz, ← sum_fiberwise_of_maps_to (s := I) (t := S) (g := p) fun i hi => by rw [hS]; exact mem_image_of_mem _ hi]
      refine sum_congr rfl fun v _ => ?_
      rw [hA, sum_mul]
      exact sum_congr rfl fun i hi => by rw [(mem_filter.1 hi).2]
    have h2 : P.eval z = (∏ w ∈ S, (z + w)) * ∑ v ∈ S, A v * (1 / (v + z)) := by
      rw [hev, mul_sum]
      refine sum_congr rfl fun v hv => ?_
      rw [← mul_prod_erase S _ hv]
      have := hpos v hv
      have : v + z ≠ 0 := by positivity
      rw [add_comm z v]
      field_simp
    rw [h2, h1, mul_zero]
  have hP0 : P = 0 := Polynomial.eq_zero_of_infinite_isRoot P ((Set.Ioi_infinite (0 : ℝ)).mono fun z hz => hroot z hz)
  have h3 := hev (-q)
  have hqS : q ∈ S := by rw [hS, ← hjq]; exact mem_image_of_mem _ hj
  rw [hP0, Polynomial.eval_zero, sum_eq_single q] at h3
  · refine (mul_eq_zero.1 h3.symm).resolve_right (prod_ne_zero_iff.2 fun w hw => ?_)
    have := ne_of_mem_erase hw
    intro h; apply this; linarith
  · intro v _ hvq
    rw [prod_eq_zero (i := q) (mem_erase.2 ⟨Ne.symm hvq, hqS⟩) (by ring), mul_zero]
  · exact fun h => absurd hqS h

/-- Positive numbers: the values `1 / (x + y)`. -/
theorem cauchy_null {ι : Type} [Fintype ι] (x : ι → ℝ) (hx : ∀ i, 0 < x i) (c : ι → ℝ) (h : ∑ i, ∑ j, c i * c j * (1 / (x i + x j)) = 0) (q : ℝ) :
    ∑ i with x i = q, c i = 0 := by
  refine poles univ c x (fun i _ => hx i) (fun z hz => ?_) q
  have := null_at (X := Set.Ioi (0 : ℝ)) (κ := fun s t => 1 / (s.1 + t.1)) (fun ι _ x _ => psdMat_cauchy (fun i => (x i).1) fun i => (x i).2) (fun i => ⟨x i, hx i⟩) c h ⟨z, hz⟩
  rw [← this]
  exact sum_congr rfl fun i _ => by rw [add_comm]

/-- Positive vectors: the products of the values `1 / (x k + y k)`. -/
theorem cauchy_prod {d : Type} [Fintype d] : PDOn Set.univ fun x y : d → Set.Ioi (0 : ℝ) => ∏ k, 1 / ((x k).1 + (y k).1) := by
  classical
  refine strict_of_null (fun ι _ x _ => psdMat_finprod univ (fun k i j => 1 / ((x i k).1 + (x j k).1)) fun k _ => psdMat_cauchy (fun i => (x i k).1) fun i => (x i k).2) fun ι _ x hx c h => ?_
  have key : ∀ S : Finset d, ∀ j (w : d → Set.Ioi (0 : ℝ)), ∑ i with ∀ k ∈ S, x i k = x j k, c i * ∏ k ∈ univ \ S, 1 / ((x i k).1 + (w k).1) = 0 := by
    intro S
    induction S using Finset.induction_on with
    | empty =>
      intro j w
      have := h w
      simp only [notMem_empty, false_imp_iff, implies_true, filter_true, sdiff_empty]
      refine Eq.trans ?_ this
      exact sum_congr rfl fun i _ => by simp only [add_comm]
    | insert k S hk ih =>
      intro j w
      have h1 := poles (univ.filter fun i => ∀ l ∈ S, x i l = x j l) (fun i => c i * ∏ l ∈ univ \ insert k S, 1 / ((x i l).1 + (w l).1)) (fun i => (x i k).1) (fun i _ => (x i k).2) (fun t ht => by
        refine Eq.trans ?_ (ih j (Function.update w k ⟨t, ht⟩))
        refine sum_congr rfl fun i _ => ?_
        have h2 : univ \ S = insert k (univ \ insert k S) := by
          ext l
          simp only [mem_sdiff, mem_univ, true_and, mem_insert]
          constructor
          · intro hl
            by_cases hlk : l = k
            · exact Or.inl hlk
            · exact Or.inr fun h => h.elim hlk hl
          · rintro (rfl | hl)
            · exact hk
            · exact fun h => hl (Or.inr h)
        rw [h2, prod_insert (by simp), Function.update_self]
        have h3 : ∏ l ∈ univ \ insert k S, 1 / ((x i l).1 + (Function.update w k ⟨t, ht⟩ l).1) = ∏ l ∈ univ \ insert k S, 1 / ((x i l).1 + (w l).1) :=
          prod_congr rfl fun l hl => by
            rw [Function.update_of_ne]
            rintro rfl
            simp at hl
        rw [h3]; ring) (x j k).1
      rw [filter_filter] at h1
      refine Eq.trans ?_ h1
      refine sum_congr ?_ fun _ _ => rfl
      ext i
      simp only [mem_filter, mem_univ, true_and, mem_insert, forall_eq_or_imp]
      rw [and_comm, Subtype.ext_iff]
  funext j
  have h1 := key univ j (fun _ => ⟨1, Set.mem_Ioi.2 one_pos⟩)
  simp only [mem_univ, true_imp_iff, sdiff_self] at h1
  have h2 : (univ.filter fun i => ∀ k, x i k = x j k) = {j} := by
    ext i
    simp only [mem_filter, mem_univ, true_and, mem_singleton]
    exact ⟨fun h => hx (funext h), fun h => by rw [h]; exact fun _ => rfl⟩
  rw [h2, sum_singleton] at h1
  simpa using h1


/-- From a set of points to the type of its points. -/
theorem PDOn.sub {X : Type} {Z : Set X} {κ : X → X → ℝ} (h : PDOn Z κ) : PDOn Set.univ fun x y : Z => κ x y :=
  fun ι _ x hx _ => h ι (fun i => (x i).1) (Subtype.val_injective.comp hx) fun i => (x i).2

/-- A kernel that is strictly positive definite after a positive rescaling of the points. -/
theorem PDOn.scale {X : Type} {κ : X → X → ℝ} (h : PDOn Set.univ κ) (f : X → ℝ) (hf : ∀ x, f x ≠ 0) : PDOn Set.univ fun x y => f x * f y * κ x y := by
  intro ι _ x hx hZ c hc
  have := h ι x hx hZ (fun i => c i * f (x i)) fun h0 => hc (funext fun i => (mul_eq_zero.1 (congrFun h0 i)).resolve_right (hf _))
  exact this.trans_eq (sum_congr rfl fun i _ => sum_congr rfl fun j _ => by ring)

/-! ### The property -/

/-- **C149** The hat kernel tells all times apart, exactly as soon as the lag exceeds `-1`: the kernel matrix of pairwise different times is positive
definite, regular or not, integer or not. -/
theorem C149_hat (lag : ℝ) : PDOn Set.univ (hatKernel lag) ↔ -1 < lag := by
  constructor
  · intro h
    have := h Unit (fun _ => 0) (fun _ _ _ => rfl) (fun _ => trivial) (fun _ => 1) (fun h => one_ne_zero (congrFun h ()))
    simp [hatKernel] at this
    linarith
  · intro h
    have hl : 0 < lag + 1 := by linarith
    have h1 := ((hat (by
      have := C38_hat_psd 0
      refine (funext₂ fun x y => ?_ : (fun x y : ℝ => max 0 (1 - |x - y|)) = hatKernel 0) ▸ this
      rw [hatKernel, zero_add, max_comm])).comp (fun t => t / (lag + 1)) fun s t hst => by
        have := hl.ne'
        field_simp at hst
        exact hst).smul hl
    refine (funext₂ fun x y => ?_ : hatKernel lag = _) ▸ h1
    rw [hatKernel, max_comm, ← sub_div, abs_div, abs_of_pos hl, mul_max_of_nonneg _ _ hl.le, mul_zero, mul_sub, mul_one, mul_div_cancel₀ _ hl.ne']

/-- **C149** The indicator kernel with the default gamma (`2 * lag + 1`), or any gamma larger than the number of other integer times within the lag,
tells all integer times apart. Missing (`_partial`): other times (`C149_times_violated`). -/
theorem C149_indicator_partial (lag γ : ℝ) (hlag : 0 ≤ lag) (hγ : 2 * (⌊lag⌋₊ : ℝ) < γ) : PDOn (Set.range fun z : ℤ => (z : ℝ)) (indicatorKernel lag γ) := by
  classical
  intro ι _ x hx hZ c hc
  have h0 := (C38_indicator_floor lag _ hlag le_rfl ι x hZ).2 c
  obtain ⟨i, hi⟩ := Function.ne_iff.1 hc
  have hs : 0 < (γ - 2 * (⌊lag⌋₊ : ℝ)) * ∑ i, c i * c i :=
    mul_pos (by linarith) (sum_pos' (fun i _ => mul_self_nonneg _) ⟨i, mem_univ i, mul_self_pos.2 hi⟩)
  refine (add_pos_of_nonneg_of_pos h0 hs).trans_eq ?_
  rw [mul_sum, ← sum_add_distrib]
  refine sum_congr rfl fun i _ => ?_
  have : ∑ j, c i * c j * indicatorKernel lag γ (x i) (x j) =
      ∑ j, (c i * c j * indicatorKernel lag (2 * (⌊lag⌋₊ : ℝ)) (x i) (x j) + if j = i then (γ - 2 * (⌊lag⌋₊ : ℝ)) * (c i * c i) else 0) := sum_congr rfl fun j _ => by
    by_cases hij : j = i
    · subst hij
      simp [indicatorKernel]; ring
    · have : ¬ x i - x j = 0 := fun h => hij (hx (sub_eq_zero.1 h)).symm
      simp [indicatorKernel, this, hij]
  rw [this, sum_add_distrib, sum_ite_eq' univ i, if_pos (mem_univ _)]

theorem C149_indicator_default (lag : ℝ) (hlag : 0 ≤ lag) :
    PDOn (Set.range fun z : ℤ => (z : ℝ)) (indicatorKernel (IndSt.init lag none).lag (IndSt.init lag none).γ) :=
  C149_indicator_partial _ _ hlag (by
    have := Nat.floor_le hlag
    show 2 * (⌊lag⌋₊ : ℝ) < 2 * lag + 1
    linarith)

/-- **C149** violated: on times that are not integers no gamma makes the indicator kernel positive semi-definite, whatever the positive lag. -/
theorem C149_times_violated (lag γ : ℝ) (hlag : 0 < lag) : ¬ PSDOn Set.univ (indicatorKernel lag γ) := by
  classical
  intro h
  obtain ⟨n, hn⟩ := exists_nat_gt (17 * (|γ| + 1))
  have hn0 : (0 : ℝ) < n := lt_of_le_of_lt (by positivity) hn
  have hγ := le_abs_self γ
  obtain ⟨C, hC⟩ : ∃ C : Fin 3 → ℝ, C = ![2, -3, 2] := ⟨_, rfl⟩
  obtain ⟨G, hG⟩ : ∃ G : Fin 3 → Fin 3 → ℝ, G = ![![1, 1, 0], ![1, 1, 1], ![0, 1, 1]] := ⟨_, rfl⟩
  have h1 := (h (Fin 3 × Fin n) (fun q => lag * (3 / 4 * (q.1.val : ℝ) + (q.2.val : ℝ) / (4 * n))) fun _ => trivial).2 fun q => C q.1
  have hk : ∀ (a b : Fin 3) (i j : Fin n), indicatorKernel lag γ (lag * (3 / 4 * (a.val : ℝ) + (i.val : ℝ) / (4 * n))) (lag * (3 / 4 * (b.val : ℝ) + (j.val : ℝ) / (4 * n))) =
      G a b + if a = b ∧ i = j then γ - 1 else 0 := by
    intro a b i j
    obtain ⟨u, hu⟩ : ∃ u : ℝ, u = (i.val : ℝ) / (4 * n) := ⟨_, rfl⟩
    obtain ⟨v, hv⟩ : ∃ v : ℝ, v = (j.val : ℝ) / (4 * n) := ⟨_, rfl⟩
    have hi : (i.val : ℝ) < n := by exact_mod_cast i.2
    have hj : (j.val : ℝ) < n := by exact_mod_cast j.2
    have hu0 : 0 ≤ u := by rw [hu]; positivity
    have hv0 : 0 ≤ v := by rw [hv]; positivity
    have hu1 : u < 1 / 4 := by rw [hu, div_lt_iff₀ (by positivity)]; linarith
    have hv1 : v < 1 / 4 := by rw [hv, div_lt_iff₀ (by positivity)]; linarith
    have huv : u = v ↔ i = j := by
      rw [hu, hv, div_left_inj' (by positivity), Nat.cast_inj, Fin.ext_iff]
    have hsc : ∀ s t, indicatorKernel lag γ (lag * s) (lag * t) = if s = t then γ else if |s - t| ≤ 1 then 1 else 0 := fun s t => by
      have e1 : lag * s - lag * t = 0 ↔ s = t := by rw [← mul_sub, mul_eq_zero, or_iff_right hlag.ne', sub_eq_zero]
      have e2 : |lag * s - lag * t| ≤ lag ↔ |s - t| ≤ 1 := by
        rw [← mul_sub, abs_mul, abs_of_pos hlag]
        exact ⟨fun h => by by_contra h'; nlinarith, fun h => by nlinarith⟩
      simp only [indicatorKernel, e1, e2]
    rw [← hu, ← hv, hsc]
    simp only [← huv, hG]
    have near : ∀ s t : ℝ, -1 ≤ s - t → s - t ≤ 1 → (s = t ↔ False) → (if s = t then γ else if |s - t| ≤ 1 then 1 else 0) = 1 := fun s t h1 h2 h3 => by
      rw [if_neg (fun h => h3.1 h), if_pos (abs_le.2 ⟨h1, h2⟩)]
    have far : ∀ s t : ℝ, (1 < s - t ∨ s - t < -1) → (if s = t then γ else if |s - t| ≤ 1 then 1 else 0) = 0 := fun s t h => by
      rw [if_neg (by rintro rfl; rcases h with h | h <;> norm_num at h), if_neg (fun h' => by rcases h with h | h <;> linarith [(abs_le.1 h').1, (abs_le.1 h').2])]
    have diag : ∀ w : ℝ, (if w + u = w + v then γ else if |(w + u) - (w + v)| ≤ 1 then 1 else 0) = 1 + if u = v then γ - 1 else 0 := fun w => by
      by_cases h : u = v
      · simp [h]
      · rw [if_neg (fun h' => h (by linarith)), if_neg h, if_pos (abs_le.2 ⟨by linarith, by linarith⟩), add_zero]
    have n0 : ∀ a b : Fin 3, a ≠ b → (G a b + if a = b ∧ u = v then γ - 1 else 0) = G a b := fun a b h => by simp [h]
    rw [← hG]
    by_cases hab : a = b
    · subst hab
      rw [diag]
      have : G a a = 1 := by rw [hG]; fin_cases a <;> rfl
      simp [this]
    · rw [n0 a b hab]
      fin_cases a <;> fin_cases b <;> first | exact absurd rfl hab | skip
      · rw [near] <;> norm_num [hG] <;> linarith
      · rw [far] <;> norm_num [hG]; right; linarith
      · rw [near] <;> norm_num [hG] <;> linarith
      · rw [near] <;> norm_num [hG] <;> linarith
      · rw [far] <;> norm_num [hG]; left; linarith
      · rw [near] <;> norm_num [hG] <;> linarith
  simp only [hk] at h1
  have h2 : ∑ q : Fin 3 × Fin n, ∑ r : Fin 3 × Fin n, C q.1 * C r.1 * (G q.1 r.1 + if q.1 = r.1 ∧ q.2 = r.2 then γ - 1 else 0) = -7 * (n : ℝ) ^ 2 + 17 * (γ - 1) * n := by
    have e : ∀ q r : Fin 3 × Fin n, C q.1 * C r.1 * (G q.1 r.1 + if q.1 = r.1 ∧ q.2 = r.2 then γ - 1 else 0) = C q.1 * C r.1 * G q.1 r.1 + if q = r then C q.1 * C q.1 * (γ - 1) else 0 := by
      intro q r
      by_cases h : q = r
      · subst h; simp; ring
      · rw [if_neg h, if_neg fun h' => h (Prod.ext h'.1 h'.2)]; ring
    simp only [e, sum_add_distrib, sum_ite_eq, mem_univ, if_true]
    simp only [Fintype.sum_prod_type, sum_const, Finset.card_univ, Fintype.card_fin, nsmul_eq_mul, Fin.sum_univ_three, hC, hG]
    simp
    ring
  rw [h2] at h1
  nlinarith

/-- **C149** The skewed chi-square kernel tells all points apart, as soon as the shifted entries are not smaller than half of the guard of the division. -/
theorem C149_skewed {d : Type} [Fintype d] (p : ℝ) : PDOn {x : d → ℝ | ∀ k, EPS / 2 ≤ x k + p} (skewedChi2 p) := by
  intro ι _ x hx hZ c hc
  have hE := EPS_pos
  have hpos : ∀ i k, 0 < x i k + p := fun i k => by have := hZ i k; linarith
  have h := (PDOn.scale ((cauchy_prod (d := d)).smul (a := 2 ^ Fintype.card d) (by positivity)) (fun x => ∏ k, Real.sqrt (x k).1)
    fun x => prod_ne_zero_iff.2 fun k _ => (Real.sqrt_pos.2 (x k).2).ne') ι (fun i k => ⟨x i k + p, hpos i k⟩) (fun i j hij => hx (funext fun k => by
      have := congrArg Subtype.val (congrFun hij k)
      simpa using this)) (fun _ => trivial) c hc
  refine h.trans_eq (sum_congr rfl fun i _ => sum_congr rfl fun j _ => ?_)
  congr 1
  beta_reduce
  rw [skewedChi2, ← Finset.card_univ, ← prod_const, ← prod_mul_distrib, ← prod_mul_distrib, ← prod_mul_distrib]
  refine prod_congr rfl fun k _ => ?_
  have : clampEps (x i k + x j k + 2 * p) = (x i k + p) + (x j k + p) := by
    have := hZ i k; have := hZ j k
    unfold clampEps; rw [max_eq_left (by linarith)]; ring
  rw [this]; ring

/-- **C149** What the additive chi-square kernel tells apart: a combination of histograms vanishes exactly when, for every feature and every
non-zero value of it, the coefficients of the points with this value sum up to zero. -/
theorem C149_additive {d n : Type} [Fintype d] [Fintype n] (x : n → d → ℝ) (hx : ∀ i, Histogram (x i)) (c : n → ℝ) :
    ∑ i, ∑ j, c i * c j * additiveChi2 (x i) (x j) = 0 ↔ ∀ k, ∀ v ≠ 0, ∑ i with x i k = v, c i = 0 := by
  classical
  have hE := EPS_pos
  obtain ⟨x', hx'⟩ : ∃ x' : d → n → ℝ, ∀ k i, x' k i = if x i k = 0 then 1 else x i k := ⟨_, fun _ _ => rfl⟩
  have hpos : ∀ k i, 0 < x' k i := fun k i => by
    rw [hx']
    rcases hx i k with h | h
    · simp [h]
    · rw [if_neg (by linarith)]; linarith
  have hval : ∀ k i j, 2 * (x i k * x j k) / clampEps (x i k + x j k) = 2 * (x i k * x j k * (1 / (x' k i + x' k j))) := by
    intro k i j
    by_cases hi : x i k = 0
    · simp [hi]
    by_cases hj : x j k = 0
    · simp [hj]
    have hi2 := (hx i k).resolve_left hi
    have hj2 := (hx j k).resolve_left hj
    rw [hx', hx', if_neg hi, if_neg hj]
    have : clampEps (x i k + x j k) = x i k + x j k := max_eq_left (by linarith)
    rw [this]; ring
  obtain ⟨Q, hQ⟩ : ∃ Q : d → ℝ, ∀ k, Q k = ∑ i, ∑ j, (c i * x i k) * (c j * x j k) * (1 / (x' k i + x' k j)) := ⟨_, fun _ => rfl⟩
  have hQ0 : ∀ k, 0 ≤ Q k := fun k => by rw [hQ]; exact (psdMat_cauchy (x' k) (hpos k)).2 _
  have hsum : ∑ i, ∑ j, c i * c j * additiveChi2 (x i) (x j) = 2 * ∑ k, Q k := by
    simp only [hQ, additiveChi2, hval, mul_sum]
    refine (sum_congr rfl fun i _ => sum_comm).trans (sum_comm.trans ?_)
    exact sum_congr rfl fun k _ => sum_congr rfl fun i _ => sum_congr rfl fun j _ => by ring
  have hiff : ∀ k, Q k = 0 ↔ ∀ v ≠ 0, ∑ i with x i k = v, c i = 0 := by
    intro k
    have hfib : ∀ v ≠ 0, ∑ i with x' k i = v, c i * x i k = v * ∑ i with x i k = v, c i := by
      intro v hv
      rw [mul_sum]
      symm
      refine (sum_subset_zero_on_sdiff (fun i hi => ?_) (fun i hi => ?_) fun i hi => ?_)
      · have := (mem_filter.1 hi).2
        simp [hx', this, hv]
      · obtain ⟨h1, h2⟩ := mem_sdiff.1 hi
        have h3 := (mem_filter.1 h1).2
        rw [hx'] at h3
        by_cases h0 : x i k = 0
        · rw [h0, mul_zero]
        · rw [if_neg h0] at h3
          exact absurd (mem_filter.2 ⟨mem_univ i, h3⟩ : i ∈ univ.filter fun i => x i k = v) h2
      · rw [(mem_filter.1 hi).2, mul_comm]
    constructor
    · intro h v hv
      have := cauchy_null (x' k) (hpos k) (fun i => c i * x i k) (by rw [← hQ]; exact h) v
      rw [hfib v hv] at this
      exact (mul_eq_zero.1 this).resolve_left hv
    · intro h
      have hz : ∀ v, ∑ i with x' k i = v, c i * x i k = 0 := fun v => by
        by_cases hv : v = 0
        · rw [filter_eq_empty_iff.2 fun i _ h => (hpos k i).ne' (h.trans hv), sum_empty]
        · rw [hfib v hv, h v hv, mul_zero]
      rw [hQ]
      refine sum_eq_zero fun i _ => ?_
      have : ∑ j, (c j * x j k) * (1 / (x' k i + x' k j)) = 0 := by
        rw [← sum_fiberwise_of_maps_to (s := univ) (t := univ.image (x' k)) (g := x' k) fun j _ => mem_image_of_mem _ (mem_univ _)]
        refine sum_eq_zero fun v _ => ?_
        rw [sum_congr rfl fun j hj => by rw [(mem_filter.1 hj).2], ← sum_mul, hz, zero_mul]
      simp only [mul_assoc (c i * x i k)]
      rw [← mul_sum, this, mul_zero]
  rw [hsum, mul_eq_zero, or_iff_right two_ne_zero, sum_eq_zero_iff_of_nonneg fun k _ => hQ0 k]
  simp only [mem_univ, true_imp_iff, hiff]

/-- **C149** violated: the additive chi-square kernel only tells all histograms apart if there is a single feature. With more of them it cannot tell the sum of
two opposite corners of a rectangle from the sum of the two others. -/
theorem C149_additive_violated {d : Type} [Fintype d] [Nonempty d] : PDOn {x : d → ℝ | ∀ k, EPS / 2 ≤ x k} additiveChi2 ↔ Subsingleton d := by
  classical
  have hE := EPS_pos
  constructor
  · intro h
    refine ⟨fun a b => ?_⟩
    by_contra hab
    obtain ⟨x, hx⟩ : ∃ x : Bool × Bool → d → ℝ, ∀ q k, x q k = EPS + (if k = a ∧ q.1 = true then EPS else 0) + if k = b ∧ q.2 = true then EPS else 0 :=
      ⟨_, fun _ _ => rfl⟩
    have hxa : ∀ q, x q a = EPS + if q.1 = true then EPS else 0 := fun q => by rw [hx]; simp [hab]
    have hxb : ∀ q, x q b = EPS + if q.2 = true then EPS else 0 := fun q => by rw [hx]; simp [Ne.symm hab]
    have hxo : ∀ k, k ≠ a → k ≠ b → ∀ q, x q k = EPS := fun k h1 h2 q => by rw [hx]; simp [h1, h2]
    have hge : ∀ q k, EPS / 2 ≤ x q k := fun q k => by
      rw [hx]; split_ifs <;> linarith
    have hinj : Function.Injective x := by
      rintro ⟨p, q⟩ ⟨p', q'⟩ h
      have h1 := congrFun h a
      have h2 := congrFun h b
      rw [hxa, hxa] at h1
      rw [hxb, hxb] at h2
      cases p <;> cases p' <;> cases q <;> cases q' <;> simp at h1 h2 ⊢ <;> linarith
    obtain ⟨c, hc⟩ : ∃ c : Bool × Bool → ℝ, ∀ q, c q = if q.1 = q.2 then 1 else -1 := ⟨_, fun _ => rfl⟩
    have h0 := h (Bool × Bool) x hinj hge c fun h => by
      have := congrFun h (true, true)
      rw [hc] at this
      norm_num at this
    refine h0.ne' ((C149_additive x (fun q k => Or.inr (hge q k)) c).2 fun k v hv => ?_)
    rw [sum_filter]
    simp only [Fintype.sum_prod_type, Fintype.sum_bool, hc]
    by_cases hka : k = a
    · subst hka
      simp only [hxa, if_true, Bool.false_eq_true, Bool.true_eq_false, if_false]
      split_ifs <;> norm_num
    by_cases hkb : k = b
    · subst hkb
      simp only [hxb, if_true, Bool.false_eq_true, Bool.true_eq_false, if_false]
      split_ifs <;> norm_num
    simp only [hxo k hka hkb, if_true, Bool.false_eq_true, Bool.true_eq_false, if_false]
    split_ifs <;> norm_num
  · intro hd ι _ x hx hZ c hc
    refine lt_of_le_of_ne ((C82_additive_partial (d := d) ι x fun i k => Or.inr (hZ i k)).2 c) fun h0 => hc ?_
    have h1 := (C149_additive x (fun i k => Or.inr (hZ i k)) c).1 h0.symm
    funext j
    obtain ⟨k⟩ := (inferInstance : Nonempty d)
    have h2 := h1 k (x j k) (by have := hZ j k; linarith)
    have h3 : (univ.filter fun i => x i k = x j k) = {j} := by
      ext i
      simp only [mem_filter, mem_univ, true_and, mem_singleton]
      exact ⟨fun h => hx (funext fun l => by rw [Subsingleton.elim l k]; exact h), fun h => by rw [h]⟩
    rw [h3, sum_singleton] at h2
    exact h2

/-- **C149** On pairwise different points that such a kernel tells apart, any targets are reached by exactly one vector of coefficients. -/
theorem C149_targets {X n : Type} [Fintype n] {Z : Set X} {κ : X → X → ℝ} (h : PDOn Z κ) (x : n → X) (hx : Function.Injective x) (hZ : ∀ i, x i ∈ Z) (y : n → ℝ) :
    ∃! c : n → ℝ, ∀ i, ∑ j, κ (x i) (x j) * c j = y i :=
  C146_targets (PDOn.sub h) (fun i => ⟨x i, hZ i⟩) (fun _ _ hij => hx (congrArg Subtype.val hij)) y

/-- **C149** On times or points that such a kernel tells apart, the outputs of a LS-SVM tend to the targets as gamma decreases to zero. -/
theorem C149_fit {X n : Type} [Fintype n] {Z : Set X} {κ : X → X → ℝ} (h : PDOn Z κ) (hs : ∀ x y, κ x y = κ y x) (x : n → X) (hx : Function.Injective x) (hZ : ∀ i, x i ∈ Z)
    (y : n → ℝ) (c : ℝ → n → ℝ) (b : ℝ → ℝ) (hsol : ∀ γ > 0, DualSol (fun i j => κ (x i) (x j)) γ y (c γ) (b γ)) (i : n) :
    Filter.Tendsto (fun γ => outDual (fun j => κ (x i) (x j)) (c γ) (b γ)) (nhdsWithin 0 (Set.Ioi 0)) (nhds (y i)) :=
  C146_fit (PDOn.sub h) (fun _ _ => hs _ _) (fun i => (⟨x i, hZ i⟩ : Z)) (fun _ _ hij => hx (congrArg Subtype.val hij)) y c b hsol i

/-- Irregular times with the hat kernel of lag one: targets are reached. -/
example (y : Fin 3 → ℝ) : ∃! c : Fin 3 → ℝ, ∀ i, ∑ j, hatKernel 1 ((![0, 1 / 3, 5] : Fin 3 → ℝ) i) ((![0, 1 / 3, 5] : Fin 3 → ℝ) j) * c j = y i :=
  C149_targets ((C149_hat 1).2 (by norm_num)) _ (by
    intro i j h
    fin_cases i <;> fin_cases j <;> first | rfl | (exfalso; revert h; simp; try norm_num)) (fun _ => trivial) y

/-- An indicator kernel of lag two and a half, with gamma five, on integers; with any gamma it fails on other times. -/
example : PDOn (Set.range fun z : ℤ => (z : ℝ)) (indicatorKernel (5 / 2) 5) ∧ ¬ PSDOn Set.univ (indicatorKernel (5 / 2) 5) := by
  refine ⟨C149_indicator_partial _ _ (by norm_num) ?_, C149_times_violated _ _ (by norm_num)⟩
  have : ⌊(5 / 2 : ℝ)⌋₊ = 2 := by rw [Nat.floor_eq_iff (by norm_num)]; norm_num
  rw [this]; norm_num

/-- Two histograms sharing an entry: their difference is seen by the kernel. -/
example : ∑ i, ∑ j, (![1, -1] : Fin 2 → ℝ) i * (![1, -1] : Fin 2 → ℝ) j * additiveChi2 ((![![1, 0], ![1, 1]] : Fin 2 → Fin 2 → ℝ) i) ((![![1, 0], ![1, 1]] : Fin 2 → Fin 2 → ℝ) j) ≠ 0 := by
  have hE : EPS ≤ 1 := by unfold EPS; norm_num
  have hE0 := EPS_pos
  rw [Ne, C149_additive _ (by
    intro i k
    fin_cases i <;> fin_cases k <;> simp <;> linarith)]
  intro h
  have := h 1 1 one_ne_zero
  rw [sum_filter, Fin.sum_univ_two] at this
  simp at this

/-- Three points that the skewed kernel tells apart, and the limit of a LS-SVM on them. -/
example (y : Fin 2 → ℝ) (c : ℝ → Fin 2 → ℝ) (b : ℝ → ℝ)
    (hsol : ∀ γ > 0, DualSol (fun i j => skewedChi2 1 ((![fun _ => 0, fun _ => 2] : Fin 2 → Fin 2 → ℝ) i) ((![fun _ => 0, fun _ => 2] : Fin 2 → Fin 2 → ℝ) j)) γ y (c γ) (b γ)) :
    Filter.Tendsto (fun γ => outDual (fun j => skewedChi2 1 ((![fun _ => 0, fun _ => 2] : Fin 2 → Fin 2 → ℝ) 0) ((![fun _ => 0, fun _ => 2] : Fin 2 → Fin 2 → ℝ) j)) (c γ) (b γ))
      (nhdsWithin 0 (Set.Ioi 0)) (nhds (y 0)) :=
  C149_fit (C149_skewed 1) (C39_skewed_symm 1) _ (by
    intro i j h
    have := congrFun h 0
    fin_cases i <;> fin_cases j <;> simp at this ⊢) (by
    have hE : EPS ≤ 1 := by unfold EPS; norm_num
    intro i k
    fin_cases i <;> simp <;> linarith) y c b hsol 0

end Apart
end Kerch
