import Verif.Model.Bandwidth
import Verif.Props.KernelFun
set_option linter.unusedSectionVars false
set_option linter.unusedSimpArgs false
/-!
# C30: the bandwidth heuristic
-/
namespace Kerch
open Finset

/-! ## The lower median -/

section median
variable {N : Type} [Fintype N]

/-- `m` is the lower median of `f`: a value such that at most `⌊(N-1)/2⌋` entries are smaller and more than `⌊(N-1)/2⌋` are not greater. -/
def IsLowerMedian (f : N → ℝ) (m : ℝ) : Prop :=
  (∃ i, f i = m) ∧ (univ.filter fun i => f i < m).card ≤ (Fintype.card N - 1) / 2 ∧
    (Fintype.card N - 1) / 2 < (univ.filter fun i => f i ≤ m).card

theorem lowerMedian_unique {f : N → ℝ} {m m' : ℝ} (h : IsLowerMedian f m) (h' : IsLowerMedian f m') : m = m' := by
  have key : ∀ {a b : ℝ}, IsLowerMedian f a → IsLowerMedian f b → ¬ a < b := by
    intro a b ha hb hab
    have : (univ.filter fun i => f i ≤ a).card ≤ (univ.filter fun i => f i < b).card :=
      card_le_card fun i hi => by
        simp only [mem_filter, mem_univ, true_and] at *
        exact lt_of_le_of_lt hi hab
    have := ha.2.2
    have := hb.2.1
    omega
  exact le_antisymm (not_lt.1 (key h' h)) (not_lt.1 (key h h'))

theorem lowerMedian_spec [Nonempty N] (f : N → ℝ) : IsLowerMedian f (lowerMedian f) := by
  set L := (univ.val.map f).sort (· ≤ ·) with hL
  have hperm : (L : Multiset ℝ) = univ.val.map f := Multiset.sort_eq _ _
  have hlen : L.length = Fintype.card N := by
    have := congrArg Multiset.card hperm
    simpa using this
  have hN : 0 < Fintype.card N := Fintype.card_pos
  have hsorted : L.Pairwise (· ≤ ·) := Multiset.pairwise_sort _ _
  set k := (Fintype.card N - 1) / 2 with hk
  have hkL : k < L.length := by omega
  have hm : lowerMedian f = L[k] := by
    show L.getD k 0 = _
    simp [List.getD, hkL]
  have hcount : ∀ p : ℝ → Prop, ∀ [DecidablePred p], (univ.filter fun i => p (f i)).card = L.countP (fun a => decide (p a)) := by
    intro p _
    rw [← Multiset.coe_countP p L, hperm, Multiset.countP_map]
    rfl
  have hmono : ∀ i j (hi : i < L.length) (hj : j < L.length), i ≤ j → L[i] ≤ L[j] := by
    intro i j hi hj hij
    rcases Nat.lt_or_eq_of_le hij with h | h
    · exact List.pairwise_iff_getElem.1 hsorted i j hi hj h
    · subst h; exact le_refl _
  rw [hm]
  obtain ⟨m, hmL⟩ : ∃ m, m = L[k] := ⟨_, rfl⟩
  rw [← hmL]
  refine ⟨?_, ?_, ?_⟩
  · rw [hmL]
    have : L[k] ∈ (L : Multiset ℝ) := List.getElem_mem hkL
    rw [hperm, Multiset.mem_map] at this
    obtain ⟨i, _, hi⟩ := this
    exact ⟨i, hi⟩
  · rw [hcount fun a => a < m]
    conv_lhs => rw [← List.take_append_drop k L]
    rw [List.countP_append]
    have h2 : (L.drop k).countP (fun a => decide (a < m)) = 0 := by
      rw [List.countP_eq_zero]
      intro a ha
      obtain ⟨j, hj, rfl⟩ := List.mem_iff_getElem.1 ha
      rw [List.getElem_drop]
      simp only [decide_eq_true_eq, not_lt, hmL]
      exact hmono _ _ _ _ (by omega)
    rw [h2, add_zero]
    refine (List.countP_le_length).trans ?_
    rw [List.length_take]
    exact min_le_left _ _
  · rw [hcount fun a => a ≤ m]
    conv_rhs => rw [← List.take_append_drop (k + 1) L]
    rw [List.countP_append]
    have h2 : (L.take (k + 1)).countP (fun a => decide (a ≤ m)) = (L.take (k + 1)).length := by
      rw [List.countP_eq_length]
      intro a ha
      obtain ⟨j, hj, rfl⟩ := List.mem_iff_getElem.1 ha
      rw [List.getElem_take]
      rw [List.length_take] at hj
      simp only [decide_eq_true_eq, hmL]
      exact hmono _ _ _ _ (by omega)
    rw [h2, List.length_take]
    omega

theorem lowerMedian_comp_mono [Nonempty N] (f : N → ℝ) (g : ℝ → ℝ) (hg : ∀ i j, f i ≤ f j → g (f i) ≤ g (f j)) :
    lowerMedian (fun i => g (f i)) = g (lowerMedian f) := by
  obtain ⟨⟨i₀, h0⟩, h1, h2⟩ := lowerMedian_spec f
  refine lowerMedian_unique (lowerMedian_spec _) ⟨⟨i₀, congrArg g h0⟩, ?_, ?_⟩
  · refine (card_le_card fun i hi => ?_).trans h1
    simp only [mem_filter, mem_univ, true_and] at *
    by_contra h
    rw [← h0] at h hi
    exact absurd (hg i₀ i (not_lt.1 h)) (not_le.2 hi)
  · refine h2.trans_le (card_le_card fun i hi => ?_)
    simp only [mem_filter, mem_univ, true_and] at *
    rw [← h0] at hi ⊢
    exact hg i i₀ hi

theorem lowerMedian_equiv [Nonempty N] {N' : Type} [Fintype N'] [Nonempty N'] (e : N' ≃ N) (f : N → ℝ) :
    lowerMedian (fun i => f (e i)) = lowerMedian f := by
  obtain ⟨⟨i₀, h0⟩, h1, h2⟩ := lowerMedian_spec f
  have hc : Fintype.card N' = Fintype.card N := Fintype.card_congr e
  have hf : ∀ p : ℝ → Prop, ∀ [DecidablePred p], (univ.filter fun i => p (f (e i))).card = (univ.filter fun i => p (f i)).card := by
    intro p _
    refine card_bij (fun i _ => e i) (fun i hi => by simpa using hi) (fun i _ j _ h => e.injective h) (fun j hj => ⟨e.symm j, ?_, ?_⟩)
    · simpa using hj
    · simp
  refine lowerMedian_unique (lowerMedian_spec _) ⟨⟨e.symm i₀, by simpa using h0⟩, ?_, ?_⟩
  · rw [hf fun a => a < lowerMedian f, hc]; exact h1
  · rw [hf fun a => a ≤ lowerMedian f, hc]; exact h2

end median

/-! ## C30 -/

section
variable {n d : Type} [Fintype n] [Nonempty n] [Fintype d] [Nonempty d]

/-- The bandwidth is half the lower median of the distances of all ordered pairs of sample points. -/
theorem C30_half_median (D : DistKind) (hD : ∀ p, D ≠ .minkowski p) (pts : n → d → ℝ) :
    ∃ (δ : n × n → ℝ) (m : ℝ), (∀ ij, dist D (pts ij.1) (pts ij.2) = .ok (δ ij)) ∧ IsLowerMedian δ m ∧
      heuristicSigma D pts = .ok (m / 2) := by
  cases D with
  | euclidean =>
    refine ⟨_, _, fun ij => rfl, lowerMedian_spec _, ?_⟩
    rw [lowerMedian_comp_mono (fun ij : n × n => euclidSq (pts ij.1) (pts ij.2)) Real.sqrt fun i j h => Real.sqrt_le_sqrt h]
    simp only [heuristicSigma]
    congr 1; ring
  | manhattan =>
    refine ⟨_, _, fun ij => rfl, lowerMedian_spec _, ?_⟩
    simp only [heuristicSigma]
    congr 1; ring
  | chebyshev =>
    refine ⟨_, _, fun ij => rfl, lowerMedian_spec _, ?_⟩
    simp only [heuristicSigma]
    congr 1; ring
  | minkowski p => exact absurd rfl (hD p)

/-- It scales with the data. -/
theorem C30_scaling (D : DistKind) (c : ℝ) (pts : n → d → ℝ) :
    heuristicSigma D (fun i j => c * pts i j) = (heuristicSigma D pts).map fun σ => |c| * σ := by
  cases D with
  | euclidean =>
    simp only [heuristicSigma, Except.map]
    congr 1
    have h : ∀ x y : d → ℝ, euclidSq (fun j => c * x j) (fun j => c * y j) = c ^ 2 * euclidSq x y := by
      intro x y; simp only [euclidSq, mul_sum]; exact sum_congr rfl fun _ _ => by ring
    simp only [h]
    rw [lowerMedian_comp_mono (fun ij : n × n => euclidSq (pts ij.1) (pts ij.2)) (fun t => c ^ 2 * t)
      fun i j hij => mul_le_mul_of_nonneg_left hij (sq_nonneg c)]
    rw [Real.sqrt_mul (sq_nonneg c), Real.sqrt_sq_eq_abs]
    ring
  | manhattan =>
    simp only [heuristicSigma, Except.map]
    congr 1
    have h : ∀ x y : d → ℝ, manhattan (fun j => c * x j) (fun j => c * y j) = |c| * manhattan x y := by
      intro x y; simp only [manhattan, mul_sum]; exact sum_congr rfl fun _ _ => by rw [← abs_mul]; congr 1; ring
    simp only [h]
    rw [lowerMedian_comp_mono (fun ij : n × n => manhattan (pts ij.1) (pts ij.2)) (fun t => |c| * t)
      fun i j hij => mul_le_mul_of_nonneg_left hij (abs_nonneg c)]
    ring
  | chebyshev =>
    simp only [heuristicSigma, Except.map]
    congr 1
    have h : ∀ x y : d → ℝ, chebyshev (fun j => c * x j) (fun j => c * y j) = |c| * chebyshev x y := by
      intro x y
      simp only [chebyshev]
      have : (fun i => |c * x i - c * y i|) = fun i => |c| * |x i - y i| := by
        funext i; rw [← abs_mul]; congr 1; ring
      rw [this]
      refine le_antisymm (sup'_le _ _ fun i _ => mul_le_mul_of_nonneg_left (le_sup' (fun i => |x i - y i|) (mem_univ i)) (abs_nonneg c)) ?_
      obtain ⟨i, hi, he⟩ := exists_mem_eq_sup' (univ_nonempty (α := d)) (fun i => |x i - y i|)
      rw [he]
      exact le_sup' (fun i => |c| * |x i - y i|) hi
    simp only [h]
    rw [lowerMedian_comp_mono (fun ij : n × n => chebyshev (pts ij.1) (pts ij.2)) (fun t => |c| * t)
      fun i j hij => mul_le_mul_of_nonneg_left hij (abs_nonneg c)]
    ring
  | minkowski p => rfl

/-- It does not depend on the order of the points. -/
theorem C30_order (D : DistKind) (e : n ≃ n) (pts : n → d → ℝ) : heuristicSigma D (fun i => pts (e i)) = heuristicSigma D pts := by
  have h : ∀ g : n × n → ℝ, lowerMedian (fun ij : n × n => g (e ij.1, e ij.2)) = lowerMedian g := fun g =>
    lowerMedian_equiv (e.prodCongr e) g
  cases D with
  | euclidean => simp only [heuristicSigma]; rw [h fun ij => euclidSq (pts ij.1) (pts ij.2)]
  | manhattan => simp only [heuristicSigma]; rw [h fun ij => manhattan (pts ij.1) (pts ij.2)]
  | chebyshev => simp only [heuristicSigma]; rw [h fun ij => chebyshev (pts ij.1) (pts ij.2)]
  | minkowski p => rfl

theorem dist_eq_zero_iff {D : DistKind} {x y : d → ℝ} {δ : ℝ} (h : dist D x y = .ok δ) : δ = 0 ↔ x = y := by
  cases D with
  | euclidean =>
    obtain rfl := Except.ok.inj h
    rw [Real.sqrt_eq_zero (euclidSq_nonneg x y), euclidSq, sum_eq_zero_iff_of_nonneg fun _ _ => mul_self_nonneg _]
    constructor
    · intro h; funext i; have := h i (mem_univ i); simpa [sub_eq_zero] using this
    · rintro rfl i _; simp
  | manhattan =>
    obtain rfl := Except.ok.inj h
    rw [manhattan, sum_eq_zero_iff_of_nonneg fun _ _ => abs_nonneg _]
    constructor
    · intro h; funext i; have := h i (mem_univ i); simpa [sub_eq_zero] using this
    · rintro rfl i _; simp
  | chebyshev =>
    obtain rfl := Except.ok.inj h
    constructor
    · intro h; funext i
      have h1 := le_sup' (fun i => |x i - y i|) (mem_univ i)
      have h2 : |x i - y i| ≤ 0 := h ▸ h1
      exact sub_eq_zero.1 (abs_nonpos_iff.1 h2)
    · rintro rfl; simp [chebyshev]
  | minkowski p => cases h

open Classical in
/-- It is strictly positive exactly when fewer than half of the ordered pairs of sample points (each point with itself included) coincide. -/
theorem C30_positive (D : DistKind) (hD : ∀ p, D ≠ .minkowski p) (pts : n → d → ℝ) :
    ∃ σ, heuristicSigma D pts = .ok σ ∧ 0 ≤ σ ∧
      (0 < σ ↔ 2 * (univ.filter fun ij : n × n => pts ij.1 = pts ij.2).card < Fintype.card n * Fintype.card n) := by
  obtain ⟨δ, m, hδ, hm, hσ⟩ := C30_half_median D hD pts
  have h0 : ∀ ij, 0 ≤ δ ij := fun ij => dist_nonneg' (hδ ij)
  obtain ⟨⟨i₀, hi₀⟩, h1, h2⟩ := hm
  have hm0 : 0 ≤ m := hi₀ ▸ h0 i₀
  refine ⟨_, hσ, by positivity, ?_⟩
  have hz : (univ.filter fun ij : n × n => pts ij.1 = pts ij.2) = univ.filter fun ij => δ ij = 0 := by
    ext ij
    simp only [mem_filter, mem_univ, true_and]
    exact (dist_eq_zero_iff (hδ ij)).symm
  have hN : 0 < Fintype.card n * Fintype.card n := Nat.mul_pos Fintype.card_pos Fintype.card_pos
  rw [Fintype.card_prod] at h1 h2
  rw [hz]
  constructor
  · intro hpos
    have hmp : 0 < m := by linarith
    have : (univ.filter fun ij => δ ij = 0).card ≤ (univ.filter fun ij => δ ij < m).card :=
      card_le_card fun ij hij => by
        simp only [mem_filter, mem_univ, true_and] at *
        rw [hij]; exact hmp
    omega
  · intro hlt
    rcases hm0.lt_or_eq with h | h
    · linarith
    · exfalso
      have : (univ.filter fun ij => δ ij ≤ m).card ≤ (univ.filter fun ij => δ ij = 0).card :=
        card_le_card fun ij hij => by
          simp only [mem_filter, mem_univ, true_and] at *
          exact le_antisymm (h ▸ hij) (h0 ij)
      omega

/-- Violation: a sample of one or two points, distinct or not, gets a null bandwidth, for all distances. -/
theorem C30_two_points_violated (hn : Fintype.card n ≤ 2) (D : DistKind) (hD : ∀ p, D ≠ .minkowski p) (pts : n → d → ℝ) :
    heuristicSigma D pts = .ok 0 := by
  classical
  obtain ⟨σ, h1, h2, h3⟩ := C30_positive D hD pts
  have : ¬ 0 < σ := by
    rw [h3, not_lt]
    have hdiag : (univ : Finset n).card ≤ (univ.filter fun ij : n × n => pts ij.1 = pts ij.2).card :=
      card_le_card_of_injOn (fun i => (i, i)) (fun i _ => by simp) (fun i _ j _ h => (Prod.mk.inj h).1)
    rw [card_univ] at hdiag
    have : Fintype.card n * Fintype.card n ≤ 2 * Fintype.card n := Nat.mul_le_mul_right _ hn
    calc Fintype.card n * Fintype.card n ≤ 2 * Fintype.card n := this
      _ ≤ _ := Nat.mul_le_mul_left 2 (by convert hdiag)
  rw [h1, le_antisymm (not_lt.1 this) h2]

end

section history
variable {S : Type} (h : S → ℝ)

/-- The bandwidth is fixed at the first use: all later uses give the same value until one is assigned, whatever the sample changes. -/
theorem C30_fixed (b : BandSt S) (σ : ℝ) (hu : (b.step h .use).1 = .ok (some σ)) (l : List (BandOp S)) (hl : ∀ v, BandOp.assign v ∉ l) :
    (((b.step h .use).2.run h l).step h .use).1 = .ok (some σ) := by
  have h0 : (b.step h .use).2.sigma = some σ := by
    obtain ⟨s, smp⟩ := b
    cases s with
    | some s0 => simp only [BandSt.step] at hu ⊢; injection hu
    | none =>
      cases smp with
      | none => cases hu
      | some s => simp only [BandSt.step] at hu ⊢; injection hu
  generalize (b.step h .use).2 = c at h0
  clear hu b
  induction l generalizing c with
  | nil =>
    obtain ⟨s, smp⟩ := c
    subst h0
    rfl
  | cons o l ih =>
    refine ih (fun v hv => hl v (List.mem_cons_of_mem _ hv)) _ ?_
    obtain ⟨s, smp⟩ := c
    subst h0
    cases o with
    | use => rfl
    | assign v => exact absurd List.mem_cons_self (hl v)
    | newSample s => rfl

/-- An assigned value is used from then on. -/
theorem C30_assigned (b : BandSt S) (v : ℝ) : ((b.step h (.assign v)).2.step h .use).1 = .ok (some v) := rfl

/-- The first use is the heuristic on the sample at that time; without sample an error is raised. -/
theorem C30_first (b : BandSt S) (hb : b.sigma = none) :
    (b.step h .use).1 = match b.sample with | some s => .ok (some (h s)) | none => .error .notInitialized := by
  obtain ⟨s, smp⟩ := b
  cases hb
  cases smp <;> rfl

/-- Violation: it is not recomputed for a new sample. -/
theorem C30_new_sample_violated (s s' : S) (hne : h s ≠ h s') :
    let b : BandSt S := { sigma := none, sample := some s }
    ((b.run h [.use, .newSample s']).step h .use).1 = .ok (some (h s)) ∧
      ((b.run h [.use, .newSample s']).step h .use).1 ≠ .ok (some (h s')) := by
  refine ⟨rfl, fun he => hne ?_⟩
  exact Option.some.inj (Except.ok.inj he)

end history

open Classical in
/-- Three distinct points: three of the nine pairs coincide, so that the bandwidth is positive. -/
example : 2 * (univ.filter fun ij : Fin 3 × Fin 3 => (fun _ : Unit => (ij.1 : ℝ)) = (fun _ : Unit => (ij.2 : ℝ))).card < 3 * 3 := by
  have : (univ.filter fun ij : Fin 3 × Fin 3 => (fun _ : Unit => (ij.1 : ℝ)) = (fun _ : Unit => (ij.2 : ℝ)))
      = univ.filter fun ij : Fin 3 × Fin 3 => ij.1 = ij.2 := by
    ext ij
    simp only [mem_filter, mem_univ, true_and]
    constructor
    · intro h
      have := congrFun h ()
      exact Fin.ext (by exact_mod_cast this)
    · intro h; rw [h]
  rw [this]
  decide

end Kerch
