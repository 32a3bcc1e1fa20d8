import Verif.Model.Generate
import Verif.Props.Data
import Mathlib.Tactic.Linarith
import Mathlib.Tactic.Positivity
set_option linter.unusedSectionVars false
set_option linter.unusedSimpArgs false
/-!
# C142: generated data
-/
namespace Kerch
namespace Generate
open Data

/-! ## Specification -/

/-- The point is within the range. -/
def Range.Has (R : Range) (q : ℝ × ℝ) : Prop := R.x0 ≤ q.1 ∧ q.1 ≤ R.x1 ∧ R.y0 ≤ q.2 ∧ q.2 ≤ R.y1

/-- No point has two labels. -/
def Consistent (l : List ((ℝ × ℝ) × Int)) : Prop := ∀ a ∈ l, ∀ b ∈ l, a.1 = b.1 → a.2 = b.2

/-! ## Helpers -/

theorem linspace_mem (n i : Nat) (hi : i < n) : 0 ≤ linspace 0 Real.pi n i ∧ linspace 0 Real.pi n i ≤ Real.pi := by
  unfold linspace
  split
  · exact ⟨le_refl _, Real.pi_pos.le⟩
  · rename_i h
    have hn : (0 : ℝ) < n - 1 := by
      have : (2 : ℝ) ≤ n := by exact_mod_cast (by omega : 2 ≤ n)
      linarith
    have hi' : (i : ℝ) ≤ n - 1 := by
      have : ((i + 1 : Nat) : ℝ) ≤ n := by exact_mod_cast hi
      push_cast at this; linarith
    have hp := Real.pi_pos
    rw [zero_add, sub_zero]
    refine ⟨by positivity, ?_⟩
    rw [div_le_iff₀ hn]
    exact mul_le_mul_of_nonneg_left hi' hp.le

theorem sin_nonneg (n i : Nat) (hi : i < n) : 0 ≤ Real.sin (linspace 0 Real.pi n i) :=
  Real.sin_nonneg_of_nonneg_of_le_pi (linspace_mem n i hi).1 (linspace_mem n i hi).2

theorem mem_twoMoons (num : Int) (q : (Bool × Nat) × Int) (hq : q ∈ (twoMoons num).1.zip (twoMoons num).2) :
    (q.1.1 = true ∧ q.2 = 1 ∧ q.1.2 < (twoMoonsSizes num).1.toNat) ∨ (q.1.1 = false ∧ q.2 = 0 ∧ q.1.2 < (twoMoonsSizes num).2.toNat) := by
  unfold twoMoons at hq
  simp only at hq
  rw [List.zip_append (by simp)] at hq
  rcases List.mem_append.1 hq with h | h
  · left
    have h1 := List.of_mem_zip (show (q.1, q.2) ∈ _ from h)
    simp only [List.mem_map, List.mem_range, List.mem_replicate] at h1
    obtain ⟨⟨k, hk, he⟩, -, h2⟩ := h1
    rw [← he]; exact ⟨rfl, h2, hk⟩
  · right
    have h1 := List.of_mem_zip (show (q.1, q.2) ∈ _ from h)
    simp only [List.mem_map, List.mem_range, List.mem_replicate] at h1
    obtain ⟨⟨k, hk, he⟩, -, h2⟩ := h1
    rw [← he]; exact ⟨rfl, h2, hk⟩

theorem classSize_nat (n : Nat) : (classSize n).toNat = (n + 1) / 2 := by rw [classSize_ceil]; rfl

/-- A labelled point of the moons is a point of one of them with its label. -/
theorem mem_moons (noise : ℝ) (sep : ℝ × ℝ) (e : Nat → ℝ × ℝ) (num : Int) (a : (ℝ × ℝ) × Int) (ha : a ∈ moons noise sep e num) :
    ∃ k i, (i < (twoMoonsSizes num).1.toNat ∧ a = (noisy noise (e k) (moonInner sep (twoMoonsSizes num).1.toNat i), 1)) ∨
      (i < (twoMoonsSizes num).2.toNat ∧ a = (noisy noise (e k) (moonOuter (twoMoonsSizes num).2.toNat i), 0)) := by
  unfold moons at ha
  obtain ⟨k, hk, he⟩ := List.mem_iff_getElem.1 ha
  have hk1 : k < (twoMoons num).1.length := by
    have := List.length_zip (l₁ := ((((twoMoons num).1.map fun q => if q.1 then moonInner sep (twoMoonsSizes num).1.toNat q.2 else moonOuter (twoMoonsSizes num).2.toNat q.2).mapIdx
      fun k q => noisy noise (e k) q))) (l₂ := (twoMoons num).2)
    rw [this] at hk
    simpa using (lt_min_iff.1 hk).1
  have hk2 : k < (twoMoons num).2.length := by
    rw [List.length_zip] at hk
    exact (lt_min_iff.1 hk).2
  have hz := mem_twoMoons num ((twoMoons num).1[k], (twoMoons num).2[k]) (List.mem_iff_getElem.2 ⟨k, by simpa using ⟨hk1, hk2⟩, by simp⟩)
  simp only [List.getElem_zip, List.getElem_mapIdx, List.getElem_map] at he
  refine ⟨k, ((twoMoons num).1[k]).2, ?_⟩
  rcases hz with ⟨h1, h2, h3⟩ | ⟨h1, h2, h3⟩
  · left
    simp only at h1 h2 h3
    rw [h1, h2] at he
    exact ⟨h3, by simpa using he.symm⟩
  · right
    simp only at h1 h2 h3
    rw [h1, h2] at he
    exact ⟨h3, by simpa using he.symm⟩

theorem mem_spiral (num : Int) (a : (ℝ × ℝ) × Int) : a ∈ spiral num ↔ ∃ i < (classSize num).toNat, a = (spiralXY i 1, -1) ∨ a = (spiralXY i (-1), 1) := by
  unfold spiral twoClasses
  simp only [List.map_append, List.map_map]
  rw [List.zip_append (by simp), List.mem_append]
  have hz : ∀ (f : Nat → ℝ × ℝ) (c : Int) (s : Nat), a ∈ ((List.range s).map f).zip (List.replicate s c) ↔ ∃ i < s, a = (f i, c) := by
    intro f c s
    constructor
    · intro h
      have h1 := List.of_mem_zip (show (a.1, a.2) ∈ _ from h)
      simp only [List.mem_map, List.mem_range, List.mem_replicate] at h1
      obtain ⟨⟨k, hk, he⟩, -, h2⟩ := h1
      exact ⟨k, hk, by rw [he, ← h2]⟩
    · rintro ⟨i, hi, rfl⟩
      exact List.mem_iff_getElem.2 ⟨i, by simpa using hi, by simp⟩
  rw [hz, hz]
  constructor
  · rintro (⟨i, hi, h⟩ | ⟨i, hi, h⟩)
    · exact ⟨i, hi, Or.inl (by simpa using h)⟩
    · exact ⟨i, hi, Or.inr (by simpa using h)⟩
  · rintro ⟨i, hi, h | h⟩
    · exact Or.inl ⟨i, hi, by simpa using h⟩
    · exact Or.inr ⟨i, hi, by simpa using h⟩

/-! ## Properties -/

/-- **C142** Two moons without noise: the points of label 0 are on the upper half of the unit circle, those of label 1 on the lower half of the one around the separation. -/
theorem C142_circles (sep : ℝ × ℝ) (e : Nat → ℝ × ℝ) (num : Int) (a : (ℝ × ℝ) × Int) (ha : a ∈ moons 0 sep e num) :
    (a.2 = 0 ∧ a.1.1 ^ 2 + a.1.2 ^ 2 = 1 ∧ 0 ≤ a.1.2) ∨ (a.2 = 1 ∧ (a.1.1 - sep.1) ^ 2 + (a.1.2 - sep.2) ^ 2 = 1 ∧ a.1.2 ≤ sep.2) := by
  obtain ⟨k, i, ⟨hi, rfl⟩ | ⟨hi, rfl⟩⟩ := mem_moons _ _ _ _ _ ha
  · right
    have hs := sin_nonneg _ i hi
    refine ⟨rfl, ?_, ?_⟩
    · simp only [noisy, ne_eq, not_true_eq_false, if_false, moonInner]
      have := Real.sin_sq_add_cos_sq (linspace 0 Real.pi (twoMoonsSizes num).1.toNat i)
      nlinarith
    · simp only [noisy, ne_eq, not_true_eq_false, if_false, moonInner]; linarith
  · left
    refine ⟨rfl, ?_, ?_⟩
    · simp only [noisy, ne_eq, not_true_eq_false, if_false, moonOuter]
      exact Real.cos_sq_add_sin_sq _
    · simp only [noisy, ne_eq, not_true_eq_false, if_false, moonOuter]
      exact sin_nonneg _ i hi

/-- **C142** With the default separation the moons have no point in common, whatever the number of points: no point has two labels. -/
theorem C142_moons_apart (e : Nat → ℝ × ℝ) (num : Int) : Consistent (moons 0 (1, 1 / 2) e num) := by
  have key : ∀ a ∈ moons 0 (1, 1 / 2) e num, ∀ b ∈ moons 0 (1, 1 / 2) e num, a.1 = b.1 → a.2 = 0 → b.2 ≠ 1 := by
    intro a ha b hb hab h0 h1
    rcases C142_circles _ _ _ _ ha with ⟨-, ha2, ha3⟩ | ⟨h, -⟩
    · rcases C142_circles _ _ _ _ hb with ⟨h, -⟩ | ⟨-, hb2, hb3⟩
      · omega
      · rw [← hab] at hb2 hb3
        simp only at hb2 hb3
        nlinarith
    · omega
  intro a ha b hb hab
  rcases C142_circles _ _ _ _ ha with ⟨h, -⟩ | ⟨h, -⟩ <;> rcases C142_circles _ _ _ _ hb with ⟨h', -⟩ | ⟨h', -⟩
  · rw [h, h']
  · exact absurd h' (key a ha b hb hab h)
  · exact absurd h (key b hb a ha hab.symm h')
  · rw [h, h']

/-- **C142** The range announced by the two moons has all points whose noise does not exceed two standard deviations, whatever the separation, the noise and the number of points. -/
theorem C142_moons_range (noise : ℝ) (hn : 0 ≤ noise) (sep : ℝ × ℝ) (e : Nat → ℝ × ℝ) (he : ∀ k, |(e k).1| ≤ 2 ∧ |(e k).2| ≤ 2) (num : Int) (a : (ℝ × ℝ) × Int) (ha : a ∈ moons noise sep e num) :
    (moonsRange noise sep).Has a.1 := by
  have hb : ∀ (k : Nat) (q : ℝ × ℝ), |(noisy noise (e k) q).1 - q.1| ≤ 2 * noise ∧ |(noisy noise (e k) q).2 - q.2| ≤ 2 * noise := by
    intro k q
    unfold noisy
    split
    · simp only [add_sub_cancel_left, abs_mul, abs_of_nonneg hn]
      constructor
      · have := mul_le_mul_of_nonneg_left (he k).1 hn; linarith
      · have := mul_le_mul_of_nonneg_left (he k).2 hn; linarith
    · simp [hn]
  have fin : ∀ (k : Nat) (q : ℝ × ℝ), min (-1) (sep.1 - 1) ≤ q.1 → q.1 ≤ max 1 (sep.1 + 1) → min 0 (sep.2 - 1) ≤ q.2 → q.2 ≤ max 1 sep.2 → (moonsRange noise sep).Has (noisy noise (e k) q) := by
    intro k q h1 h2 h3 h4
    obtain ⟨b1, b2⟩ := hb k q
    rw [abs_le] at b1 b2
    unfold moonsRange Range.Has
    simp only
    refine ⟨?_, ?_, ?_, ?_⟩ <;> linarith [b1.1, b1.2, b2.1, b2.2]
  obtain ⟨k, i, ⟨hi, rfl⟩ | ⟨hi, rfl⟩⟩ := mem_moons _ _ _ _ _ ha
  · have hs := sin_nonneg _ i hi
    have hs1 := Real.sin_le_one (linspace 0 Real.pi (twoMoonsSizes num).1.toNat i)
    have hc := Real.cos_le_one (linspace 0 Real.pi (twoMoonsSizes num).1.toNat i)
    have hc1 := Real.neg_one_le_cos (linspace 0 Real.pi (twoMoonsSizes num).1.toNat i)
    refine fin k _ ?_ ?_ ?_ ?_ <;> simp only [moonInner]
    · exact (min_le_right _ _).trans (by linarith)
    · exact le_trans (by linarith) (le_max_right _ _)
    · exact (min_le_right _ _).trans (by linarith)
    · exact le_trans (by linarith) (le_max_right _ _)
  · have hs := sin_nonneg _ i hi
    have hs1 := Real.sin_le_one (linspace 0 Real.pi (twoMoonsSizes num).2.toNat i)
    have hc := Real.cos_le_one (linspace 0 Real.pi (twoMoonsSizes num).2.toNat i)
    have hc1 := Real.neg_one_le_cos (linspace 0 Real.pi (twoMoonsSizes num).2.toNat i)
    refine fin k _ ?_ ?_ ?_ ?_ <;> simp only [moonOuter]
    · exact (min_le_left _ _).trans (by linarith)
    · exact le_trans (by linarith) (le_max_left _ _)
    · exact (min_le_left _ _).trans (by linarith)
    · exact le_trans (by linarith) (le_max_left _ _)

/-- **C142** From two points on, the first and the last point of a moon are its ends, and two points of a moon differ. -/
theorem C142_ends (n : Nat) (hn : 2 ≤ n) (sep : ℝ × ℝ) :
    moonOuter n 0 = (1, 0) ∧ moonOuter n (n - 1) = (-1, 0) ∧ moonInner sep n 0 = (sep.1 - 1, sep.2) ∧ moonInner sep n (n - 1) = (sep.1 + 1, sep.2) ∧
    (∀ i < n, ∀ j < n, moonOuter n i = moonOuter n j → i = j) ∧ (∀ i < n, ∀ j < n, moonInner sep n i = moonInner sep n j → i = j) := by
  have h1 : (n : ℝ) - 1 ≠ 0 := by
    have : (2 : ℝ) ≤ n := by exact_mod_cast hn
    intro h; linarith
  have hn1 : n ≠ 1 := by omega
  have l0 : linspace 0 Real.pi n 0 = 0 := by simp [linspace]
  have l1 : linspace 0 Real.pi n (n - 1) = Real.pi := by
    unfold linspace
    rw [if_neg hn1, Nat.cast_sub (by omega), Nat.cast_one, mul_div_assoc, div_self h1]
    ring
  have linj : ∀ i j, linspace 0 Real.pi n i = linspace 0 Real.pi n j → i = j := by
    intro i j h
    unfold linspace at h
    rw [if_neg hn1, if_neg hn1, zero_add, zero_add, sub_zero, div_left_inj' h1] at h
    exact_mod_cast mul_left_cancel₀ Real.pi_ne_zero h
  have cinj : ∀ i < n, ∀ j < n, Real.cos (linspace 0 Real.pi n i) = Real.cos (linspace 0 Real.pi n j) → i = j :=
    fun i hi j hj h => linj i j (Real.injOn_cos ⟨(linspace_mem n i hi).1, (linspace_mem n i hi).2⟩ ⟨(linspace_mem n j hj).1, (linspace_mem n j hj).2⟩ h)
  refine ⟨?_, ?_, ?_, ?_, ?_, ?_⟩
  · simp [moonOuter, l0]
  · simp [moonOuter, l1]
  · simp [moonInner, l0]
  · simp [moonInner, l1]
  · intro i hi j hj h
    exact cinj i hi j hj (congrArg Prod.fst h)
  · intro i hi j hj h
    have h' := congrArg Prod.fst h
    simp only [moonInner] at h'
    exact cinj i hi j hj (by linarith)

/-- **C142** Negative noise and separations that are not pairs are refused. -/
theorem C142_refused (noise : ℝ) (sep : List ℝ) : (∃ q, moonsCheck noise sep = .ok q) ↔ 0 ≤ noise ∧ sep.length = 2 := by
  unfold moonsCheck
  split
  · rename_i h
    simp; intro h'; linarith
  · rename_i h
    match sep with
    | [] => simp
    | [a] => simp
    | [a, b] => simp; linarith
    | a :: b :: c :: l => simp

theorem spiral_radius (i : Nat) (s : ℝ) (hs : s ^ 2 = 1) : ((spiralXY i s).1 - 1 / 2) ^ 2 + ((spiralXY i s).2 - 1 / 2) ^ 2 = (70 * ((104 - i) / 104) / 13) ^ 2 := by
  unfold spiralXY
  simp only [add_sub_cancel_right]
  have h := Real.cos_sq_add_sin_sq ((i : ℝ) / 16 * Real.pi)
  generalize Real.cos ((i : ℝ) / 16 * Real.pi) = c at *
  generalize Real.sin ((i : ℝ) / 16 * Real.pi) = t at *
  generalize (70 * ((104 - (i : ℝ)) / 104)) = r
  have : (r * c * s / 13) ^ 2 + (r * t * s / 13) ^ 2 = (r / 13) ^ 2 * (c ^ 2 + t ^ 2) * s ^ 2 := by ring
  rw [this, h, hs]; ring

/-- **C142** (partial) Spirals of at most 208 points: no point has two labels. -/
theorem C142_spiral_partial (num : Nat) (h : num ≤ 208) : Consistent (spiral num) := by
  have hsz : (classSize num).toNat ≤ 104 := by
    rw [classSize_nat]; omega
  have key : ∀ i j : Nat, i < 104 → j < 104 → spiralXY i 1 ≠ spiralXY j (-1) := by
    intro i j hi hj he
    have hi' : (i : ℝ) < 104 := by exact_mod_cast hi
    have hj' : (j : ℝ) < 104 := by exact_mod_cast hj
    have h1 := spiral_radius i 1 (by norm_num)
    have h2 := spiral_radius j (-1) (by norm_num)
    rw [he, h2] at h1
    have hr : (70 * ((104 - (j : ℝ)) / 104) / 13) = (70 * ((104 - i) / 104) / 13) := by
      have a1 : 0 ≤ (70 * ((104 - (j : ℝ)) / 104) / 13) := by
        have : 0 ≤ 104 - (j : ℝ) := by linarith
        positivity
      have a2 : 0 ≤ (70 * ((104 - (i : ℝ)) / 104) / 13) := by
        have : 0 ≤ 104 - (i : ℝ) := by linarith
        positivity
      exact (pow_left_inj₀ a1 a2 two_ne_zero).1 h1
    have hij : (i : ℝ) = j := by linarith
    rw [← hij] at hr
    have hij' : i = j := by exact_mod_cast hij
    subst hij'
    have hx := congrArg Prod.fst he
    have hy := congrArg Prod.snd he
    simp only [spiralXY] at hx hy
    have hrp : 0 < (70 * ((104 - (i : ℝ)) / 104)) := by
      have : 0 < 104 - (i : ℝ) := by linarith
      positivity
    have hc : Real.cos ((i : ℝ) / 16 * Real.pi) = 0 := by
      have : (70 * ((104 - (i : ℝ)) / 104)) * Real.cos ((i : ℝ) / 16 * Real.pi) = 0 := by linarith
      rcases mul_eq_zero.1 this with h0 | h0
      · linarith
      · exact h0
    have ht : Real.sin ((i : ℝ) / 16 * Real.pi) = 0 := by
      have : (70 * ((104 - (i : ℝ)) / 104)) * Real.sin ((i : ℝ) / 16 * Real.pi) = 0 := by linarith
      rcases mul_eq_zero.1 this with h0 | h0
      · linarith
      · exact h0
    have := Real.cos_sq_add_sin_sq ((i : ℝ) / 16 * Real.pi)
    rw [hc, ht] at this
    norm_num at this
  intro a ha b hb hab
  obtain ⟨i, hi, ha⟩ := (mem_spiral _ _).1 ha
  obtain ⟨j, hj, hb⟩ := (mem_spiral _ _).1 hb
  rcases ha with rfl | rfl <;> rcases hb with rfl | rfl
  · rfl
  · exact absurd hab (key i j (by omega) (by omega))
  · exact absurd hab.symm (key j i (by omega) (by omega))
  · rfl

/-- **C142** violated: from 209 points on, the centre belongs to both spirals, once with each label. -/
theorem C142_spiral_violated (num : Nat) (h : 209 ≤ num) : ((1 / 2, 1 / 2), -1) ∈ spiral num ∧ ((1 / 2, 1 / 2), 1) ∈ spiral num ∧ ¬ Consistent (spiral num) := by
  have hsz : 104 < (classSize num).toNat := by
    rw [classSize_nat]; omega
  have hp : ∀ s, spiralXY 104 s = (1 / 2, 1 / 2) := by
    intro s
    unfold spiralXY
    norm_num
  have h1 : ((1 / 2, 1 / 2), -1) ∈ spiral num := (mem_spiral _ _).2 ⟨104, hsz, Or.inl (by rw [hp])⟩
  have h2 : ((1 / 2, 1 / 2), 1) ∈ spiral num := (mem_spiral _ _).2 ⟨104, hsz, Or.inr (by rw [hp])⟩
  refine ⟨h1, h2, fun hc => ?_⟩
  have := hc _ h1 _ h2 rfl
  norm_num at this

/-- **C142** violated: the range announced by the spirals leaves out one of their points as soon as there are 17 of them (140 by default). -/
theorem C142_range_violated (num : Nat) (h : 17 ≤ num) : ∃ a ∈ spiral num, ¬ spiralRange.Has a.1 := by
  have hsz : 8 < (classSize num).toNat := by
    rw [classSize_nat]; omega
  refine ⟨(spiralXY 8 1, -1), (mem_spiral _ _).2 ⟨8, hsz, Or.inl rfl⟩, fun hr => ?_⟩
  have h4 := hr.2.2.2
  simp only [spiralXY, spiralRange] at h4
  rw [show ((8 : Nat) : ℝ) / 16 * Real.pi = Real.pi / 2 by push_cast; ring, Real.sin_pi_div_two] at h4
  norm_num at h4

/-- **C142** (partial) In the other three directions the range is right up to 418 points. -/
theorem C142_range_partial (num : Nat) (h : num ≤ 418) (a : (ℝ × ℝ) × Int) (ha : a ∈ spiral num) : spiralRange.x0 ≤ a.1.1 ∧ a.1.1 ≤ spiralRange.x1 ∧ spiralRange.y0 ≤ a.1.2 := by
  have hsz : (classSize num).toNat ≤ 209 := by
    rw [classSize_nat]; omega
  have key : ∀ (i : Nat) (s : ℝ), i ≤ 208 → s ^ 2 = 1 → -5 ≤ (spiralXY i s).1 ∧ (spiralXY i s).1 ≤ 6 ∧ -5 ≤ (spiralXY i s).2 := by
    intro i s hi hs
    have hr := spiral_radius i s hs
    have hi' : (i : ℝ) ≤ 208 := by exact_mod_cast hi
    have hi0 : (0 : ℝ) ≤ i := by positivity
    have hb : (70 * ((104 - (i : ℝ)) / 104) / 13) ^ 2 ≤ (70 / 13) ^ 2 := by
      apply sq_le_sq'
      · linarith
      · linarith
    generalize (spiralXY i s).1 = x at *
    generalize (spiralXY i s).2 = y at *
    rw [← hr] at hb
    refine ⟨?_, ?_, ?_⟩ <;> nlinarith [sq_nonneg (x - 1 / 2), sq_nonneg (y - 1 / 2)]
  obtain ⟨i, hi, rfl | rfl⟩ := (mem_spiral _ _).1 ha
  · exact key i 1 (by omega) (by norm_num)
  · exact key i (-1) (by omega) (by norm_num)

/-! ## Examples -/

/-- `C142_ends` of five points. -/
example : moonOuter 5 4 = (-1, 0) := (C142_ends 5 (by norm_num) (0, 0)).2.1
/-- `C142_moons_apart`, `C142_moons_range` on ten points; `C142_spiral_partial`, `C142_range_violated` on the default number of points. -/
example : Consistent (moons 0 (1, 1 / 2) (fun _ => (0, 0)) 10) := C142_moons_apart _ 10
example (a : (ℝ × ℝ) × Int) (ha : a ∈ moons (1 / 10) (1, 1 / 2) (fun k => if k = 3 then (2, -1) else (0, 0)) 10) : (moonsRange (1 / 10) (1, 1 / 2)).Has a.1 :=
  C142_moons_range _ (by norm_num) _ _ (fun k => by split <;> norm_num) 10 a ha
example : Consistent (spiral (140 : Nat)) := C142_spiral_partial 140 (by norm_num)
example : ∃ a ∈ spiral (140 : Nat), ¬ spiralRange.Has a.1 := C142_range_violated 140 (by norm_num)
end Generate
end Kerch
