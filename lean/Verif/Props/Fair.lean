import Verif.Props.Stochastic
import Mathlib.Logic.Equiv.Fintype
import Mathlib.Algebra.BigOperators.Field
import Mathlib.Data.Fintype.Perm
import Mathlib.Data.Fintype.Powerset
import Mathlib.Data.Real.Basic
import Mathlib.Algebra.BigOperators.Ring.Finset
import Mathlib.Algebra.BigOperators.Fin
import Mathlib.Order.Interval.Finset.Fin
import Mathlib.Tactic.LinearCombination
import Mathlib.Tactic.Positivity
/-!
# C168: a random selection is fair

`torch.randperm` is taken to return each of the `n!` orders equally often: probabilities are numbers of permutations out of `n!`.
-/
set_option linter.unusedSectionVars false
set_option linter.unusedSimpArgs false
namespace Kerch
namespace Fair
open STree Finset
variable {α : Type}

/-! ## Specification -/

/-- The order drawn by `torch.randperm(n)`, as a list. -/
def order {n : ℕ} (π : Equiv.Perm (Fin n)) : List Nat := List.ofFn fun i => (π i : ℕ)

/-- What is selected by `stochastic(prop=p)` when this order is drawn. -/
def selection {n : ℕ} (t : STree α) (p : ℚ) (π : Equiv.Perm (Fin n)) : List Nat := (stochastic none (some p) (order π) t).2.st.idx.getD []

/-- Its indices, as a set. -/
def chosen {n : ℕ} (t : STree α) (p : ℚ) (π : Equiv.Perm (Fin n)) : Finset (Fin n) := univ.filter fun j => (j : ℕ) ∈ selection t p π

/-! ## Helper lemmas -/

theorem order_perm {n : ℕ} (π : Equiv.Perm (Fin n)) : (order π).Perm (List.range n) := by
  refine (List.perm_ext_iff_of_nodup ?_ List.nodup_range).2 fun j => ?_
  · exact List.nodup_ofFn.2 fun i j h => π.injective (Fin.ext h)
  · simp only [order, List.mem_ofFn, List.mem_range]
    constructor
    · rintro ⟨i, rfl⟩
      exact (π i).2
    · intro hj
      exact ⟨π.symm ⟨j, hj⟩, by simp⟩

variable {n : ℕ}

theorem selection_eq (t : STree α) (hn : t.st.numTotal = some n) (p : ℚ) (h0 : 0 < p) (h1 : p ≤ 1) (k : ℕ) (hk : IsRound (n * p) k) (π : Equiv.Perm (Fin n)) :
    k ≤ n ∧ selection t p π = (order π).take k := by
  obtain ⟨b, s, ch⟩ := t
  simp only [st] at hn
  have e : pyRound (n * p) = k := isRound_unique (pyRound_spec _) hk
  have hb := (pyRound_bounds (n := n) h0 h1).2
  rw [e] at hb
  refine ⟨by exact_mod_cast hb, ?_⟩
  simp [selection, stochastic, hn, h1, h0, st, e, takeInt]

/-- The first `k` drawn. -/
def heads (k : ℕ) (π : Equiv.Perm (Fin n)) : Finset (Fin n) := (univ.filter fun i : Fin n => (i : ℕ) < k).map π.toEmbedding

theorem mem_take (k : ℕ) (π : Equiv.Perm (Fin n)) (j : ℕ) : j ∈ (order π).take k ↔ ∃ i : Fin n, (i : ℕ) < k ∧ (π i : ℕ) = j := by
  rw [List.mem_take_iff_getElem]
  constructor
  · rintro ⟨i, hi, rfl⟩
    have hi' : i < k ∧ i < n := by simpa [order] using hi
    exact ⟨⟨i, hi'.2⟩, hi'.1, by simp [order]⟩
  · rintro ⟨i, hi, rfl⟩
    exact ⟨i, by simp [order, hi], by simp [order]⟩

theorem chosen_eq (t : STree α) (hn : t.st.numTotal = some n) (p : ℚ) (h0 : 0 < p) (h1 : p ≤ 1) (k : ℕ) (hk : IsRound (n * p) k) (π : Equiv.Perm (Fin n)) :
    chosen t p π = heads k π := by
  ext j
  simp only [chosen, mem_filter, mem_univ, true_and, heads, mem_map, Equiv.coe_toEmbedding, (selection_eq t hn p h0 h1 k hk π).2, mem_take]
  exact ⟨fun ⟨i, h, e⟩ => ⟨i, h, Fin.ext e⟩, fun ⟨i, h, e⟩ => ⟨i, h, by rw [e]⟩⟩

theorem card_lt (k : ℕ) (hk : k ≤ n) : (univ.filter fun i : Fin n => (i : ℕ) < k).card = k := by
  have h1 : ((univ.filter fun i : Fin n => (i : ℕ) < k).map Fin.valEmbedding) = range k := by
    ext j
    simp only [mem_map, mem_filter, mem_univ, true_and, mem_range, Fin.valEmbedding_apply]
    exact ⟨fun ⟨i, h, e⟩ => e ▸ h, fun h => ⟨⟨j, lt_of_lt_of_le h hk⟩, h, rfl⟩⟩
  rw [← card_map Fin.valEmbedding, h1, card_range]

theorem take_sum (k : ℕ) (f : ℕ → ℝ) (π : Equiv.Perm (Fin n)) :
    (((order π).take k).map f).sum = ∑ i ∈ univ.filter (fun i : Fin n => (i : ℕ) < k), f (π i) := by
  have hnd : ((order π).take k).Nodup := ((order_perm π).nodup_iff.2 List.nodup_range).sublist (List.take_sublist _ _)
  rw [← List.sum_toFinset f hnd]
  refine Eq.trans ?_ (sum_map (univ.filter fun i : Fin n => (i : ℕ) < k) (π.toEmbedding.trans Fin.valEmbedding) f)
  congr 1
  ext j
  simp only [List.mem_toFinset, mem_take, mem_map, mem_filter, mem_univ, true_and]
  rfl

/-- Each index comes at each place for the same number of orders. -/
theorem card_place (i j : Fin n) : n * (univ.filter fun π : Equiv.Perm (Fin n) => π i = j).card = n.factorial := by
  have h1 : ∀ j' : Fin n, (univ.filter fun π : Equiv.Perm (Fin n) => π i = j').card = (univ.filter fun π : Equiv.Perm (Fin n) => π i = j).card := fun j' => by
    refine card_bij (fun π _ => Equiv.swap j' j * π) ?_ ?_ ?_
    · intro π hπ
      simp only [mem_filter, mem_univ, true_and] at hπ ⊢
      simp [hπ]
    · intro π _ π' _ h
      exact mul_left_cancel h
    · intro π hπ
      simp only [mem_filter, mem_univ, true_and] at hπ
      exact ⟨Equiv.swap j' j * π, by simp [hπ], by rw [← mul_assoc, Equiv.swap_mul_self, one_mul]⟩
  have h2 := card_eq_sum_card_fiberwise (s := (univ : Finset (Equiv.Perm (Fin n)))) (t := univ) (f := fun π => π i) fun _ _ => mem_univ _
  rw [card_univ, Fintype.card_perm, Fintype.card_fin] at h2
  rw [h2, sum_congr rfl fun j' _ => h1 j', sum_const, card_univ, Fintype.card_fin, smul_eq_mul]

theorem sum_place (f : Fin n → ℝ) (i : Fin n) : n * ∑ π : Equiv.Perm (Fin n), f (π i) = n.factorial * ∑ j, f j := by
  have h1 : ∑ π : Equiv.Perm (Fin n), f (π i) = ∑ j, ((univ.filter fun π : Equiv.Perm (Fin n) => π i = j).card : ℝ) * f j := by
    rw [← sum_fiberwise univ (fun π : Equiv.Perm (Fin n) => π i)]
    refine sum_congr rfl fun j _ => ?_
    rw [sum_congr rfl fun π hπ => by rw [(mem_filter.1 hπ).2], sum_const, nsmul_eq_mul]
  rw [h1, mul_sum, mul_sum]
  refine sum_congr rfl fun j _ => ?_
  rw [← mul_assoc, ← card_place i j]
  push_cast
  rfl

/-- The mean of the product of a centred quantity at two different places is the same for all places. -/
theorem sum_pair (g : Fin n → ℝ) (hg : ∑ j, g j = 0) (i i' : Fin n) (hii : i ≠ i') :
    n * (n - 1) * ∑ π : Equiv.Perm (Fin n), g (π i) * g (π i') = -(n.factorial * ∑ j, g j ^ 2) := by
  have hsame : ∀ a b : Fin n, a ≠ b → ∑ π : Equiv.Perm (Fin n), g (π a) * g (π b) = ∑ π : Equiv.Perm (Fin n), g (π i) * g (π i') := fun a b hab => by
    obtain ⟨τ, hτ⟩ := Equiv.Perm.exists_extending_pair (fun c : Bool => if c then i else i') (fun c : Bool => if c then a else b)
      (by intro c c' h; cases c <;> cases c' <;> simp_all) (by intro c c' h; cases c <;> cases c' <;> simp_all)
    have e1 : τ i = a := by simpa using hτ true
    have e2 : τ i' = b := by simpa using hτ false
    rw [← Equiv.sum_comp (Equiv.mulRight τ) fun π : Equiv.Perm (Fin n) => g (π i) * g (π i')]
    simp [e1, e2]
  have htot : ∀ π : Equiv.Perm (Fin n), ∑ a, ∑ b, g (π a) * g (π b) = 0 := fun π => by
    rw [← sum_mul_sum, Equiv.sum_comp π g, hg, zero_mul]
  have hdiag : ∀ π : Equiv.Perm (Fin n), ∑ a, g (π a) * g (π a) = ∑ j, g j ^ 2 := fun π => by
    rw [Equiv.sum_comp π fun j => g j * g j]
    exact sum_congr rfl fun j _ => (sq _).symm
  have hcard : Fintype.card (Equiv.Perm (Fin n)) = n.factorial := by rw [Fintype.card_perm, Fintype.card_fin]
  -- all places together
  have h0 : ∑ a : Fin n, ∑ b : Fin n, ∑ π : Equiv.Perm (Fin n), g (π a) * g (π b) = 0 := by
    rw [sum_congr rfl fun a _ => Finset.sum_comm, Finset.sum_comm]
    exact sum_eq_zero fun π _ => htot π
  have h1 : ∑ a : Fin n, ∑ π : Equiv.Perm (Fin n), g (π a) * g (π a) = n.factorial * ∑ j, g j ^ 2 := by
    rw [Finset.sum_comm, sum_congr rfl fun π _ => hdiag π, sum_const, card_univ, hcard, nsmul_eq_mul]
  have h2 : ∀ a : Fin n, ∑ b : Fin n, ∑ π : Equiv.Perm (Fin n), g (π a) * g (π b) =
      ∑ π : Equiv.Perm (Fin n), g (π a) * g (π a) + (n - 1) * ∑ π : Equiv.Perm (Fin n), g (π i) * g (π i') := fun a => by
    rw [← add_sum_erase univ _ (mem_univ a)]
    congr 1
    rw [sum_congr rfl fun b hb => hsame a b (ne_of_mem_erase hb).symm, sum_const, card_erase_of_mem (mem_univ a), card_univ, Fintype.card_fin, nsmul_eq_mul,
      Nat.cast_pred (lt_of_le_of_lt (Nat.zero_le _) a.2)]
  rw [sum_congr rfl fun a _ => h2 a, sum_add_distrib, h1, sum_const, card_univ, Fintype.card_fin, nsmul_eq_mul] at h0
  linarith

theorem sum_sq_heads (g : Fin n → ℝ) (hg : ∑ j, g j = 0) (k : ℕ) (hk : k ≤ n) (h2 : 2 ≤ n) :
    n * (n - 1) * ∑ π : Equiv.Perm (Fin n), (∑ i ∈ univ.filter (fun i : Fin n => (i : ℕ) < k), g (π i)) ^ 2 = n.factorial * (k * (n - k) * ∑ j, g j ^ 2) := by
  have hn : (n : ℝ) - 1 ≠ 0 := by
    have : (2 : ℝ) ≤ n := by exact_mod_cast h2
    linarith
  have e : ∀ π : Equiv.Perm (Fin n), (∑ i ∈ univ.filter (fun i : Fin n => (i : ℕ) < k), g (π i)) ^ 2 =
      ∑ a ∈ univ.filter (fun i : Fin n => (i : ℕ) < k), ∑ b ∈ univ.filter (fun i : Fin n => (i : ℕ) < k), g (π a) * g (π b) := fun π => by
    rw [sq, sum_mul_sum]
  have hrow : ∀ a ∈ univ.filter (fun i : Fin n => (i : ℕ) < k), n * (n - 1) * ∑ b ∈ univ.filter (fun i : Fin n => (i : ℕ) < k), ∑ π : Equiv.Perm (Fin n), g (π a) * g (π b) =
      n.factorial * ((n - k) * ∑ j, g j ^ 2) := fun a ha => by
    rw [← add_sum_erase _ _ ha, mul_add, mul_sum (s := (univ.filter fun i : Fin n => (i : ℕ) < k).erase a),
      sum_congr rfl fun b hb => sum_pair g hg a b (ne_of_mem_erase hb).symm, sum_const, card_erase_of_mem ha, card_lt k hk, nsmul_eq_mul,
      Nat.cast_pred (lt_of_le_of_lt (Nat.zero_le _) (mem_filter.1 ha).2)]
    have h3 := sum_place (fun j => g j * g j) a
    have h4 : ∑ j, g j * g j = ∑ j, g j ^ 2 := sum_congr rfl fun j _ => (sq _).symm
    rw [h4] at h3
    linear_combination ((n : ℝ) - 1) * h3
  simp only [e]
  rw [Finset.sum_comm, sum_congr rfl fun a _ => Finset.sum_comm, mul_sum, sum_congr rfl hrow, sum_const, card_lt k hk, nsmul_eq_mul]
  ring

/-! ## The properties -/

section
variable (t : STree α) (hn : t.st.numTotal = some n) (p : ℚ) (h0 : 0 < p) (h1 : p ≤ 1) (k : ℕ) (hk : IsRound (n * p) k)
include hn h0 h1 hk

/-- **C168**: all sets of `k = round(n p)` indices are equally likely: out of the `n!` orders, each is selected by one in `n` over `k`; other sets never are. -/
theorem C168_sets (S : Finset (Fin n)) :
    (S.card = k → n.choose k * (univ.filter fun π : Equiv.Perm (Fin n) => chosen t p π = S).card = n.factorial) ∧
    (S.card ≠ k → ∀ π : Equiv.Perm (Fin n), chosen t p π ≠ S) := by
  have hkn := (selection_eq t hn p h0 h1 k hk 1).1
  have hc : ∀ π : Equiv.Perm (Fin n), (heads k π).card = k := fun π => by rw [heads, card_map, card_lt k hkn]
  simp only [chosen_eq t hn p h0 h1 k hk]
  refine ⟨fun hS => ?_, fun hS π h => hS (by rw [← h, hc])⟩
  have hcomp : ∀ (τ π : Equiv.Perm (Fin n)), heads k (τ * π) = (heads k π).map τ.toEmbedding := fun τ π => by
    rw [heads, heads, map_map]
    rfl
  have h2 : ∀ S' ∈ powersetCard k (univ : Finset (Fin n)), (univ.filter fun π : Equiv.Perm (Fin n) => heads k π = S').card =
      (univ.filter fun π : Equiv.Perm (Fin n) => heads k π = S).card := fun S' hS' => by
    obtain ⟨τ, hτ⟩ := Equiv.Perm.exists_map_finset_eq S' S (by rw [(mem_powersetCard.1 hS').2, hS])
    refine card_bij (fun π _ => τ * π) ?_ ?_ ?_
    · intro π hπ
      simp only [mem_filter, mem_univ, true_and] at hπ ⊢
      rw [hcomp, hπ, hτ]
    · intro π _ π' _ h
      exact mul_left_cancel h
    · intro π hπ
      simp only [mem_filter, mem_univ, true_and] at hπ
      refine ⟨τ⁻¹ * π, ?_, by simp⟩
      simp only [mem_filter, mem_univ, true_and]
      rw [hcomp, hπ, ← hτ, map_map]
      ext x
      simp
  have h3 := card_eq_sum_card_fiberwise (s := (univ : Finset (Equiv.Perm (Fin n)))) (t := powersetCard k (univ : Finset (Fin n))) (f := fun π => heads k π)
    fun π _ => mem_powersetCard.2 ⟨subset_univ _, hc π⟩
  rw [card_univ, Fintype.card_perm, Fintype.card_fin] at h3
  rw [h3, sum_congr rfl h2, sum_const, card_powersetCard, card_univ, Fintype.card_fin, smul_eq_mul]

/-- **C168**: every point is selected with probability `k / n`. -/
theorem C168_points (j : Fin n) : n * (univ.filter fun π : Equiv.Perm (Fin n) => j ∈ chosen t p π).card = k * n.factorial := by
  have hkn := (selection_eq t hn p h0 h1 k hk 1).1
  simp only [chosen_eq t hn p h0 h1 k hk]
  have e : (univ.filter fun π : Equiv.Perm (Fin n) => j ∈ heads k π).card = ∑ i ∈ univ.filter (fun i : Fin n => (i : ℕ) < k), (univ.filter fun π : Equiv.Perm (Fin n) => π i = j).card := by
    rw [← card_biUnion]
    · congr 1
      ext π
      simp only [heads, mem_filter, mem_univ, true_and, mem_map, Equiv.coe_toEmbedding, mem_biUnion]
    · intro i _ i' _ hii
      refine disjoint_left.2 fun π h h' => hii ?_
      simp only [mem_filter, mem_univ, true_and] at h h'
      exact π.injective (h.trans h'.symm)
  rw [e, mul_sum, sum_congr rfl fun i _ => card_place i j, sum_const, card_lt k hkn, smul_eq_mul]

/-- **C168**: the mean of any quantity over the selection (a loss, a gradient) has the mean over the whole sample as its expectation, if anything is selected. -/
theorem C168_mean (hk0 : 0 < k) (f : ℕ → ℝ) :
    (∑ π : Equiv.Perm (Fin n), ((selection t p π).map f).sum / (selection t p π).length) / n.factorial = (∑ j ∈ range n, f j) / n := by
  have hkn := (selection_eq t hn p h0 h1 k hk 1).1
  have hn0 : (n : ℝ) ≠ 0 := by
    have : 0 < n := lt_of_lt_of_le hk0 hkn
    positivity
  have hk0' : (k : ℝ) ≠ 0 := by positivity
  have hf0 : (n.factorial : ℝ) ≠ 0 := by positivity
  have hl : ∀ π : Equiv.Perm (Fin n), ((order π).take k).length = k := fun π => by simp [order, hkn]
  have hs := fun π : Equiv.Perm (Fin n) => take_sum k f π
  simp only [(selection_eq t hn p h0 h1 k hk _).2, hl, hs]
  rw [← sum_div, Finset.sum_comm]
  have h2 : n * ∑ i ∈ univ.filter (fun i : Fin n => (i : ℕ) < k), ∑ π : Equiv.Perm (Fin n), f (π i) = k * (n.factorial * ∑ j : Fin n, f j) := by
    rw [mul_sum, sum_congr rfl fun i _ => sum_place (fun j : Fin n => f j) i, sum_const, card_lt k hkn, nsmul_eq_mul]
  rw [sum_range f, div_div, div_eq_div_iff (by positivity) hn0]
  linear_combination h2

/-- **C168**: how far the mean over a selection of `k` points is from the mean `μ` over the sample: the expectation of the square of the difference is `(n - k) / (k n (n - 1))` times the sum
of the squared deviations from `μ`, so it decreases with `k` and is zero when all points are selected. -/
theorem C168_error (h2 : 2 ≤ n) (hk0 : 0 < k) (f : ℕ → ℝ) (μ : ℝ) (hμ : μ = (∑ j ∈ range n, f j) / n) :
    (∑ π : Equiv.Perm (Fin n), (((selection t p π).map f).sum / (selection t p π).length - μ) ^ 2) / n.factorial =
      (n - k) / (k * n * (n - 1)) * ∑ j ∈ range n, (f j - μ) ^ 2 := by
  have hkn := (selection_eq t hn p h0 h1 k hk 1).1
  have h2' : (2 : ℝ) ≤ n := by exact_mod_cast h2
  have hn0 : (n : ℝ) ≠ 0 := by linarith
  have hn1 : (n : ℝ) - 1 ≠ 0 := by linarith
  have hk0' : (k : ℝ) ≠ 0 := by positivity
  have hf0 : (n.factorial : ℝ) ≠ 0 := by positivity
  have hl : ∀ π : Equiv.Perm (Fin n), ((order π).take k).length = k := fun π => by simp [order, hkn]
  have hs : ∀ π : Equiv.Perm (Fin n), (((order π).take k).map f).sum / k - μ = (∑ i ∈ univ.filter (fun i : Fin n => (i : ℕ) < k), (f (π i) - μ)) / k := fun π => by
    rw [take_sum, sum_sub_distrib, sum_const, card_lt k hkn, nsmul_eq_mul]
    field_simp
  have hg : ∑ j : Fin n, (f j - μ) = 0 := by
    rw [sum_sub_distrib, sum_const, card_univ, Fintype.card_fin, nsmul_eq_mul, hμ, sum_range f]
    field_simp
    ring
  simp only [(selection_eq t hn p h0 h1 k hk _).2, hl, hs, div_pow]
  have h3 := sum_sq_heads (fun j : Fin n => f j - μ) hg k hkn h2
  rw [← sum_div, sum_range fun j => (f j - μ) ^ 2, div_div, div_mul_eq_mul_div, div_eq_div_iff (by positivity) (by simp [hk0', hn0, hn1, hk0.ne'])]
  linear_combination (k : ℝ) * h3

omit hk in
/-- **C168 is violated** for small proportions: with `n p ≤ 1/2` nothing at all is selected, whatever the order, and no point can be: means over the selection do not exist. -/
theorem C168_empty_violated (hnp : n * p ≤ 1 / 2) (π : Equiv.Perm (Fin n)) : selection t p π = [] ∧ chosen t p π = ∅ := by
  have hpos : (0 : ℚ) ≤ n * p := mul_nonneg (Nat.cast_nonneg n) h0.le
  have hr : IsRound (n * p) (0 : ℕ) := ⟨by simpa [abs_of_nonneg hpos] using hnp, fun _ => rfl⟩
  have h2 := (selection_eq t hn p h0 h1 0 hr π).2
  rw [List.take_zero] at h2
  exact ⟨h2, by simp [chosen, h2]⟩

end

/-! ## Concrete cases -/

/-- A kernel on five points. -/
def five : STree Nat := .node true { numTotal := some 5, idx := some [0, 1, 2, 3, 4], cache := CacheSt.init } []

theorem half_five : IsRound ((5 : ℕ) * (1 / 2)) (2 : ℕ) := by
  constructor
  · norm_num [abs_le]
  · intro _; norm_num

/-- Each pair of points is selected for 12 of the 120 orders. -/
example : (univ.filter fun π : Equiv.Perm (Fin 5) => chosen five (1 / 2) π = {1, 4}).card = 12 := by
  have := (C168_sets five rfl (1 / 2) (by norm_num) (by norm_num) 2 half_five {1, 4}).1 rfl
  rw [show Nat.choose 5 2 = 10 by rfl, show Nat.factorial 5 = 120 by rfl] at this
  omega

/-- Each point for 48 of them. -/
example : (univ.filter fun π : Equiv.Perm (Fin 5) => 3 ∈ chosen five (1 / 2) π).card = 48 := by
  have := C168_points five rfl (1 / 2) (by norm_num) (by norm_num) 2 half_five 3
  rw [show Nat.factorial 5 = 120 by rfl] at this
  omega

example (f : ℕ → ℝ) : (∑ π : Equiv.Perm (Fin 5), ((selection five (1 / 2) π).map f).sum / (selection five (1 / 2) π).length) / Nat.factorial 5 = (∑ j ∈ range 5, f j) / (5 : ℕ) :=
  C168_mean five rfl (1 / 2) (by norm_num) (by norm_num) 2 half_five (by norm_num) f

/-- Two of five points: the squared error of the mean is `3/40` of the sum of squared deviations. -/
example (f : ℕ → ℝ) (μ : ℝ) (hμ : μ = (∑ j ∈ range 5, f j) / (5 : ℕ)) :
    (∑ π : Equiv.Perm (Fin 5), (((selection five (1 / 2) π).map f).sum / (selection five (1 / 2) π).length - μ) ^ 2) / Nat.factorial 5 = 3 / 40 * ∑ j ∈ range 5, (f j - μ) ^ 2 := by
  rw [C168_error five rfl (1 / 2) (by norm_num) (by norm_num) 2 half_five (by norm_num) (by norm_num) f μ hμ]
  norm_num

example : selection five (1 / 10) (1 : Equiv.Perm (Fin 5)) = [] := (C168_empty_violated five rfl (1 / 10) (by norm_num) (by norm_num) (by norm_num) 1).1

end Fair
end Kerch
