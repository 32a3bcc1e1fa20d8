import Mathlib.Tactic.FinCases
import Mathlib.Data.Fin.Tuple.Sort
import Mathlib.Tactic.FieldSimp
import Mathlib.Tactic.Linarith
import Mathlib.Algebra.Order.BigOperators.Ring.Finset
import Verif.Model.PreimageFun
/-!
# C132: pre-images from coefficients
-/
set_option linter.unusedSectionVars false
set_option linter.unusedSimpArgs false
namespace Kerch
namespace PreimageFun
open Finset

variable {m n : ℕ} {d : Type}

/-! ## Specification -/

/-- `v` is the mean of the points in `T`, weighted by their coefficients. -/
def WeightedMean (c : Fin n → ℝ) (x : Fin n → d → ℝ) (T : Finset (Fin n)) (v : d → ℝ) : Prop := ∀ j, (∑ k ∈ T, c k) * v j = ∑ k ∈ T, c k * x k j

/-- `T` are `num` coefficients, none smaller than another one that is not in `T`. -/
def Largest (c : Fin n → ℝ) (num : ℕ) (T : Finset (Fin n)) : Prop := T.card = num ∧ ∀ k ∈ T, ∀ l ∉ T, c l ≤ c k

/-! ## Lemmas -/

/-- The indices kept. -/
def sel (S : Sorting n) (num : ℤ) (c : Fin n → ℝ) : Finset (Fin n) := (univ.filter fun k : Fin n => k.val < kept n num).map (S.idx c).toEmbedding

theorem sel_largest (S : Sorting n) (num : ℤ) (c : Fin n → ℝ) : Largest c (kept n num) (sel S num c) := by
  have hk : kept n num ≤ n := by unfold kept; split <;> omega
  constructor
  · rw [sel, card_map]
    have : (univ.filter fun k : Fin n => k.val < kept n num) = (univ : Finset (Fin (kept n num))).map (Fin.castLEEmb hk) := by
      ext k
      simp only [mem_filter, mem_univ, true_and, mem_map, Fin.castLEEmb_apply]
      exact ⟨fun h => ⟨⟨k, h⟩, rfl⟩, by rintro ⟨l, rfl⟩; exact l.2⟩
    rw [this, card_map, card_univ, Fintype.card_fin]
  · intro k hk l hl
    simp only [sel, mem_map, mem_filter, mem_univ, true_and, Equiv.coe_toEmbedding, not_exists, not_and] at hk hl
    obtain ⟨k', hk', rfl⟩ := hk
    have hl' : kept n num ≤ ((S.idx c).symm l).val := by
      by_contra h
      exact hl _ (not_le.1 h) (by simp)
    have := S.desc c (show k' ≤ (S.idx c).symm l from Fin.le_def.2 (hk'.le.trans hl'))
    simpa using this

theorem sum_sel {β : Type} [AddCommMonoid β] (S : Sorting n) (num : ℤ) (c : Fin n → ℝ) (f : Fin n → β) :
    ∑ k ∈ univ.filter (fun k : Fin n => k.val < kept n num), f (S.idx c k) = ∑ k ∈ sel S num c, f k := by
  rw [sel, sum_map]; rfl

theorem local_eq (S : Sorting n) (num : ℤ) (c : Fin n → ℝ) (x : Fin n → d → ℝ) (h : 0 < kept n num) :
    local' S num c x = if ∑ k ∈ sel S num c, c k = 0 then none else some fun j => ∑ k ∈ sel S num c, c k / (∑ l ∈ sel S num c, c l) * x k j := by
  have hk : kept n num ≤ n := by unfold kept; split <;> omega
  have hne : (univ.filter fun k : Fin n => k.val < kept n num) ≠ ∅ := by
    rw [← nonempty_iff_ne_empty]
    exact ⟨⟨0, h.trans_le hk⟩, by simpa using h⟩
  unfold local'
  rw [if_neg hne, sum_sel S num c c]
  split
  · rfl
  · congr 1; funext j
    exact sum_sel S num c fun k => c k / (∑ l ∈ sel S num c, c l) * x k j

theorem smoother_small (S : Sorting n) (C : Fin m → Fin n → ℝ) (x : Fin n → d → ℝ) (num : ℤ) (h : num < n) (hm : 0 < m) :
    smoother S C x num = .ok fun i => local' S num (C i) x := by
  unfold smoother
  rw [dif_pos rfl]
  simp only [Fin.cast_eq_self]
  rw [if_neg (not_le.2 h), if_neg hm.ne']

/-! ## Properties -/

/-- **C132** With fewer neighbours than points, every pre-image is the mean of the `num` points with the greatest coefficients, weighted by these, and not finite if they sum to zero, for every way
of breaking ties. -/
theorem C132_smoother_partial (S : Sorting n) (C : Fin m → Fin n → ℝ) (x : Fin n → d → ℝ) (num : ℕ) (h1 : 1 ≤ num) (h : num < n) (hm : 0 < m) :
    ∃ V, smoother S C x num = .ok V ∧ ∀ i, ∃ T, Largest (C i) num T ∧ ((∑ k ∈ T, C i k = 0 ∧ V i = none) ∨ ∃ v, V i = some v ∧ ∑ k ∈ T, C i k ≠ 0 ∧ WeightedMean (C i) x T v) := by
  refine ⟨_, smoother_small S C x num (by exact_mod_cast h) hm, fun i => ?_⟩
  have hk : kept n num = num := by unfold kept; rw [if_neg (by omega)]; simp; omega
  have hL := sel_largest S num (C i)
  rw [hk] at hL
  refine ⟨sel S num (C i), hL, ?_⟩
  beta_reduce
  rw [local_eq S num (C i) x (by omega)]
  by_cases h0 : ∑ k ∈ sel S num (C i), C i k = 0
  · exact .inl ⟨h0, if_pos h0⟩
  · refine .inr ⟨_, if_neg h0, h0, fun j => ?_⟩
    rw [mul_sum]
    refine sum_congr rfl fun k _ => ?_
    field_simp

/-- **C132** hence, with coefficients that are not negative, no pre-image leaves the range of the points, coordinate by coordinate. -/
theorem C132_range_partial (S : Sorting n) (C : Fin m → Fin n → ℝ) (x : Fin n → d → ℝ) (num : ℕ) (h1 : 1 ≤ num) (h : num < n) (hm : 0 < m) (hC : ∀ i k, 0 ≤ C i k)
    (lo hi : d → ℝ) (hx : ∀ k j, lo j ≤ x k j ∧ x k j ≤ hi j) :
    ∃ V, smoother S C x num = .ok V ∧ ∀ i v, V i = some v → ∀ j, lo j ≤ v j ∧ v j ≤ hi j := by
  obtain ⟨V, hV, hT⟩ := C132_smoother_partial S C x num h1 h hm
  refine ⟨V, hV, fun i v hv j => ?_⟩
  obtain ⟨T, _, hT⟩ := hT i
  rcases hT with ⟨_, hn⟩ | ⟨v', hv', hs, hw⟩
  · rw [hn] at hv; cases hv
  · obtain rfl : v' = v := Option.some.inj (hv'.symm.trans hv)
    have hpos : 0 < ∑ k ∈ T, C i k := lt_of_le_of_ne (sum_nonneg fun k _ => hC i k) (Ne.symm hs)
    constructor
    · refine le_of_mul_le_mul_left ?_ hpos
      rw [hw j, sum_mul]
      exact sum_le_sum fun k _ => mul_le_mul_of_nonneg_left (hx k j).1 (hC i k)
    · refine le_of_mul_le_mul_left ?_ hpos
      rw [hw j, sum_mul]
      exact sum_le_sum fun k _ => mul_le_mul_of_nonneg_left (hx k j).2 (hC i k)

/-- **C132** and every pre-image depends on its own coefficients only: it is the same alone and in any batch. -/
theorem C132_alone_partial (S : Sorting n) (C : Fin m → Fin n → ℝ) (x : Fin n → d → ℝ) (num : ℤ) (h : num < n) (i : Fin m) :
    ∃ V V', smoother S C x num = .ok V ∧ smoother S (fun _ : Fin 1 => C i) x num = .ok V' ∧ V i = V' 0 :=
  ⟨_, _, smoother_small S C x num h i.pos, smoother_small S _ x num h Nat.one_pos, rfl⟩

/-- **C132** violated with as many neighbours as points: alone, a pre-image is the plain sum of all points, whatever the coefficients. -/
theorem C132_sum_violated (S : Sorting n) (c : Fin n → ℝ) (hc : ∀ k, c k ≠ 0) (x : Fin n → d → ℝ) (num : ℤ) (h : n ≤ num) :
    smoother S (fun _ : Fin 1 => c) x num = .ok fun _ => some fun j => ∑ k, x k j := by
  unfold smoother
  rw [dif_pos rfl]
  simp only [Fin.cast_eq_self]
  rw [if_pos h]
  congr 1; funext i
  unfold whole
  have h1 : ∀ k, (∑ _i' : Fin 1, c k) = c k := fun k => by simp
  simp only [h1]
  rw [if_neg (fun ⟨k, hk⟩ => hc k hk)]
  congr 1; funext j
  exact sum_congr rfl fun k _ => by rw [div_self (hc k), one_mul]

/-- **C132** violated: in a batch, it depends on the other ones, and it leaves the range of the points: twice the same coefficients give half the value. -/
theorem C132_batch_violated (S : Sorting 2) :
    (∃ V V', smoother S (fun _ : Fin 2 => ![1, 1]) (fun (_ : Fin 2) (_ : Unit) => (1 : ℝ)) 2 = .ok V ∧ smoother S (fun _ : Fin 1 => ![1, 1]) (fun (_ : Fin 2) (_ : Unit) => (1 : ℝ)) 2 = .ok V' ∧ V 0 ≠ V' 0 ∧
      V' 0 = some fun _ => 2) := by
  refine ⟨_, _, rfl, C132_sum_violated S ![1, 1] (fun k => by fin_cases k <;> simp) _ 2 (by norm_num), ?_, ?_⟩
  · intro h
    simp only [whole] at h
    rw [if_neg (by rintro ⟨k, hk⟩; revert hk; fin_cases k <;> simp)] at h
    have := congrFun (Option.some.inj h) ()
    simp [Fin.sum_univ_two] at this
    norm_num at this
  · simp [Fin.sum_univ_two]

/-- **C132** A number of coefficients that is not the number of points is refused, for every number of neighbours. -/
theorem C132_refused {n' : ℕ} (h : n ≠ n') (S : Sorting n) (C : Fin m → Fin n → ℝ) (x : Fin n' → d → ℝ) (num : ℤ) : smoother S C x num = .error .assertionError := by
  unfold smoother; rw [dif_neg h]

/-- **C132** Neither one nor no point: no coefficients at all raise, unless all neighbours are asked for. -/
theorem C132_empty (S : Sorting n) (C : Fin 0 → Fin n → ℝ) (x : Fin n → d → ℝ) (num : ℤ) :
    (num < n → smoother S C x num = .error .runtimeError) ∧ (n ≤ num → ∃ V, smoother S C x num = .ok V) := by
  unfold smoother
  rw [dif_pos rfl]
  refine ⟨fun h => ?_, fun h => ?_⟩
  · rw [if_neg (not_le.2 h), if_pos rfl]
  · rw [if_pos h]; exact ⟨_, rfl⟩

/-- **C132** Zero neighbours give the origin, a negative number all but the last ones. -/
theorem C132_none (S : Sorting n) (C : Fin m → Fin n → ℝ) (x : Fin n → d → ℝ) (hm : 0 < m) (hn : 0 < n) :
    smoother S C x 0 = .ok (fun _ => some fun _ => 0) ∧ ∀ b : ℕ, 1 ≤ b → b < n → smoother S C x (-b) = smoother S C x ((n - b : ℕ) : ℤ) := by
  constructor
  · rw [smoother_small S C x 0 (by exact_mod_cast hn) hm]
    congr 1; funext i
    unfold local'
    rw [if_pos]
    rw [filter_eq_empty_iff]
    intro k _
    simp [kept]
  · intro b h1 h2
    rw [smoother_small S C x _ (by omega) hm, smoother_small S C x _ (by omega) hm]
    have : kept n (-b) = kept n ((n - b : ℕ) : ℤ) := by
      unfold kept
      rw [if_pos (by omega), if_neg (by omega)]
      omega
    congr 1; funext i
    unfold local'
    rw [this]

/-- **C132** violated: the nearest neighbours cannot be used at all, with any coefficients, and neither can the two other functions. -/
theorem C132_knn_violated (shape : List ℕ) : (∃ e, knn shape = .error e) ∧ (shape ≠ [] → knn shape = .error .typeError) ∧ iterative = .error .notImplemented ∧
    ridgeRegression = .error .notImplemented := by
  cases shape with
  | nil => exact ⟨⟨_, rfl⟩, fun h => absurd rfl h, rfl, rfl⟩
  | cons a l => exact ⟨⟨_, rfl⟩, fun _ => rfl, rfl, rfl⟩

/-! ## Examples -/

/-- There is a sort for every number of coefficients. -/
noncomputable def someSort (n : ℕ) : Sorting n where
  idx c := Tuple.sort (fun k => -c k)
  desc c k l h := by
    have := Tuple.monotone_sort (fun k => -c k) h
    simpa using this

/-- Two of three points. -/
example : ∃ V, smoother (someSort 3) (fun _ : Fin 1 => ![3, 1, 2]) (fun (k : Fin 3) (_ : Unit) => (k : ℝ)) (2 : ℕ) = .ok V ∧ ∀ i v, V i = some v → ∀ j, 0 ≤ v j ∧ v j ≤ 2 :=
  C132_range_partial (someSort 3) _ _ 2 (by norm_num) (by norm_num) Nat.one_pos (fun i k => by fin_cases k <;> simp) (fun _ => 0) (fun _ => 2)
    (fun k j => by fin_cases k <;> simp)

end PreimageFun
end Kerch
