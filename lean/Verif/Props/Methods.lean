import Verif.Lemmas.Methods
import Mathlib.Tactic.FieldSimp
import Mathlib.Tactic.Linarith
import Mathlib.Tactic.NormNum
import Mathlib.Tactic.FinCases
/-!
# C43, C44, C45: pre-image methods
-/
set_option linter.unusedSectionVars false
set_option linter.unusedSimpArgs false
namespace Kerch
open Methods
variable {p n d : ℕ}

/-! ## specification -/

/-- Specification of k nearest neighbours, independent of the tie-breaking: in every row the result is the mean of `k`
observations such that no other one is strictly closer. -/
def KnnSpec (dists : Mat p n) (obs : Mat n d) (k : ℕ) (out : Mat p d) : Prop :=
  ∀ i, ∃ S : Finset (Fin n), S.card = k ∧ Nearest (dists i) S ∧ ∀ j, out i j = (∑ s ∈ S, obs s j) / k

/-! ## helper lemmas -/

theorem knn_eq (sel : Sel p n) (hs : sel.TopK) (dists : Mat p n) (obs : Mat n d) (k : ℕ) (hk : 0 < k) (hn : k ≤ n)
    (hp : 0 < p) :
    knn sel dists obs (.int k) = .ok fun i j =>
      (∑ s ∈ selSet sel hn i (fun a => -(knnDists dists i a)), obs s j) / k := by
  have h1 : ((k : ℤ) ≤ n) := by exact_mod_cast hn
  have h2 : (0 : ℤ) < k := by exact_mod_cast hk
  simp only [knn, PyNum.toInt]
  rw [dif_pos trivial, dif_pos h1, if_pos h2, if_neg hp.ne']
  congr 1
  funext i j
  rw [← sum_sel hs hn i (fun a => -(knnDists dists i a)) (fun s => obs s j)]
  rfl

/-! ## C43 -/

/-- **C43**: for all tie-breakings of `topk`, `knn` returns in each row the mean of `num` observations such that no other
observation is strictly closer. -/
theorem C43_mean (sel : Sel p n) (hs : sel.TopK) (dists : Mat p n) (obs : Mat n d) (k : ℕ) (hk : 0 < k) (hn : k ≤ n)
    (hp : 0 < p) : ∃ out, knn sel dists obs (.int k) = .ok out ∧ KnnSpec dists obs k out := by
  refine ⟨_, knn_eq sel hs dists obs k hk hn hp, ?_⟩
  intro i
  refine ⟨selSet sel hn i (fun a => -(knnDists dists i a)), selSet_card hs hn i _, ?_, fun j => rfl⟩
  intro a ha b hb
  exact neg_knnDists_le i a b |>.mp (selSet_top hs hn i _ a ha b hb)

/-- **C43**: conversely every such mean is the result for some tie-breaking, so that the specification is exact. -/
theorem C43_possible (dists : Mat p n) (obs : Mat n d) (k : ℕ) (hk : 0 < k) (hn : k ≤ n) (hp : 0 < p) (out : Mat p d) :
    (∃ sel : Sel p n, sel.TopK ∧ knn sel dists obs (.int k) = .ok out) ↔ KnnSpec dists obs k out := by
  constructor
  · rintro ⟨sel, hs, h⟩
    obtain ⟨out', h', hspec⟩ := C43_mean sel hs dists obs k hk hn hp
    rw [h'] at h
    cases h
    exact hspec
  · intro h
    choose S hc hN hout using h
    obtain ⟨sel, hs, hS⟩ := exists_sel hn (fun i a => -(knnDists dists i a)) S hc (by
      intro i a ha b hb
      exact (neg_knnDists_le i a b).mpr (hN i a ha b hb))
    refine ⟨sel, hs, ?_⟩
    rw [knn_eq sel hs dists obs k hk hn hp]
    congr 1
    funext i j
    rw [hS i, ← hout i j]

/-- **C43**: without ties at the boundary the result is determined: the mean over the set of the strictly nearest. -/
theorem C43_unique (sel : Sel p n) (hs : sel.TopK) (dists : Mat p n) (obs : Mat n d) (k : ℕ) (hk : 0 < k) (hn : k ≤ n)
    (S : Fin p → Finset (Fin n)) (hc : ∀ i, (S i).card = k) (hS : ∀ i, ∀ a ∈ S i, ∀ b ∉ S i, dists i a < dists i b)
    (hp : 0 < p) : knn sel dists obs (.int k) = .ok fun i j => (∑ s ∈ S i, obs s j) / k := by
  rw [knn_eq sel hs dists obs k hk hn hp]
  congr 1
  funext i j
  have : selSet sel hn i (fun a => -(knnDists dists i a)) = S i := by
    set T := selSet sel hn i (fun a => -(knnDists dists i a)) with hT
    have hTc : T.card = k := selSet_card hs hn i _
    have hsub : T ⊆ S i := by
      intro a ha
      by_contra hna
      have : ∃ b ∈ S i, b ∉ T := by
        by_contra hcon
        push Not at hcon
        have hss : S i ⊆ T := hcon
        have := Finset.eq_of_subset_of_card_le hss (by rw [hTc, hc i])
        exact hna (this ▸ ha)
      obtain ⟨b, hbS, hbT⟩ := this
      have h1 := (neg_knnDists_le i a b).mp (selSet_top hs hn i _ a ha b hbT)
      have h2 := hS i b hbS a hna
      linarith
    exact Finset.eq_of_subset_of_card_le hsub (by rw [hTc, hc i])
  rw [this]

/-- **C43**: adding to each row a constant changes nothing: exactly the same results are possible. -/
theorem C43_shift (dists : Mat p n) (c : Fin p → ℝ) (obs : Mat n d) (k : ℕ) (hk : 0 < k) (hn : k ≤ n) (hp : 0 < p)
    (out : Mat p d) :
    (∃ sel : Sel p n, sel.TopK ∧ knn sel (fun i j => dists i j + c i) obs (.int k) = .ok out) ↔
    (∃ sel : Sel p n, sel.TopK ∧ knn sel dists obs (.int k) = .ok out) := by
  rw [C43_possible _ _ _ hk hn hp, C43_possible _ _ _ hk hn hp]
  unfold KnnSpec Nearest
  simp only [add_le_add_iff_right]

/-- **C43**: permuting the observations together with the columns of the distances changes nothing. -/
theorem C43_perm (dists : Mat p n) (e : Equiv.Perm (Fin n)) (obs : Mat n d) (k : ℕ) (hk : 0 < k) (hn : k ≤ n) (hp : 0 < p)
    (out : Mat p d) :
    (∃ sel : Sel p n, sel.TopK ∧ knn sel (fun i j => dists i (e j)) (fun s => obs (e s)) (.int k) = .ok out) ↔
    (∃ sel : Sel p n, sel.TopK ∧ knn sel dists obs (.int k) = .ok out) := by
  rw [C43_possible _ _ _ hk hn hp, C43_possible _ _ _ hk hn hp]
  constructor
  · intro h i
    obtain ⟨S, hc, hN, ho⟩ := h i
    refine ⟨S.map e.toEmbedding, by simpa using hc, ?_, ?_⟩
    · intro a ha b hb
      have h1 := hN (e.symm a) (by simpa using ha) (e.symm b) (by simpa using hb)
      simpa using h1
    · intro j; rw [ho j]; simp
  · intro h i
    obtain ⟨S, hc, hN, ho⟩ := h i
    refine ⟨S.map e.symm.toEmbedding, by simpa using hc, ?_, ?_⟩
    · intro a ha b hb
      exact hN (e a) (by simpa using ha) (e b) (by simpa using hb)
    · intro j; rw [ho j]; simp

/-- **C43**: `num = n` gives the mean of all observations. -/
theorem C43_all (sel : Sel p n) (hs : sel.TopK) (dists : Mat p n) (obs : Mat n d) (hp : 0 < p) (hn : 0 < n) :
    knn sel dists obs (.int n) = .ok fun _ j => (∑ s, obs s j) / n :=
  C43_unique sel hs dists obs n hn le_rfl (fun _ => Finset.univ) (by simp) (by simp) hp

/-- **C43**: a point at a distance strictly smaller than all others is recovered by `num = 1`. -/
theorem C43_recovers (sel : Sel p n) (hs : sel.TopK) (dists : Mat p n) (obs : Mat n d) (hp : 0 < p) (s : Fin p → Fin n)
    (h : ∀ i, ∀ b, b ≠ s i → dists i (s i) < dists i b) :
    knn sel dists obs (.int 1) = .ok fun i j => obs (s i) j := by
  have hn : 0 < n := Fin.pos (s ⟨0, hp⟩)
  have := C43_unique sel hs dists obs 1 one_pos hn (fun i => {s i}) (by simp) (by
    intro i a ha b hb
    simp at ha hb
    subst ha
    exact h i b hb) hp
  rw [show ((1 : ℤ)) = ((1 : ℕ) : ℤ) from rfl, this]
  simp

/-- **C43**: a number of neighbours that is not positive or too large, a number that is not a number, and observations of the
wrong number are refused. -/
theorem C43_refused {m : ℕ} (sel : Sel p n) (dists : Mat p n) (obs : Mat m d) :
    (∀ k : ℤ, (k ≤ 0 ∨ (n : ℤ) < k ∨ n ≠ m) → knn sel dists obs (.int k) = .error .assertionError) ∧
    knn sel dists obs .nan = .error .valueError ∧
    (∀ s, knn sel dists obs (.str s none) = .error .valueError) := by
  refine ⟨?_, rfl, fun s => rfl⟩
  intro k h
  simp only [knn, PyNum.toInt]
  by_cases h1 : n = m
  · rw [dif_pos h1]
    by_cases h2 : k ≤ n
    · rw [dif_pos h2, if_neg (by omega)]
    · rw [dif_neg h2]
  · rw [dif_neg h1]

/-- **C43** violated: a `num` that is not an integer, such as `2.5`, is not refused (the check of the code is that `int(num)`
succeeds) but silently truncated. -/
theorem C43_num_violated (sel : Sel p n) (dists : Mat p n) (obs : Mat n d) :
    knn sel dists obs (.float (5 / 2)) = knn sel dists obs (.int 2) := by
  have : ⌊(5 / 2 : ℝ)⌋ = 2 := by rw [Int.floor_eq_iff]; norm_num
  have h0 : (0 : ℝ) ≤ 5 / 2 := by norm_num
  simp only [knn, PyNum.toInt, if_pos h0, this]

/-- **C43** violated: a valid call on an empty batch of points raises `RuntimeError` instead of returning no point. -/
theorem C43_empty_violated (sel : Sel 0 n) (dists : Mat 0 n) (obs : Mat n d) (k : ℕ) (hk : 0 < k) (hn : k ≤ n) :
    knn sel dists obs (.int k) = .error .runtimeError := by
  have h1 : ((k : ℤ) ≤ n) := by exact_mod_cast hn
  have h2 : (0 : ℤ) < k := by exact_mod_cast hk
  simp only [knn, PyNum.toInt]
  rw [dif_pos trivial, dif_pos h1, if_pos h2, if_pos trivial]

/-- **C43** for `kernel_knn`: if each domain point has a strictly larger kernel value with itself than with the others, one
neighbour reproduces the observations. -/
theorem C43_kernel_recovers (sel : Sel n n) (hs : sel.TopK) (K : Mat n n) (obs : Mat n d) (hn : 0 < n)
    (h : ∀ i j, j ≠ i → K i j < K i i) : kernelKnn sel K obs (.int 1) = .ok obs := by
  unfold kernelKnn
  rw [if_pos rfl]
  exact C43_recovers sel hs _ obs hn id (fun i b hb => by simpa using h i b hb)

/-! ## C44 -/

/-- What the smoother returns: the kept positions `S` of row `i`. -/
theorem smoother_eq (sel : Sel p n) (c : Mat p n) (obs : Mat n d) (k : ℕ) (hk : 0 < k) (hn : k ≤ n) (num : PyNum)
    (hnum : smootherNum n num = .ok (k : ℤ)) :
    smoother sel c obs num = .ok fun i j =>
      if ∑ l, keptCoeff sel c k hn i l = 0 then none
      else some (∑ l, keptCoeff sel c k hn i l / (∑ l', keptCoeff sel c k hn i l') * obs l j) := by
  classical
  have h1 : ((k : ℤ) ≤ n) := by exact_mod_cast hn
  have h2 : (0 : ℤ) < k := by exact_mod_cast hk
  unfold smoother
  rw [dif_pos rfl, hnum]
  simp only [if_pos h2, dif_pos h1, Fin.cast_eq_self, Int.toNat_natCast]

/-- The kept positions: all of them, or the selected ones. -/
theorem kept_set (sel : Sel p n) (hs : sel.TopK) (c : Mat p n) (k : ℕ) (hn : k ≤ n) (i : Fin p) :
    ∃ S : Finset (Fin n), S.card = k ∧ (∀ a ∈ S, ∀ b ∉ S, c i b ≤ c i a) ∧
      ∀ l, keptCoeff sel c k hn i l = if l ∈ S then c i l else 0 := by
  classical
  by_cases hkn : k = n
  · subst hkn
    exact ⟨Finset.univ, by simp, by simp, by simp [keptCoeff]⟩
  · refine ⟨selSet sel hn i (c i), selSet_card hs hn i _, selSet_top hs hn i _, ?_⟩
    intro l
    simp only [keptCoeff, if_neg hkn, mem_selSet]

/-- **C44**: with non-negative coefficients, not all zero in the row, the result is a convex combination of `num` observations
with the largest coefficients (no other one has a strictly larger coefficient), with weights proportional to the coefficients. -/
theorem C44_convex (sel : Sel p n) (hs : sel.TopK) (c : Mat p n) (obs : Mat n d) (k : ℕ) (hk : 0 < k) (hn : k ≤ n)
    (num : PyNum) (hnum : smootherNum n num = .ok (k : ℤ)) :
    ∃ out, smoother sel c obs num = .ok out ∧
      ∀ i, (∀ l, 0 ≤ c i l) → (∃ l, c i l ≠ 0) →
        ∃ S : Finset (Fin n), S.card = k ∧ (∀ a ∈ S, ∀ b ∉ S, c i b ≤ c i a) ∧ 0 < ∑ l ∈ S, c i l ∧
          ∀ j, out i j = some (∑ l ∈ S, c i l / (∑ l' ∈ S, c i l') * obs l j) := by
  classical
  refine ⟨_, smoother_eq sel c obs k hk hn num hnum, ?_⟩
  intro i h0 ⟨l0, hl0⟩
  obtain ⟨S, hc, ht, hkept⟩ := kept_set sel hs c k hn i
  have hsum : ∑ l, keptCoeff sel c k hn i l = ∑ l ∈ S, c i l := by
    simp only [hkept]; rw [Finset.sum_ite_mem, Finset.univ_inter]
  have hpos : 0 < ∑ l ∈ S, c i l := by
    have hl0' : 0 < c i l0 := lt_of_le_of_ne (h0 l0) (Ne.symm hl0)
    by_cases hm : l0 ∈ S
    · exact Finset.sum_pos' (fun l _ => h0 l) ⟨l0, hm, hl0'⟩
    · have : S.Nonempty := by rw [← Finset.card_pos, hc]; exact hk
      obtain ⟨a, ha⟩ := this
      exact Finset.sum_pos' (fun l _ => h0 l) ⟨a, ha, lt_of_lt_of_le hl0' (ht a ha l0 hm)⟩
  refine ⟨S, hc, ht, hpos, ?_⟩
  intro j
  rw [hsum, if_neg hpos.ne']
  congr 1
  obtain ⟨C, hC⟩ : ∃ C, C = ∑ l ∈ S, c i l := ⟨_, rfl⟩
  rw [← hC]
  have : ∀ l, keptCoeff sel c k hn i l / C * obs l j = if l ∈ S then c i l / C * obs l j else 0 := by
    intro l
    rw [hkept]
    by_cases h : l ∈ S <;> simp [h]
  simp only [this]
  rw [Finset.sum_ite_mem, Finset.univ_inter]

/-- **C44**: the result lies coordinatewise between the smallest and the largest kept observation. -/
theorem C44_between (sel : Sel p n) (hs : sel.TopK) (c : Mat p n) (obs : Mat n d) (k : ℕ) (hk : 0 < k) (hn : k ≤ n)
    (num : PyNum) (hnum : smootherNum n num = .ok (k : ℤ)) :
    ∃ out, smoother sel c obs num = .ok out ∧
      ∀ i, (∀ l, 0 ≤ c i l) → (∃ l, c i l ≠ 0) → ∀ j, ∃ r a b, out i j = some r ∧ obs a j ≤ r ∧ r ≤ obs b j := by
  obtain ⟨out, h, hconv⟩ := C44_convex sel hs c obs k hk hn num hnum
  refine ⟨out, h, ?_⟩
  intro i h0 hne j
  obtain ⟨S, hc, -, hpos, hout⟩ := hconv i h0 hne
  have hS : S.Nonempty := by rw [← Finset.card_pos, hc]; exact hk
  obtain ⟨a, ha, hmin⟩ := S.exists_min_image (fun l => obs l j) hS
  obtain ⟨b, hb, hmax⟩ := S.exists_max_image (fun l => obs l j) hS
  have hw : ∑ l ∈ S, c i l / (∑ l' ∈ S, c i l') = 1 := by
    rw [← Finset.sum_div]; exact div_self hpos.ne'
  refine ⟨_, a, b, hout j, ?_, ?_⟩
  · calc obs a j = ∑ l ∈ S, c i l / (∑ l' ∈ S, c i l') * obs a j := by rw [← Finset.sum_mul, hw, one_mul]
      _ ≤ _ := Finset.sum_le_sum fun l hl =>
        mul_le_mul_of_nonneg_left (hmin l hl) (div_nonneg (h0 l) hpos.le)
  · calc ∑ l ∈ S, c i l / (∑ l' ∈ S, c i l') * obs l j ≤ ∑ l ∈ S, c i l / (∑ l' ∈ S, c i l') * obs b j :=
        Finset.sum_le_sum fun l hl => mul_le_mul_of_nonneg_left (hmax l hl) (div_nonneg (h0 l) hpos.le)
      _ = obs b j := by rw [← Finset.sum_mul, hw, one_mul]

/-- **C44**: constant observations are reproduced. -/
theorem C44_constant (sel : Sel p n) (hs : sel.TopK) (c : Mat p n) (w : Fin d → ℝ) (k : ℕ) (hk : 0 < k) (hn : k ≤ n)
    (num : PyNum) (hnum : smootherNum n num = .ok (k : ℤ)) :
    ∃ out, smoother sel c (fun (_ : Fin n) j => w j) num = .ok out ∧
      ∀ i, (∀ l, 0 ≤ c i l) → (∃ l, c i l ≠ 0) → ∀ j, out i j = some (w j) := by
  obtain ⟨out, h, hb⟩ := C44_between sel hs c (fun _ j => w j) k hk hn num hnum
  refine ⟨out, h, fun i h0 hne j => ?_⟩
  obtain ⟨r, a, b, hr, h1, h2⟩ := hb i h0 hne j
  rw [hr, le_antisymm h2 h1]

/-- **C44**: rescaling the rows of the coefficients by positive factors changes nothing: the result for a tie-breaking is the
result of the rescaled problem for some tie-breaking (and conversely, by rescaling back). -/
theorem C44_rescale (sel : Sel p n) (hs : sel.TopK) (c : Mat p n) (obs : Mat n d) (s : Fin p → ℝ) (hspos : ∀ i, 0 < s i)
    (k : ℕ) (hk : 0 < k) (hn : k ≤ n) (num : PyNum) (hnum : smootherNum n num = .ok (k : ℤ)) :
    ∃ sel' : Sel p n, sel'.TopK ∧ smoother sel' (fun i l => s i * c i l) obs num = smoother sel c obs num := by
  classical
  obtain ⟨sel', hs', hS⟩ := exists_sel hn (fun i l => s i * c i l) (fun i => selSet sel hn i (c i))
    (fun i => selSet_card hs hn i _) (fun i a ha b hb =>
      mul_le_mul_of_nonneg_left (selSet_top hs hn i _ a ha b hb) (hspos i).le)
  refine ⟨sel', hs', ?_⟩
  rw [smoother_eq sel' _ obs k hk hn num hnum, smoother_eq sel c obs k hk hn num hnum]
  have hkept : ∀ i l, keptCoeff sel' (fun i l => s i * c i l) k hn i l = s i * keptCoeff sel c k hn i l := by
    intro i l
    unfold keptCoeff
    by_cases hkn : k = n
    · simp [hkn]
    · simp only [if_neg hkn]
      have := hS i
      have hiff : (∃ x, sel' k hn i (fun l => s i * c i l) x = l) ↔ ∃ x, sel k hn i (c i) x = l := by
        rw [← mem_selSet, ← mem_selSet, this]
      by_cases hx : ∃ x, sel k hn i (c i) x = l
      · rw [if_pos hx, if_pos (hiff.mpr hx)]
      · rw [if_neg hx, if_neg (fun h => hx (hiff.mp h)), mul_zero]
  congr 1
  funext i j
  have hsum : ∑ l, keptCoeff sel' (fun i l => s i * c i l) k hn i l = s i * ∑ l, keptCoeff sel c k hn i l := by
    simp only [hkept, Finset.mul_sum]
  rw [hsum]
  by_cases h0 : ∑ l, keptCoeff sel c k hn i l = 0
  · rw [if_pos h0, if_pos (by rw [h0, mul_zero])]
  · rw [if_neg h0, if_neg (mul_ne_zero (hspos i).ne' h0)]
    congr 1
    apply Finset.sum_congr rfl
    intro l _
    rw [hkept, mul_div_mul_left _ _ (hspos i).ne']

/-- **C44**: `num='all'`, in any capitalisation, and `num=n` coincide, and do not depend on `topk`. -/
theorem C44_all (sel sel' : Sel p n) (c : Mat p n) (obs : Mat n d) (s : String) (hs : s.toLower = "all") (r : Option ℤ) :
    smoother sel c obs (.str s r) = smoother sel' c obs (.int n) := by
  unfold smoother
  simp only [smootherNum, if_pos hs, PyNum.toInt]
  simp only [keptCoeff, Int.toNat_natCast, if_true]

/-- **C44**: invalid arguments are refused. -/
theorem C44_refused {m : ℕ} (sel : Sel p n) (c : Mat p n) (obs : Mat m d) :
    (∀ k : ℤ, (k ≤ 0 ∨ (n : ℤ) < k ∨ n ≠ m) → smoother sel c obs (.int k) = .error .assertionError) ∧
    (∀ s r, s.toLower ≠ "all" → smoother sel c obs (.str s r) = .error .assertionError) := by
  constructor
  · intro k h
    unfold smoother
    simp only [smootherNum, PyNum.toInt]
    by_cases h1 : n = m
    · rw [dif_pos h1]
      by_cases h2 : 0 < k
      · rw [if_pos h2, dif_neg (by omega)]
      · rw [if_neg h2]
    · rw [dif_neg h1]
  · intro s r h
    unfold smoother
    simp only [smootherNum, if_neg h]
    split <;> rfl

/-- **C44**, complement: a row of zero coefficients gives no number (`0/0`), whatever the observations. -/
theorem C44_zero_row (sel : Sel p n) (c : Mat p n) (obs : Mat n d) (k : ℕ) (hk : 0 < k) (hn : k ≤ n)
    (num : PyNum) (hnum : smootherNum n num = .ok (k : ℤ)) (i : Fin p) (h : ∀ l, c i l = 0) :
    ∃ out, smoother sel c obs num = .ok out ∧ ∀ j, out i j = none := by
  refine ⟨_, smoother_eq sel c obs k hk hn num hnum, ?_⟩
  intro j
  rw [if_pos]
  apply Finset.sum_eq_zero
  intro l _
  unfold keptCoeff
  split
  · exact h l
  · split
    · exact h l
    · rfl

/-! ## C45 -/
section Iterative
open CacheSt
variable {κ α σ : Type} [DecidableEq κ] [CacheKey κ]

/-- A computation that does not touch the cache level, whether it raises or not. -/
def KeepsLevel {β : Type} (f : M κ α β) : Prop := ∀ c, (f c).2.level = c.level

/-- Reading the cache keeps the level. -/
theorem KeepsLevel.get {table : Dict String String} {key : κ} {a : GetArgs} {fn : M κ α α} (h : KeepsLevel fn) :
    KeepsLevel (CacheSt.get table key a fn) := by
  intro c
  have hsave : (save table key a fn c).2.level = c.level := by
    unfold save
    have := h c
    rcases hfn : fn c with ⟨r, c1⟩
    rw [hfn] at this
    cases r with
    | error e => exact this
    | ok v =>
      simp only
      cases (resolveLevel table c a).le c1.level with
      | error e => exact this
      | ok b => simp only; split <;> exact this
  unfold CacheSt.get
  split
  · rfl
  · rcases hs : save table key a fn c with ⟨r, c1⟩
    rw [hs] at hsave
    cases r with
    | error e => exact hsave
    | ok v => simp only; split <;> exact hsave

theorem KeepsLevel.loop {stp : σ → M κ α (σ × Bool)} (h : ∀ x, KeepsLevel (stp x)) (k : ℕ) (x : σ) :
    KeepsLevel (iterLoop stp k x) := by
  induction k generalizing x with
  | zero => intro c; rfl
  | succ k ih =>
    intro c
    have h1 := h x c
    unfold iterLoop
    rcases hs : stp x c with ⟨r, c1⟩
    rw [hs] at h1
    cases r with
    | error e => exact h1
    | ok v =>
      obtain ⟨x', b⟩ := v
      cases b with
      | true => exact h1
      | false => exact (ih x' c1).trans h1

theorem levelName_num {c : CacheSt κ α} {name : String} (h : c.levelName = .ok name) :
    ∃ lvl, levelSwitcher.find name = some lvl ∧ c.level = .num lvl := by
  unfold levelName at h
  simp only [levelSwitcher, List.find?] at h
  split at h
  · rename_i kv hkv
    simp at h
    subst h
    revert hkv
    repeat' split
    all_goals intro hkv
    all_goals first
      | (simp at hkv; done)
      | (rename_i hd; simp at hkv; subst hkv; exact ⟨_, by rfl, by simpa using (of_decide_eq_true hd).symm⟩)
  · simp at h

/-- **C45**, partial: after a *successful* call the cache level is what it was before, for every kernel, every argument, every
number of iterations.  (Raising calls: `C45_raise_violated`.) -/
theorem C45_success_partial {start : M κ α σ} {stp : σ → M κ α (σ × Bool)} (h1 : KeepsLevel start)
    (h2 : ∀ x, KeepsLevel (stp x)) (cols : ℕ) (numIdx : Except Err ℕ) (numIter : ℤ) (light : Bool) (c : CacheSt κ α)
    {x : σ} {c' : CacheSt κ α} (h : iterativeK start stp cols numIdx numIter light c = (.ok x, c')) :
    c'.level = c.level := by
  unfold iterativeK at h
  cases hn : c.levelName with
  | error e => rw [hn] at h; simp at h
  | ok name =>
    obtain ⟨lvl, hl, hlv⟩ := levelName_num hn
    rw [hn] at h
    simp only [hl] at h
    set c1 := if (decide (lvl > 1) && light) = true then c.setLevel (.str "light") else c with hc1
    cases numIdx with
    | error e => simp at h
    | ok ni =>
      simp only at h
      by_cases g1 : cols = ni
      · rw [if_neg (by simpa using g1)] at h
        by_cases g2 : numIter ≤ 0
        · rw [if_pos g2] at h; simp at h
        · rw [if_neg g2] at h
          have k1 := h1 c1
          rcases hs : start c1 with ⟨r, c2⟩
          rw [hs] at h k1
          cases r with
          | error e => simp at h
          | ok x0 =>
            simp only at h
            have k2 := KeepsLevel.loop h2 numIter.toNat x0 c2
            rcases hs2 : iterLoop stp numIter.toNat x0 c2 with ⟨r2, c3⟩
            rw [hs2] at h k2
            cases r2 with
            | error e => simp at h
            | ok y =>
              simp only [Prod.mk.injEq] at h
              rw [← h.2]
              by_cases g3 : (decide (lvl > 1) && light) = true
              · rw [if_pos g3]; simp [setLevel, getLevel, hlv]
              · rw [if_neg g3]
                simp only at k1 k2
                rw [k2, k1, hc1, if_neg g3]
      · rw [if_pos (by simpa using g1)] at h; simp at h

/-- **C45**, partial: the level is also kept when the call raises, provided it was not above `light` or the caller asked not
to lighten the cache. -/
theorem C45_unlightened_partial {start : M κ α σ} {stp : σ → M κ α (σ × Bool)} (h1 : KeepsLevel start)
    (h2 : ∀ x, KeepsLevel (stp x)) (cols : ℕ) (numIdx : Except Err ℕ) (numIter : ℤ) (light : Bool) (c : CacheSt κ α)
    (hl : light = false ∨ c.level = .num 0 ∨ c.level = .num 1) :
    (iterativeK start stp cols numIdx numIter light c).2.level = c.level := by
  unfold iterativeK
  cases hn : c.levelName with
  | error e => rfl
  | ok name =>
    obtain ⟨lvl, hlf, hlv⟩ := levelName_num hn
    simp only [hlf]
    have g3 : (decide (lvl > 1) && light) = false := by
      rcases hl with rfl | h | h
      · simp
      · rw [hlv] at h; simp at h; subst h; simp
      · rw [hlv] at h; simp at h; subst h; simp
    simp only [g3, Bool.false_eq_true, if_false]
    cases numIdx with
    | error e => rfl
    | ok ni =>
      simp only
      split
      · rfl
      · split
        · rfl
        · have k1 := h1 c
          rcases hs : start c with ⟨r, c2⟩
          rw [hs] at k1
          cases r with
          | error e => exact k1
          | ok x0 =>
            simp only
            have k2 := KeepsLevel.loop h2 numIter.toNat x0 c2
            rcases hs2 : iterLoop stp numIter.toNat x0 c2 with ⟨r2, c3⟩
            rw [hs2] at k2
            cases r2 with
            | error e => exact k2.trans k1
            | ok y => exact k2.trans k1

/-- **C45** violated: on *every* kernel with the default level `normal`, a call refused because of its arguments (wrong number
of coefficients, or a non-positive number of iterations) leaves the kernel at the level `light`. -/
theorem C45_raise_violated {start : M κ α σ} {stp : σ → M κ α (σ × Bool)} (c : CacheSt κ α) (hc : c.level = .num 2)
    (cols ni : ℕ) (numIter : ℤ) (h : cols ≠ ni ∨ numIter ≤ 0) :
    (iterativeK start stp cols (.ok ni) numIter true c).1 = .error .assertionError ∧
    (iterativeK start stp cols (.ok ni) numIter true c).2.level = .num 1 := by
  have hn : c.levelName = .ok "normal" := by
    simp [levelName, hc, levelSwitcher, List.find?]
  have hf : levelSwitcher.find "normal" = some 2 := rfl
  have hlight : (c.setLevel (.str "light")).level = .num 1 := rfl
  unfold iterativeK
  simp only [hn, hf]
  by_cases g : cols = ni
  · have hi : numIter ≤ 0 := by tauto
    simp [g, hi, hlight]
  · simp [g, hlight]

/-- **C45** violated (and more): `iterative_preimage_phi` compares the dimension of the image with the number of sample points
instead of the feature dimension, so that every correct call on a kernel with `dim_feature ≠ num_idx` raises, and leaves the
kernel at the level `light`. -/
theorem C45_phi_violated {start : M κ α σ} {stp : σ → M κ α (σ × Bool)} (c : CacheSt κ α) (hc : c.level = .num 2)
    (dimFeature ni : ℕ) (numIter : ℤ) (h : dimFeature ≠ ni) :
    (iterativePhi start stp dimFeature dimFeature (.ok ni) numIter true c).1 = .error .assertionError ∧
    (iterativePhi start stp dimFeature dimFeature (.ok ni) numIter true c).2.level = .num 1 :=
  C45_raise_violated c hc _ _ _ (Or.inl h)

/-- **C45** for `iterative_preimage_phi`, partial: successful calls restore the level. -/
theorem C45_phi_success_partial {start : M κ α σ} {stp : σ → M κ α (σ × Bool)} (h1 : KeepsLevel start)
    (h2 : ∀ x, KeepsLevel (stp x)) (cols dimFeature : ℕ) (numIdx : Except Err ℕ) (numIter : ℤ) (light : Bool)
    (c : CacheSt κ α) {x : σ} {c' : CacheSt κ α}
    (h : iterativePhi start stp cols dimFeature numIdx numIter light c = (.ok x, c')) : c'.level = c.level := by
  refine C45_success_partial (fun c => ?_) h2 cols numIdx numIter light c h
  split
  · rfl
  · exact h1 c

end Iterative

/-! ## non-vacuity -/

/-- Lawful selections exist for all sizes. -/
example : ∃ sel : Sel 3 4, sel.TopK := ⟨_, sortSel_topK 3 4⟩
example : ∃ out, KnnSpec (![![0, 3, 1]] : Mat 1 3) (![![1], ![5], ![2]] : Mat 3 1) 2 out :=
  (C43_mean _ (sortSel_topK 1 3) _ _ 2 (by norm_num) (by norm_num) (by norm_num)).imp fun _ h => h.2
example : smootherNum 4 (.str "all" none) = .ok ((4 : ℕ) : ℤ) ∧ smootherNum 4 (.int 2) = .ok ((2 : ℕ) : ℤ) := by
  constructor
  · simp only [smootherNum]; rw [if_pos (by decide +kernel)]
  · rfl
/-- A successful call of the iterative method on a kernel at level `normal`. -/
example : ((Methods.iterativeK (κ := String) (α := ℕ) (fun c => (.ok 3, c)) (fun x c => (.ok (x + 1, false), c)) 2 (.ok 2) 5 true
    (CacheSt.init (.str "normal"))).1) = .ok 8 := by rfl

end Kerch

/-! ## Concrete cases meeting the hypotheses of the theorems above -/

namespace Kerch
open Methods CacheSt
namespace MethodsCase

def dists : Mat 2 3 := ![![0, 3, 1], ![2, 0, 5]]
def obs : Mat 3 1 := ![![1], ![5], ![2]]
def c : Mat 2 3 := ![![1, 2, 3], ![0, 0, 0]]

theorem c_row : (∀ l, 0 ≤ c 0 l) ∧ ∃ l, c 0 l ≠ 0 :=
  ⟨fun l => by fin_cases l <;> simp [c], 1, by simp [c]⟩

example (out : Mat 2 1) := C43_possible dists obs 2 (by norm_num) (by norm_num) (by norm_num) out
example := C43_unique _ (sortSel_topK 2 3) dists obs 2 (by norm_num) (by norm_num) (fun i => if i = 0 then {0, 2} else {0, 1})
  (by intro i; fin_cases i <;> rfl)
  (by
    intro i a ha b hb
    fin_cases i <;> fin_cases a <;> fin_cases b <;> simp_all [dists] <;> norm_num)
  (by norm_num)
example (out : Mat 2 1) := C43_shift dists (fun _ => -7) obs 2 (by norm_num) (by norm_num) (by norm_num) out
example (out : Mat 2 1) := C43_perm dists (Equiv.swap 0 2) obs 2 (by norm_num) (by norm_num) (by norm_num) out
example := C43_all _ (sortSel_topK 2 3) dists obs (by norm_num) (by norm_num)
example := C43_recovers _ (sortSel_topK 2 3) dists obs (by norm_num) (fun i => if i = 0 then 0 else 1)
  (by intro i b hb; fin_cases i <;> fin_cases b <;> simp_all [dists])
example := C43_empty_violated (sortSel 0 3) (fun i => i.elim0) obs 2 (by norm_num) (by norm_num)
example := C43_kernel_recovers _ (sortSel_topK 3 3) (fun i j => if i = j then 2 else 1) obs (by norm_num)
  (by intro i j h; simp [h.symm])
example := C44_convex _ (sortSel_topK 2 3) c obs 2 (by norm_num) (by norm_num) (.int 2) rfl
example : ∃ out, smoother (sortSel 2 3) c obs (.int 2) = .ok out ∧ ∃ r a b, out 0 0 = some r ∧ obs a 0 ≤ r ∧ r ≤ obs b 0 := by
  obtain ⟨out, h1, h2⟩ := C44_between _ (sortSel_topK 2 3) c obs 2 (by norm_num) (by norm_num) (.int 2) rfl
  exact ⟨out, h1, h2 0 c_row.1 c_row.2 0⟩
example : ∃ out, smoother (sortSel 2 3) c (fun (_ : Fin 3) (_ : Fin 1) => 7) (.int 2) = .ok out ∧ out 0 0 = some 7 := by
  obtain ⟨out, h1, h2⟩ := C44_constant _ (sortSel_topK 2 3) c (fun _ : Fin 1 => 7) 2 (by norm_num) (by norm_num) (.int 2) rfl
  exact ⟨out, h1, h2 0 c_row.1 c_row.2 0⟩
example := C44_rescale _ (sortSel_topK 2 3) c obs (fun _ => 3) (fun _ => by norm_num) 2 (by norm_num) (by norm_num) (.int 2) rfl
example := C44_all (sortSel 2 3) (sortSel 2 3) c obs "All" (by decide +kernel) none
/-- The second row of coefficients is zero. -/
example := C44_zero_row (sortSel 2 3) c obs 2 (by norm_num) (by norm_num) (.int 2) rfl 1 (by intro l; fin_cases l <;> simp [c])

def start : M String ℕ ℕ := fun c => (.ok 3, c)
def stp : ℕ → M String ℕ (ℕ × Bool) := fun x c => (.ok (x + 1, false), c)
theorem start_keeps : KeepsLevel start := fun _ => rfl
theorem stp_keeps (x : ℕ) : KeepsLevel (stp x) := fun _ => rfl

example := C45_success_partial start_keeps stp_keeps 2 (.ok 2) 5 true (CacheSt.init (.str "normal")) (x := 8) rfl
example := C45_unlightened_partial start_keeps stp_keeps 2 (.ok 2) 5 false (CacheSt.init (.str "normal")) (Or.inl rfl)
example := C45_raise_violated (start := start) (stp := stp) (CacheSt.init (.str "normal")) rfl 2 3 5 (Or.inl (by decide))
example := C45_phi_violated (start := start) (stp := stp) (CacheSt.init (.str "normal")) rfl 2 3 5 (by decide)
example := C45_phi_success_partial start_keeps stp_keeps 2 2 (.ok 2) 5 true (CacheSt.init (.str "normal")) (x := 8) rfl

end MethodsCase
end Kerch
