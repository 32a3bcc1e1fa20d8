import Mathlib.Data.Fin.Tuple.Sort
import Mathlib.Data.Fintype.Card
import Mathlib.Algebra.BigOperators.Field
import Mathlib.Algebra.Order.BigOperators.Group.Finset
import Mathlib.Data.Finset.Sort
import Verif.Model.Methods
/-!
# Lemmas on selections of the largest entries
-/
set_option linter.unusedSectionVars false
set_option linter.unusedSimpArgs false
namespace Kerch
namespace Methods

/-- No element outside `S` is strictly closer than an element of `S`. -/
def Nearest {n : ℕ} (v : Fin n → ℝ) (S : Finset (Fin n)) : Prop := ∀ a ∈ S, ∀ b ∉ S, v a ≤ v b

/-- The selection obtained by sorting. -/
noncomputable def sortSel (p n : ℕ) : Sel p n := fun _ h _ v l =>
  Tuple.sort (fun a => -v a) ⟨l, lt_of_lt_of_le l.2 h⟩

theorem sortSel_topK (p n : ℕ) : (sortSel p n).TopK := by
  intro k hk i v
  constructor
  · intro a b h
    have := (Tuple.sort (fun a => -v a)).injective h
    exact Fin.ext (by simpa using this)
  · intro j hj l
    obtain ⟨b, rfl⟩ := (Tuple.sort (fun a => -v a)).surjective j
    have hb : k ≤ b.1 := by
      by_contra hlt
      exact hj ⟨b.1, by omega⟩ rfl
    have := Tuple.monotone_sort (fun a => -v a) (a := ⟨l, lt_of_lt_of_le l.2 hk⟩) (b := b)
      (by rw [Fin.le_def]; simp only; omega)
    simp only [Function.comp] at this
    unfold sortSel
    linarith

variable {p n : ℕ}

/-- The set of selected positions. -/
noncomputable def selSet (sel : Sel p n) {k : ℕ} (hk : k ≤ n) (i : Fin p) (v : Fin n → ℝ) : Finset (Fin n) :=
  Finset.univ.image (sel k hk i v)

theorem mem_selSet {sel : Sel p n} {k : ℕ} {hk : k ≤ n} {i : Fin p} {v : Fin n → ℝ} {j : Fin n} :
    j ∈ selSet sel hk i v ↔ ∃ l, sel k hk i v l = j := by
  simp [selSet]

theorem selSet_card {sel : Sel p n} (hs : sel.TopK) {k : ℕ} (hk : k ≤ n) (i : Fin p) (v : Fin n → ℝ) :
    (selSet sel hk i v).card = k := by
  rw [selSet, Finset.card_image_of_injective _ (hs k hk i v).1]; simp

theorem selSet_top {sel : Sel p n} (hs : sel.TopK) {k : ℕ} (hk : k ≤ n) (i : Fin p) (v : Fin n → ℝ) :
    ∀ a ∈ selSet sel hk i v, ∀ b ∉ selSet sel hk i v, v b ≤ v a := by
  intro a ha b hb
  obtain ⟨l, rfl⟩ := mem_selSet.mp ha
  exact (hs k hk i v).2 b (fun l' h => hb (mem_selSet.mpr ⟨l', h⟩)) l

theorem sum_sel {sel : Sel p n} (hs : sel.TopK) {k : ℕ} (hk : k ≤ n) (i : Fin p) (v : Fin n → ℝ) (f : Fin n → ℝ) :
    ∑ l, f (sel k hk i v l) = ∑ s ∈ selSet sel hk i v, f s := by
  rw [selSet, Finset.sum_image]
  intro a _ b _ h
  exact (hs k hk i v).1 h

/-- Each admissible choice of sets is the choice of some selection: a selection choosing `S i` in row `i` on the
vector `v i`. -/
theorem exists_sel {k : ℕ} (hk : k ≤ n) (v : Fin p → Fin n → ℝ) (S : Fin p → Finset (Fin n)) (hc : ∀ i, (S i).card = k)
    (ht : ∀ i, ∀ a ∈ S i, ∀ b ∉ S i, v i b ≤ v i a) :
    ∃ sel : Sel p n, sel.TopK ∧ ∀ i, selSet sel hk i (v i) = S i := by
  classical
  let sel : Sel p n := fun k' hk' i w l =>
    if h : k' = k ∧ w = v i then (S i).orderEmbOfFin (hc i) (Fin.cast h.1 l) else sortSel p n k' hk' i w l
  refine ⟨sel, ?_, ?_⟩
  · intro k' hk' i w
    by_cases h : k' = k ∧ w = v i
    · obtain ⟨rfl, rfl⟩ := h
      have e : ∀ l, sel k' hk' i (v i) l = (S i).orderEmbOfFin (hc i) l := by
        intro l; simp [sel]
      constructor
      · intro a b hab
        rw [e, e] at hab
        exact ((S i).orderEmbOfFin (hc i)).injective hab
      · intro j hj l
        rw [e]
        refine ht i _ (Finset.orderEmbOfFin_mem _ _ _) _ ?_
        intro hjS
        have : j ∈ Set.range ((S i).orderEmbOfFin (hc i)) := by
          rw [Finset.range_orderEmbOfFin]; exact hjS
        obtain ⟨l', hl'⟩ := this
        exact hj l' (by rw [e]; exact hl')
    · have e : ∀ l, sel k' hk' i w l = sortSel p n k' hk' i w l := by
        intro l; simp [sel, h]
      have hs := sortSel_topK p n k' hk' i w
      rw [show sel k' hk' i w = sortSel p n k' hk' i w from funext e]
      exact hs
  · intro i
    ext j
    rw [mem_selSet]
    have e : ∀ l, sel k hk i (v i) l = (S i).orderEmbOfFin (hc i) l := by intro l; simp [sel]
    simp only [e]
    have := Finset.range_orderEmbOfFin (S i) (hc i)
    constructor
    · rintro ⟨l, rfl⟩; exact Finset.orderEmbOfFin_mem _ _ _
    · intro hj
      have : j ∈ Set.range ((S i).orderEmbOfFin (hc i)) := by rw [this]; exact hj
      exact this

/-- Sets of nearest elements do not depend on the shift applied by the code. -/
theorem neg_knnDists_le {dists : Mat p n} (i : Fin p) (a b : Fin n) :
    -(knnDists dists i b) ≤ -(knnDists dists i a) ↔ dists i a ≤ dists i b := by
  unfold knnDists
  split <;> constructor <;> intro h <;> linarith

end Methods
end Kerch
