import Verif.Model.Stochastic
import Verif.Props.Cache
import Mathlib.Tactic.Linarith
import Mathlib.Tactic.Ring
import Mathlib.Data.List.Perm.Basic
import Mathlib.Algebra.Order.Floor.Ring
/-!
# Properties C08-C10: stochastic selection
-/
set_option linter.unusedSectionVars false
set_option linter.unusedSimpArgs false
namespace Kerch
variable {α : Type}
open STree

/-! ## Specification of rounding, independent of `pyRound`'s code -/

/-- `k` is a nearest integer to `q`, the even one in case of a tie. -/
def IsRound (q : ℚ) (k : ℤ) : Prop := |q - k| ≤ 1/2 ∧ (|q - k| = 1/2 → k % 2 = 0)

theorem pyRound_spec (q : ℚ) : IsRound q (pyRound q) := by
  have h1 := Int.floor_le q
  have h2 := Int.lt_floor_add_one q
  unfold IsRound pyRound
  simp only
  split
  · rename_i h
    rw [abs_of_nonneg (by linarith)]
    exact ⟨by linarith, fun h' => by linarith⟩
  · split
    · rename_i h
      rw [abs_of_nonpos (by push_cast; linarith)]
      push_cast
      exact ⟨by linarith, fun h' => by linarith⟩
    · rename_i ha hb
      have hr : q - ⌊q⌋ = 1/2 := le_antisymm (not_lt.1 hb) (not_lt.1 ha)
      split
      · rename_i he
        rw [hr, abs_of_nonneg (by norm_num)]
        exact ⟨le_refl _, fun _ => he⟩
      · rename_i he
        have : q - ((⌊q⌋ + 1 : ℤ) : ℚ) = -(1/2) := by push_cast; linarith
        rw [this, abs_neg, abs_of_nonneg (by norm_num)]
        exact ⟨le_refl _, fun _ => by omega⟩

theorem isRound_unique {q : ℚ} {k k' : ℤ} (h : IsRound q k) (h' : IsRound q k') : k = k' := by
  obtain ⟨h1, h2⟩ := h
  obtain ⟨h1', h2'⟩ := h'
  have hd : |(k : ℚ) - k'| ≤ 1 := by
    have : (k : ℚ) - k' = (q - k') - (q - k) := by ring
    rw [this]
    exact (abs_sub _ _).trans (by linarith)
  have hd' : |k - k'| ≤ 1 := by exact_mod_cast hd
  rcases abs_le.1 hd' with ⟨a, b⟩
  by_contra hne
  have hcase : k - k' = 1 ∨ k - k' = -1 := by omega
  rcases abs_le.1 h1 with ⟨u1, u2⟩
  rcases abs_le.1 h1' with ⟨u1', u2'⟩
  rcases hcase with hc | hc
  · have hcq : (k : ℚ) - k' = 1 := by exact_mod_cast hc
    have e1 : q - k = -(1/2) := by linarith
    have e2 : q - k' = 1/2 := by linarith
    have p1 := h2 (by rw [e1]; norm_num)
    have p2 := h2' (by rw [e2]; norm_num)
    omega
  · have hcq : (k : ℚ) - k' = -1 := by exact_mod_cast hc
    have e1 : q - k = 1/2 := by linarith
    have e2 : q - k' = -(1/2) := by linarith
    have p1 := h2 (by rw [e1]; norm_num)
    have p2 := h2' (by rw [e2]; norm_num)
    omega

theorem pyRound_bounds {n : Nat} {p : ℚ} (h0 : 0 < p) (h1 : p ≤ 1) : 0 ≤ pyRound (n * p) ∧ pyRound (n * p) ≤ n := by
  obtain ⟨h, _⟩ := pyRound_spec (n * p)
  have hn : (0 : ℚ) ≤ n := Nat.cast_nonneg n
  have hq0 : (0 : ℚ) ≤ n * p := mul_nonneg hn h0.le
  have hq1 : (n : ℚ) * p ≤ n := by nlinarith
  rcases abs_le.1 h with ⟨a, b⟩
  constructor
  · by_contra hc
    have : pyRound (n * p) ≤ -1 := by omega
    have : (pyRound (n * p) : ℚ) ≤ -1 := by exact_mod_cast this
    linarith
  · by_contra hc
    have : (n : ℤ) + 1 ≤ pyRound (n * p) := by omega
    have : (n : ℚ) + 1 ≤ (pyRound (n * p) : ℚ) := by exact_mod_cast this
    linarith

/-! ## C08 -/

/-- **C08.** A proportion `0 < p ≤ 1` selects `round(n p)` pairwise distinct indices of the sample, for every outcome of the random
permutation. -/
theorem C08_proportion (t : STree α) (n : Nat) (hn : t.st.numTotal = some n) (p : ℚ) (h0 : 0 < p) (h1 : p ≤ 1) (perm : List Nat)
    (hperm : perm.Perm (List.range n)) :
    ∃ i, (stochastic none (some p) perm t).1 = .ok () ∧ (stochastic none (some p) perm t).2.st.idx = some i ∧
      i.Nodup ∧ (∀ j ∈ i, j < n) ∧ IsRound (n * p) i.length ∧ i.length ≤ n := by
  obtain ⟨b, s, ch⟩ := t
  simp only [st] at hn
  obtain ⟨b0, b1⟩ := pyRound_bounds (n := n) h0 h1
  have hlen : (takeInt (pyRound (n * p)) perm).length = (pyRound (n * p)).toNat := by
    rw [takeInt, List.length_take, hperm.length_eq, List.length_range]
    omega
  refine ⟨takeInt (pyRound (n * p)) perm, ?_, ?_, ?_, ?_, ?_, ?_⟩
  · simp [stochastic, hn, h1, h0]
  · simp [stochastic, hn, h1, h0, st]
  · exact (hperm.nodup_iff.2 List.nodup_range).sublist (List.take_sublist _ _)
  · intro j hj
    have := hperm.mem_iff.1 (List.mem_of_mem_take hj)
    simpa using this
  · rw [hlen]
    have : (((pyRound (n * p)).toNat : ℤ) : ℤ) = pyRound (n * p) := Int.toNat_of_nonneg b0
    have h := pyRound_spec (n * p)
    rw [← this] at h
    exact h
  · rw [hlen]; omega

/-- **C08**, proportion 1: all the indices, in some order. -/
theorem C08_all (t : STree α) (n : Nat) (hn : t.st.numTotal = some n) (perm : List Nat) (hperm : perm.Perm (List.range n)) :
    ∃ i, (stochastic none (some 1) perm t).2.st.idx = some i ∧ i.Perm (List.range n) := by
  obtain ⟨i, _, h2, _, _, h5, _⟩ := C08_proportion t n hn 1 one_pos le_rfl perm hperm
  obtain ⟨b, s, ch⟩ := t
  simp only [st] at hn
  refine ⟨perm, ?_, hperm⟩
  have hr : pyRound ((n : ℚ) * 1) = n := isRound_unique (pyRound_spec _) ⟨by simp, by simp⟩
  have ht : takeInt (n : ℤ) perm = perm := by
    rw [takeInt]
    apply List.take_of_length_le
    rw [hperm.length_eq]
    simp
  have : (stochastic none (some 1) perm (.node b s ch)).2.st.idx = some (takeInt (pyRound ((n : ℚ) * 1)) perm) := by
    simp [stochastic, hn, st]
  rw [this, hr, ht]

/-- **C08**, other proportions are refused and the selection of the whole tree remains. -/
theorem C08_refused (t : STree α) (n : Nat) (hn : t.st.numTotal = some n) (p : ℚ) (h : p ≤ 0 ∨ 1 < p) (perm : List Nat) :
    (stochastic none (some p) perm t).1 = .error .assertionError ∧
    (stochastic none (some p) perm t).2.st.idx = t.st.idx ∧
    (stochastic none (some p) perm t).2.children = t.children := by
  obtain ⟨b, s, ch⟩ := t
  simp only [st] at hn
  rcases h with h | h
  · have h1 : p ≤ 1 := by linarith
    have h2 : ¬ 0 < p := not_lt.2 h
    simp [stochastic, hn, h1, h2, st, children]
  · have h1 : ¬ p ≤ 1 := not_le.2 h
    simp [stochastic, hn, h1, st, children]

/-- Ties go to even; a small proportion may select nothing. -/
example : pyRound (5 * (1/2)) = 2 ∧ pyRound (7 * (1/2)) = 4 ∧ pyRound (1 * (1/2)) = 0 := by
  refine ⟨?_, ?_, ?_⟩
  · exact isRound_unique (pyRound_spec _) ⟨by norm_num [abs_le], by norm_num⟩
  · exact isRound_unique (pyRound_spec _) ⟨by norm_num [abs_le], by norm_num⟩
  · exact isRound_unique (pyRound_spec _) ⟨by norm_num [abs_le], by norm_num⟩

/-! ## C09 -/

theorem setIdxChildren_get (idx : List Nat) (ts : List (STree α)) (i : Nat) :
    (setIdxChildren idx ts)[i]? = (ts[i]?).map (fun t => if t.isStoch then setIdx idx t else t) := by
  induction ts generalizing i with
  | nil => simp [setIdxChildren]
  | cons t ts ih =>
    cases i with
    | zero => simp [setIdxChildren]
    | succ i => simpa [setIdxChildren] using ih i

theorem setIdx_children (idx : List Nat) (t : STree α) (h : t.st.numTotal ≠ none) :
    (setIdx idx t).children = setIdxChildren idx t.children ∧ (setIdx idx t).st.idx = some idx ∧
    (setIdx idx t).st.numTotal = t.st.numTotal ∧ (setIdx idx t).isStoch = t.isStoch := by
  obtain ⟨b, s, ch⟩ := t
  simp only [st] at h
  obtain ⟨n, hn⟩ := Option.ne_none_iff_exists'.1 h
  simp [setIdx, hn, children, st, isStoch]

theorem setIdx_none (idx : List Nat) (t : STree α) (h : t.st.numTotal = none) : setIdx idx t = t := by
  obtain ⟨b, s, ch⟩ := t
  simp only [st] at h
  simp [setIdx, h]

/-- Selection below a node whose children are set to `idx`. -/
theorem sub_setIdx (idx : List Nat) (p : List Nat) (i : Nat) (t t' : STree α)
    (hch : t'.children = setIdxChildren idx t.children) :
    (t.SamplePath (i :: p) → (t'.sub (i :: p)).map (fun s => s.st.idx) = (t.sub (i :: p)).map (fun _ => some idx)) ∧
    (¬ t.SamplePath (i :: p) → (t'.sub (i :: p)).map (fun s => s.st.idx) = (t.sub (i :: p)).map (fun s => s.st.idx)) := by
  induction p generalizing i t t' with
  | nil =>
    simp only [sub, SamplePath, hch, setIdxChildren_get]
    cases hi : t.children[i]? with
    | none => simp
    | some u =>
      simp only [Option.map_some, Option.some.injEq, exists_eq_left', and_true]
      by_cases hb : u.isStoch = true
      · by_cases hn : u.st.numTotal = none
        · simp [hb, hn, setIdx_none]
        · simp [hb, hn, (setIdx_children idx u hn).2.1]
      · simp [hb]
  | cons j p ih =>
    rw [show t.sub (i :: j :: p) = match t.children[i]? with | none => none | some t' => sub t' (j :: p) from rfl,
      show t'.sub (i :: j :: p) = match t'.children[i]? with | none => none | some t' => sub t' (j :: p) from rfl,
      show t.SamplePath (i :: j :: p) = ∃ u, t.children[i]? = some u ∧ u.isStoch = true ∧ u.st.numTotal ≠ none ∧
        u.SamplePath (j :: p) from rfl, hch, setIdxChildren_get]
    cases hi : t.children[i]? with
    | none => simp
    | some u =>
      simp only [Option.map_some, Option.some.injEq, exists_eq_left']
      by_cases hb : u.isStoch = true
      · by_cases hn : u.st.numTotal = none
        · simp [hb, hn, setIdx_none]
        · simp only [hb, hn, true_and, if_true, ne_eq, not_false_eq_true]
          exact ih j u (setIdx idx u) (setIdx_children idx u hn).1
      · simp [hb]

/-- **C09.** After a successful `stochastic(...)` on a module holding a sample, the module and every module reached from it through stochastic
modules holding a sample use the same indices; the selection of any other module is unchanged. -/
theorem C09_reaches (t : STree α) (idx : Option (List Nat)) (prop : Option ℚ) (perm : List Nat) (n : Nat)
    (hn : t.st.numTotal = some n) (hok : (stochastic idx prop perm t).1 = .ok ()) :
    ∃ i, (stochastic idx prop perm t).2.st.idx = some i ∧ ∀ p,
      (t.SamplePath p → (((stochastic idx prop perm t).2).sub p).map (fun s => s.st.idx) = (t.sub p).map (fun _ => some i)) ∧
      (¬ t.SamplePath p →
        (((stochastic idx prop perm t).2).sub p).map (fun s => s.st.idx) = (t.sub p).map (fun s => s.st.idx)) := by
  obtain ⟨b, s, ch⟩ := t
  simp only [st] at hn
  have key : ∃ i, (stochastic idx prop perm (.node b s ch)).2 =
      .node b { s with idx := some i, cache := s.cache.resetCache false } (setIdxChildren i ch) := by
    cases idx with
    | some i => cases prop with
      | some p => simp [stochastic, hn] at hok
      | none => exact ⟨i, by simp [stochastic, hn]⟩
    | none => cases prop with
      | none => exact ⟨List.range n, by simp [stochastic, hn]⟩
      | some p =>
        simp only [stochastic, hn] at hok ⊢
        split at hok
        · cases hok
        · split at hok
          · cases hok
          · rename_i h1 h2
            exact ⟨takeInt (pyRound (n * p)) perm, by simp only [if_neg h1, if_neg h2]⟩
  obtain ⟨i, hi⟩ := key
  refine ⟨i, by rw [hi]; rfl, fun p => ?_⟩
  rw [hi]
  cases p with
  | nil => simp [SamplePath, sub, st]
  | cons j p => exact sub_setIdx i p j (.node b s ch) _ rfl

/-- **C09 is violated** across a module without sample, or across one that is not stochastic (a torch container): its descendants are not
reached, whatever they hold. -/
theorem C09_not_reached_violated (s : StochSt α) (idx : List Nat) (n : Nat) (hn : s.numTotal = some n) (t : STree α) (i : Nat) (p : List Nat)
    (h : t.isStoch = false ∨ t.st.numTotal = none) :
    ((stochastic (some idx) none [] (.node true s [t])).2).sub (0 :: i :: p) = t.sub (i :: p) := by
  simp only [stochastic, hn, sub, children, setIdxChildren, List.getElem?_cons_zero]
  rcases h with h | h
  · simp [h, sub]
  · by_cases hb : t.isStoch = true
    · simp [hb, setIdx_none idx t h, sub]
    · simp [hb, sub]

/-- All stochastic modules of the tree that hold a sample hold one of size `n`. -/
def UniformSize (n : Nat) (t : STree α) : Prop :=
  ∀ p u, t.sub p = some u → u.isStoch = true → ∀ m, u.st.numTotal = some m → m = n

/-- All stochastic modules of the tree that hold a sample use their full sample. -/
def AllFull (t : STree α) : Prop :=
  ∀ p u, t.sub p = some u → u.isStoch = true → ∀ m, u.st.numTotal = some m → u.st.idx = some (List.range m)

theorem AllFull.child {t : STree α} (h : ∀ u ∈ t.children, AllFull u)
    (hr : t.isStoch = true → ∀ m, t.st.numTotal = some m → t.st.idx = some (List.range m)) : AllFull t := by
  intro p u hu hb m hm
  cases p with
  | nil => simp only [sub, Option.some.injEq] at hu; subst hu; exact hr hb m hm
  | cons i p =>
    simp only [sub] at hu
    cases hi : t.children[i]? with
    | none => simp [hi] at hu
    | some v =>
      simp only [hi] at hu
      exact h v (List.mem_of_getElem? hi) p u hu hb m hm

theorem AllFull.ofChild {t u : STree α} (h : AllFull t) (hu : u ∈ t.children) : AllFull u := by
  obtain ⟨i, hi⟩ := List.getElem?_of_mem hu
  intro p v hv hb m hm
  exact h (i :: p) v (by simp [sub, hi, hv]) hb m hm

theorem UniformSize.ofChild {n : Nat} {t u : STree α} (h : UniformSize n t) (hu : u ∈ t.children) : UniformSize n u := by
  obtain ⟨i, hi⟩ := List.getElem?_of_mem hu
  intro p v hv hb m hm
  exact h (i :: p) v (by simp [sub, hi, hv]) hb m hm

/-- The sizes and kinds in the tree. -/
theorem setIdx_full (n : Nat) : ∀ (t : STree α), t.isStoch = true → UniformSize n t → AllFull t →
    AllFull (setIdx (List.range n) t) ∧ UniformSize n (setIdx (List.range n) t)
  | .node b s ch, hb, hU, hF => by
    cases hn : s.numTotal with
    | none =>
      have : setIdx (List.range n) (.node b s ch) = .node b s ch := setIdx_none _ _ hn
      rw [this]; exact ⟨hF, hU⟩
    | some m =>
      have hmn : m = n := hU [] _ rfl hb m hn
      subst hmn
      have hs : setIdx (List.range m) (.node b s ch) =
        .node b { s with idx := some (List.range m), cache := s.cache.resetCache false } (setIdxChildren (List.range m) ch) := by
        simp [setIdx, hn]
      have hch : ∀ u ∈ setIdxChildren (List.range m) ch, AllFull u ∧ UniformSize m u := by
        intro u hu
        obtain ⟨i, hi⟩ := List.getElem?_of_mem hu
        rw [setIdxChildren_get] at hi
        cases hv : ch[i]? with
        | none => simp [hv] at hi
        | some v =>
          simp only [hv, Option.map_some, Option.some.injEq] at hi
          have hmem : v ∈ ch := List.mem_of_getElem? hv
          have fU := hU.ofChild (u := v) hmem
          have fF := hF.ofChild (u := v) hmem
          by_cases hvb : v.isStoch = true
          · simp only [hvb, if_true] at hi
            subst hi
            exact setIdx_full m v hvb fU fF
          · simp only [hvb] at hi
            subst hi
            exact ⟨fF, fU⟩
      rw [hs]
      refine ⟨AllFull.child (fun u hu => (hch u hu).1) ?_, ?_⟩
      · intro _ m' hm'
        simp only [st] at hm' ⊢
        rw [hn] at hm'
        cases hm'
        rfl
      · intro p u hu hub m' hm'
        cases p with
        | nil =>
          simp only [sub, Option.some.injEq] at hu
          subst hu
          simp only [st, hn] at hm'
          cases hm'; rfl
        | cons i p =>
          simp only [sub, children] at hu
          cases hi : (setIdxChildren (List.range m) ch)[i]? with
          | none => simp [hi] at hu
          | some v =>
            simp only [hi] at hu
            exact (hch v (List.mem_of_getElem? hi)).2 p u hu hub m' hm'
  termination_by t => sizeOf t
  decreasing_by
    have := List.sizeOf_lt_of_mem hmem
    simp_wf; omega

theorem evalChildren_eq (ts : List (STree α)) : evalChildren ts = ts.map eval := by
  induction ts with
  | nil => rfl
  | cons t ts ih => simp [evalChildren, ih]

theorem eval_full (n : Nat) : ∀ (t : STree α), UniformSize n t → AllFull t.eval ∧ UniformSize n t.eval ∧ t.eval.isStoch = t.isStoch
  | .node b s ch, hU => by
    have hch : ∀ u ∈ ch.map eval, AllFull u ∧ UniformSize n u := by
      intro u hu
      obtain ⟨v, hv, rfl⟩ := List.mem_map.1 hu
      have := eval_full n v (hU.ofChild (u := v) hv)
      exact ⟨this.1, this.2.1⟩
    have hU' : UniformSize n (.node b s (ch.map eval)) := by
      intro p u hu hub m hm
      cases p with
      | nil =>
        simp only [sub, Option.some.injEq] at hu
        subst hu
        exact hU [] _ rfl hub m hm
      | cons i p =>
        simp only [sub, children] at hu
        cases hi : (ch.map eval)[i]? with
        | none => simp only [hi] at hu; cases hu
        | some v =>
          simp only [hi] at hu
          exact (hch v (List.mem_of_getElem? hi)).2 p u hu hub m hm
    rw [eval, evalChildren_eq]
    cases b with
    | false =>
      exact ⟨AllFull.child (fun u hu => (hch u hu).1) (fun hb => by cases hb), hU', rfl⟩
    | true =>
      simp only [if_true]
      cases hn : s.numTotal with
      | none =>
        have : (stochastic none none [] (.node true s (ch.map eval))).2 = .node true s (ch.map eval) := by simp [stochastic, hn]
        rw [this]
        exact ⟨AllFull.child (fun u hu => (hch u hu).1) (fun _ m hm => by simp only [st, hn] at hm; cases hm), hU', rfl⟩
      | some m =>
        have hmn : m = n := hU [] _ rfl rfl m hn
        subst hmn
        have e1 : (stochastic none none [] (.node true s (ch.map eval))).2 =
            setIdx (List.range m) (.node true { s with idx := some (List.range m) } (ch.map eval)) := by
          simp [stochastic, setIdx, hn]
        have hF' : AllFull (.node true { s with idx := some (List.range m) } (ch.map eval)) :=
          AllFull.child (fun u hu => (hch u hu).1) (fun _ m' hm' => by
            simp only [st, hn] at hm' ⊢; cases hm'; rfl)
        have hU2 : UniformSize m (.node true { s with idx := some (List.range m) } (ch.map eval)) := by
          intro p u hu hub m' hm'
          cases p with
          | nil =>
            simp only [sub, Option.some.injEq] at hu
            subst hu
            simp only [st, hn] at hm'
            cases hm'; rfl
          | cons i p => exact hU' (i :: p) u hu hub m' hm'
        rw [e1]
        have := setIdx_full m _ rfl hU2 hF'
        exact ⟨this.1, this.2, by rw [(setIdx_children _ _ (by simp [st, hn])).2.2.2]; rfl⟩
  termination_by t => sizeOf t
  decreasing_by
    have := List.sizeOf_lt_of_mem hv
    simp_wf; omega

/-- **C09**, undoing: in a tree whose samples all have the same size, after `eval()` every stochastic module holding a sample uses all its points,
whatever was selected before, containers or not. -/
theorem C09_eval_full (n : Nat) (t : STree α) (h : UniformSize n t) : AllFull t.eval := (eval_full n t h).1

/-- **C09 is violated** when a descendant holds a sample of another size: after `eval()` it uses the indices of its parent. -/
theorem C09_eval_sizes_violated (s s' : StochSt α) (n m : Nat) (hn : s.numTotal = some n) (hm : s'.numTotal = some m) (hne : m ≠ n) :
    ¬ AllFull (eval (.node true s [.node true s' []])) := by
  intro h
  have := h [0] (.node true { s' with idx := some (List.range n), cache := (s'.cache.resetCache false).resetCache false } []) (by
    simp [eval, evalChildren, stochastic, hm, hn, setIdxChildren, sub, children, setIdx, isStoch]) rfl m (by simpa [st] using hm)
  simp only [st, Option.some.injEq] at this
  have hl := congrArg List.length this
  simp at hl
  exact hne hl.symm

example : UniformSize 3 (.node true ⟨some 3, none, CacheSt.init⟩
    [.node false ⟨none, none, CacheSt.init⟩ [.node true ⟨some 3, some [1], (CacheSt.init : CacheSt String Nat)⟩ []]]) := by
  intro p u hu hb m hm
  match p with
  | [] => simp only [sub, Option.some.injEq] at hu; subst hu; simpa [st] using hm.symm
  | [0] => simp only [sub, children, List.getElem?_cons_zero, Option.some.injEq] at hu; subst hu; cases hb
  | [0, 0] => simp only [sub, children, List.getElem?_cons_zero, Option.some.injEq] at hu; subst hu; simpa [st] using hm.symm
  | 0 :: 0 :: i :: p => simp [sub, children] at hu
  | 0 :: (j + 1) :: p => simp [sub, children] at hu
  | (j + 1) :: p => simp [sub, children] at hu

/-! ## C10 -/

/-- **C10**, what holds: conflicting arguments raise, and the selection of the whole tree remains. -/
theorem C10_conflict_partial (t : STree α) (n : Nat) (hn : t.st.numTotal = some n) (i : List Nat) (p : ℚ) (perm : List Nat) :
    (stochastic (some i) (some p) perm t).1 = .error .assertionError ∧
    (stochastic (some i) (some p) perm t).2.st.idx = t.st.idx ∧
    (stochastic (some i) (some p) perm t).2.children = t.children := by
  obtain ⟨b, s, ch⟩ := t
  simp only [st] at hn
  simp [stochastic, hn, st, children]

/-- **C10 is violated**: although refused, the call discards every element of the cache that is not persisting. -/
theorem C10_conflict_resets_violated (t : STree α) (n : Nat) (hn : t.st.numTotal = some n) (i : List Nat) (p : ℚ) (perm : List Nat)
    (w : t.st.cache.dict.WF) (k : String) (e : Entry α) (he : t.st.cache.dict.find k = some e) (hp : e.persisting = false) :
    (stochastic (some i) (some p) perm t).2.st.cache.dict.find k = none := by
  obtain ⟨b, s, ch⟩ := t
  simp only [st] at hn w he
  simp only [stochastic, hn, st]
  cases hf : (s.cache.resetCache false).dict.find k with
  | none => rfl
  | some e' =>
    exfalso
    obtain ⟨h1, _, h2⟩ := (C03_reset_exact s.cache w false k e').1 hf
    rw [he] at h1
    cases h1
    rw [hp] at h2
    cases h2

/-- **C10**, without sample the call changes nothing, whatever the arguments (conflicting or invalid ones included: no exception). -/
theorem C10_no_sample (t : STree α) (hn : t.st.numTotal = none) (i : Option (List Nat)) (p : Option ℚ) (perm : List Nat) :
    stochastic i p perm t = (.ok (), t) := by
  obtain ⟨b, s, ch⟩ := t
  simp only [st] at hn
  simp [stochastic, hn]

/-! ## Cases -/

/-- A kernel with three points, one entry in its cache, and two parts: a transform without sample that owns a further module with sample, and a module of the same three points. -/
def caseTree : STree Nat :=
  .node true ⟨some 3, some [1], { level := .num 2, dict := [("K", ⟨.num 1, false, 7⟩)] }⟩
    [.node false ⟨none, none, CacheSt.init⟩ [.node true ⟨some 3, some [1], CacheSt.init⟩ []], .node true ⟨some 3, none, CacheSt.init⟩ []]

example := C08_proportion caseTree 3 rfl (1 / 2) (by norm_num) (by norm_num) [2, 0, 1] (by decide)
example := C08_all caseTree 3 rfl [2, 0, 1] (by decide)
example := C08_refused caseTree 3 rfl (3 / 2) (Or.inr (by norm_num)) [2, 0, 1]
example := C09_reaches caseTree (some [2, 0]) none [] 3 rfl rfl
example : ((stochastic (some [2, 0]) none [] (.node true ⟨some 3, none, CacheSt.init⟩ [.node false ⟨none, none, CacheSt.init⟩ [caseTree]])).2).sub [0, 0] =
    STree.sub (.node false ⟨none, none, CacheSt.init⟩ [caseTree]) [0] :=
  C09_not_reached_violated _ _ 3 rfl _ 0 [] (Or.inl rfl)
example : ¬ AllFull (eval (.node true ⟨some 3, none, (CacheSt.init : CacheSt String Nat)⟩ [.node true ⟨some 2, none, CacheSt.init⟩ []])) :=
  C09_eval_sizes_violated _ _ 3 2 rfl rfl (by decide)
example := C10_conflict_partial caseTree 3 rfl [0] (1 / 2) [2, 0, 1]
example : (stochastic (some [0]) (some (1 / 2)) [2, 0, 1] caseTree).2.st.cache.dict.find "K" = none :=
  C10_conflict_resets_violated caseTree 3 rfl [0] (1 / 2) [2, 0, 1] (by simp [caseTree, st, Dict.WF, Dict.keys]) "K" ⟨.num 1, false, 7⟩ rfl rfl
example := C10_no_sample (.node true ⟨none, none, (CacheSt.init : CacheSt String Nat)⟩ [caseTree]) rfl (some [5]) (some 3) []


end Kerch
