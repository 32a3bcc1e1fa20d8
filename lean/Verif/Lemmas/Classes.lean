import Verif.Model.Classes
import Mathlib.Data.List.Perm.Subperm
import Mathlib.Tactic.Common
/-!
# Facts about C3 linearisation and abstract methods
-/
set_option linter.unusedSectionVars false
set_option linter.unusedSimpArgs false
namespace Kerch
namespace Classes

section C3
variable {α : Type*} [DecidableEq α]

theorem blocked_false {h : α} {ls : List (List α)} : blocked h ls = false ↔ ∀ l ∈ ls, h ∉ l.tail := by
  simp [blocked]

theorem pick_spec {ls : List (List α)} {h : α} (hp : pick ls = some h) :
    (∃ l ∈ ls, l.head? = some h) ∧ ∀ l ∈ ls, h ∉ l.tail := by
  unfold pick at hp
  refine ⟨?_, ?_⟩
  · have := List.mem_of_find?_eq_some hp
    simpa using this
  · have := List.find?_some hp
    exact blocked_false.1 (by simpa using this)

/-- A head that is in no tail makes the choice succeed. -/
theorem pick_isSome {ls : List (List α)} {h : α} (h1 : ∃ l ∈ ls, l.head? = some h) (h2 : ∀ l ∈ ls, h ∉ l.tail) :
    ∃ h', pick ls = some h' := by
  have : (pick ls).isSome := by
    unfold pick
    rw [List.find?_isSome]
    refine ⟨h, by simpa using h1, ?_⟩
    simpa using blocked_false.2 h2
  exact Option.isSome_iff_exists.1 this

theorem pick_cons {h : α} {l : List α} {ls : List (List α)} (hb : ∀ x ∈ (h :: l) :: ls, h ∉ x.tail) :
    pick ((h :: l) :: ls) = some h := by
  unfold pick
  have : (!blocked h ((h :: l) :: ls)) = true := by simpa using blocked_false.2 hb
  simp [List.find?_cons, this]

theorem strip_head (h : α) (l : List α) : strip h (h :: l) = l := by simp [strip]

theorem strip_of_notMem {h : α} {l : List α} (hn : h ∉ l) : strip h l = l := by
  unfold strip
  rw [if_neg]
  intro hh
  exact hn (List.mem_of_mem_head? (by simp [hh]))

theorem strip_sublist (h : α) (l : List α) : (strip h l).Sublist l := by
  unfold strip
  split
  · exact List.tail_sublist l
  · exact List.Sublist.refl _

theorem notMem_strip {h : α} {l : List α} (hn : h ∉ l.tail) : h ∉ strip h l := by
  unfold strip
  split
  · exact hn
  · rename_i hh
    cases l with
    | nil => simp
    | cons a l =>
      simp at hh hn ⊢
      exact ⟨fun e => hh e.symm, hn⟩

theorem length_strip_le (h : α) (l : List α) : (strip h l).length ≤ l.length := (strip_sublist h l).length_le

theorem sum_strip_lt {ls : List (List α)} {h : α} (hh : ∃ l ∈ ls, l.head? = some h) :
    ((ls.map (strip h)).map List.length).sum < (ls.map List.length).sum := by
  induction ls with
  | nil => simp at hh
  | cons l ls ih =>
    obtain ⟨x, hx, hx'⟩ := hh
    rcases List.mem_cons.1 hx with rfl | hx
    · have h1 : (strip h x).length < x.length := by
        cases x with
        | nil => simp at hx'
        | cons a x => simp at hx'; subst hx'; simp [strip]
      have h2 : ((ls.map (strip h)).map List.length).sum ≤ (ls.map List.length).sum := by
        clear ih hx
        induction ls with
        | nil => simp
        | cons y ls ih => have := length_strip_le h y; simp at ih ⊢; omega
      simp at h2 ⊢; omega
    · have h1 := ih ⟨x, hx, hx'⟩
      have h2 := length_strip_le h l
      simp at h1 ⊢; omega

theorem length_le_sum {ls : List (List α)} {l : List α} (h : l ∈ ls) : l.length ≤ (ls.map List.length).sum := by
  induction ls with
  | nil => simp at h
  | cons x ls ih =>
    rcases List.mem_cons.1 h with rfl | h
    · simp
    · have := ih h; simp; omega

/-- One step of the merge. -/
theorem merge_succ {n : ℕ} {ls : List (List α)} {m : List α} (h : merge (n + 1) ls = some m) :
    (m = [] ∧ ∀ l ∈ ls, l = []) ∨
    ∃ x m', m = x :: m' ∧ (∃ l ∈ ls, l.head? = some x) ∧ (∀ l ∈ ls, x ∉ l.tail) ∧
      merge n (ls.map (strip x)) = some m' := by
  unfold merge at h
  by_cases ha : ls.all List.isEmpty = true
  · rw [if_pos ha] at h
    left
    refine ⟨by simpa using h.symm, ?_⟩
    simpa using ha
  · rw [if_neg ha] at h
    right
    cases hp : pick ls with
    | none => simp [hp] at h
    | some x =>
      simp only [hp, Option.map_eq_some_iff] at h
      obtain ⟨m', hm', rfl⟩ := h
      exact ⟨x, m', rfl, (pick_spec hp).1, (pick_spec hp).2, hm'⟩

/-- Every list is a sublist of the merge: the order of each is kept. -/
theorem merge_sublist : ∀ {n : ℕ} {ls : List (List α)} {m : List α}, (ls.map List.length).sum ≤ n → merge n ls = some m →
    ∀ l ∈ ls, l.Sublist m
  | 0, ls, m, hn, hm, l, hl => by
    have : l.length ≤ (ls.map List.length).sum := length_le_sum hl
    have h0 : l = [] := List.length_eq_zero_iff.1 (by omega)
    subst h0; simp
  | n + 1, ls, m, hn, hm, l, hl => by
    rcases merge_succ hm with ⟨rfl, h0⟩ | ⟨x, m', rfl, h1, h2, hm'⟩
    · rw [h0 l hl]
    · have hlt := sum_strip_lt h1
      have := merge_sublist (by omega) hm' (strip x l) (List.mem_map_of_mem hl)
      unfold strip at this
      split at this
      · rename_i hh
        cases l with
        | nil => simp
        | cons a l => simp at hh; subst hh; exact this.cons_cons _
      · exact this.cons _

/-- The merge has no other elements. -/
theorem merge_mem : ∀ {n : ℕ} {ls : List (List α)} {m : List α}, merge n ls = some m → ∀ x ∈ m, ∃ l ∈ ls, x ∈ l
  | 0, ls, m, hm, x, hx => by simp [merge] at hm; subst hm; simp at hx
  | n + 1, ls, m, hm, x, hx => by
    rcases merge_succ hm with ⟨rfl, h0⟩ | ⟨y, m', rfl, h1, h2, hm'⟩
    · simp at hx
    · rcases List.mem_cons.1 hx with rfl | hx
      · obtain ⟨l, hl, hh⟩ := h1
        exact ⟨l, hl, List.mem_of_mem_head? (by simp [hh])⟩
      · obtain ⟨l', hl', hx'⟩ := merge_mem hm' x hx
        obtain ⟨l, hl, rfl⟩ := List.mem_map.1 hl'
        exact ⟨l, hl, (strip_sublist y l).subset hx'⟩

/-- The merge has no repetition. -/
theorem merge_nodup : ∀ {n : ℕ} {ls : List (List α)} {m : List α}, merge n ls = some m → m.Nodup
  | 0, ls, m, hm => by simp [merge] at hm; subst hm; simp
  | n + 1, ls, m, hm => by
    rcases merge_succ hm with ⟨rfl, h0⟩ | ⟨y, m', rfl, h1, h2, hm'⟩
    · simp
    · refine List.nodup_cons.2 ⟨?_, merge_nodup hm'⟩
      intro hy
      obtain ⟨l', hl', hx'⟩ := merge_mem hm' y hy
      obtain ⟨l, hl, rfl⟩ := List.mem_map.1 hl'
      exact notMem_strip (h2 l hl) hx'

theorem c3_sublist {ls : List (List α)} {m : List α} (h : c3 ls = some m) : ∀ l ∈ ls, l.Sublist m :=
  merge_sublist (Nat.le_refl _) h
theorem c3_mem {ls : List (List α)} {m : List α} (h : c3 ls = some m) : ∀ x ∈ m, ∃ l ∈ ls, x ∈ l := merge_mem h
theorem c3_nodup {ls : List (List α)} {m : List α} (h : c3 ls = some m) : m.Nodup := merge_nodup h

/-- `Q` and `T` in the merge of two linearisations with the list of their heads: the third list never blocks. -/
def Third (P Q T : List α) : Prop :=
  (∃ p q, P.head? = some p ∧ p ∉ Q ∧ Q.head? = some q ∧ q ∉ P ∧ T = [p, q]) ∨
  (∃ q, Q.head? = some q ∧ q ∉ P ∧ T = [q]) ∨ T = []

/-- Two lists agree when their common elements come in the same order in both. -/
def Agree (P Q : List α) : Prop := ∃ S : List α, S.Sublist P ∧ S.Sublist Q ∧ ∀ x ∈ P, x ∈ Q → x ∈ S

theorem agree_tail_left {p : α} {P Q : List α} (hp : p ∉ P) (h : Agree (p :: P) Q) : Agree P Q := by
  obtain ⟨S, h1, h2, h3⟩ := h
  refine ⟨strip p S, ?_, (strip_sublist p S).trans h2, ?_⟩
  · unfold strip
    split
    · rename_i hh
      cases S with
      | nil => simp
      | cons a S => simp at hh; subst hh; exact List.cons_sublist_cons.1 h1
    · rename_i hh
      cases h1 with
      | cons _ h => exact h
      | cons_cons _ h => simp at hh
  · intro x hx hxq
    have hxS := h3 x (List.mem_cons_of_mem _ hx) hxq
    have hne : x ≠ p := fun e => hp (e ▸ hx)
    unfold strip
    split
    · rename_i hh
      cases S with
      | nil => simp at hxS
      | cons a S =>
        simp at hh; subst hh
        rcases List.mem_cons.1 hxS with rfl | h
        · exact absurd rfl hne
        · exact h
    · exact hxS

theorem Agree.symm {P Q : List α} (h : Agree P Q) : Agree Q P := by
  obtain ⟨S, h1, h2, h3⟩ := h
  exact ⟨S, h2, h1, fun x hx hy => h3 x hy hx⟩

/-- Agreeing lists: the head of one in the tail of the other, then the head of the other is not in the tail of the first. -/
theorem agree_heads {p q : α} {P Q : List α} (hP : (p :: P).Nodup) (hQ : (q :: Q).Nodup) (h : Agree (p :: P) (q :: Q))
    (hp : p ∈ Q) : q ∉ P := by
  intro hq
  obtain ⟨S, h1, h2, h3⟩ := h
  have hpS := h3 p (by simp) (by simp [hp])
  have hqS := h3 q (by simp [hq]) (by simp)
  cases S with
  | nil => simp at hpS
  | cons s S =>
    have hpn : p ∉ P := (List.nodup_cons.1 hP).1
    have hqn : q ∉ Q := (List.nodup_cons.1 hQ).1
    have hne : p ≠ q := fun e => hqn (e ▸ hp)
    -- p is in S: it is its head by `P`; q likewise by `Q`
    have e1 : s = p := by
      rcases List.mem_cons.1 hpS with h | h
      · exact h.symm
      · exfalso
        cases h1 with
        | cons _ h1 => exact hpn (h1.subset (List.mem_cons_of_mem _ h))
        | cons_cons _ h1 => exact hpn (h1.subset h)
    have e2 : s = q := by
      rcases List.mem_cons.1 hqS with h | h
      · exact h.symm
      · exfalso
        cases h2 with
        | cons _ h2 => exact hqn (h2.subset (List.mem_cons_of_mem _ h))
        | cons_cons _ h2 => exact hqn (h2.subset h)
    exact hne (e1 ▸ e2)

theorem nodup_strip {h : α} {l : List α} (hn : l.Nodup) : (strip h l).Nodup := hn.sublist (strip_sublist h l)

theorem agree_strip {x : α} {P Q : List α} (hP : P.Nodup) (hQ : Q.Nodup) (h : Agree P Q) :
    Agree (strip x P) (strip x Q) := by
  have key : ∀ {P Q : List α}, P.Nodup → Agree P Q → Agree (strip x P) Q := by
    intro P Q hP h
    unfold strip
    split
    · cases P with
      | nil => exact h
      | cons p P => exact agree_tail_left (List.nodup_cons.1 hP).1 h
    · exact h
  exact (key hQ (key hP h).symm).symm

theorem third_strip {x : α} {P Q T : List α} (hP : P.Nodup) (hQ : Q.Nodup) (hT : Third P Q T)
    (h2 : ∀ l ∈ [P, Q, T], x ∉ l.tail) (h1 : ∃ l ∈ [P, Q, T], l.head? = some x) :
    Third (strip x P) (strip x Q) (strip x T) := by
  rcases hT with ⟨p, q, hp, hpQ, hq, hqP, rfl⟩ | ⟨q, hq, hqP, rfl⟩ | rfl
  · have hxq : x ≠ q := by
      rintro rfl; exact h2 [p, x] (by simp) (by simp)
    have hxp : x = p := by
      obtain ⟨l, hl, hh⟩ := h1
      simp only [List.mem_cons, List.not_mem_nil, or_false] at hl
      rcases hl with rfl | rfl | rfl
      · rw [hp] at hh; exact (Option.some.inj hh).symm
      · rw [hq] at hh; exact absurd (Option.some.inj hh).symm hxq
      · simpa using hh.symm
    subst hxp
    right; left
    refine ⟨q, ?_, ?_, by simp [strip]⟩
    · rw [strip_of_notMem hpQ]; exact hq
    · exact fun h => hqP ((strip_sublist x P).subset h)
  · by_cases hxq : x = q
    · subst hxq
      right; right; simp [strip]
    · right; left
      refine ⟨q, ?_, fun h => hqP ((strip_sublist x P).subset h), ?_⟩
      · unfold strip
        rw [if_neg (by rw [hq]; simpa using fun e => hxq e.symm)]
        exact hq
      · unfold strip
        rw [if_neg (by simpa using fun e => hxq e.symm)]
  · right; right; simp [strip]

/-- Two linearisations that agree on their common elements, neither head being in the other list, always merge. -/
theorem merge_two : ∀ {n : ℕ} {P Q T : List α}, P.Nodup → Q.Nodup → Agree P Q → Third P Q T →
    ∃ m, merge n [P, Q, T] = some m
  | 0, _, _, _, _, _, _, _ => ⟨[], rfl⟩
  | n + 1, P, Q, T, hP, hQ, hA, hT => by
    by_cases ha : [P, Q, T].all List.isEmpty = true
    · exact ⟨[], by unfold merge; rw [if_pos ha]⟩
    · have : ∃ x, pick [P, Q, T] = some x := by
        cases P with
        | nil =>
          cases Q with
          | nil =>
            exfalso
            apply ha
            rcases hT with ⟨p, q, hp, _⟩ | ⟨q, hq, _⟩ | rfl
            · simp at hp
            · simp at hq
            · simp
          | cons q Q =>
            refine pick_isSome (h := q) ⟨q :: Q, by simp, by simp⟩ ?_
            rcases hT with ⟨p, q', hp, _⟩ | ⟨q', hq, _, rfl⟩ | rfl
            · simp at hp
            · simp at hq; subst hq; simpa using (List.nodup_cons.1 hQ).1
            · simpa using (List.nodup_cons.1 hQ).1
        | cons p P =>
          cases Q with
          | nil =>
            refine pick_isSome (h := p) ⟨p :: P, by simp, by simp⟩ ?_
            rcases hT with ⟨p', q', hp, _, hq, _⟩ | ⟨q', hq, _, rfl⟩ | rfl
            · simp at hq
            · simp at hq
            · simpa using (List.nodup_cons.1 hP).1
          | cons q Q =>
            have hpn := (List.nodup_cons.1 hP).1
            have hqn := (List.nodup_cons.1 hQ).1
            by_cases hpQ : p ∈ Q
            · have hqP := agree_heads hP hQ hA hpQ
              refine pick_isSome (h := q) ⟨q :: Q, by simp, by simp⟩ ?_
              rcases hT with ⟨p', q', hp, hp', hq, hq', rfl⟩ | ⟨q', hq, hq', rfl⟩ | rfl
              · simp at hp hq; subst hp hq
                exact absurd (List.mem_cons_of_mem _ hpQ) hp'
              · simp [hqP, hqn]
              · simp [hqP, hqn]
            · refine pick_isSome (h := p) ⟨p :: P, by simp, by simp⟩ ?_
              rcases hT with ⟨p', q', hp, hp', hq, hq', rfl⟩ | ⟨q', hq, hq', rfl⟩ | rfl
              · simp at hp hq; subst hp hq
                simp [hpQ, hpn]
                rintro rfl; simp at hp'
              · simp [hpQ, hpn]
              · simp [hpQ, hpn]
      obtain ⟨x, hx⟩ := this
      obtain ⟨h1, h2⟩ := pick_spec hx
      obtain ⟨m, hm⟩ := merge_two (n := n) (nodup_strip (h := x) hP) (nodup_strip (h := x) hQ) (agree_strip hP hQ hA)
        (third_strip hP hQ hT h2 h1)
      refine ⟨x :: m, ?_⟩
      unfold merge
      rw [if_neg ha, hx]
      simp [hm]

theorem sum_cons_pos {a : α} {l : List α} {ls : List (List α)} :
    (((a :: l) :: ls).map List.length).sum = ((l :: ls).map List.length).sum + 1 := by
  simp; omega

/-- A head that is in no other list is taken. -/
theorem merge_take {n : ℕ} {a : α} {l : List α} {ls : List (List α)} (hl : a ∉ l) (hls : ∀ x ∈ ls, a ∉ x) :
    merge (n + 1) ((a :: l) :: ls) = (merge n (l :: ls)).map (fun m => a :: m) := by
  have hp : pick ((a :: l) :: ls) = some a := by
    apply pick_cons
    intro x hx
    rcases List.mem_cons.1 hx with rfl | hx
    · simpa using hl
    · exact fun h => hls x hx (List.mem_of_mem_tail h)
  rw [merge, if_neg (by simp), hp]
  have : ((a :: l) :: ls).map (strip a) = l :: ls := by
    simp only [List.map_cons, strip_head, List.cons.injEq, true_and]
    conv_rhs => rw [← List.map_id ls]
    exact List.map_congr_left fun x hx => strip_of_notMem (hls x hx)
  simp only [this]

/-- A prefix that is in no other list is taken as it is. -/
theorem merge_prefix {ls : List (List α)} : ∀ {n : ℕ} {A l : List α}, (A ++ l).Nodup → (∀ a ∈ A, ∀ x ∈ ls, a ∉ x) →
    merge (A.length + n) ((A ++ l) :: ls) = (merge n (l :: ls)).map (fun m => A ++ m)
  | n, [], l, _, _ => by simp
  | n, a :: A, l, hn, h => by
    have hn' : a ∉ A ++ l ∧ (A ++ l).Nodup := List.nodup_cons.1 hn
    rw [show (a :: A).length + n = (A.length + n) + 1 by simp; omega, List.cons_append,
      merge_take hn'.1 (h a (by simp)), merge_prefix hn'.2 (fun b hb => h b (by simp [hb]))]
    cases merge n (l :: ls) <;> simp

/-- The merge of two linearisations with the list of their heads: what precedes the common part of the first comes first. -/
theorem c3_two {p q : α} {A T Q m : List α} (hP : (p :: A ++ T).Nodup) (hQ : (q :: Q).Nodup)
    (hA : ∀ a ∈ p :: A, a ∉ q :: Q) (h : c3 [p :: A ++ T, q :: Q, [p, q]] = some m) :
    ∃ R, m = p :: A ++ R ∧ T.Sublist R ∧ (q :: Q).Sublist R ∧ R.Nodup ∧ ∀ x ∈ R, x ∈ T ∨ x ∈ q :: Q := by
  have hpP : p ∉ A ++ T := (List.nodup_cons.1 hP).1
  have hpQ : p ∉ q :: Q := hA p (by simp)
  have hpq : p ≠ q := fun e => hpQ (by simp [e])
  have hfuel : ([p :: A ++ T, q :: Q, [p, q]].map List.length).sum = A.length + (T.length + Q.length + 3) + 1 := by
    simp; omega
  have hpick : pick [p :: A ++ T, q :: Q, [p, q]] = some p := by
    apply pick_cons
    intro x hx
    simp only [List.mem_cons, List.not_mem_nil, or_false] at hx
    rcases hx with rfl | rfl | rfl
    · exact hpP
    · exact fun h => hpQ (List.mem_cons_of_mem _ h)
    · simpa using hpq
  have hstrip : [p :: A ++ T, q :: Q, [p, q]].map (strip p) = [A ++ T, q :: Q, [q]] := by
    simp only [List.map_cons, List.map_nil, strip_of_notMem hpQ, List.cons_append, strip_head]
  unfold c3 at h
  rw [hfuel, merge, if_neg (by simp), hpick] at h
  simp only [hstrip] at h
  rw [merge_prefix (List.nodup_cons.1 hP).2 (by
    intro a ha x hx
    have := hA a (by simp [ha])
    simp only [List.mem_cons, List.not_mem_nil, or_false] at hx this
    rcases hx with rfl | rfl
    · simpa using this
    · simp; exact fun e => this (Or.inl e))] at h
  cases hR : merge (T.length + Q.length + 3) [T, q :: Q, [q]] with
  | none => rw [hR] at h; simp at h
  | some R =>
    rw [hR] at h
    simp at h
    have hs := merge_sublist (by simp; omega) hR
    refine ⟨R, by simp [← h], hs _ (by simp), hs _ (by simp), merge_nodup hR, ?_⟩
    intro x hx
    obtain ⟨l, hl, hxl⟩ := merge_mem hR x hx
    simp only [List.mem_cons, List.not_mem_nil, or_false] at hl
    rcases hl with rfl | rfl | rfl
    · exact Or.inl hxl
    · exact Or.inr hxl
    · right; simp at hxl; simp [hxl]

end C3

/-! ### Lookup -/

theorem lookup_nil (n : At) : lookup [] n = none := rfl
theorem lookup_cons (e : Entry) (m : List Entry) (n : At) :
    lookup (e :: m) n = match e.find n with
      | some b => some (e.home, b)
      | none => lookup m n := rfl

theorem lookup_append {A B : List Entry} {n : At} (h : ∀ e ∈ A, e.find n = none) : lookup (A ++ B) n = lookup B n := by
  induction A with
  | nil => rfl
  | cons a A ih =>
    rw [List.cons_append, lookup_cons, h a (by simp)]
    exact ih fun e he => h e (by simp [he])

theorem lookup_append_left {A B : List Entry} {n : At} (h : ∃ e ∈ A, e.find n ≠ none) : lookup (A ++ B) n = lookup A n := by
  induction A with
  | nil => simp at h
  | cons a A ih =>
    rw [List.cons_append, lookup_cons, lookup_cons]
    cases ha : a.find n with
    | some b => rfl
    | none =>
      simp only
      apply ih
      obtain ⟨e, he, hn⟩ := h
      rcases List.mem_cons.1 he with rfl | he
      · exact absurd ha hn
      · exact ⟨e, he, hn⟩

/-- Lookup finds the first class of the list that defines the name. -/
theorem lookup_eq_some {m : List Entry} {n : At} {r : CN × Body} :
    lookup m n = some r ↔ ∃ A e B, m = A ++ e :: B ∧ (∀ x ∈ A, x.find n = none) ∧ e.home = r.1 ∧ e.find n = some r.2 := by
  constructor
  · intro h
    induction m with
    | nil => simp [lookup] at h
    | cons e m ih =>
      rw [lookup_cons] at h
      cases he : e.find n with
      | some b =>
        simp only [he, Option.some.injEq] at h
        subst h
        exact ⟨[], e, m, rfl, by simp, rfl, he⟩
      | none =>
        simp only [he] at h
        obtain ⟨A, e', B, rfl, h1, h2, h3⟩ := ih h
        exact ⟨e :: A, e', B, rfl, by simpa [he] using h1, h2, h3⟩
  · rintro ⟨A, e, B, rfl, h1, h2, h3⟩
    rw [lookup_append h1, lookup_cons, h3, h2]

theorem lookup_eq_none {m : List Entry} {n : At} : lookup m n = none ↔ ∀ e ∈ m, e.find n = none := by
  constructor
  · intro h e he
    by_contra hc
    induction m with
    | nil => simp at he
    | cons a m ih =>
      rw [lookup_cons] at h
      cases ha : a.find n with
      | some b => simp [ha] at h
      | none =>
        simp only [ha] at h
        rcases List.mem_cons.1 he with rfl | he
        · exact hc ha
        · exact ih h he
  · intro h
    have := lookup_append (B := []) h
    simpa [lookup] using this

theorem isAbstract_iff {m : List Entry} {n : At} :
    isAbstract m n = true ↔ ∃ A e B b, m = A ++ e :: B ∧ (∀ x ∈ A, x.find n = none) ∧ e.find n = some b ∧ b.abstract = true := by
  unfold isAbstract
  constructor
  · intro h
    cases hl : lookup m n with
    | none => simp [hl] at h
    | some r =>
      simp only [hl] at h
      obtain ⟨A, e, B, h1, h2, h3, h4⟩ := lookup_eq_some.1 hl
      exact ⟨A, e, B, r.2, h1, h2, h4, h⟩
  · rintro ⟨A, e, B, b, h1, h2, h3, h4⟩
    rw [lookup_eq_some (r := (e.home, b)).2 ⟨A, e, B, h1, h2, rfl, h3⟩]
    exact h4

theorem find_mem {e : Entry} {n : At} {b : Body} (h : e.find n = some b) : ∃ d ∈ e.defs, d.1 = n := by
  unfold Entry.find at h
  obtain ⟨d, hd, _⟩ := Option.map_eq_some_iff.1 h
  exact ⟨d, List.mem_of_find?_eq_some hd, by simpa using List.find?_some hd⟩

/-- In a list without repetition, an element of a sublist splits both consistently. -/
theorem sublist_split {α : Type*} {l m A B : List α} {e : α} (hs : l.Sublist m) (hm : m.Nodup) (hme : m = A ++ e :: B)
    (he : e ∈ l) : ∃ A' B', l = A' ++ e :: B' ∧ A'.Sublist A ∧ B'.Sublist B := by
  subst hme
  obtain ⟨A', C, rfl, hA, hC⟩ := List.sublist_append_iff.1 hs
  have hnd := List.nodup_append.1 hm
  have heA : e ∉ A' := fun h => hnd.2.2 e (hA.subset h) e (by simp) rfl
  have heC : e ∈ C := by
    rcases List.mem_append.1 he with h | h
    · exact absurd h heA
    · exact h
  cases hC with
  | cons _ h =>
    exact absurd (h.subset heC) (List.nodup_cons.1 hnd.2.1).1
  | cons_cons _ h => exact ⟨A', _, rfl, hA, h⟩

end Classes
end Kerch
