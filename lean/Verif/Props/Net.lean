import Verif.Model.Net
import Mathlib.Tactic.Ring
import Mathlib.Tactic.Linarith
import Mathlib.Algebra.BigOperators.Fin
import Mathlib.Data.List.Chain
/-!
# C55 (levels of a model), C71 (checkpoints), C72 (levels of an RKM)
-/
set_option linter.unusedSectionVars false
set_option linter.unusedSimpArgs false
namespace Kerch
open Net

variable {X : Type}

/-! ## specification -/

/-- Neighbouring levels fit: wherever a level is followed by another, the output dimension of the first and the input dimension of the second are known and the
same. -/
def Fits (levels : List (Lev X)) : Prop :=
  ∀ i (a b : Lev X), levels[i]? = some a → levels[i + 1]? = some b → ∃ d, a.dimOut = some d ∧ b.dimIn = some d

/-- The levels are ready: known output dimension and constraint set. -/
def Ready (levels : List (Lev X)) : Prop := ∀ l ∈ levels, l.dimOut.isSome ∧ l.trainable.isSome

/-- The level `l` may be appended after `levels` with the given constraint. -/
def Appendable (levels : List (Lev X)) (l : Lev X) (constraint : String) : Prop :=
  l.dimOut.isSome ∧ l.hasWeight = true ∧ (constraint = "soft" ∨ constraint = "hard") ∧
  ∀ last, levels.getLast? = some last → l.dimIn = none ∨ l.dimIn = last.dimOut

/-! ## helper lemmas -/

theorem append_cases (levels : List (Lev X)) (m : Except Err (Lev X)) (c : String) :
    (∃ e, append levels m c = (.error e, levels)) ∨
    ∃ l, append levels m c = (.ok (), levels ++ [l]) ∧ l.dimOut.isSome ∧ l.trainable.isSome ∧
      ∀ last, levels.getLast? = some last → ∃ d, last.dimOut = some d ∧ l.dimIn = some d := by
  unfold append
  cases m with
  | error e => exact Or.inl ⟨e, rfl⟩
  | ok l =>
    simp only
    by_cases h0 : l.dimOut = none
    · rw [if_pos h0]; exact Or.inl ⟨_, rfl⟩
    rw [if_neg h0]
    have had : ∀ l', adaptDim levels l = .ok l' → l'.dimOut = l.dimOut := by
      intro l' h
      unfold adaptDim at h
      split at h
      · cases h; rfl
      · split at h
        · cases h; rfl
        · split at h
          · cases h; rfl
          · cases h
    cases ha : adaptDim levels l with
    | error e => exact Or.inl ⟨e, rfl⟩
    | ok l1 =>
      simp only
      have hac : ∀ l', applyConstraint c l1 = .ok l' → l'.dimOut = l1.dimOut ∧ l'.dimIn = l1.dimIn ∧ l'.trainable.isSome := by
        intro l' h
        unfold applyConstraint Lev.setTrainable at h
        split at h
        · split at h
          · cases h; exact ⟨rfl, rfl, rfl⟩
          · cases h
        · split at h
          · split at h
            · cases h; exact ⟨rfl, rfl, rfl⟩
            · cases h
          · cases h
      cases hc : applyConstraint c l1 with
      | error e => exact Or.inl ⟨e, rfl⟩
      | ok l2 =>
        simp only
        obtain ⟨k1, k2, k3⟩ := hac l2 hc
        have k0 := had l1 ha
        have hout : l2.dimOut.isSome := by
          rw [k1, k0]
          cases h : l.dimOut with
          | none => exact absurd h h0
          | some _ => rfl
        cases hl : levels.getLast? with
        | none => exact Or.inr ⟨l2, rfl, hout, k3, fun last h => absurd h (by simp)⟩
        | some last =>
          simp only
          cases h1 : last.dimOut with
          | none => exact Or.inl ⟨_, rfl⟩
          | some a =>
            cases h2 : l2.dimIn with
            | none => exact Or.inl ⟨_, rfl⟩
            | some b =>
              simp only
              by_cases hab : a = b
              · rw [if_pos hab]
                refine Or.inr ⟨l2, rfl, hout, k3, ?_⟩
                intro last' hlast
                cases hlast
                exact ⟨a, h1, by rw [h2, hab]⟩
              · rw [if_neg hab]; exact Or.inl ⟨_, rfl⟩

theorem fits_append (levels : List (Lev X)) (l : Lev X) (h : Fits levels)
    (hl : ∀ last, levels.getLast? = some last → ∃ d, last.dimOut = some d ∧ l.dimIn = some d) : Fits (levels ++ [l]) := by
  intro i a b ha hb
  rcases Nat.lt_trichotomy (i + 1) levels.length with hi | hi | hi
  · rw [List.getElem?_append_left (by omega)] at ha
    rw [List.getElem?_append_left hi] at hb
    exact h i a b ha hb
  · rw [List.getElem?_append_left (by omega)] at ha
    rw [List.getElem?_append_right (by omega)] at hb
    have hb' : l = b := by
      have : i + 1 - levels.length = 0 := by omega
      rw [this] at hb
      simpa using hb
    subst hb'
    apply hl
    rw [List.getLast?_eq_getElem?]
    rw [show levels.length - 1 = i by omega]
    exact ha
  · rw [List.getElem?_append_right (by omega)] at hb
    have : i + 1 - levels.length = (i + 1 - levels.length - 1) + 1 := by omega
    rw [this] at hb
    simp at hb

/-! ## C55 -/

/-- **C55**, dimensions: after every sequence of appends, failing ones included, neighbouring levels fit and all levels are ready. -/
theorem C55_dims (appends : List (Except Err (Lev X) × String)) :
    Fits (appends.foldl (fun ls a => step ls (.append a.1 a.2)) []) ∧ Ready (appends.foldl (fun ls a => step ls (.append a.1 a.2)) []) := by
  have : ∀ (levels : List (Lev X)), Fits levels → Ready levels →
      Fits (appends.foldl (fun ls a => step ls (.append a.1 a.2)) levels) ∧ Ready (appends.foldl (fun ls a => step ls (.append a.1 a.2)) levels) := by
    induction appends with
    | nil => exact fun _ h h' => ⟨h, h'⟩
    | cons a t ih =>
      intro levels h h'
      rw [List.foldl_cons]
      apply ih
      · show Fits (append levels a.1 a.2).2
        rcases append_cases levels a.1 a.2 with ⟨e, he⟩ | ⟨l, hl, _, _, h3⟩
        · rw [he]; exact h
        · rw [hl]; exact fits_append levels l h h3
      · show Ready (append levels a.1 a.2).2
        rcases append_cases levels a.1 a.2 with ⟨e, he⟩ | ⟨l, hl, h1, h2, _⟩
        · rw [he]; exact h'
        · rw [hl]
          intro x hx
          rcases List.mem_append.mp hx with hx | hx
          · exact h' x hx
          · rw [List.mem_singleton] at hx
            subst hx
            exact ⟨h1, h2⟩
  exact this [] (by intro i a b ha; simp at ha) (by intro l hl; simp at hl)

/-- **C55**, which appends succeed: exactly those of a level that was made, with a known output dimension, one of the two constraints and an input dimension
unknown or equal to the previous output dimension; a failing append leaves the model as it was. -/
theorem C55_accepted (levels : List (Lev X)) (hr : Ready levels) (m : Except Err (Lev X)) (c : String) :
    ((append levels m c).1 = .ok () ↔ ∃ l, m = .ok l ∧ Appendable levels l c) ∧ ((append levels m c).1 ≠ .ok () → (append levels m c).2 = levels) := by
  constructor
  · constructor
    · intro h
      cases m with
      | error e => simp [append] at h
      | ok l =>
        refine ⟨l, rfl, ?_⟩
        unfold append at h
        simp only at h
        by_cases h0 : l.dimOut = none
        · rw [if_pos h0] at h; simp at h
        rw [if_neg h0] at h
        cases ha : adaptDim levels l with
        | error e => rw [ha] at h; simp at h
        | ok l1 =>
          rw [ha] at h
          simp only at h
          cases hc : applyConstraint c l1 with
          | error e => rw [hc] at h; simp at h
          | ok l2 =>
            rw [hc] at h
            simp only at h
            have hw : l1.hasWeight = l.hasWeight := by
              unfold adaptDim at ha
              split at ha
              · cases ha; rfl
              · split at ha
                · cases ha; rfl
                · split at ha
                  · cases ha; rfl
                  · cases ha
            have hcc : (c = "soft" ∨ c = "hard") ∧ l1.hasWeight = true ∧ l2.dimIn = l1.dimIn := by
              unfold applyConstraint Lev.setTrainable at hc
              split at hc
              · next hs =>
                split at hc
                · next hh => cases hc; exact ⟨Or.inl hs, hh, rfl⟩
                · cases hc
              · split at hc
                · next hs =>
                  split at hc
                  · next hh => cases hc; exact ⟨Or.inr hs, hh, rfl⟩
                  · cases hc
                · cases hc
            refine ⟨by cases hh : l.dimOut with
              | none => exact absurd hh h0
              | some _ => rfl, by rw [← hw]; exact hcc.2.1, hcc.1, ?_⟩
            intro last hlast
            rw [hlast] at h
            simp only at h
            cases hd : l.dimIn with
            | none => exact Or.inl rfl
            | some d =>
              right
              have h1 : l1 = l := by
                unfold adaptDim at ha
                rw [hd] at ha
                cases ha; rfl
              cases ho : last.dimOut with
              | none => rw [ho] at h; simp at h
              | some a =>
                have h2 : l2.dimIn = some d := by rw [hcc.2.2, h1, hd]
                rw [ho, h2] at h
                simp only at h
                by_cases hab : a = d
                · rw [hab]
                · rw [if_neg hab] at h; simp at h
    · rintro ⟨l, rfl, h1, h2, h3, h4⟩
      have h0 : ¬ l.dimOut = none := by
        intro hh; rw [hh] at h1; simp at h1
      unfold append
      simp only
      rw [if_neg h0]
      have hcon : ∀ l' : Lev X, l'.hasWeight = true → ∃ b, applyConstraint c l' = .ok { l' with trainable := some b } := by
        intro l' hl'
        unfold applyConstraint Lev.setTrainable
        rcases h3 with rfl | rfl
        · exact ⟨true, by rw [if_pos rfl, if_pos hl']⟩
        · exact ⟨false, by rw [if_neg (by decide), if_pos rfl, if_pos hl']⟩
      cases hl : levels.getLast? with
      | none =>
        have ha : adaptDim levels l = .ok l := by
          unfold adaptDim
          rw [hl]
          cases l.dimIn <;> rfl
        obtain ⟨b, hb⟩ := hcon l h2
        rw [ha]
        simp only [hb]
      | some last =>
        obtain ⟨d, hd⟩ := Option.isSome_iff_exists.mp (hr last (List.mem_of_getLast? hl)).1
        have ha : ∃ l1, adaptDim levels l = .ok l1 ∧ l1.hasWeight = true ∧ l1.dimIn = some d := by
          unfold adaptDim
          rw [hl]
          rcases h4 last hl with hn | hn
          · rw [hn]
            simp only [hd]
            exact ⟨_, rfl, h2, rfl⟩
          · rw [hn, hd]
            exact ⟨l, rfl, h2, by rw [hn, hd]⟩
        obtain ⟨l1, ha1, ha2, ha3⟩ := ha
        obtain ⟨b, hb⟩ := hcon l1 ha2
        rw [ha1]
        simp only [hb, hd, ha3, if_true]
  · intro h
    rcases append_cases levels m c with ⟨e, he⟩ | ⟨l, hl, _⟩
    · rw [he]
    · rw [hl] at h; exact absurd rfl h

/-- **C55**, evaluation: on an input the model is the composition of its levels, the first one innermost. -/
theorem C55_forward (levels : List (Lev X)) (x : X) :
    forwardEval levels (some x) = some ((levels.map fun l (y : X) => l.eval (some y)).foldl (fun y f => f y) x) := by
  induction levels generalizing x with
  | nil => rfl
  | cons l t ih =>
    rw [forwardEval, ih]
    rfl

/-- The output of a model of which the levels are split in two parts is the second part applied to the output of the first, for every splitting; without input
the first level works on its own sample. -/
theorem C55_split (a b : List (Lev X)) (x : Option X) : forwardEval (a ++ b) x = forwardEval b (forwardEval a x) := by
  induction a generalizing x with
  | nil => rfl
  | cons l t ih => exact ih _

/-- **C55**, loss: the weighted sum of the levels' losses, whatever their number. -/
theorem C55_loss (levels : List (Lev X)) : loss levels = ∑ i : Fin levels.length, levels[i].eta * levels[i].lossVal := by
  unfold loss
  rw [← List.sum_ofFn]
  congr 1
  apply List.ext_getElem
  · simp
  · intro i h1 h2
    simp

/-- C55 fails when the output dimension of a level that is already followed by another one changes, which nothing prevents: for every model that fits, every such
level and every other dimension. -/
theorem C55_changed_violated (levels : List (Lev X)) (i : Nat) (a b : Lev X) (ha : levels[i]? = some a) (hb : levels[i + 1]? = some b)
    (h : Fits levels) (d : Nat) (hd : a.dimOut ≠ some d) : ¬ Fits (step levels (.setDimOutput i d)) := by
  intro hf
  obtain ⟨e, he1, he2⟩ := h i a b ha hb
  have h1 : (step levels (.setDimOutput i d))[i]? = some { a with dimOut := some d } := by
    show (levels.modify i _)[i]? = _
    rw [List.getElem?_modify_eq, ha]
    rfl
  have h2 : (step levels (.setDimOutput i d))[i + 1]? = some b := by
    show (levels.modify i _)[i + 1]? = _
    rw [List.getElem?_modify, hb]
    simp
  obtain ⟨e', h3, h4⟩ := hf i _ b h1 h2
  rw [he2] at h4
  have : d = e' := by simpa using h3
  apply hd
  rw [he1, this, ← h4]

/-! ## C71 -/

/-- C71 fails: the checkpoint of a model holds none of the parameters of its levels; models with any levels whatsoever have the same one. -/
theorem C71_violated (levels levels' : List (Lev X)) : stateDict (asModule levels) = stateDict (asModule levels') ∧ stateDict (asModule levels) = [] := by
  constructor <;> rfl

/-! ## C72 -/

theorem rkmLoop_spec (given : List (Except Err (Lev X) × String))
    (hk : ∀ p ∈ given, ∀ levels : List (Lev X), (append levels p.1 p.2).1 ≠ .error .keyError) (fuel n : Nat) (levels r : List (Lev X))
    (hf : fuel + n = given.length) (h : rkmLoop (fun n => given[n]?) fuel n levels = .ok r) : r.length = levels.length + fuel := by
  induction fuel generalizing n levels with
  | zero => simp only [rkmLoop, Except.ok.injEq] at h; rw [h]; rfl
  | succ fuel ih =>
    rw [rkmLoop] at h
    have hn : n < given.length := by omega
    rw [List.getElem?_eq_getElem hn] at h
    simp only at h
    have hnk := hk given[n] (List.getElem_mem hn) levels
    rcases append_cases levels given[n].1 given[n].2 with ⟨e, he⟩ | ⟨l, hl, _⟩
    · rw [he] at h hnk
      cases e <;> first | exact absurd rfl hnk | exact absurd h (by simp)
    · rw [hl] at h
      simp only at h
      have := ih (n + 1) (levels ++ [l]) (by omega) h
      rw [this, List.length_append, List.length_singleton]
      omega

/-- C72 holds as long as appending raises no `KeyError`: then a model that is made has as many levels as given, for every number of levels. -/
theorem C72_partial (given : List (Except Err (Lev X) × String))
    (hk : ∀ p ∈ given, ∀ levels : List (Lev X), (append levels p.1 p.2).1 ≠ .error .keyError) (r : List (Lev X)) (h : rkm given = .ok r) :
    r.length = given.length ∧ Fits r ∧ r ≠ [] := by
  unfold rkm at h
  cases hl : rkmLoop (fun n => given[n]?) given.length 0 [] with
  | error e => rw [hl] at h; simp at h
  | ok r' =>
    rw [hl] at h
    cases r' with
    | nil => simp at h
    | cons a t =>
      simp only [Except.ok.injEq] at h
      subst h
      refine ⟨by simpa using rkmLoop_spec given hk given.length 0 [] _ (by omega) hl, ?_, by simp⟩
      have : ∀ fuel n (levels r : List (Lev X)), Fits levels → rkmLoop (fun n => given[n]?) fuel n levels = .ok r → Fits r := by
        intro fuel
        induction fuel with
        | zero => intro n levels r hf h; simp only [rkmLoop, Except.ok.injEq] at h; rw [← h]; exact hf
        | succ fuel ih =>
          intro n levels r hf h
          rw [rkmLoop] at h
          cases hg : given[n]? with
          | none => rw [hg] at h; simp only [Except.ok.injEq] at h; rw [← h]; exact hf
          | some p =>
            rw [hg] at h
            obtain ⟨m, c⟩ := p
            simp only at h
            rcases append_cases levels m c with ⟨e, he⟩ | ⟨l, hl, _, _, h3⟩
            · rw [he] at h
              cases e <;> simp only [Except.ok.injEq, reduceCtorEq] at h
              rw [← h]; exact hf
            · rw [hl] at h
              exact ih _ _ _ (fits_append levels l hf h3) h
      exact this _ _ _ _ (by intro i a b ha; simp at ha) hl

/-- C72 fails when making a level raises `KeyError`: it and all later levels are dropped silently, provided that one level came before. -/
theorem C72_violated (l : Lev X) (c : String) (hl : Appendable [] l c) (c' : String) (later : List (Except Err (Lev X) × String)) :
    ∃ r, rkm ((.ok l, c) :: (.error .keyError, c') :: later) = .ok r ∧ r.length = 1 := by
  have h1 := (C55_accepted ([] : List (Lev X)) (by intro l hl; simp at hl) (.ok l) c).1.mpr ⟨l, rfl, hl⟩
  rcases append_cases ([] : List (Lev X)) (.ok l) c with ⟨e, he⟩ | ⟨l', hl', _⟩
  · rw [he] at h1; simp at h1
  · refine ⟨[l'], ?_, rfl⟩
    have : rkmLoop (fun n => ((.ok l, c) :: (.error .keyError, c') :: later : List (Except Err (Lev X) × String))[n]?)
        ((.ok l, c) :: (.error .keyError, c') :: later : List (Except Err (Lev X) × String)).length 0 [] = .ok [l'] := by
      simp only [List.length_cons, rkmLoop, List.getElem?_cons_zero, List.getElem?_cons_succ, hl', List.nil_append, Nat.zero_add]
      rfl
    unfold rkm
    rw [this]

/-! ## non-vacuity -/

/-- A level multiplying by `k` with given dimensions. -/
def exLev (i o : Option Nat) (k : Nat) : Lev Nat := ⟨i, o, true, none, fun x => k * x.getD 1, 2, 3, [("h", k)]⟩

example : (step (step (step [] (.append (.ok (exLev none (some 4) 2)) "soft")) (.append (.ok (exLev (some 3) (some 2) 3)) "hard"))
    (.append (.ok (exLev none (some 5) 3)) "hard")).map (fun l => (l.dimIn, l.dimOut, l.trainable)) =
    [(none, some 4, some true), (some 4, some 5, some false)] := by rfl
example : forwardEval [exLev none none 2, exLev none none 5] (some 3) = some 30 := by rfl
example : Appendable ([] : List (Lev Nat)) (exLev none (some 4) 2) "soft" := ⟨rfl, rfl, Or.inl rfl, by simp⟩
example : stateDict (asRegistered [exLev none (some 4) 2, exLev none (some 4) 3]) = [("0.h", 2), ("1.h", 3)] := by
  simp [asRegistered, stateDict, stateDicts, exLev]
  decide

theorem stateDicts_mem (a : List (String × Net.Mod X)) (q : String × X) :
    q ∈ stateDicts a ↔ ∃ c ∈ a, ∃ p ∈ stateDict c.2, q = (c.1 ++ "." ++ p.1, p.2) := by
  induction a with
  | nil => simp [stateDicts]
  | cons h t ih =>
    obtain ⟨n, m⟩ := h
    simp only [stateDicts, List.mem_append, List.mem_map, ih, List.exists_mem_cons_iff]
    constructor
    · rintro (⟨p, hp, rfl⟩ | h)
      · exact .inl ⟨p, hp, rfl⟩
      · exact .inr h
    · rintro (⟨p, hp, rfl⟩ | h)
      · exact .inl ⟨p, hp, rfl⟩
      · exact .inr h

/-- **C71**: what would be saved if the levels were registered: the parameters of all levels, named by the position of the level, a dot and their name. -/
theorem C71_registered (levels : List (Lev X)) (q : String × X) :
    q ∈ stateDict (asRegistered levels) ↔ ∃ (i : Nat) (l : Lev X), levels[i]? = some l ∧ ∃ name, (name, q.2) ∈ l.params ∧ q.1 = toString i ++ "." ++ name := by
  simp only [asRegistered, stateDict, List.nil_append, stateDicts_mem, List.mem_map, Prod.exists]
  constructor
  · rintro ⟨n, m, ⟨l, i, hl, he⟩, name, x, hp, rfl⟩
    simp only [Prod.mk.injEq] at he
    obtain ⟨rfl, rfl⟩ := he
    rw [List.mem_zipIdx_iff_getElem?] at hl
    exact ⟨i, l, hl, name, by simpa [stateDict, stateDicts] using hp, rfl⟩
  · rintro ⟨i, l, hl, name, hp, hq⟩
    exact ⟨toString i, Net.Mod.node l.params [], ⟨l, i, List.mem_zipIdx_iff_getElem?.2 hl, rfl⟩, name, q.2, by simpa [stateDict, stateDicts] using hp, Prod.ext hq rfl⟩

end Kerch
