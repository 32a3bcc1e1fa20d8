import Verif.Model.Solve
import Mathlib.Tactic.CasesM
set_option linter.unusedSectionVars false
set_option linter.unusedSimpArgs false
/-!
# C89: `solve` fits the data given, or is refused
-/
namespace Kerch
namespace Solve

/-- Specification: the representation asked for, the default one if not given. -/
def wanted (default : Bool) : Rep → Option Bool
  | .unset => some default
  | .primal => some true
  | .dual => some false
  | .other => none

/-- Data that correspond: as many targets as points, as many columns as outputs. -/
def Matching (s : St) (x t : Data) : Prop := x.rows = t.rows ∧ t.cols = s.dimOutput

/-- Valid data: the fit is made on them, in the representation asked for. -/
theorem C89_fits (default : Bool) (s : St) (x t : Data) (r : Rep) (b : Bool) (hx : x.tensor = true) (h : Matching s x t) (hr : wanted default r = some b) :
    solve default s (some x) (some t) r = (.ok (), { s with sample := some x, target := some t, fitted := some (x, some t, b) }) := by
  obtain ⟨h1, h2⟩ := h
  unfold solve
  simp only [withSample, initSample, hx, Bool.true_eq_false, if_false, h1, ne_eq, not_true_eq_false]
  unfold solveBase
  simp only [withSample, initSample, setTarget, h1, h2, ne_eq, not_true_eq_false, if_false]
  cases r <;> simp [wanted] at hr <;> simp [hr]

/-- Without new data the fit is made on the present ones; with a new sample and no target, on this sample with the target there is. -/
theorem C89_fits_present (default : Bool) (s : St) (x : Data) (n : Option Data) (r : Rep) (b : Bool) (hx : s.sample = some x) (hr : wanted default r = some b) :
    solve default s n none r = (.ok (), { s with sample := some (n.getD x), fitted := some (n.getD x, s.target, b) }) := by
  unfold solve solveBase
  cases n <;> simp only [withSample, initSample, setTarget, hx, Option.getD_some, Option.getD_none] <;> cases r <;> simp [wanted] at hr <;> simp [hr, hx]

/-- What does not correspond is refused, as is a representation that is not one, and no fit is made. -/
theorem C89_refused (default : Bool) (s : St) (x t : Data) (r : Rep) (h : ¬ Matching s x t ∨ wanted default r = none) :
    (∃ e, (solve default s (some x) (some t) r).1 = .error e) ∧ (solve default s (some x) (some t) r).2.fitted = s.fitted := by
  unfold solve
  by_cases h0 : x.tensor = false
  · simp [h0, withSample, initSample]
  by_cases h1 : x.rows = t.rows
  · simp only [withSample, initSample, h0, if_false, h1, ne_eq, not_true_eq_false]
    unfold solveBase
    by_cases h2 : s.dimOutput = t.cols
    · have hr : wanted default r = none := by
        rcases h with h | h
        · exact absurd ⟨h1, h2.symm⟩ h
        · exact h
      cases r <;> simp [wanted] at hr
      simp [withSample, initSample, setTarget, h1, h2]
    · simp [withSample, initSample, setTarget, h1, h2]
  · simp [withSample, initSample, h0, h1]

/-- Violation: a refused call has replaced the sample, which then does not correspond to the target any more. -/
theorem C89_atomic_violated (default : Bool) (s : St) (x t : Data) (r : Rep) (h : x.rows ≠ t.rows) :
    (∃ e, (solve default s (some x) (some t) r).1 = .error e) ∧ (solve default s (some x) (some t) r).2.sample = some x := by
  unfold solve
  by_cases h0 : x.tensor = false
  · simp [h0, withSample, initSample]
  · simp [h0, withSample, initSample, h]

/-- Violation: a target alone, to be fitted on the sample of the model as documented, is refused whatever it is. -/
theorem C89_target_alone_violated (default : Bool) (s : St) (t : Data) (r : Rep) : solve default s none (some t) r = (.error .attributeError, s) := rfl

/-- Violation: a sample given as a list, accepted everywhere else, is refused together with a target. -/
theorem C89_list_violated (default : Bool) (s : St) (x t : Data) (r : Rep) (hx : x.tensor = false) :
    (solve default s (some x) (some t) r).1 = .error .attributeError ∧ (solve default s (some x) none .unset).1 = .ok () := by
  constructor
  · unfold solve; simp [hx]
  · unfold solve solveBase; simp [withSample, initSample, setTarget]

/-- Violation: without any sample the call returns normally and nothing is fitted, even with an invalid representation. -/
theorem C89_silent_violated (default : Bool) (s : St) (hs : s.sample = none) (r : Rep) : solve default s none none r = (.ok (), s) := by
  unfold solve solveBase
  simp [withSample, setTarget, hs]

/-- The target has as many rows as the sample. -/
def Corresponds (s : St) : Prop := ∀ x t, s.sample = some x → s.target = some t → x.rows = t.rows

/-- Specification: an operation brings a new sample without a target of the same number of points, while the sample had another number. -/
def Resizes (s : St) : Op → Prop
  | .initSample x => ∃ y, s.sample = some y ∧ x.rows ≠ y.rows
  | .target _ => False
  | .solve (some x) none _ => ∃ y, s.sample = some y ∧ x.rows ≠ y.rows
  | .solve (some x) (some _) _ => ∃ y, s.sample = some y ∧ x.rows ≠ y.rows
  | .solve none _ _ => False

/-- A history of operations none of which changes the number of points. -/
def NoResize (default : Bool) : St → List Op → Prop
  | _, [] => True
  | s, op :: ops => ¬ Resizes s op ∧ NoResize default (step default s op) ops

def SInv (s : St) : Prop := Corresponds s ∧ (s.sample = none → s.target = none)

theorem setTarget_inv (s : St) (t : Option Data) (h : SInv s) : SInv (setTarget s t).2 := by
  unfold setTarget
  cases t with
  | none => exact h
  | some t =>
    cases hx : s.sample with
    | none => exact h
    | some x =>
      simp only
      by_cases h1 : s.dimOutput = t.cols
      · by_cases h2 : x.rows = t.rows
        · simp only [h1, h2, ne_eq, not_true_eq_false, if_false]
          refine ⟨?_, by simp [hx]⟩
          intro y u hy hu
          simp only [hx, Option.some.injEq] at hy hu
          rw [← hy, ← hu]; exact h2
        · simpa only [h1, h2, ne_eq, not_true_eq_false, not_false_eq_true, if_false, if_true] using h
      · simpa only [h1, ne_eq, not_false_eq_true, if_true] using h

theorem initSample_inv (s : St) (x : Data) (h : SInv s) (hx : ¬ ∃ y, s.sample = some y ∧ x.rows ≠ y.rows) : SInv (initSample s x) := by
  refine ⟨?_, by simp [initSample]⟩
  intro y t hy ht
  simp only [initSample, Option.some.injEq] at hy ht
  subst hy
  cases hs : s.sample with
  | none => rw [h.2 hs] at ht; cases ht
  | some y => 
    have : x.rows = y.rows := by
      by_contra hne
      exact hx ⟨y, hs, hne⟩
    rw [this]
    exact h.1 y t hs ht

theorem solveBase_inv (default : Bool) (s : St) (x t : Option Data) (r : Rep) (h : SInv (withSample s x)) :
    SInv (solveBase default s x t r).2 := by
  unfold solveBase
  simp only
  obtain ⟨s', hs'⟩ : ∃ s', s' = (withSample s x) := ⟨_, rfl⟩
  rw [← hs'] at h ⊢
  have h1 := setTarget_inv s' t h
  rcases hst : setTarget s' t with ⟨res, s2⟩
  rw [hst] at h1
  cases res with
  | error e => exact h1
  | ok u =>
    simp only
    cases hx : s2.sample with
    | none => exact h1
    | some y =>
      have h2 : SInv { s2 with sample := some y } := by rw [← hx]; exact h1
      cases r
      · exact h2
      · exact h2
      · exact h2
      · exact h1

/-- In every history in which no operation changes the number of points of the sample, the target corresponds to the sample. Missing (`_partial`): histories
that do, `C89_target_kept_violated`. -/
theorem C89_corresponds_partial (default : Bool) (s : St) (hs : SInv s) (ops : List Op) (h : NoResize default s ops) : Corresponds (run default s ops) := by
  suffices SInv (run default s ops) from this.1
  induction ops generalizing s with
  | nil => exact hs
  | cons op ops ih =>
    refine ih (step default s op) ?_ h.2
    have h1 := h.1
    cases op with
    | initSample x => exact initSample_inv s x hs h1
    | target t => exact setTarget_inv s t hs
    | solve x t r =>
      show SInv (solve default s x t r).2
      unfold solve
      cases x with
      | none => cases t with
        | none => exact solveBase_inv default s none none r hs
        | some t => exact hs
      | some x =>
        have hi : SInv (initSample s x) := by cases t <;> exact initSample_inv s x hs h1
        have hii : SInv (initSample (initSample s x) x) := hi
        cases t with
        | none => exact solveBase_inv default _ (some x) none r hii
        | some t =>
          simp only
          by_cases h2 : x.tensor = false
          · rw [if_pos h2]; exact hi
          · rw [if_neg h2]
            by_cases h3 : x.rows = t.rows
            · rw [if_neg (by simpa using h3)]; exact solveBase_inv default _ (some x) (some t) r hii
            · rw [if_pos h3]; exact hi

/-- Violation: a new sample of another size leaves the former target in place. -/
theorem C89_target_kept_violated (s : St) (t x : Data) (ht : s.target = some t) (hx : x.rows ≠ t.rows) : ¬ Corresponds (initSample s x) := by
  intro h
  exact hx (h x t rfl ht)

/-- Five points, a target, a new sample of five points: the target corresponds. -/
example : Corresponds (run false ⟨1, none, none, none⟩ [.initSample ⟨0, 5, 2, true⟩, .target (some ⟨1, 5, 1, true⟩), .solve (some ⟨2, 5, 3, true⟩) none .unset]) := by
  refine C89_corresponds_partial false _ ⟨by simp [Corresponds], by simp⟩ _ ?_
  simp [NoResize, Resizes, step, initSample, setTarget]

example : Matching ⟨1, none, none, none⟩ ⟨0, 5, 2, true⟩ ⟨1, 5, 1, true⟩ := ⟨rfl, rfl⟩

example := C89_fits false ⟨1, none, none, none⟩ ⟨0, 5, 2, true⟩ ⟨1, 5, 1, true⟩ .primal true rfl ⟨rfl, rfl⟩ rfl
example := C89_fits_present false ⟨1, some ⟨0, 5, 2, true⟩, some ⟨1, 5, 1, true⟩, none⟩ ⟨0, 5, 2, true⟩ none .unset false rfl rfl
example := C89_refused false ⟨1, none, none, none⟩ ⟨0, 5, 2, true⟩ ⟨1, 4, 1, true⟩ .dual (Or.inl (by simp [Matching]))
example := C89_atomic_violated false ⟨1, none, none, none⟩ ⟨0, 5, 2, true⟩ ⟨1, 4, 1, true⟩ .dual (by decide)
example := C89_list_violated false ⟨1, none, none, none⟩ ⟨0, 5, 2, false⟩ ⟨1, 5, 1, true⟩ .dual rfl
example := C89_silent_violated false ⟨1, none, some ⟨1, 5, 1, true⟩, none⟩ rfl .dual
example := C89_target_kept_violated ⟨1, some ⟨0, 5, 2, true⟩, some ⟨1, 5, 1, true⟩, none⟩ ⟨1, 5, 1, true⟩ ⟨2, 4, 2, true⟩ rfl (by decide)


end Solve
end Kerch
