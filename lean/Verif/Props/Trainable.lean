import Verif.Model.Trainable
/-!
# C68 (soft levels), C69 (attached views)
-/
set_option linter.unusedSectionVars false
set_option linter.unusedSimpArgs false
namespace Kerch

section
open Trainable

/-! ## helper lemmas -/

/-- All parameters that are not empty have the given `requires_grad`. -/
def AllRg (s : Trainable.St) (v : Bool) : Prop := (s.dual.shape.isSome → s.dual.rg = v) ∧ (s.primal.shape.isSome → s.primal.rg = v)

theorem allRg_setPrimal (s : Trainable.St) (v : Bool) (hl : s.levelTrainable = v) (h : AllRg s v) (o : Option (Nat × Nat)) :
    (s.setPrimal o).2.levelTrainable = v ∧ AllRg (s.setPrimal o).2 v ∧ (s.setPrimal o).2.paramTrainable = s.paramTrainable := by
  cases o with
  | none => exact ⟨hl, ⟨fun h' => by simp [St.setPrimal, St.resetDual, St.resetPrimal] at h', h.2⟩, rfl⟩
  | some p =>
    obtain ⟨r, c⟩ := p
    have key : (s.setPrimal (some (r, c))).2 = s.resetDual ∨
        (s.setPrimal (some (r, c))).2 = { s.resetDual with primal := ⟨some (c, r), s.levelTrainable⟩ } := by
      by_cases h1 : s.resetDual.primal.shape = some (r, c)
      · left
        by_cases h2 : r = c
        · simp only [St.setPrimal, if_pos h1, if_pos h2]
        · simp only [St.setPrimal, if_pos h1, if_neg h2]
      · right
        simp only [St.setPrimal, if_neg h1]
        rfl
    rcases key with hk | hk <;> rw [hk]
    · exact ⟨hl, ⟨fun h' => by simp [St.resetDual] at h', h.2⟩, rfl⟩
    · exact ⟨hl, ⟨fun h' => by simp [St.resetDual] at h', fun _ => hl⟩, rfl⟩

theorem allRg_setDual (s : Trainable.St) (v : Bool) (hl : s.levelTrainable = v) (h : AllRg s v) (o : Option (Nat × Nat)) :
    (s.setDual o).levelTrainable = v ∧ AllRg (s.setDual o) v ∧ (s.setDual o).paramTrainable = s.paramTrainable := by
  cases o with
  | none => exact ⟨hl, ⟨fun h' => by simp [St.setDual, St.resetDual, St.resetPrimal] at h', h.2⟩, rfl⟩
  | some p =>
    obtain ⟨r, c⟩ := p
    simp only [St.setDual]
    split
    · exact ⟨hl, h, rfl⟩
    · exact ⟨hl, ⟨fun _ => hl, h.2⟩, rfl⟩

theorem allRg_run (ops : List Trainable.Op) (s : Trainable.St) (v : Bool) (hl : s.levelTrainable = v) (h : AllRg s v) :
    AllRg (s.run ops) v ∧ (s.run ops).paramTrainable = s.paramTrainable := by
  unfold St.run
  induction ops generalizing s with
  | nil => exact ⟨h, rfl⟩
  | cons o t ih =>
    rw [List.foldl_cons]
    have step : (s.step o).levelTrainable = v ∧ AllRg (s.step o) v ∧ (s.step o).paramTrainable = s.paramTrainable := by
      cases o with
      | setPrimal p => exact allRg_setPrimal s v hl h p
      | setDual p => exact allRg_setDual s v hl h p
      | initPrimal sh ow =>
        simp only [St.step]
        by_cases hc : (ow || s.primal.shape.isNone) = true
        · rw [if_pos hc]; exact allRg_setPrimal s v hl h _
        · rw [if_neg hc]; exact ⟨hl, h, rfl⟩
      | initDual sh ow =>
        simp only [St.step]
        by_cases hc : (ow || s.dual.shape.isNone) = true
        · rw [if_pos hc]; exact allRg_setDual s v hl h _
        · rw [if_neg hc]; exact ⟨hl, h, rfl⟩
    obtain ⟨h1, h2⟩ := ih _ step.1 step.2.1
    exact ⟨h1, h2.trans step.2.2⟩

/-! ## C68 -/

/-- **C68** violated, and what happens instead: a level constructed as usual (without initial parameters and without the keyword `level_trainable`) and appended
with the soft constraint is marked trainable, hence not solved in training, but after any initialisation and assignments none of its parameters requires
a gradient. -/
theorem C68_soft_violated (ops : List Trainable.Op) :
    (((St.construct false none none).append true).1 = .ok ()) ∧
    ((((St.construct false none none).append true).2.run ops).getTrainable = .ok true) ∧
    AllRg (((St.construct false none none).append true).2.run ops) false := by
  have h := allRg_run ops ((St.construct false none none).append true).2 false rfl ⟨fun h => by simp [St.construct, St.setDual, St.resetDual,
    St.resetPrimal, St.append, St.setTrainable] at h, fun _ => rfl⟩
  refine ⟨rfl, ?_, h.1⟩
  simp only [St.getTrainable, h.2]
  rfl

/-- **C68**, partial: with `level_trainable=True` given at construction, the soft constraint does what it says after every initialisation and assignments. -/
theorem C68_given_partial (ops : List Trainable.Op) :
    (((St.construct true none none).append true).1 = .ok ()) ∧
    ((((St.construct true none none).append true).2.run ops).getTrainable = .ok true) ∧
    AllRg (((St.construct true none none).append true).2.run ops) true := by
  have h := allRg_run ops ((St.construct true none none).append true).2 true rfl ⟨fun _ => rfl, fun _ => rfl⟩
  refine ⟨rfl, ?_, h.1⟩
  simp only [St.getTrainable, h.2]
  rfl

/-- **C68**, partial: the hard constraint on a level constructed as usual: no parameter requires a gradient, and the level is solved in training. -/
theorem C68_hard_partial (ops : List Trainable.Op) :
    (((St.construct false none none).append false).1 = .ok ()) ∧
    ((((St.construct false none none).append false).2.run ops).getTrainable = .ok false) ∧
    AllRg (((St.construct false none none).append false).2.run ops) false := by
  have h := allRg_run ops ((St.construct false none none).append false).2 false rfl ⟨fun _ => rfl, fun _ => rfl⟩
  refine ⟨rfl, ?_, h.1⟩
  simp only [St.getTrainable, h.2]
  rfl

/-- **C68** violated: a level constructed with `level_trainable=True` but appended with the hard constraint keeps getting trainable parameters. -/
theorem C68_hard_given_violated (ops : List Trainable.Op) :
    AllRg (((St.construct true none none).append false).2.run ops) true :=
  (allRg_run ops ((St.construct true none none).append false).2 true rfl ⟨fun h => by simp [St.construct, St.setDual, St.resetDual,
    St.resetPrimal, St.append, St.setTrainable] at h, fun _ => rfl⟩).1

/-- **C68** violated: a level constructed with initial weights cannot be appended at all. -/
theorem C68_weight_violated (lt soft : Bool) (w : Nat × Nat) (hidden : Option (Nat × Nat)) :
    ((St.construct lt (some w) hidden).append soft).1 = .error .attributeError := by
  obtain ⟨r, c⟩ := w
  rfl

/-- The initialisation of the dual (primal) parameters indeed makes them exist. -/
example : ((((St.construct false none none).append true).2.run [.initDual (10, 3) false]).dual.shape = some (3, 10)) ∧
    ((((St.construct false none none).append true).2.run [.initPrimal (7, 3) false]).primal.shape = some (3, 7)) := ⟨rfl, rfl⟩

end

section
open Attach
variable {P : Type}

/-- The last value of the mother's parameters. -/
def lastMother (m : P) : List (Attach.Op P) → P
  | [] => m
  | .mother p :: t => lastMother p t
  | _ :: t => lastMother m t

theorem attached_run (ops : List (Attach.Op P)) (s : Attach.St P) (h : s.attached = true) :
    (s.run ops).attached = true ∧ (s.run ops).mother = lastMother s.mother ops ∧ (s.run ops).own = s.own := by
  unfold St.run
  induction ops generalizing s with
  | nil => exact ⟨h, rfl, rfl⟩
  | cons o t ih =>
    rw [List.foldl_cons]
    have hs : (s.step o).attached = true ∧ (s.step o).own = s.own ∧ (s.step o).mother = (match o with | .mother p => p | _ => s.mother) := by
      cases o with
      | assign p => simp [St.step, St.assign, h]
      | attach => simp [St.step, St.attach, h]
      | detach => simp [St.step, St.detach, St.read, St.assign, h]
      | mother p => simp [St.step, h]
    obtain ⟨h1, h2, h3⟩ := ih _ hs.1
    refine ⟨h1, h2.trans ?_, h3.trans hs.2.1⟩
    rw [hs.2.2]
    cases o <;> rfl

/-- **C69**, partial: once attached, a view reads the current parameters of its multi-view after every history, refuses every assignment and a second
attachment, and its own parameters stay untouched. -/
theorem C69_attached_partial (s : Attach.St P) (h : s.attached = false) (ops : List (Attach.Op P)) (p : P) :
    ((s.attach.2).run ops).read = .ok (lastMother s.mother ops) ∧
    (((s.attach.2).run ops).assign p).1 = .error .kerchError ∧
    (((s.attach.2).run ops).attach).1 = .error .assertionError ∧
    ((s.attach.2).run ops).own = s.own := by
  have ha : s.attach.2 = { s with attached := true } := by simp [St.attach, h]
  obtain ⟨h1, h2, h3⟩ := attached_run ops s.attach.2 (by rw [ha])
  rw [ha] at h1 h2 h3 ⊢
  simp [St.read, St.assign, St.attach, h1, h2, h3]

/-- **C69** violated: no view can ever be detached; `detach()` raises and leaves the view attached, after every history. -/
theorem C69_detach_violated (s : Attach.St P) (h : s.attached = false) (ops : List (Attach.Op P)) :
    (((s.attach.2).run ops).detach).1 = .error .kerchError ∧ (((s.attach.2).run ops).detach).2.attached = true := by
  have ha : s.attach.2 = { s with attached := true } := by simp [St.attach, h]
  obtain ⟨h1, h2, h3⟩ := attached_run ops s.attach.2 (by rw [ha])
  rw [ha] at h1 h2 h3 ⊢
  simp [St.read, St.assign, St.detach, h1]

example : lastMother 1 [.assign 5, .mother 2, .detach, .mother 3, .attach] = 3 := rfl

end
end Kerch
