import Verif.Model.Handles
import Mathlib.Tactic.Linarith
import Mathlib.Data.List.Forall2
/-!
# C114: what the optimiser changes is what the level uses
-/
set_option linter.unusedSectionVars false
set_option linter.unusedSimpArgs false
namespace Kerch
namespace Handles

variable {C : Type}

/-! ## Specification

What a reader of the API would note down: the shapes of the two parameters, and whether each parameter is still the one that was there when the optimiser was made. -/

structure Note where
  d : ℕ × ℕ
  p : ℕ × ℕ
  keptD : Bool := true
  keptP : Bool := true
  keptS : Bool := true

/-- The dual parameter survives the assignment of a value of its own shape, the primal parameter never that of a value for another shape than a square one; the sample survives only updates. -/
def Note.op (n : Note) : Op C → Note
  | .dual sh _ => if n.d.1 * n.d.2 ≠ 0 ∧ sh = n.d then n else { n with d := sh, keptD := false }
  | .updateDual sh _ => if n.d.1 * n.d.2 ≠ 0 then n else { n with d := sh, keptD := false }
  | .noDual | .noPrimal | .dim => { n with d := (0, 0), keptD := false }
  | .primal sh _ =>
    let n := { n with d := (0, 0), keptD := false }
    if n.p.1 * n.p.2 ≠ 0 ∧ n.p = (sh.2, sh.1) then n else { n with p := sh, keptP := false }
  | .initSample _ _ => { n with keptS := false }
  | _ => n

/-- What has been noted for an attribute. -/
def Note.kept (n : Note) : Slot → Bool
  | .dual => n.keptD
  | .primal => n.keptP
  | .sample => n.keptS
  | _ => true

/-- The parameters of interest. -/
def Slot.main : Slot → Bool
  | .dual | .primal | .sample | .sigma => true
  | _ => false

/-- A history during which the optimiser is not made anew. -/
def Op.notOpt : Op C → Bool
  | .optimiser => false
  | _ => true

/-! ## Helper lemmas -/

/-- Objects exist, attributes do not share them, and the optimiser only holds existing ones. -/
structure St.WF (s : St C) : Prop where
  lt : ∀ x, s.ref x < s.next
  inj : ∀ x y, s.ref x = s.ref y → x = y
  held : ∀ i ∈ s.held, i < s.next

theorem St.WF.put {s : St C} (h : s.WF) (x : Slot) (p : Par C) : (s.put x p).WF where
  lt y := by
    simp only [St.put, Function.update_apply]
    split
    · omega
    · have := h.lt y; omega
  inj y z := by
    simp only [St.put, Function.update_apply]
    have hy := h.lt y
    have hz := h.lt z
    split <;> split
    · rintro _; simp_all
    · intro e; omega
    · intro e; omega
    · exact h.inj y z
  held i hi := by
    have := h.held i hi
    show i < s.next + 1
    omega

theorem St.WF.write {s : St C} (h : s.WF) (x : Slot) (sh : ℕ × ℕ) (c : C) : (s.write x sh c).WF := ⟨h.lt, h.inj, h.held⟩

theorem yields_lt {s : St C} (h : s.WF) : ∀ i ∈ s.yields, i < s.next := by
  intro i hi
  simp only [St.yields, List.mem_append] at hi
  rcases hi with (hi | hi) | hi
  · split at hi <;> simp at hi; subst hi; exact h.lt _
  · simp at hi; subst hi; exact h.lt _
  · split at hi <;> split at hi <;> (try split at hi) <;> simp at hi
    · rcases hi with rfl | rfl <;> exact h.lt _
    · subst hi; exact h.lt _
    · rcases hi with rfl | rfl <;> exact h.lt _
    · subst hi; exact h.lt _

theorem St.WF.setDual {s : St C} (h : s.WF) (sh : ℕ × ℕ) (c : C) : (s.setDual sh c).WF := by
  unfold St.setDual St.resetPrimal
  split
  · exact (h.write _ _ _).put _ _
  · exact (h.put _ _).put _ _

theorem St.WF.op {s : St C} (h : s.WF) (o : Op C) : (s.op o).WF := by
  cases o with
  | dual sh c => exact h.setDual sh c
  | noDual => exact (h.put _ _).put _ _
  | updateDual sh c =>
    show St.WF (St.resetPrimal (St.write _ _ _ _))
    unfold St.resetPrimal
    apply St.WF.put
    apply St.WF.write
    split
    · exact h
    · exact h.setDual sh c
  | primal sh c =>
    show (s.setPrimal sh c).WF
    have h' : s.resetDual.WF := h.put _ _
    unfold St.setPrimal
    dsimp only
    split
    · split
      · exact h'.write _ _ _
      · exact h'
    · exact h'.put _ _
  | noPrimal => exact (h.put _ _).put _ _
  | dim => exact (h.put _ _).put _ _
  | initSample sh c => exact h.put _ _
  | updateSample c =>
    show (if _ then _ else _ : St C).WF
    split
    · exact h.write _ _ _
    · exact h
  | sigma c => exact h.write _ _ _
  | bias n c =>
    show (if _ then _ else _ : St C).WF
    split
    · exact h.write _ _ _
    · exact h.put _ _
  | optimiser => exact ⟨h.lt, h.inj, fun i hi => yields_lt h i (List.mem_filter.mp hi).1⟩
  | step u => exact ⟨h.lt, h.inj, h.held⟩

theorem St.WF.run {s : St C} (h : s.WF) (os : List (Op C)) : (s.run os).WF := by
  induction os generalizing s with
  | nil => exact h
  | cons o os ih => exact ih (h.op o)

theorem init_WF (level samp sigT primal lssvm : Bool) (empty : C) (sh : ℕ × ℕ) (X σ : C) :
    (St.init level samp sigT primal lssvm empty sh X σ).WF where
  lt x := by cases x <;> simp [St.init]
  inj x y := by cases x <;> cases y <;> simp [St.init]
  held i hi := by simp [St.init] at hi

/-- The link between the state and the note: `r` are the objects at the time of the optimiser, `n0` their number then. -/
structure Link (r : Slot → ℕ) (n0 : ℕ) (s : St C) (n : Note) : Prop where
  wf : s.WF
  d : (s.get .dual).shape = n.d
  p : (s.get .primal).shape = n.p
  le : n0 ≤ s.next
  kept : ∀ x, x.main = true → n.kept x = true → s.ref x = r x
  gone : ∀ x, x.main = true → n.kept x = false → n0 ≤ s.ref x

theorem get_put_self (s : St C) (x : Slot) (p : Par C) : (s.put x p).get x = p := by
  simp [St.get, St.put]

theorem get_put_ne {s : St C} (h : s.WF) {x y : Slot} (hxy : y ≠ x) (p : Par C) : (s.put x p).get y = s.get y := by
  have := h.lt y
  simp only [St.get, St.put, Function.update_apply, if_neg hxy]
  rw [if_neg (by omega)]

theorem get_write_self (s : St C) (x : Slot) (sh : ℕ × ℕ) (c : C) : (s.write x sh c).get x = { s.get x with shape := sh, content := c } := by
  simp [St.get, St.write]

theorem get_write_ne {s : St C} (h : s.WF) {x y : Slot} (hxy : y ≠ x) (sh : ℕ × ℕ) (c : C) : (s.write x sh c).get y = s.get y := by
  simp only [St.get, St.write, Function.update_apply]
  rw [if_neg fun e => hxy (h.inj _ _ e)]

theorem ref_put_ne (s : St C) {x y : Slot} (hxy : y ≠ x) (p : Par C) : (s.put x p).ref y = s.ref y := by
  simp [St.put, hxy]

theorem ref_put_self (s : St C) (x : Slot) (p : Par C) : (s.put x p).ref x = s.next := by
  simp [St.put]

variable {r : Slot → ℕ} {n0 : ℕ} {s : St C} {n : Note}

/-- A new object in an attribute that is not noted. -/
theorem Link.putOther (h : Link r n0 s n) {x : Slot} (hx : x.main = false) (p : Par C) : Link r n0 (s.put x p) n := by
  have hne : ∀ y : Slot, y.main = true → y ≠ x := by rintro y hy rfl; simp [hx] at hy
  refine ⟨h.wf.put _ _, ?_, ?_, ?_, ?_, ?_⟩
  · rw [get_put_ne h.wf (hne .dual rfl)]; exact h.d
  · rw [get_put_ne h.wf (hne .primal rfl)]; exact h.p
  · have := h.le; show n0 ≤ s.next + 1; omega
  · intro y hy hk; rw [ref_put_ne s (hne y hy)]; exact h.kept y hy hk
  · intro y hy hk; rw [ref_put_ne s (hne y hy)]; exact h.gone y hy hk

/-- Writing without a change of the shape. -/
theorem Link.writeSame (h : Link r n0 s n) (x : Slot) (c : C) : Link r n0 (s.write x (s.get x).shape c) n := by
  refine ⟨h.wf.write _ _ _, ?_, ?_, h.le, h.kept, h.gone⟩
  · by_cases e : Slot.dual = x
    · subst e; rw [get_write_self]; exact h.d
    · rw [get_write_ne h.wf e]; exact h.d
  · by_cases e : Slot.primal = x
    · subst e; rw [get_write_self]; exact h.p
    · rw [get_write_ne h.wf e]; exact h.p

theorem Link.writeOther (h : Link r n0 s n) {x : Slot} (hx : x.main = false) (sh : ℕ × ℕ) (c : C) : Link r n0 (s.write x sh c) n := by
  have hne : ∀ y : Slot, y.main = true → y ≠ x := by rintro y hy rfl; simp [hx] at hy
  refine ⟨h.wf.write _ _ _, ?_, ?_, h.le, h.kept, h.gone⟩
  · rw [get_write_ne h.wf (hne .dual rfl)]; exact h.d
  · rw [get_write_ne h.wf (hne .primal rfl)]; exact h.p

theorem Link.putDual (h : Link r n0 s n) (p : Par C) : Link r n0 (s.put .dual p) { n with d := p.shape, keptD := false } := by
  refine ⟨h.wf.put _ _, ?_, ?_, ?_, ?_, ?_⟩
  · rw [get_put_self]
  · rw [get_put_ne h.wf (by decide)]; exact h.p
  · have := h.le; show n0 ≤ s.next + 1; omega
  · intro y hy hk
    cases y <;> simp [Note.kept, Slot.main] at hk hy
    · rw [ref_put_ne s (by decide)]; exact h.kept .primal rfl hk
    · rw [ref_put_ne s (by decide)]; exact h.kept .sample rfl hk
    · rw [ref_put_ne s (by decide)]; exact h.kept .sigma rfl rfl
  · intro y hy hk
    cases y <;> simp [Note.kept, Slot.main] at hk hy
    · rw [ref_put_self]; exact h.le
    · rw [ref_put_ne s (by decide)]; exact h.gone .primal rfl hk
    · rw [ref_put_ne s (by decide)]; exact h.gone .sample rfl hk

theorem Link.putPrimal (h : Link r n0 s n) (p : Par C) : Link r n0 (s.put .primal p) { n with p := p.shape, keptP := false } := by
  refine ⟨h.wf.put _ _, ?_, ?_, ?_, ?_, ?_⟩
  · rw [get_put_ne h.wf (by decide)]; exact h.d
  · rw [get_put_self]
  · have := h.le; show n0 ≤ s.next + 1; omega
  · intro y hy hk
    cases y <;> simp [Note.kept, Slot.main] at hk hy
    · rw [ref_put_ne s (by decide)]; exact h.kept .dual rfl hk
    · rw [ref_put_ne s (by decide)]; exact h.kept .sample rfl hk
    · rw [ref_put_ne s (by decide)]; exact h.kept .sigma rfl rfl
  · intro y hy hk
    cases y <;> simp [Note.kept, Slot.main] at hk hy
    · rw [ref_put_ne s (by decide)]; exact h.gone .dual rfl hk
    · rw [ref_put_self]; exact h.le
    · rw [ref_put_ne s (by decide)]; exact h.gone .sample rfl hk

theorem Link.putSample (h : Link r n0 s n) (p : Par C) : Link r n0 (s.put .sample p) { n with keptS := false } := by
  refine ⟨h.wf.put _ _, ?_, ?_, ?_, ?_, ?_⟩
  · rw [get_put_ne h.wf (by decide)]; exact h.d
  · rw [get_put_ne h.wf (by decide)]; exact h.p
  · have := h.le; show n0 ≤ s.next + 1; omega
  · intro y hy hk
    cases y <;> simp [Note.kept, Slot.main] at hk hy
    · rw [ref_put_ne s (by decide)]; exact h.kept .dual rfl hk
    · rw [ref_put_ne s (by decide)]; exact h.kept .primal rfl hk
    · rw [ref_put_ne s (by decide)]; exact h.kept .sigma rfl rfl
  · intro y hy hk
    cases y <;> simp [Note.kept, Slot.main] at hk hy
    · rw [ref_put_ne s (by decide)]; exact h.gone .dual rfl hk
    · rw [ref_put_ne s (by decide)]; exact h.gone .primal rfl hk
    · rw [ref_put_self]; exact h.le

theorem full_iff (p : Par C) : p.full = true ↔ p.shape.1 * p.shape.2 ≠ 0 := by simp [Par.full]

theorem Link.setDual (h : Link r n0 s n) (sh : ℕ × ℕ) (c : C) : Link r n0 (s.setDual sh c) (n.op (.dual sh c)) := by
  unfold St.setDual St.resetPrimal
  refine Link.putOther ?_ rfl _
  simp only [Note.op, full_iff, h.d]
  by_cases e : n.d.1 * n.d.2 ≠ 0 ∧ sh = n.d
  · rw [if_pos e, if_pos e]
    have := h.writeSame .dual c
    rwa [h.d, ← e.2] at this
  · rw [if_neg e, if_neg e]
    exact h.putDual _

theorem Link.op (h : Link r n0 s n) {o : Op C} (ho : o.notOpt = true) : Link r n0 (s.op o) (n.op o) := by
  cases o with
  | dual sh c => exact h.setDual sh c
  | noDual => exact (h.putDual _).putOther rfl _
  | updateDual sh c =>
    show Link r n0 (St.resetPrimal (St.write _ _ _ _)) _
    unfold St.resetPrimal
    refine Link.putOther (Link.writeSame ?_ _ _) rfl _
    simp only [Note.op, full_iff, h.d]
    by_cases e : n.d.1 * n.d.2 ≠ 0
    · rw [if_pos e, if_pos e]; exact h
    · rw [if_neg e, if_neg e]
      have := h.setDual sh c
      simpa only [Note.op, if_neg fun q : n.d.1 * n.d.2 ≠ 0 ∧ sh = n.d => e q.1] using this
  | primal sh c =>
    show Link r n0 (s.setPrimal sh c) _
    have h' : Link r n0 s.resetDual { n with d := (0, 0), keptD := false } := h.putDual _
    unfold St.setPrimal
    simp only [Note.op, full_iff, h'.p]
    by_cases e : n.p.1 * n.p.2 ≠ 0 ∧ n.p = (sh.2, sh.1)
    · rw [if_pos e, if_pos e]
      split
      · rename_i q
        have e3 : n.p = sh := e.2.trans (Prod.ext q.symm q)
        have := h'.writeSame .primal c
        rwa [show (s.resetDual.get .primal).shape = sh from h'.p.trans e3] at this
      · exact h'
    · rw [if_neg e, if_neg e]
      exact h'.putPrimal _
  | noPrimal => exact (h.putDual _).putOther rfl _
  | dim => exact (h.putOther rfl _).putDual _
  | initSample sh c => exact h.putSample _
  | updateSample c =>
    show Link r n0 (if _ then _ else _ : St C) n
    split
    · exact h.writeSame _ _
    · exact h
  | sigma c => exact h.writeSame _ _
  | bias k c =>
    show Link r n0 (if _ then _ else _ : St C) n
    split
    · exact h.writeOther rfl _ _
    · exact h.putOther rfl _
  | optimiser => simp [Op.notOpt] at ho
  | step u =>
    have hs : ∀ x, ((s.op (.step u)).get x).shape = (s.get x).shape := by
      intro x
      show (if _ then _ else _ : Par C).shape = _
      split <;> rfl
    exact ⟨⟨h.wf.lt, h.wf.inj, h.wf.held⟩, (hs _).trans h.d, (hs _).trans h.p, h.le, h.kept, h.gone⟩

theorem Link.run (h : Link r n0 s n) {os : List (Op C)} (ho : ∀ o ∈ os, o.notOpt = true) : Link r n0 (s.run os) (os.foldl Note.op n) := by
  induction os generalizing s n with
  | nil => exact h
  | cons o os ih => exact ih (h.op (ho o (by simp))) fun o' h' => ho o' (by simp [h'])

theorem held_op (s : St C) {o : Op C} (ho : o.notOpt = true) : (s.op o).held = s.held := by
  cases o with
  | optimiser => simp [Op.notOpt] at ho
  | dual sh c => simp only [St.op, St.setDual, St.resetPrimal, St.put]; split <;> rfl
  | updateDual sh c =>
    simp only [St.op, St.resetPrimal, St.put, St.write]
    split
    · rfl
    · simp only [St.setDual, St.resetPrimal, St.put]; split <;> rfl
  | primal sh c =>
    simp only [St.op, St.setPrimal]
    split
    · split <;> rfl
    · rfl
  | updateSample c => simp only [St.op]; split <;> rfl
  | bias k c => simp only [St.op]; split <;> rfl
  | _ => rfl

theorem held_run (s : St C) {os : List (Op C)} (ho : ∀ o ∈ os, o.notOpt = true) : (s.run os).held = s.held := by
  induction os generalizing s with
  | nil => rfl
  | cons o os ih =>
    show ((s.op o).run os).held = _
    rw [ih _ fun o' h' => ho o' (by simp [h']), held_op s (ho o (by simp))]

/-- What the note says when the optimiser is made. -/
def St.note (s : St C) : Note := ⟨(s.get .dual).shape, (s.get .primal).shape, true, true, true⟩

theorem link_start (h : s.WF) : Link s.ref s.next (s.op .optimiser) s.note :=
  ⟨h.op _, rfl, rfl, le_refl _, fun _ _ _ => rfl, fun x hx hk => by cases x <;> simp [Note.kept, St.note, Slot.main] at hk hx⟩

/-- Whether the optimiser that is made now is given a parameter. -/
def St.given (s : St C) (x : Slot) : Prop := s.ref x ∈ (s.op .optimiser).held

instance (s : St C) (x : Slot) : Decidable (s.given x) := inferInstanceAs (Decidable (_ ∈ _))

/-! ## Properties -/

/-- C114, what happens exactly: an optimiser is made in any state `s` that a level can reach, anything is then done to the level, and the optimiser makes a step. The value of a parameter that was given to the
optimiser has then been changed by the rule of the optimiser if the parameter was kept according to the note, and has not changed at all otherwise. -/
theorem C114_partial (level samp sigT primal lssvm : Bool) (empty : C) (sh : ℕ × ℕ) (X σ : C) (before after : List (Op C))
    (ho : ∀ o ∈ after, o.notOpt = true) (u : ℕ → C → C) (x : Slot) (hx : x.main = true) :
    let s := (St.init level samp sigT primal lssvm empty sh X σ).run before
    let t := (s.op .optimiser).run after
    s.given x → ((t.op (.step u)).get x).content =
      if (after.foldl Note.op s.note).kept x then u (s.ref x) (t.get x).content else (t.get x).content := by
  intro s t hg
  have hs : s.WF := (init_WF ..).run before
  have hl := (link_start hs).run ho
  have hh : t.held = (s.op .optimiser).held := held_run _ ho
  show (if t.ref x ∈ t.held then { t.heap (t.ref x) with content := u (t.ref x) (t.heap (t.ref x)).content } else t.heap (t.ref x) : Par C).content = _
  cases hk : (after.foldl Note.op s.note).kept x with
  | true =>
    have e : t.ref x = s.ref x := hl.kept x hx hk
    rw [hh, e, if_pos (show s.ref x ∈ (s.op .optimiser).held from hg)]
    show u _ _ = u _ _
    simp only [St.get, e]
  | false =>
    have e : s.next ≤ t.ref x := hl.gone x hx hk
    have : t.ref x ∉ t.held := by
      rw [hh]
      intro hm
      have := (hs.op .optimiser).held _ hm
      have : t.ref x < s.next := this
      omega
    rw [if_neg this]
    rfl

/-- What an optimiser is given: everything trainable that has elements, in the representation of the level (KPCA; LSSVM in dual). -/
theorem C114_given (level samp sigT primal lssvm : Bool) (empty : C) (sh : ℕ × ℕ) (X σ : C) (before : List (Op C)) :
    let s := (St.init level samp sigT primal lssvm empty sh X σ).run before
    (s.given .sample ↔ (s.get .sample).full = true ∧ (s.get .sample).rg = true) ∧
    (s.given .sigma ↔ (s.get .sigma).rg = true) ∧
    (s.given .dual ↔ s.primal = false ∧ (s.get .dual).full = true ∧ (s.get .dual).rg = true) ∧
    (s.given .primal ↔ s.primal = true ∧ s.lssvm = false ∧ (s.get .primal).full = true ∧ (s.get .primal).rg = true) := by
  intro s
  have hs : s.WF := (init_WF ..).run before
  have e : ∀ x y, s.ref x = s.ref y ↔ x = y := fun x y => ⟨hs.inj x y, fun h => h ▸ rfl⟩
  have hg : ∀ x, s.given x ↔ s.ref x ∈ s.yields ∧ (s.get x).rg = true := fun x => by
    show s.ref x ∈ s.yields.filter _ ↔ _
    rw [List.mem_filter]
    rfl
  simp only [hg, St.yields]
  refine ⟨?_, ?_, ?_, ?_⟩ <;>
  · cases (s.get .sample).full <;> cases (s.get .dual).full <;> cases (s.get .primal).full <;> cases s.primal <;> cases s.lssvm <;> simp [e]

/-- C114, the loop of the trainer (Trainer.py:169-200, Model.py:128-136): steps, new values for the samples, new hidden values, new bandwidths and biases leave every parameter with the optimiser. -/
def Op.loop : Op C → Bool
  | .updateDual _ _ | .updateSample _ | .sigma _ | .bias _ _ | .step _ => true
  | _ => false

theorem C114_loop_partial (level samp sigT primal lssvm : Bool) (empty : C) (sh : ℕ × ℕ) (X σ : C) (before after : List (Op C))
    (ho : ∀ o ∈ after, o.loop = true) (u : ℕ → C → C) (x : Slot) (hx : x.main = true) :
    let s := (St.init level samp sigT primal lssvm empty sh X σ).run before
    let t := (s.op .optimiser).run after
    s.given x → ((t.op (.step u)).get x).content = u (s.ref x) (t.get x).content := by
  intro s t hg
  have h1 : ∀ o ∈ after, o.notOpt = true := fun o h => by have := ho o h; cases o <;> simp_all [Op.loop, Op.notOpt]
  have key := C114_partial level samp sigT primal lssvm empty sh X σ before after h1 u x hx hg
  have hk : ∀ (os : List (Op C)) (n : Note), (∀ o ∈ os, o.loop = true) → (n.d.1 * n.d.2 ≠ 0 ∨ x ≠ .dual) → (os.foldl Note.op n).kept x = n.kept x := by
    intro os
    induction os with
    | nil => intro n _ _; rfl
    | cons o os ih =>
      intro n h hd
      have hr := fun o' h' => h o' (List.mem_cons_of_mem _ h')
      have h0 := h o (by simp)
      rw [List.foldl_cons]
      cases o with
      | updateDual sh c =>
        simp only [Note.op]
        split
        · exact ih n hr hd
        · rename_i e
          have hxd := hd.resolve_left e
          rw [ih _ hr (Or.inr hxd)]
          cases x <;> simp_all [Note.kept]
      | updateSample c => exact ih n hr hd
      | sigma c => exact ih n hr hd
      | bias k c => exact ih n hr hd
      | step u => exact ih n hr hd
      | _ => simp [Op.loop] at h0
  have hd : s.note.d.1 * s.note.d.2 ≠ 0 ∨ x ≠ .dual := by
    by_cases e : x = .dual
    · subst e
      exact Or.inl ((full_iff _).mp (((C114_given level samp sigT primal lssvm empty sh X σ before).2.2.1.mp hg).2.1))
    · exact Or.inr e
  rw [hk after s.note ho hd] at key
  have : s.note.kept x = true := by cases x <;> rfl
  rw [this, if_pos rfl] at key
  exact key

/-- C114, a new optimiser takes up whatever has been put in place before. -/
theorem C114_rebuild (level samp sigT primal lssvm : Bool) (empty : C) (sh : ℕ × ℕ) (X σ : C) (before : List (Op C)) (u : ℕ → C → C) (x : Slot) (hx : x.main = true) :
    let s := (St.init level samp sigT primal lssvm empty sh X σ).run before
    s.given x → (((s.op .optimiser).op (.step u)).get x).content = u (s.ref x) (s.get x).content :=
  C114_loop_partial level samp sigT primal lssvm empty sh X σ before [] (by simp) u x hx

/-- C114 is violated: in primal, any assignment of the parameters that is not square, even of their own shape, as `init_parameters` and `solve` do, takes them away from the optimiser, whatever is done afterwards. -/
theorem C114_primal_violated (level samp sigT primal lssvm : Bool) (empty : C) (sh : ℕ × ℕ) (X σ : C) (before after : List (Op C)) (c : C) (ho : ∀ o ∈ after, o.notOpt = true) (u : ℕ → C → C) :
    let s := (St.init level samp sigT primal lssvm empty sh X σ).run before
    let t := (s.op .optimiser).run (.primal (s.get .primal).shape c :: after)
    s.given .primal → (s.get .primal).shape.1 ≠ (s.get .primal).shape.2 → ((t.op (.step u)).get .primal).content = (t.get .primal).content := by
  intro s t hg hne
  have key := C114_partial level samp sigT primal lssvm empty sh X σ before (.primal (s.get .primal).shape c :: after) (by simpa [Op.notOpt] using ho) u .primal rfl hg
  have hk : ∀ (os : List (Op C)) (n : Note), n.keptP = false → (os.foldl Note.op n).keptP = false := by
    intro os
    induction os with
    | nil => intro n h; exact h
    | cons o os ih =>
      intro n h
      apply ih
      cases o <;> simp only [Note.op] <;> (try split) <;> first | exact h | rfl
  have h0 : ((Op.primal (s.get .primal).shape c :: after).foldl Note.op s.note).kept .primal = false := by
    rw [List.foldl_cons]
    apply hk
    simp only [Note.op]
    split
    · rename_i q
      exact absurd (congrArg Prod.fst q.2) hne
    · rfl
  rw [h0] at key
  exact key

/-- C114 is violated: the same for the sample that is set anew, and for the dual parameter after a change of the output dimension or the assignment of primal parameters. -/
theorem C114_replaced_violated (level samp sigT primal lssvm : Bool) (empty : C) (sh : ℕ × ℕ) (X σ : C) (before : List (Op C)) (u : ℕ → C → C) (o : Op C) (x : Slot)
    (hox : (∃ sh' c, o = .initSample sh' c ∧ x = .sample) ∨ ((o = .dim ∨ o = .noPrimal ∨ o = .noDual ∨ ∃ sh' c, o = .primal sh' c) ∧ x = .dual)) (later : List (Op C)) (hl : ∀ o ∈ later, o.notOpt = true) :
    let s := (St.init level samp sigT primal lssvm empty sh X σ).run before
    let t := (s.op .optimiser).run (o :: later)
    s.given x → ((t.op (.step u)).get x).content = (t.get x).content := by
  intro s t hg
  have hn : ∀ o' ∈ o :: later, o'.notOpt = true := by
    intro o' h'
    rcases List.mem_cons.mp h' with rfl | h'
    · rcases hox with ⟨_, _, rfl, _⟩ | ⟨rfl | rfl | rfl | ⟨_, _, rfl⟩, _⟩ <;> rfl
    · exact hl o' h'
  have hm : x.main = true := by rcases hox with ⟨_, _, _, rfl⟩ | ⟨_, rfl⟩ <;> rfl
  have key := C114_partial level samp sigT primal lssvm empty sh X σ before (o :: later) hn u x hm hg
  have hkS : ∀ (os : List (Op C)) (n : Note), n.kept x = false → (os.foldl Note.op n).kept x = false := by
    intro os
    induction os with
    | nil => intro n h; exact h
    | cons o os ih =>
      intro n h
      apply ih
      cases x <;> cases o <;> simp only [Note.op, Note.kept] at h ⊢ <;> (try split) <;> first | exact h | rfl
  have h0 : ((o :: later).foldl Note.op s.note).kept x = false := by
    rw [List.foldl_cons]
    apply hkS
    rcases hox with ⟨_, _, rfl, rfl⟩ | ⟨rfl | rfl | rfl | ⟨_, _, rfl⟩, rfl⟩
    · rfl
    · rfl
    · rfl
    · rfl
    · simp only [Note.op, Note.kept]; split <;> rfl
  rw [h0] at key
  exact key

/-- C114 is violated: the primal parameters of an LSSVM are never changed by an optimiser, whenever it is made. -/
theorem C114_lssvm_violated (level samp sigT : Bool) (empty : C) (sh : ℕ × ℕ) (X σ : C) (before : List (Op C)) (u : ℕ → C → C) :
    let s := (St.init level samp sigT true true empty sh X σ).run before
    (((s.op .optimiser).op (.step u)).get .primal).content = (s.get .primal).content := by
  intro s
  have hs : s.WF := (init_WF ..).run before
  have hop : ∀ (q : St C) (o : Op C), (q.op o).lssvm = q.lssvm := by
    intro q o
    cases o with
    | dual sh c => simp only [St.op, St.setDual, St.resetPrimal, St.put]; split <;> rfl
    | updateDual sh c =>
      simp only [St.op, St.resetPrimal, St.put, St.write]
      split
      · rfl
      · simp only [St.setDual, St.resetPrimal, St.put]; split <;> rfl
    | primal sh c =>
      simp only [St.op, St.setPrimal]
      split
      · split <;> rfl
      · rfl
    | updateSample c => simp only [St.op]; split <;> rfl
    | bias k c => simp only [St.op]; split <;> rfl
    | _ => rfl
  have hrun : ∀ (os : List (Op C)) (q : St C), (q.run os).lssvm = q.lssvm := by
    intro os
    induction os with
    | nil => intro q; rfl
    | cons o os ih => intro q; exact (ih (q.op o)).trans (hop q o)
  have hl : s.lssvm = true := (hrun before _).trans rfl
  have hng : ¬ s.given .primal := fun h => by
    have := ((C114_given level samp sigT true true empty sh X σ before).2.2.2.mp h).2.1
    rw [show (_ : Bool) = true from hl] at this
    cases this
  show (if s.ref .primal ∈ (s.op .optimiser).held then { s.heap (s.ref .primal) with content := u _ _ } else s.heap (s.ref .primal) : Par C).content = _
  rw [if_neg (show ¬ s.ref .primal ∈ (s.op .optimiser).held from hng)]
  rfl

/-! ## Cases -/

/-- A trainable KPCA in primal with three components of five features. -/
def demo : St ℤ := (St.init true true true true false 0 (7, 5) 100 3).run [.primal (3, 5) 40]

example : demo.given .primal ∧ demo.given .sample ∧ demo.given .sigma ∧ (demo.get .primal).shape.1 ≠ (demo.get .primal).shape.2 :=
  ⟨by decide, by decide, by decide, by decide⟩

/-- A step changes what the level has; after the assignment of new values of the same shape it does not any more. -/
example : (((demo.op .optimiser).run [.step fun _ c => c + 1]).get .primal).content = 41 ∧
    (((demo.op .optimiser).run [.primal (3, 5) 50, .step fun _ c => c + 1]).get .primal).content = 50 ∧
    (((demo.op .optimiser).run [.primal (3, 5) 50, .optimiser, .step fun _ c => c + 1]).get .primal).content = 51 ∧
    (((demo.op .optimiser).run [.updateSample 200, .sigma 9, .step fun _ c => c + 1]).get .sample).content = 201 := by decide

/-- In dual, an assignment of the same shape keeps the parameter with the optimiser, that of another shape does not. -/
example : let s := (St.init true false false false false (0 : ℤ) (7, 5) 100 3).run [.dual (2, 7) 40]
    s.given .dual ∧ (((s.op .optimiser).run [.dual (2, 7) 50, .updateDual (2, 7) 60, .step fun _ c => c + 1]).get .dual).content = 61 ∧
    (((s.op .optimiser).run [.dual (3, 7) 50, .step fun _ c => c + 1]).get .dual).content = 50 :=
  ⟨by decide, by decide, by decide⟩

/-- An LSSVM in primal with parameters. -/
example : let s := (St.init true false false true true (0 : ℤ) (7, 5) 100 3).run [.primal (1, 5) 40]
    (((s.op .optimiser).op (.step fun _ c => c + 1)).get .primal).content = 40 ∧ (s.op .optimiser).held = [2] := by decide

/-! ### What the attributes hold -/

/-- Whether an attribute of a level requires a gradient, from the options of the level. -/
def flag (level samp sigT : Bool) : Slot → Bool
  | .dual => level
  | .primal => level
  | .weight => level
  | .sample => samp
  | .sigma => sigT
  | .bias => false

structure Inv (level samp sigT : Bool) (s : St C) : Prop where
  wf : s.WF
  lev : s.level = level
  spl : s.samp = samp
  rg : ∀ x, (s.get x).rg = flag level samp sigT x
  sigma : (s.get .sigma).shape = (1, 1)
  weight : (s.get .weight).shape = (0, 0)

section inv
variable {level samp sigT : Bool} {s : St C}

theorem Inv.put (h : Inv level samp sigT s) (x : Slot) (p : Par C) (hr : p.rg = flag level samp sigT x) (hs : x = .sigma → p.shape = (1, 1))
    (hw : x = .weight → p.shape = (0, 0)) : Inv level samp sigT (s.put x p) where
  wf := h.wf.put x p
  lev := h.lev
  spl := h.spl
  rg := fun y => by
    by_cases hy : y = x
    · subst hy; rw [get_put_self]; exact hr
    · rw [get_put_ne h.wf hy]; exact h.rg y
  sigma := by
    by_cases hy : Slot.sigma = x
    · subst hy; rw [get_put_self]; exact hs rfl
    · rw [get_put_ne h.wf hy]; exact h.sigma
  weight := by
    by_cases hy : Slot.weight = x
    · subst hy; rw [get_put_self]; exact hw rfl
    · rw [get_put_ne h.wf hy]; exact h.weight

theorem Inv.write (h : Inv level samp sigT s) (x : Slot) (sh : ℕ × ℕ) (c : C) (hs : x = .sigma → sh = (1, 1)) (hw : x ≠ .weight) :
    Inv level samp sigT (s.write x sh c) where
  wf := h.wf.write x sh c
  lev := h.lev
  spl := h.spl
  rg := fun y => by
    by_cases hy : y = x
    · subst hy; rw [get_write_self]; exact h.rg y
    · rw [get_write_ne h.wf hy]; exact h.rg y
  sigma := by
    by_cases hy : Slot.sigma = x
    · subst hy; rw [get_write_self]; exact hs rfl
    · rw [get_write_ne h.wf hy]; exact h.sigma
  weight := by rw [get_write_ne h.wf fun e => hw e.symm]; exact h.weight

theorem Inv.resetDual (h : Inv level samp sigT s) : Inv level samp sigT s.resetDual := h.put .dual _ (h.rg .dual) (by simp) (by simp)
theorem Inv.resetPrimal (h : Inv level samp sigT s) : Inv level samp sigT s.resetPrimal := h.put .weight _ (h.rg .primal) (by simp) fun _ => rfl

theorem Inv.setDual (h : Inv level samp sigT s) (sh : ℕ × ℕ) (c : C) : Inv level samp sigT (s.setDual sh c) := by
  unfold St.setDual
  refine Inv.resetPrimal ?_
  split
  · exact h.write .dual sh c (by simp) (by simp)
  · exact h.put .dual _ h.lev (by simp) (by simp)

theorem Inv.op (h : Inv level samp sigT s) (o : Op C) : Inv level samp sigT (s.op o) := by
  cases o with
  | dual sh c => exact h.setDual sh c
  | noDual => exact h.resetDual.resetPrimal
  | updateDual sh c =>
    show Inv level samp sigT (St.resetPrimal (St.write _ _ _ _))
    refine Inv.resetPrimal (Inv.write ?_ .dual _ c (by simp) (by simp))
    split
    · exact h
    · exact h.setDual sh c
  | primal sh c =>
    show Inv level samp sigT (s.setPrimal sh c)
    unfold St.setPrimal
    simp only
    split
    · split
      · exact h.resetDual.write .primal sh c (by simp) (by simp)
      · exact h.resetDual
    · exact h.resetDual.put .primal _ h.resetDual.lev (by simp) (by simp)
  | noPrimal => exact h.resetDual.resetPrimal
  | dim => exact h.resetPrimal.resetDual
  | initSample sh c => exact h.put .sample _ h.spl (by simp) (by simp)
  | updateSample c =>
    show Inv level samp sigT (if _ then _ else _ : St C)
    split
    · exact h.write .sample _ c (by simp) (by simp)
    · exact h
  | sigma c => exact h.write .sigma _ c (fun _ => h.sigma) (by simp)
  | bias n c =>
    show Inv level samp sigT (if _ then _ else _ : St C)
    split
    · exact h.write .bias _ c (by simp) (by simp)
    · exact h.put .bias _ rfl (by simp) (by simp)
  | optimiser => exact ⟨h.wf.op .optimiser, h.lev, h.spl, h.rg, h.sigma, h.weight⟩
  | step u =>
    have hg : ∀ x, ((s.op (.step u)).get x).rg = (s.get x).rg ∧ ((s.op (.step u)).get x).shape = (s.get x).shape := by
      intro x
      show (if _ then _ else _ : Par C).rg = _ ∧ (if _ then _ else _ : Par C).shape = _
      split <;> exact ⟨rfl, rfl⟩
    exact ⟨h.wf.op _, h.lev, h.spl, fun x => (hg x).1.trans (h.rg x), (hg _).2.trans h.sigma, (hg _).2.trans h.weight⟩

end inv

theorem init_inv (level samp sigT primal lssvm : Bool) (empty : C) (sh : ℕ × ℕ) (X σ : C) :
    Inv level samp sigT (St.init level samp sigT primal lssvm empty sh X σ) :=
  ⟨init_WF .., rfl, rfl, fun x => by cases x <;> rfl, rfl, rfl⟩

/-- C114: whatever is assigned, and whatever the optimiser does, each attribute requires a gradient as the options of the level say (never the bias), the bandwidth is one number, and the
attribute `_weight` that an LS-SVM in primal hands over is empty. -/
theorem C114_trainable (level samp sigT primal lssvm : Bool) (empty : C) (sh : ℕ × ℕ) (X σ : C) (os : List (Op C)) :
    let s := (St.init level samp sigT primal lssvm empty sh X σ).run os
    (∀ x, (s.get x).rg = match x with | .dual | .primal | .weight => level | .sample => samp | .sigma => sigT | .bias => false) ∧
    (s.get .sigma).shape = (1, 1) ∧ (s.get .weight).shape = (0, 0) := by
  have key : ∀ (os : List (Op C)) (s : St C), Inv level samp sigT s → Inv level samp sigT (s.run os) := by
    intro os
    induction os with
    | nil => exact fun s h => h
    | cons o os ih => exact fun s h => ih _ (h.op o)
  have h := key os _ (init_inv level samp sigT primal lssvm empty sh X σ)
  exact ⟨fun x => by rw [h.rg x]; cases x <;> rfl, h.sigma, h.weight⟩

/-- C114: what is read after an assignment, for every history before: what has been assigned, nothing after `None` or another dimension; the parameters in primal survive `None`
(only `_weight`, which nobody else reads, is emptied). -/
theorem C114_assigned (level samp sigT primal lssvm : Bool) (empty : C) (sh : ℕ × ℕ) (X σ : C) (os : List (Op C)) (sh' : ℕ × ℕ) (c : C) (m : ℕ) :
    let s := (St.init level samp sigT primal lssvm empty sh X σ).run os
    (((s.op (.dual sh' c)).get .dual).shape = sh' ∧ ((s.op (.dual sh' c)).get .dual).content = c) ∧
    ((s.op .noDual).get .dual).full = false ∧ ((s.op .noPrimal).get .dual).full = false ∧ ((s.op .dim).get .dual).full = false ∧
    ((s.op (.primal sh' c)).get .dual).full = false ∧
    (((s.op (.bias m c)).get .bias).shape = (1, m) ∧ ((s.op (.bias m c)).get .bias).content = c) ∧
    ((s.op (.initSample sh' c)).get .sample).shape = sh' ∧ ((s.op (.initSample sh' c)).get .sample).content = c ∧ ((s.op (.sigma c)).get .sigma).content = c ∧
    (s.op .noPrimal).get .primal = s.get .primal ∧ (s.op .noDual).get .primal = s.get .primal ∧ (s.op .dim).get .primal = s.get .primal := by
  intro s
  have h : s.WF := (init_WF ..).run os
  have hd : s.resetDual.WF := h.put _ _
  have hp : s.resetPrimal.WF := h.put _ _
  have hdual : ∀ q : St C, q.WF → (q.resetPrimal).get .dual = q.get .dual := fun q hq => get_put_ne hq (by simp) _
  have e0 : (s.resetDual.get .dual).full = false := by
    unfold St.resetDual; rw [get_put_self]; rfl
  refine ⟨?_, ?_, ?_, ?_, ?_, ?_, ?_, ?_, ?_, ?_, ?_, ?_⟩
  · show ((s.setDual sh' c).get .dual).shape = sh' ∧ _
    have hq : (s.setDual sh' c).get .dual = (if (s.get .dual).full ∧ sh' = (s.get .dual).shape then s.write .dual sh' c else s.put .dual ⟨sh', c, s.level⟩).get .dual := by
      unfold St.setDual
      refine hdual _ ?_
      split
      · exact h.write _ _ _
      · exact h.put _ _
    rw [show s.op (.dual sh' c) = s.setDual sh' c from rfl, hq]
    split
    · rw [get_write_self]; exact ⟨rfl, rfl⟩
    · rw [get_put_self]; exact ⟨rfl, rfl⟩
  · show (s.resetDual.resetPrimal.get .dual).full = false
    rw [hdual _ hd]; exact e0
  · show (s.resetDual.resetPrimal.get .dual).full = false
    rw [hdual _ hd]; exact e0
  · show (s.resetPrimal.resetDual.get .dual).full = false
    unfold St.resetDual; rw [get_put_self]; rfl
  · show ((s.setPrimal sh' c).get .dual).full = false
    unfold St.setPrimal
    simp only
    split
    · split
      · rw [get_write_ne hd (by simp)]; exact e0
      · exact e0
    · rw [get_put_ne hd (by simp)]; exact e0
  · show ((if _ then _ else _ : St C).get .bias).shape = _ ∧ ((if _ then _ else _ : St C).get .bias).content = _
    split
    · rw [get_write_self]; exact ⟨rfl, rfl⟩
    · rw [get_put_self]; exact ⟨rfl, rfl⟩
  · show ((s.put .sample _).get .sample).shape = _
    rw [get_put_self]
  · show ((s.put .sample _).get .sample).content = _
    rw [get_put_self]
  · show ((s.write .sigma _ c).get .sigma).content = _
    rw [get_write_self]
  · show s.resetDual.resetPrimal.get .primal = _
    exact (get_put_ne hd (by simp) _).trans (get_put_ne h (by simp) _)
  · show s.resetDual.resetPrimal.get .primal = _
    exact (get_put_ne hd (by simp) _).trans (get_put_ne h (by simp) _)
  · show s.resetPrimal.resetDual.get .primal = _
    exact (get_put_ne hp (by simp) _).trans (get_put_ne h (by simp) _)

/-- C114: a level without given parameters has none. -/
theorem C114_start (level samp sigT primal lssvm : Bool) (empty : C) (sh : ℕ × ℕ) (X σ : C) (x : Slot) :
    (((St.init level samp sigT primal lssvm empty sh X σ).get x).full = true ↔ x = .sigma ∨ x = .sample ∧ sh.1 * sh.2 ≠ 0) := by
  cases x <;> simp [St.init, St.get, Par.full]

example : ((St.init true true true false false 0 (3, 2) (1 : ℕ) 4).run [.dual (2, 3) 7, .optimiser, .step fun _ c => c + 1, .noPrimal, .primal (2, 2) 5]).get .primal = ⟨(2, 2), 5, true⟩ ∧
    (((St.init true true true false false 0 (3, 2) (1 : ℕ) 4).run [.dual (2, 3) 7, .optimiser, .step fun _ c => c + 1, .noPrimal, .primal (2, 2) 5]).get .dual).full = false := by
  constructor <;> rfl

end Handles
end Kerch
