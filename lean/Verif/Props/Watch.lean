import Verif.Model.Watch
import Verif.Props.HParams
/-!
# C126: watched properties
-/
set_option linter.unusedSectionVars false
set_option linter.unusedSimpArgs false
namespace Kerch
namespace Watch
open HParams

variable {V : Type}

/-! ## Helper lemmas -/

theorem readFrom_spec (w : World V) (l : Lvl V) : ∀ (ns : List Name) (p d : Dict Name (Val V)), p.WF → readFrom w l p ns = .ok d →
    d.WF ∧ ∀ n, d.find n = if n ∈ ns then (match getattr w l n with | .ok v => some (detached w l.cpu v) | .error _ => none) else p.find n
  | [], p, d, wp, h => by
    simp only [readFrom, Except.ok.injEq] at h
    subst h; exact ⟨wp, fun n => by simp⟩
  | m :: ns, p, d, wp, h => by
    unfold readFrom at h
    cases hg : getattr w l m with
    | error e => rw [hg] at h; simp at h
    | ok v =>
      rw [hg] at h
      obtain ⟨wd, hd⟩ := readFrom_spec w l ns _ d (wp.set m _) h
      refine ⟨wd, fun n => ?_⟩
      rw [hd n, Dict.find_set]
      by_cases hn : n ∈ ns
      · simp [hn]
      · by_cases hm : n = m
        · subst hm; simp [hn, hg]
        · simp [hn, hm, Ne.symm hm]

theorem readFrom_error (w : World V) (l : Lvl V) : ∀ (ns : List Name) (p : Dict Name (Val V)) (e : Err), readFrom w l p ns = .error e →
    ∃ n ∈ ns, getattr w l n = .error e
  | [], p, e, h => by simp [readFrom] at h
  | m :: ns, p, e, h => by
    unfold readFrom at h
    cases hg : getattr w l m with
    | error e' => rw [hg] at h; simp only [Except.error.injEq] at h; subst h; exact ⟨m, by simp, hg⟩
    | ok v =>
      rw [hg] at h
      obtain ⟨n, hn, he⟩ := readFrom_error w l ns _ e h
      exact ⟨n, by simp [hn], he⟩

theorem readFrom_ok (w : World V) (l : Lvl V) : ∀ (ns : List Name) (p : Dict Name (Val V)), (∀ n ∈ ns, ∃ v, getattr w l n = .ok v) →
    ∃ d, readFrom w l p ns = .ok d
  | [], p, _ => ⟨p, rfl⟩
  | m :: ns, p, h => by
    obtain ⟨v, hv⟩ := h m (by simp)
    unfold readFrom
    rw [hv]
    exact readFrom_ok w l ns _ fun n hn => h n (by simp [hn])

/-- The operation is not a change of a list by its owner. -/
def Op.notEdit : Op V → Prop
  | .edit _ _ => False
  | _ => True

/-- The operation does not write the storage. -/
def Op.spares (loc : Nat) : Op V → Prop
  | .write j _ => j ≠ loc
  | _ => True

/-- Every watched name is an attribute. -/
def Known (s : St V) : Prop := ∀ l ∈ s.levels, ∀ n ∈ s.world.lists l.watch, (l.attr n).isSome

theorem mem_modify {α : Type} (f : α → α) : ∀ (ls : List α) (i : Nat) (x : α), x ∈ ls.modify i f → x ∈ ls ∨ ∃ y ∈ ls, x = f y
  | [], i, x, h => by simp at h
  | a :: ls, 0, x, h => by
    simp only [List.modify_zero_cons, List.mem_cons] at h
    rcases h with rfl | h
    · exact .inr ⟨a, by simp, rfl⟩
    · exact .inl (by simp [h])
  | a :: ls, i + 1, x, h => by
    simp only [List.modify_succ_cons, List.mem_cons] at h
    rcases h with rfl | h
    · exact .inl (by simp)
    · rcases mem_modify f ls i x h with h | ⟨y, hy, rfl⟩
      · exact .inl (by simp [h])
      · exact .inr ⟨y, by simp [hy], rfl⟩

theorem setWatch_known (w : World V) (a : Arg) (l : Lvl V) (h : ∀ n ∈ w.lists l.watch, (l.attr n).isSome) :
    ∀ n ∈ w.lists (setWatch w a l).2.watch, ((setWatch w a l).2.attr n).isSome := by
  cases a with
  | other => exact h
  | list r =>
    unfold setWatch
    dsimp only
    split
    · rename_i hr
      exact fun n hn => List.all_eq_true.1 hr n hn
    · exact h

theorem known_step (s : St V) (o : Op V) (ho : o.notEdit) (h : Known s) : Known (step s o) := by
  cases o with
  | edit r ns => exact absurd ho id
  | write loc v => exact h
  | assign i a =>
    intro l hl
    rcases mem_modify _ _ _ _ hl with hl | ⟨y, hy, rfl⟩
    · exact h l hl
    · exact setWatch_known s.world a y (h y hy)
  | bind i m f =>
    intro l hl
    rcases mem_modify _ _ _ _ hl with hl | ⟨y, hy, rfl⟩
    · exact h l hl
    · intro n hn
      dsimp only
      split
      · rfl
      · exact h y hy n hn

theorem known_run : ∀ (ops : List (Op V)) (s : St V), (∀ o ∈ ops, o.notEdit) → Known s → Known (run s ops)
  | [], s, _, h => h
  | o :: ops, s, ho, h => known_run ops (step s o) (fun p hp => ho p (by simp [hp])) (known_step s o (ho o (by simp)) h)

theorem mem_run (loc : Nat) : ∀ (ops : List (Op V)) (s : St V), (∀ o ∈ ops, o.spares loc) → (run s ops).world.mem loc = s.world.mem loc
  | [], s, _ => rfl
  | o :: ops, s, ho => by
    refine (mem_run loc ops (step s o) fun p hp => ho p (by simp [hp])).trans ?_
    have := ho o (by simp)
    cases o with
    | write j v => exact if_neg (Ne.symm this)
    | _ => rfl

/-! ## Properties -/

/-- The value that a name of a level has now, as the user would read it. -/
def now (w : World V) (l : Lvl V) (n : Name) (v : V) : Prop := ∃ f x, l.attr n = some f ∧ f w = .ok x ∧ shown w x = v

/-- **C126** Assigning the names to be watched is refused exactly when they are not in a list or one of them is not an attribute of the level, and a level that refuses keeps
those it had. -/
theorem C126_refused (w : World V) (a : Arg) (l : Lvl V) :
    ((setWatch w a l).1 = .error .assertionError ↔ a = .other ∨ ∃ r, a = .list r ∧ ∃ n ∈ w.lists r, l.attr n = none) ∧
    (∀ e, (setWatch w a l).1 = .error e → e = .assertionError ∧ (setWatch w a l).2 = l) ∧
    (∀ r, a = .list r → (setWatch w a l).1 = .ok () → (setWatch w a l).2 = { l with watch := r }) := by
  cases a with
  | other => simp [setWatch]
  | list r =>
    unfold setWatch
    dsimp only
    split
    · rename_i h
      refine ⟨⟨fun h' => by simp at h', ?_⟩, fun e h' => by simp at h', fun r' hr _ => by cases hr; rfl⟩
      rintro (h' | ⟨r', hr, n, hn, hn'⟩)
      · simp at h'
      · cases hr
        have := List.all_eq_true.1 h n hn
        rw [hn'] at this; simp at this
    · rename_i h
      refine ⟨⟨fun _ => .inr ⟨r, rfl, ?_⟩, fun _ => rfl⟩, fun e h' => by simp at h'; exact ⟨h'.symm, rfl⟩, fun r' hr h' => by simp at h'⟩
      simp only [List.all_eq_true, not_forall] at h
      obtain ⟨n, hn, h⟩ := h
      exact ⟨n, hn, by simpa using h⟩

/-- **C126** The report of a model: every watched name of every level is found under its level, with the value it has at that moment, and nothing else is. -/
theorem C126_report (w : World V) (levels : List (Lvl V)) (d : Dict Name (Val V)) (h : modelWatched w levels = .ok d) :
    (∀ (i : Nat) (hi : i < levels.length) (n : Name), n ∈ w.lists (levels[i]).watch →
      ∃ x, d.find (reported i (levels[i]).cls n) = some x ∧ now w levels[i] n (shown w x)) ∧
    (∀ name, (d.find name).isSome → ∃ (i : Nat) (hi : i < levels.length) (n : Name),
      name = reported i (levels[i]).cls n ∧ n ∈ w.lists (levels[i]).watch) := by
  obtain ⟨ds, hds, rfl⟩ := (C99_model_raises _ _).1 h
  have hlen : ds.length = levels.length := by simpa using (congrArg List.length hds).symm
  have hat : ∀ i (hi : i < levels.length), (ds[i]'(hlen ▸ hi)).1 = levels[i].cls ∧ watched w levels[i] = .ok (ds[i]'(hlen ▸ hi)).2 := by
    intro i hi
    have := congrArg (fun l => l[i]?) hds
    simp only [List.getElem?_map, List.getElem?_eq_getElem hi, List.getElem?_eq_getElem (hlen ▸ hi : i < ds.length), Option.map_some, Option.some.injEq,
      Prod.mk.injEq] at this
    exact ⟨this.1.symm, this.2⟩
  have hwf : ∀ l ∈ ds, l.2.WF := by
    intro l hl
    obtain ⟨i, hi, rfl⟩ := List.mem_iff_getElem.1 hl
    exact (readFrom_spec w _ _ _ _ Dict.WF.nil (hat i (hlen ▸ hi)).2).1
  obtain ⟨h1, h2, -, -⟩ := C99_model ds hwf
  have hfind : ∀ i (hi : i < levels.length) (n : Name), Dict.find (ds[i]'(hlen ▸ hi)).2 n =
      if n ∈ w.lists (levels[i]).watch then (match getattr w levels[i] n with | .ok v => some (detached w (levels[i]).cpu v) | .error _ => none) else none :=
    fun i hi n => (readFrom_spec w _ _ _ _ Dict.WF.nil (hat i hi).2).2 n
  constructor
  · intro i hi n hn
    have := h1 i (hlen ▸ hi) n
    rw [(hat i hi).1, hfind i hi n, if_pos hn] at this
    have hok : ∃ v, getattr w levels[i] n = .ok v := by
      by_contra hne
      have hw := (hat i hi).2
      have : ∀ (ns : List Name) (p : Dict Name (Val V)), n ∈ ns → ∀ d, readFrom w levels[i] p ns ≠ .ok d := by
        intro ns
        induction ns with
        | nil => intro p h; simp at h
        | cons m ns ih =>
          intro p hm d
          unfold readFrom
          cases hg : getattr w levels[i] m with
          | error e => simp
          | ok v =>
            rcases List.mem_cons.1 hm with rfl | hm
            · exact absurd ⟨v, hg⟩ hne
            · exact ih _ hm d
      exact this _ _ hn _ hw
    obtain ⟨v, hv⟩ := hok
    rw [hv] at this
    refine ⟨_, this, ?_⟩
    unfold getattr at hv
    cases hf : (levels[i]).attr n with
    | none => rw [hf] at hv; simp at hv
    | some f =>
      rw [hf] at hv
      refine ⟨f, v, hf, hv, ?_⟩
      cases v with
      | plain v => rfl
      | tensor loc =>
        unfold detached
        dsimp only
        split <;> rfl
  · intro name hname
    obtain ⟨i, hi, key, rfl, hk⟩ := h2 name hname
    refine ⟨i, hlen ▸ hi, key, by rw [(hat i (hlen ▸ hi)).1], ?_⟩
    by_contra hn
    rw [hfind i (hlen ▸ hi) key, if_neg hn] at hk
    simp at hk

/-- **C126** As long as nobody changes a list that was given, whatever is assigned, trained and written, a report fails only with an exception of a watched property itself:
all names watched remain attributes of their level. -/
theorem C126_given_partial (s : St V) (ops : List (Op V)) (ho : ∀ o ∈ ops, o.notEdit) (h : ∀ l ∈ s.levels, ∀ n ∈ s.world.lists l.watch, (l.attr n).isSome)
    (hok : ∀ l ∈ (run s ops).levels, ∀ n ∈ (run s ops).world.lists l.watch, ∀ f, l.attr n = some f → ∃ v, f (run s ops).world = .ok v) :
    ∃ d, modelWatched (run s ops).world (run s ops).levels = .ok d := by
  have hk := known_run ops s ho h
  have hr : ∀ l ∈ (run s ops).levels, ∃ d, watched (run s ops).world l = .ok d := by
    intro l hl
    refine readFrom_ok _ _ _ _ fun n hn => ?_
    obtain ⟨f, hf⟩ := Option.isSome_iff_exists.1 (hk l hl n hn)
    unfold getattr
    rw [hf]
    exact hok l hl n hn f hf
  suffices ∀ ls : List (Lvl V), (∀ l ∈ ls, ∃ d, watched (run s ops).world l = .ok d) →
      ∃ ds : List (List Char × Dict (List Char) (Val V)), (ls.map fun l => (l.cls, watched (run s ops).world l)) = ds.map (fun l => (l.1, .ok l.2)) by
    obtain ⟨ds, hds⟩ := this _ hr
    exact ⟨_, (C99_model_raises _ _).2 ⟨ds, hds, rfl⟩⟩
  intro ls
  induction ls with
  | nil => exact fun _ => ⟨[], rfl⟩
  | cons l ls ih =>
    intro h
    obtain ⟨ds, hds⟩ := ih fun l' hl' => h l' (by simp [hl'])
    obtain ⟨d, hd⟩ := h l (by simp)
    exact ⟨(l.cls, d) :: ds, by simp [hd, hds]⟩

theorem mapM_error {α β : Type} (f : α → Except Err β) (e : Err) : ∀ l : List α, l.mapM f = .error e → ∃ a ∈ l, f a = .error e
  | [], h => by simp [pure, Except.pure] at h
  | a :: l, h => by
    rw [List.mapM_cons] at h
    cases ha : f a with
    | error e' => rw [ha] at h; simp only [bind, Except.bind, Except.error.injEq] at h; subst h; exact ⟨a, by simp, ha⟩
    | ok b =>
      cases hl : l.mapM f with
      | error e' =>
        rw [ha, hl] at h
        simp only [bind, Except.bind, Except.error.injEq] at h
        subst h
        obtain ⟨x, hx, hx'⟩ := mapM_error f e' l hl
        exact ⟨x, by simp [hx], hx'⟩
      | ok bs => rw [ha, hl] at h; simp [bind, Except.bind, pure, Except.pure] at h

/-- **C126** The exception of a report is that of a watched name of one of the levels: `AttributeError` if the level has no such attribute, what the property raises otherwise. -/
theorem C126_raises (w : World V) (levels : List (Lvl V)) (e : Err) (h : modelWatched w levels = .error e) :
    ∃ l ∈ levels, ∃ n ∈ w.lists l.watch, (l.attr n = none ∧ e = .attributeError) ∨ ∃ f, l.attr n = some f ∧ f w = .error e := by
  unfold modelWatched modelFixed at h
  cases hm : (levels.map fun l => (l.cls, watched w l)).mapM tagged with
  | ok r => rw [hm] at h; simp [Except.map] at h
  | error e' =>
    rw [hm] at h
    simp only [Except.map, Except.error.injEq] at h
    subst h
    obtain ⟨x, hx, he⟩ := mapM_error _ _ _ hm
    obtain ⟨l, hl, rfl⟩ := List.mem_map.1 hx
    refine ⟨l, hl, ?_⟩
    have hw : watched w l = .error e' := by
      unfold tagged at he
      dsimp only at he
      cases hw : watched w l with
      | ok d => rw [hw] at he; simp [Except.map] at he
      | error e2 => rw [hw] at he; simp only [Except.map, Except.error.injEq] at he; rw [he]
    obtain ⟨n, hn, hg⟩ := readFrom_error w l _ _ _ hw
    refine ⟨n, hn, ?_⟩
    unfold getattr at hg
    cases hf : l.attr n with
    | none => rw [hf] at hg; simp only [Except.error.injEq] at hg; exact .inl ⟨rfl, hg.symm⟩
    | some f => rw [hf] at hg; exact .inr ⟨f, rfl, hg⟩

/-- **C126** violated: a name put into the list after it was given is not verified, and one name that is not an attribute makes the report of the whole model, other levels
included, an `AttributeError`, even if every property can be read. -/
theorem C126_given_violated (s : St V) (i : Nat) (hi : i < s.levels.length) (n : Name) (ns : List Name) (hns : n ∈ ns) (hn : (s.levels[i]).attr n = none)
    (hall : ∀ l ∈ s.levels, ∀ m f, l.attr m = some f → ∀ w, ∃ v, f w = .ok v) :
    modelWatched (step s (.edit (s.levels[i]).watch ns)).world (step s (.edit (s.levels[i]).watch ns)).levels = .error .attributeError := by
  cases h : modelWatched (step s (.edit (s.levels[i]).watch ns)).world (step s (.edit (s.levels[i]).watch ns)).levels with
  | error e =>
    obtain ⟨l, hl, m, -, ⟨-, rfl⟩ | ⟨f, hf, he⟩⟩ := C126_raises _ _ _ h
    · rfl
    · obtain ⟨v, hv⟩ := hall l hl m f hf _
      rw [hv] at he; simp at he
  | ok d =>
    exfalso
    obtain ⟨h1, -⟩ := C126_report _ _ _ h
    obtain ⟨x, -, f, y, hf, -, -⟩ := h1 i hi n (by simpa [step] using hns)
    have : ((step s (.edit (s.levels[i]).watch ns)).levels[i]'hi).attr n = none := hn
    rw [this] at hf
    simp at hf

/-- **C126** What was reported remains what it was, whatever happens next, as long as no tensor of it is written in place; for a level that is not on the cpu, no condition is
needed. -/
theorem C126_moment_partial (s : St V) (d : Dict Name (Val V)) (h : modelWatched s.world s.levels = .ok d) (name : Name) (x : Val V) (hx : d.find name = some x)
    (ops : List (Op V)) :
    ((∀ loc, x = .tensor loc → ∀ o ∈ ops, o.spares loc) → shown (run s ops).world x = shown s.world x) ∧
    (∀ (i : Nat) (hi : i < s.levels.length) (n : Name), name = reported i (s.levels[i]).cls n → (s.levels[i]).cpu = false →
      shown (run s ops).world x = shown s.world x) := by
  constructor
  · intro hs
    cases x with
    | plain v => rfl
    | tensor loc => exact mem_run loc ops s (hs loc rfl)
  · rintro i hi n rfl hc
    suffices ∃ v, x = .plain v by obtain ⟨v, rfl⟩ := this; rfl
    obtain ⟨ds, hds, rfl⟩ := (C99_model_raises _ _).1 h
    have hlen : ds.length = s.levels.length := by simpa using (congrArg List.length hds).symm
    have hat : ∀ i (hi : i < s.levels.length), (ds[i]'(hlen ▸ hi)).1 = s.levels[i].cls ∧ watched s.world s.levels[i] = .ok (ds[i]'(hlen ▸ hi)).2 := by
      intro i hi
      have := congrArg (fun l => l[i]?) hds
      simp only [List.getElem?_map, List.getElem?_eq_getElem hi, List.getElem?_eq_getElem (hlen ▸ hi : i < ds.length), Option.map_some, Option.some.injEq,
        Prod.mk.injEq] at this
      exact ⟨this.1.symm, this.2⟩
    have hwf : ∀ l ∈ ds, l.2.WF := by
      intro l hl
      obtain ⟨i, hi, rfl⟩ := List.mem_iff_getElem.1 hl
      exact (readFrom_spec _ _ _ _ _ Dict.WF.nil (hat i (hlen ▸ hi)).2).1
    have h1 := (C99_model ds hwf).1 i (hlen ▸ hi) n
    rw [(hat i hi).1, hx, (readFrom_spec _ _ _ _ _ Dict.WF.nil (hat i hi).2).2 n] at h1
    split at h1
    · cases hg : getattr s.world s.levels[i] n with
      | error e => rw [hg] at h1; simp at h1
      | ok v =>
        rw [hg] at h1
        simp only [Option.some.injEq] at h1
        rw [h1, hc]
        cases v with
        | plain v => exact ⟨v, rfl⟩
        | tensor loc => exact ⟨_, rfl⟩
    · simp [Dict.find] at h1

/-- **C126** violated: on the cpu the value of a watched tensor (a parameter) that was reported is replaced by each later step of the optimiser: whatever the model, a history of
reports kept by the user shows the last value only. -/
theorem C126_moment_violated (s : St V) (d : Dict Name (Val V)) (h : modelWatched s.world s.levels = .ok d) (i : Nat) (hi : i < s.levels.length)
    (hc : (s.levels[i]).cpu = true) (n : Name) (hn : n ∈ s.world.lists (s.levels[i]).watch) (loc : Nat)
    (ha : (s.levels[i]).attr n = some fun _ => .ok (.tensor loc)) (v : V) :
    ∃ x, d.find (reported i (s.levels[i]).cls n) = some x ∧ shown s.world x = s.world.mem loc ∧ shown (step s (.write loc v)).world x = v := by
  obtain ⟨ds, hds, rfl⟩ := (C99_model_raises _ _).1 h
  have hlen : ds.length = s.levels.length := by simpa using (congrArg List.length hds).symm
  have hat : ∀ i (hi : i < s.levels.length), (ds[i]'(hlen ▸ hi)).1 = s.levels[i].cls ∧ watched s.world s.levels[i] = .ok (ds[i]'(hlen ▸ hi)).2 := by
    intro i hi
    have := congrArg (fun l => l[i]?) hds
    simp only [List.getElem?_map, List.getElem?_eq_getElem hi, List.getElem?_eq_getElem (hlen ▸ hi : i < ds.length), Option.map_some, Option.some.injEq,
      Prod.mk.injEq] at this
    exact ⟨this.1.symm, this.2⟩
  have hwf : ∀ l ∈ ds, l.2.WF := by
    intro l hl
    obtain ⟨i, hi, rfl⟩ := List.mem_iff_getElem.1 hl
    exact (readFrom_spec _ _ _ _ _ Dict.WF.nil (hat i (hlen ▸ hi)).2).1
  have h1 := (C99_model ds hwf).1 i (hlen ▸ hi) n
  rw [(hat i hi).1, (readFrom_spec _ _ _ _ _ Dict.WF.nil (hat i hi).2).2 n, if_pos hn] at h1
  have hg : getattr s.world s.levels[i] n = .ok (.tensor loc) := by unfold getattr; rw [ha]
  rw [hg, hc] at h1
  exact ⟨.tensor loc, h1, rfl, if_pos rfl⟩

/-! ## Examples -/

/-- A level with a parameter `sigma` in storage 0 and a property `twice` computed from it. -/
def exLevel (cpu : Bool) : Lvl Nat :=
  { cls := "KPCA".toList, cpu, watch := 0, attr := fun n => if n = "sigma".toList then some fun _ => .ok (.tensor 0) else
      if n = "twice".toList then some fun w => .ok (.plain (2 * w.mem 0)) else none }

/-- Two such levels that watch both. -/
def exSt (cpu : Bool) : St Nat :=
  { world := { mem := fun _ => 3, lists := fun r => if r = 0 then ["sigma".toList, "twice".toList] else ["nothing".toList] }, levels := [exLevel cpu, exLevel cpu] }

example : (setWatch (exSt true).world (.list 1) (exLevel true)).1 = .error .assertionError :=
  (C126_refused _ _ _).1.2 (.inr ⟨1, rfl, "nothing".toList, by decide, by decide⟩)

theorem exSt_known (cpu : Bool) (ops : List (Op Nat)) (ho : ∀ o ∈ ops, o.notEdit ∧ ∀ i n f, o ≠ .bind i n f) :
    ∀ l ∈ (run (exSt cpu) ops).levels, l.attr = (exLevel cpu).attr := by
  suffices ∀ (ops : List (Op Nat)) (s : St Nat), (∀ o ∈ ops, o.notEdit ∧ ∀ i n f, o ≠ .bind i n f) → (∀ l ∈ s.levels, l.attr = (exLevel cpu).attr) →
      ∀ l ∈ (run s ops).levels, l.attr = (exLevel cpu).attr from
    this ops _ ho (by intro l hl; simp only [exSt, List.mem_cons, List.not_mem_nil, or_false, or_self] at hl; rw [hl])
  intro ops
  induction ops with
  | nil => exact fun s _ h => h
  | cons o ops ih =>
    intro s ho h
    refine ih (step s o) (fun p hp => ho p (by simp [hp])) ?_
    have h0 := ho o (by simp)
    cases o with
    | edit r ns => exact absurd h0.1 id
    | bind i n f => exact absurd rfl (h0.2 i n f)
    | write loc v => exact h
    | assign i a =>
      intro l hl
      rcases mem_modify _ _ _ _ hl with hl | ⟨y, hy, rfl⟩
      · exact h l hl
      · rw [← h y hy]
        cases a with
        | other => rfl
        | list r =>
          unfold setWatch
          dsimp only
          split <;> rfl

example (cpu : Bool) (v : Nat) : ∃ d, modelWatched (run (exSt cpu) [.write 0 v, .assign 1 (.list 1), .assign 0 .other]).world
    (run (exSt cpu) [.write 0 v, .assign 1 (.list 1), .assign 0 .other]).levels = .ok d := by
  refine C126_given_partial (exSt cpu) _ (by simp [Op.notEdit]) ?_ ?_
  · intro l hl n hn
    simp only [exSt, List.mem_cons, List.not_mem_nil, or_false, or_self] at hl
    subst hl
    simp only [exSt, exLevel, if_true, List.mem_cons, List.not_mem_nil, or_false] at hn
    rcases hn with rfl | rfl <;> simp [exLevel]
  · intro l hl n _ f hf
    rw [exSt_known cpu _ (by simp [Op.notEdit]) l hl] at hf
    simp only [exLevel] at hf
    split at hf
    · cases hf; exact ⟨_, rfl⟩
    · split at hf
      · cases hf; exact ⟨_, rfl⟩
      · simp at hf

example : modelWatched (step (exSt true) (.edit 0 ["sigma".toList, "nothing".toList])).world (step (exSt true) (.edit 0 ["sigma".toList, "nothing".toList])).levels =
    .error .attributeError := by
  refine C126_given_violated (exSt true) 1 (by decide) "nothing".toList _ (by decide) (by decide) ?_
  intro l hl m f hf w
  simp only [exSt, List.mem_cons, List.not_mem_nil, or_false, or_self] at hl
  subst hl
  simp only [exLevel] at hf
  split at hf
  · cases hf; exact ⟨_, rfl⟩
  · split at hf
    · cases hf; exact ⟨_, rfl⟩
    · simp at hf

example (d : Dict Name (Val Nat)) (h : modelWatched (exSt true).world (exSt true).levels = .ok d) :
    ∃ x, d.find (reported 1 "KPCA".toList "sigma".toList) = some x ∧ shown (exSt true).world x = 3 ∧ shown (step (exSt true) (.write 0 5)).world x = 5 :=
  C126_moment_violated (exSt true) d h 1 (by decide) rfl "sigma".toList (by decide) 0 (by simp [exSt, exLevel]) 5

end Watch
end Kerch
