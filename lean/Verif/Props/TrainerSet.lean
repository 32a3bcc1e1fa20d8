import Verif.Model.TrainerSet
import Mathlib.Data.List.Induction
import Mathlib.Tactic.Ring
/-!
# C165: the settings of a trainer
-/
set_option linter.unusedSectionVars false
set_option linter.unusedSimpArgs false
namespace Kerch
namespace TrainerSet

/-! ## Specification -/

/-- The values a setting is documented to take, as far as they are checked. -/
def Accepted : Key → PyVal → Prop
  | .problem, v => v = .str "regression"
  | .epochs, v => (∃ z : Int, 0 < z ∧ v = .int z) ∨ ∃ (p : Int) (q : Nat), 0 < p ∧ v = .frac p q
  | _, _ => True

/-- The value of a setting after a history: the last one that was accepted, the one of the beginning if there is none. -/
def Current (k : Key) (v0 : PyVal) (ops : List Op) (v : PyVal) : Prop :=
  (∃ pre post, ops = pre ++ .set k v :: post ∧ Accepted k v ∧ ∀ w, Op.set k w ∈ post → ¬ Accepted k w) ∨ (v = v0 ∧ ∀ w, Op.set k w ∈ ops → ¬ Accepted k w)

/-- A setting is accepted exactly if its value is. -/
theorem check_iff (k : Key) (v : PyVal) : check k v = .ok () ↔ Accepted k v := by
  cases k <;> cases v <;> simp [check, checkProblem, checkEpochs, Accepted]
  case problem.str s =>
    by_cases h : s = "regression"
    · simp [h]
    · by_cases h' : s = "classification" <;> simp [h, h']

theorem set_ok {s : St} {k : Key} {v : PyVal} (h : Accepted k v) : s.set k v = (.ok (), { s with vals := fun k' => if k' = k then v else s.vals k' }) := by
  unfold St.set; rw [(check_iff k v).2 h]

theorem set_refused {s : St} {k : Key} {v : PyVal} (h : ¬ Accepted k v) : ∃ e, check k v = .error e ∧ s.set k v = (.error e, s) := by
  cases hc : check k v with
  | ok u => exact absurd ((check_iff k v).1 hc) h
  | error e => exact ⟨e, rfl, by unfold St.set; rw [hc]⟩

theorem fit_vals (has : Key → Bool) (f : Option Fault) (s : St) : (s.fit has f).2.vals = s.vals := by
  unfold St.fit
  rcases f with _ | ⟨e⟩ | ⟨e⟩ | ⟨b, e⟩ <;> simp only <;> cases s.vals .epochs <;> rfl

theorem run_snoc (has : Key → Bool) (s : St) (ops : List Op) (o : Op) : s.run has (ops ++ [o]) = (s.run has ops).step has o := by
  unfold St.run; rw [List.foldl_append]; rfl

theorem current_snoc_other {k : Key} {v0 v : PyVal} {ops : List Op} {o : Op} (h : Current k v0 ops v) (ho : ∀ w, o = .set k w → ¬ Accepted k w) : Current k v0 (ops ++ [o]) v := by
  rcases h with ⟨pre, post, rfl, ha, hn⟩ | ⟨rfl, hn⟩
  · refine Or.inl ⟨pre, post ++ [o], by simp, ha, fun w hw => ?_⟩
    rcases List.mem_append.1 hw with hw | hw
    · exact hn w hw
    · exact ho w (List.mem_singleton.1 hw).symm
  · refine Or.inr ⟨rfl, fun w hw => ?_⟩
    rcases List.mem_append.1 hw with hw | hw
    · exact hn w hw
    · exact ho w (List.mem_singleton.1 hw).symm

/-! ## Properties -/

/-- **C165** After any history of assignments (accepted or refused), fits (returning or raising) and changes of the mode, every setting has the value last accepted. -/
theorem C165_current (has : Key → Bool) (s : St) (ops : List Op) (k : Key) : Current k (s.vals k) ops ((s.run has ops).vals k) := by
  induction ops using List.reverseRecOn with
  | nil => exact Or.inr ⟨rfl, fun _ h => absurd h (by simp)⟩
  | append_singleton ops o ih =>
    rw [run_snoc]
    cases o with
    | set k' v =>
      simp only [St.step]
      by_cases ha : Accepted k' v
      · rw [set_ok ha]
        by_cases hk : k = k'
        · subst hk
          simp only [if_true]
          exact Or.inl ⟨ops, [], rfl, ha, fun _ h => absurd h (by simp)⟩
        · simp only [if_neg hk]
          exact current_snoc_other ih fun w hw => by cases hw; exact absurd rfl hk
      · obtain ⟨e, -, h⟩ := set_refused (s := s.run has ops) ha
        rw [h]
        exact current_snoc_other ih fun w hw => by cases hw; exact ha
    | fit f =>
      simp only [St.step, fit_vals]
      exact current_snoc_other ih fun w hw => by cases hw
    | mode b => exact current_snoc_other ih fun w hw => by cases hw

/-- The value last accepted is unique. -/
theorem C165_unique {k : Key} {v0 v v' : PyVal} {ops : List Op} (h : Current k v0 ops v) (h' : Current k v0 ops v') : v = v' := by
  induction ops using List.reverseRecOn with
  | nil =>
    rcases h with ⟨pre, post, e, -⟩ | ⟨rfl, -⟩
    · simp at e
    · rcases h' with ⟨pre, post, e, -⟩ | ⟨rfl, -⟩
      · simp at e
      · rfl
  | append_singleton ops o ih =>
    have back : ∀ {u}, Current k v0 (ops ++ [o]) u → (o = .set k u ∧ Accepted k u) ∨ ((∀ w, o = .set k w → ¬ Accepted k w) ∧ Current k v0 ops u) := by
      intro u hu
      rcases hu with ⟨pre, post, e, ha, hn⟩ | ⟨rfl, hn⟩
      · rcases List.eq_nil_or_concat post with rfl | ⟨post, o', rfl⟩
        · have := List.append_inj' e rfl
          exact Or.inl ⟨by simpa using this.2, ha⟩
        · rw [List.concat_eq_append] at e hn
          have e' : ops ++ [o] = (pre ++ .set k u :: post) ++ [o'] := by rw [e]; simp
          obtain ⟨rfl, h2⟩ := List.append_inj' e' rfl
          cases h2
          exact Or.inr ⟨fun w hw => hn w (by rw [hw]; simp), Or.inl ⟨pre, post, rfl, ha, fun w hw => hn w (List.mem_append_left _ hw)⟩⟩
      · exact Or.inr ⟨fun w hw => hn w (by rw [hw]; simp), Or.inr ⟨rfl, fun w hw => hn w (List.mem_append_left _ hw)⟩⟩
    rcases back h with ⟨e, ha⟩ | ⟨hn, h1⟩
    · rcases back h' with ⟨e', -⟩ | ⟨hn', -⟩
      · rw [e] at e'; cases e'; rfl
      · exact absurd ha (hn' v e)
    · rcases back h' with ⟨e', ha'⟩ | ⟨-, h1'⟩
      · exact absurd ha' (hn v' e')
      · exact ih h1 h1'

/-- **C165** An assignment is accepted exactly for the documented values, then it changes this setting alone; a refused one raises and changes nothing. Nothing else than `fit` changes the model. -/
theorem C165_set (s : St) (k : Key) (v : PyVal) :
    ((s.set k v).1 = .ok () ↔ Accepted k v) ∧
    (Accepted k v → (s.set k v).2.vals k = v ∧ (∀ k', k' ≠ k → (s.set k v).2.vals k' = s.vals k') ∧ (s.set k v).2.opt = s.opt ∧ (s.set k v).2.training = s.training ∧ (s.set k v).2.inits = s.inits) ∧
    (¬ Accepted k v → (s.set k v).2 = s) := by
  by_cases ha : Accepted k v
  · rw [set_ok ha]
    exact ⟨⟨fun _ => ha, fun _ => rfl⟩, fun _ => ⟨by simp, fun k' h => by simp [h], rfl, rfl, rfl⟩, fun h => absurd ha h⟩
  · obtain ⟨e, -, h⟩ := set_refused (s := s) ha
    rw [h]
    exact ⟨⟨fun h => (by cases h), fun h => absurd h ha⟩, fun h => absurd h ha, fun _ => rfl⟩

/-- **C165** The constructor accepts exactly the values the setters accept, and the trainer then has the values given, those of the documentation where none is given. -/
theorem C165_construct (given : Key → Option PyVal) :
    ((∃ s, construct given = .ok s) ↔ ∀ k v, given k = some v → Accepted k v) ∧
    ∀ s, construct given = .ok s → (∀ k, s.vals k = (given k).getD (defaults k)) ∧ s.opt = none ∧ s.inits = 0 := by
  have hd : ∀ k, Accepted k (defaults k) := by intro k; cases k <;> simp [Accepted, defaults]
  have hv : ∀ k, Accepted k ((given k).getD (defaults k)) ↔ ∀ v, given k = some v → Accepted k v := by
    intro k
    cases h : given k with
    | none => simp [hd]
    | some v => simp
  have hstep : ∀ (l : List Key) (s : St), ((∃ s', l.foldlM (fun s k => match s.set k ((given k).getD (defaults k)) with
        | (.ok (), s) => Except.ok s
        | (.error e, _) => .error e) s = .ok s') ↔ ∀ k ∈ l, Accepted k ((given k).getD (defaults k))) ∧
      ∀ s', l.foldlM (fun s k => match s.set k ((given k).getD (defaults k)) with
        | (.ok (), s) => Except.ok s
        | (.error e, _) => .error e) s = .ok s' → (∀ k, s'.vals k = if k ∈ l then (given k).getD (defaults k) else s.vals k) ∧ s'.opt = s.opt ∧ s'.inits = s.inits := by
    intro l
    induction l with
    | nil => intro s; exact ⟨⟨fun _ _ h => absurd h (by simp), fun _ => ⟨s, rfl⟩⟩, fun s' h => by cases h; simp⟩
    | cons k l ih =>
      intro s
      rw [List.foldlM_cons]
      by_cases ha : Accepted k ((given k).getD (defaults k))
      · rw [set_ok ha]
        obtain ⟨h1, h2⟩ := ih { s with vals := fun k' => if k' = k then (given k).getD (defaults k) else s.vals k' }
        refine ⟨⟨fun h => ?_, fun h => h1.2 fun k' hk' => h k' (List.mem_cons_of_mem _ hk')⟩, fun s' h => ?_⟩
        · intro k' hk'
          rcases List.mem_cons.1 hk' with rfl | hk'
          · exact ha
          · exact h1.1 h k' hk'
        · obtain ⟨a, b, c⟩ := h2 s' h
          refine ⟨fun k' => ?_, b, c⟩
          rw [a]
          by_cases hm : k' ∈ l
          · simp [hm]
          · by_cases hk : k' = k
            · subst hk; simp [hm]
            · simp [hm, hk]
      · obtain ⟨e, -, h⟩ := set_refused (s := s) ha
        rw [h]
        exact ⟨⟨fun ⟨_, h⟩ => (by cases h), fun h => absurd (h k (List.mem_cons_self ..)) ha⟩, fun s' h => by cases h⟩
  obtain ⟨h1, h2⟩ := hstep [.problem, .epochs, .stiefelLr, .euclideanLr, .slowLr] ⟨defaults, none, true, 0⟩
  have hall : ∀ k : Key, k ∈ [Key.problem, .epochs, .stiefelLr, .euclideanLr, .slowLr] := by intro k; cases k <;> decide
  refine ⟨h1.trans ⟨fun h k => (hv k).1 (h k (hall k)), fun h k _ => (hv k).2 (h k)⟩, fun s hs => ?_⟩
  obtain ⟨a, b, c⟩ := h2 s hs
  exact ⟨fun k => by rw [a, if_pos (hall k)], b, c⟩

/-- **C165** A fit that returns, after any history of a trainer, has done as many epochs as last accepted and used, for the kinds of parameters the model has, the learning rates last accepted, whatever
earlier fits did; the model is then in evaluation mode. -/
theorem C165_fit (has : Key → Bool) (given : Key → Option PyVal) (s : St) (hs : construct given = .ok s) (ops : List Op) (f : Option Fault) (r : Run)
    (h : ((s.run has ops).fit has f).1 = .ok r) :
    Current .epochs (s.vals .epochs) ops (.int r.epochs) ∧ 0 < r.epochs ∧
    (∀ k v, (k, v) ∈ r.lrs → Current k (s.vals k) ops v) ∧
    (∀ k, (k = .euclideanLr ∨ k = .slowLr ∨ k = .stiefelLr) → (has k = true ↔ ∃ v, (k, v) ∈ r.lrs)) ∧
    ((s.run has ops).fit has f).2.training = false := by
  have hc := fun k => C165_current has s ops k
  have h0 : Accepted .epochs (s.vals .epochs) := by
    rw [((C165_construct given).2 s hs).1]
    have := (C165_construct given).1.1 ⟨s, hs⟩ .epochs
    cases hg : given .epochs with
    | none => exact Or.inl ⟨100, by decide, rfl⟩
    | some v => exact this v hg
  have he : Accepted .epochs ((s.run has ops).vals .epochs) := by
    rcases hc .epochs with ⟨_, _, _, ha, _⟩ | ⟨e, _⟩
    · exact ha
    · rw [e]; exact h0
  generalize s.run has ops = t at h hc he
  have hg : ∀ k v, (k, v) ∈ groups has t.vals → t.vals k = v := by
    intro k v hk
    simp only [groups, List.mem_map] at hk
    obtain ⟨k', -, e⟩ := hk
    cases e; rfl
  have hm : ∀ k, (k = .euclideanLr ∨ k = .slowLr ∨ k = .stiefelLr) → (has k = true ↔ ∃ v, (k, v) ∈ groups has t.vals) := by
    intro k hk
    constructor
    · intro hh
      exact ⟨t.vals k, List.mem_map.2 ⟨k, List.mem_filter.2 ⟨by rcases hk with rfl | rfl | rfl <;> decide, hh⟩, rfl⟩⟩
    · rintro ⟨v, hv⟩
      simp only [groups, List.mem_map] at hv
      obtain ⟨k', hk', e⟩ := hv
      cases e
      exact (List.mem_filter.1 hk').2
  have key : ∀ z : Int, t.vals .epochs = .int z → (Except.ok ⟨z.toNat, groups has t.vals⟩ : Except Err Run) = .ok r →
      Current .epochs (s.vals .epochs) ops (.int r.epochs) ∧ 0 < r.epochs ∧ (∀ k v, (k, v) ∈ r.lrs → Current k (s.vals k) ops v) ∧
      (∀ k, (k = .euclideanLr ∨ k = .slowLr ∨ k = .stiefelLr) → (has k = true ↔ ∃ v, (k, v) ∈ r.lrs)) := by
    intro z hz hr
    cases hr
    have hpos : 0 < z := by
      rw [hz] at he
      rcases he with ⟨z', h1, e⟩ | ⟨_, _, _, e⟩
      · cases e; exact h1
      · cases e
    refine ⟨?_, by simp; omega, fun k v hk => by rw [← hg k v hk]; exact hc k, hm⟩
    have : ((z.toNat : Nat) : Int) = z := Int.toNat_of_nonneg hpos.le
    simp only [this, ← hz]
    exact hc .epochs
  unfold St.fit at h ⊢
  rcases f with _ | ⟨e⟩ | ⟨e⟩ | ⟨b, e⟩
  · simp only at h ⊢
    cases hz : t.vals .epochs with
    | int z =>
      rw [hz] at h
      obtain ⟨a, b, c, d⟩ := key z hz h
      exact ⟨a, b, c, d, rfl⟩
    | frac p q => rw [hz] at h; cases h
    | str u => rw [hz] at h; cases h
    | other => rw [hz] at h; cases h
  · cases h
  · simp only at h
    cases hz : t.vals .epochs <;> rw [hz] at h <;> cases h
  · simp only at h
    cases hz : t.vals .epochs <;> rw [hz] at h <;> cases h

/-- **C165** A fit returns exactly if nothing goes wrong in the initialisation, the watcher and the loop and the number of epochs is an integer. -/
theorem C165_returns (has : Key → Bool) (s : St) (f : Option Fault) : (∃ r, (s.fit has f).1 = .ok r) ↔ f = none ∧ ∃ z, s.vals .epochs = .int z := by
  unfold St.fit
  rcases f with _ | ⟨e⟩ | ⟨e⟩ | ⟨b, e⟩ <;> simp only <;> cases hz : s.vals .epochs <;> simp

/-- **C165** Whatever a fit does, it leaves the settings as they are. -/
theorem C165_settings_kept (has : Key → Bool) (s : St) (f : Option Fault) : (s.fit has f).2.vals = s.vals := fit_vals has f s

/-- **C165 is violated** ("what is accepted can be used"): a number of epochs that is not an integer is accepted and every fit then raises a `TypeError`, after having initialised the model anew, which is
left in training mode. -/
theorem C165_epochs_violated (has : Key → Bool) (s : St) (p : Int) (hp : 0 < p) (q : Nat) :
    (s.set .epochs (.frac p q)).1 = .ok () ∧ ((s.set .epochs (.frac p q)).2.fit has none).1 = .error .typeError ∧
    ((s.set .epochs (.frac p q)).2.fit has none).2.inits = s.inits + 1 ∧ ((s.set .epochs (.frac p q)).2.fit has none).2.training = true := by
  rw [set_ok (show Accepted .epochs (.frac p q) from Or.inr ⟨p, q, hp, rfl⟩)]
  simp [St.fit]

/-- **C165 is violated** ("a fit that raises has no effect"): if the watcher or a step raises, the model has been initialised anew and is left in training mode, also if it was in evaluation mode. -/
theorem C165_mode_violated (has : Key → Bool) (s : St) (z : Int) (hz : s.vals .epochs = .int z) (f : Fault) (e : Err) (hf : f = .watcher e ∨ f = .loop false e) :
    (s.fit has (some f)).1 = .error e ∧ (s.fit has (some f)).2.training = true ∧ (s.fit has (some f)).2.inits = s.inits + 1 ∧ (s.fit has (some f)).2.opt = some (groups has s.vals) := by
  rcases hf with rfl | rfl <;> simp [St.fit, hz]

/-- **C165 is violated** ("values that cannot be used are refused"): every value is accepted for a learning rate, also a negative one or none at all, and is the one of the group of the optimiser. -/
theorem C165_lr_violated (has : Key → Bool) (s : St) (k : Key) (hk : k = .euclideanLr ∨ k = .slowLr ∨ k = .stiefelLr) (hh : has k = true) (v : PyVal) (z : Int) (hz : s.vals .epochs = .int z) :
    (s.set k v).1 = .ok () ∧ ∃ r, ((s.set k v).2.fit has none).1 = .ok r ∧ (k, v) ∈ r.lrs := by
  have ha : Accepted k v := by rcases hk with rfl | rfl | rfl <;> trivial
  rw [set_ok ha]
  have hne : ¬ Key.epochs = k := by rcases hk with rfl | rfl | rfl <;> decide
  refine ⟨rfl, ⟨z.toNat, groups has fun k' => if k' = k then v else s.vals k'⟩, ?_, ?_⟩
  · simp [St.fit, hne, hz]
  · exact List.mem_map.2 ⟨k, List.mem_filter.2 ⟨by rcases hk with rfl | rfl | rfl <;> decide, hh⟩, by simp⟩

/-! ## Cases -/

/-- A trainer with 5 epochs and a slow learning rate of 1/2. -/
def five : Key → Option PyVal
  | .epochs => some (.int 5)
  | .slowLr => some (.frac 1 2)
  | _ => none

theorem five_ok : ∃ s, construct five = .ok s := by
  rw [(C165_construct five).1]
  intro k v h
  cases k <;> simp [five] at h <;> subst h
  · exact Or.inl ⟨5, by decide, rfl⟩
  · trivial

/-- A history with refused assignments and a fit that raises: the next fit does 7 epochs. -/
def hist : List Op := [.set .epochs (.int 7), .set .epochs (.int 0), .set .epochs (.str "9"), .fit (some (.loop false .runtimeError)), .set .problem (.str "classification"), .set .slowLr (.int 3)]

example : ∃ s r, construct five = .ok s ∧ ((s.run (fun k => k == .slowLr) hist).fit (fun k => k == .slowLr) none).1 = .ok r ∧ r.epochs = 7 ∧ r.lrs = [(.slowLr, .int 3)] := ⟨_, _, rfl, rfl, rfl, rfl⟩

example : ∃ s, construct five = .ok s ∧ (s.run (fun _ => true) hist).training = true ∧ (s.run (fun _ => true) hist).inits = 1 ∧
    (s.run (fun _ => true) hist).opt = some [(.euclideanLr, .frac 1 1000), (.slowLr, .frac 1 2), (.stiefelLr, .frac 1 1000)] := ⟨_, rfl, rfl, rfl, rfl⟩

example : construct (fun k => if k = .epochs then some (.int 0) else none) = .error .assertionError := rfl
example : construct (fun k => if k = .problem then some (.str "classification") else none) = .error .notImplemented := rfl

/-- The first of two refused values is raised. -/
example : construct (fun k => if k = .problem then some (.str "x") else if k = .epochs then some .other else none) = .error .assertionError := rfl

example : ∃ s, construct five = .ok s ∧ (s.set .epochs (.frac 5 2)).1 = .ok () ∧ ((s.set .epochs (.frac 5 2)).2.fit (fun _ => true) none).1 = .error .typeError :=
  let ⟨s, h⟩ := five_ok
  ⟨s, h, (C165_epochs_violated (fun _ => true) s 5 (by decide) 2).1, (C165_epochs_violated (fun _ => true) s 5 (by decide) 2).2.1⟩

example : ∃ s, construct five = .ok s ∧ ((s.fit (fun _ => true) (some (.watcher .attributeError))).1 = .error .attributeError) ∧ (s.fit (fun _ => true) (some (.watcher .attributeError))).2.training = true :=
  ⟨_, rfl, rfl, rfl⟩

example : ∃ s, construct five = .ok s ∧ (s.set .slowLr (.int (-1))).1 = .ok () := ⟨_, rfl, rfl⟩

end TrainerSet
end Kerch
