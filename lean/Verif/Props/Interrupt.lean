import Verif.Props.Threads
set_option linter.unusedSectionVars false
set_option linter.unusedSimpArgs false
/-!
# C157: calls interrupted at any point

The model is that of Model/Threads: a call interrupted (by `KeyboardInterrupt`, or by an exception raised by a function given to `_get`) is a thread that makes no further step.
-/
namespace Kerch
namespace Threads

variable {σ κ α : Type} [DecidableEq κ]

/-! ## Helper lemmas -/

/-- Nothing has been added and the inputs are as before. -/
def Sub (m m' : Mem σ κ α) : Prop := m'.inp = m.inp ∧ m'.cur = m.cur ∧ ∀ p ∈ m'.dicts m.cur, p ∈ m.dicts m.cur

/-- A thread assigning a hyper-parameter, before it writes. -/
def Before (av : List κ) (u : σ → σ) (t : Th σ κ α) : Prop :=
  t.stack = [] ∧ ((t.calls = [hyperCall av u] ∧ t.code = [] ∧ t.pc = .idle) ∨ (t.calls = [] ∧ t.code = [.purge av false, .write u] ∧ t.pc = .idle) ∨
    (t.calls = [] ∧ t.code = [.write u] ∧ (match t.pc with
      | .idle => True
      | .pkeys _ _ _ => True
      | .pnext _ _ _ => True
      | .ptest _ _ _ _ _ => True
      | .pload _ _ _ _ => True
      | .pfetch _ _ _ _ _ => True
      | .pdel _ _ _ _ => True
      | .ppop _ _ _ _ _ => True
      | _ => False)))

theorem before_step (c : Cfg σ κ α) (av : List κ) (u : σ → σ) (m : Mem σ κ α) (t : Th σ κ α) (h : Before av u t) :
    (Sub m (step c m t).1 ∧ Before av u (step c m t).2) ∨ (step c m t).2.finished := by
  obtain ⟨calls, code, pc, stack, op, log⟩ := t
  obtain ⟨hst, h⟩ := h
  simp only at hst h
  subst hst
  have hsub : Sub m m := ⟨rfl, rfl, fun _ h => h⟩
  have hraise : ∀ (calls : List (List (Instr σ κ α))) (code : List (Instr σ κ α)) (pc : Pc σ κ α) (e : Err), calls = [] →
      (Th.raise (⟨calls, code, pc, [], op, log⟩ : Th σ κ α) e).finished := fun _ _ _ _ h => ⟨h, rfl, rfl⟩
  rcases h with ⟨h1, h2, h3⟩ | ⟨h1, h2, h3⟩ | ⟨h1, h2, h3⟩
  · subst h1 h2 h3
    exact .inl ⟨hsub, rfl, .inr (.inl ⟨rfl, rfl, rfl⟩)⟩
  · subst h1 h2 h3
    exact .inl ⟨hsub, rfl, .inr (.inr ⟨rfl, rfl, trivial⟩)⟩
  · subst h1 h2
    cases pc with
    | idle => exact .inr ⟨rfl, rfl, rfl⟩
    | pkeys av rp d => exact .inl ⟨hsub, rfl, .inr (.inr ⟨rfl, rfl, trivial⟩)⟩
    | pnext av rp ks => cases ks <;> exact .inl ⟨hsub, rfl, .inr (.inr ⟨rfl, rfl, trivial⟩)⟩
    | ptest av rp k ks d =>
      simp only [step]
      split <;> exact .inl ⟨hsub, rfl, .inr (.inr ⟨rfl, rfl, trivial⟩)⟩
    | pload av rp k ks => exact .inl ⟨hsub, rfl, .inr (.inr ⟨rfl, rfl, trivial⟩)⟩
    | pfetch av rp k ks d =>
      simp only [step]
      cases (m.dicts d).find k with
      | none => exact .inr (hraise _ _ _ _ rfl)
      | some e =>
        simp only
        split <;> exact .inl ⟨hsub, rfl, .inr (.inr ⟨rfl, rfl, trivial⟩)⟩
    | pdel av rp k ks => exact .inl ⟨hsub, rfl, .inr (.inr ⟨rfl, rfl, trivial⟩)⟩
    | ppop av rp k ks d =>
      simp only [step]
      split
      · refine .inl ⟨⟨rfl, rfl, fun p hp => ?_⟩, rfl, .inr (.inr ⟨rfl, rfl, trivial⟩)⟩
        simp only [Mem.upd] at hp
        split at hp
        · rename_i e; rw [e]; exact Dict.mem_pop hp
        · exact hp
      · exact .inr (hraise _ _ _ _ rfl)
    | _ => exact absurd h3 id

theorem alone_succ (c : Cfg σ κ α) (n : Nat) (x : Mem σ κ α × Th σ κ α) : alone c (n + 1) x = step c (alone c n x).1 (alone c n x).2 := by
  rw [alone_add]; rfl

theorem before_alone (c : Cfg σ κ α) (av : List κ) (u : σ → σ) (m : Mem σ κ α) (n : Nat) :
    (Sub m (alone c n (m, .start [hyperCall av u])).1 ∧ Before av u (alone c n (m, .start [hyperCall av u])).2) ∨ (alone c n (m, .start [hyperCall av u])).2.finished := by
  induction n with
  | zero => exact .inl ⟨⟨rfl, rfl, fun _ h => h⟩, rfl, .inl ⟨rfl, rfl, rfl⟩⟩
  | succ n ih =>
    rcases ih with ⟨h1, h2⟩ | h
    · rw [alone_succ]
      rcases before_step c av u (alone c n (m, .start [hyperCall av u])).1 _ h2 with ⟨h3, h4⟩ | h3
      · refine .inl ⟨⟨h3.1.trans h1.1, h3.2.1.trans h1.2.1, fun p hp => h1.2.2 p ?_⟩, h4⟩
        have := h3.2.2 p
        rw [h1.2.1] at this
        exact this hp
      · exact .inr h3
    · rw [alone_add, finished_stays c h]
      exact .inr h

theorem hyper_end (c : Cfg σ κ α) (den : κ → σ → α) (av : List κ) (u : σ → σ) (m : Mem σ κ α) (hm : Right den m.inp (m.dicts m.cur)) (ht : Tidy c m)
    (hd : ∀ k, k ∈ av ∨ c.pers k = true → den k (u m.inp) = den k m.inp) :
    ∃ n m' t', alone c n (m, .start [hyperCall av u]) = (m', t') ∧ t'.finished ∧ m'.inp = u m.inp ∧ Right den m'.inp (m'.dicts m'.cur) := by
  obtain ⟨n1, m1, o1, e1, e2, e3, e4, e5⟩ := reset_alone c av [] [.write u] [] none m ht
  refine ⟨1 + (n1 + 1), { m1 with inp := u m1.inp }, ⟨[], [], .idle, [], o1, []⟩, ?_, ⟨rfl, rfl, rfl⟩, by rw [e2], ?_⟩
  · rw [alone_add, alone_add]
    have : alone c 1 (m, Th.start [hyperCall av u]) = (m, ⟨[], [.purge av false, .write u], .idle, [], none, []⟩) := rfl
    rw [this, e1]; rfl
  · intro p hp
    simp only [e3] at hp
    obtain ⟨h1, h2⟩ := e5 p hp
    rw [hm p h1, e2, hd _ h2]

/-! ## C157 -/

/-- An assignment of a hyper-parameter that is interrupted at any point is made or not made: the inputs are the former or the new ones, and all that is in the cache belongs to them. -/
theorem C157_assign (c : Cfg σ κ α) (den : κ → σ → α) (av : List κ) (u : σ → σ) (m : Mem σ κ α) (hm : Right den m.inp (m.dicts m.cur)) (ht : Tidy c m)
    (hd : ∀ k, k ∈ av ∨ c.pers k = true → den k (u m.inp) = den k m.inp) (n : Nat) :
    let m' := ((⟨m, fun _ => .start [hyperCall av u]⟩ : Sys σ κ α).run c (List.replicate n 0)).mem
    (m'.inp = m.inp ∨ m'.inp = u m.inp) ∧ Right den m'.inp (m'.dicts m'.cur) := by
  intro m'
  have hr : m' = (alone c n (m, .start [hyperCall av u])).1 := congrArg Prod.fst (run_alone c 0 n (⟨m, fun _ => .start [hyperCall av u]⟩ : Sys σ κ α))
  rw [hr]
  rcases before_alone c av u m n with ⟨h, -⟩ | h
  · refine ⟨.inl h.1, fun p hp => ?_⟩
    rw [h.2.1] at hp
    rw [h.1]
    exact hm p (h.2.2 p hp)
  · obtain ⟨k, m1, t1, e1, e2, e3, e4⟩ := hyper_end c den av u m hm ht hd
    have := finished_same c h (k := k) (by rw [e1]; exact e2)
    rw [this, e1]
    exact ⟨.inr e3, e4⟩

/-- What the object went through: evaluations, resets and printouts by any number of threads, and assignments of hyper-parameters by one, each time stopped at any point and never resumed. -/
inductive Interrupted (c : Cfg σ κ α) (den : κ → σ → α) : Mem σ κ α → Prop where
  | new (s : σ) : Interrupted c den ⟨s, fun _ => [], 0⟩
  | quiet {m : Mem σ κ α} (calls : Nat → List (List (Instr σ κ α))) (sched : List Nat) : Interrupted c den m → (∀ i, ∀ x ∈ calls i, ∀ j ∈ x, Quiet j) →
      Interrupted c den ((⟨m, fun i => .start (calls i)⟩ : Sys σ κ α).run c sched).mem
  | hyper {m : Mem σ κ α} (av : List κ) (u : σ → σ) (n : Nat) : Interrupted c den m → (∀ k, k ∈ av ∨ c.pers k = true → den k (u m.inp) = den k m.inp) →
      Interrupted c den ((⟨m, fun _ => .start [hyperCall av u]⟩ : Sys σ κ α).run c (List.replicate n 0)).mem

/-- Whatever was interrupted, and wherever, the object remains usable: all later evaluations, by any number of threads, give the values of the inputs it has then, without exception. -/
theorem C157_usable_partial (c : Cfg σ κ α) (den : κ → σ → α) (hs : Sound c den) (m : Mem σ κ α) (h : Interrupted c den m) (ks : Nat → List κ) (sched : List Nat) (i : Nat) :
    let t := ((⟨m, readers ks⟩ : Sys σ κ α).run c sched).th i
    (∃ done rest, ks i = done ++ rest ∧ t.log = done.map fun k => (some k, .ok (den k m.inp))) ∧
      (t.finished → t.log = (ks i).map fun k => (some k, .ok (den k m.inp))) := by
  have hinv : Right den m.inp (m.dicts m.cur) ∧ Tidy c m := by
    induction h with
    | new s => exact ⟨fun p hp => (by cases hp), fun d => ⟨Dict.WF.nil, fun p hp => (by cases hp)⟩⟩
    | @quiet m calls sched _ hq ih =>
      have h1 := (run_ok hs sched ⟨m, fun i => .start (calls i)⟩ (mem_start ih.1) fun i => th_start (hq i)).1
      refine ⟨?_, run_tidy c sched _ ih.2⟩
      rw [h1.inp]
      exact h1.right _ ⟨h1.cur, Nat.lt_succ_self _⟩
    | @hyper m av u n _ hd ih => exact ⟨(C157_assign c den av u m ih.1 ih.2 hd n).2, run_tidy c _ _ ih.2⟩
  exact C156_readers c den hs m hinv.1 ks sched i

/-- Updating the sample is the exception: interrupted between its two parts, it leaves the new sample with elements of the former one, and these are what later evaluations give. -/
theorem C157_sample_violated (c : Cfg σ κ α) (m : Mem σ κ α) (k : κ) (g : σ → α) (hg : Leaf c k g) (u : σ → σ) (hm : (m.dicts m.cur).find k = some (false, g m.inp)) :
    ∃ n n', ∀ S, S = (⟨m, fun _ => .start [sampleCall u]⟩ : Sys σ κ α).run c (List.replicate n 0) →
      S.mem.inp = u m.inp ∧ (∀ den, Sound c den → den k S.mem.inp = g (u m.inp)) ∧ (((ask S k).run c (List.replicate n' 5)).th 5).log = [(some k, .ok (g m.inp))] := by
  refine ⟨2, 7, ?_⟩
  rintro S rfl
  have hk : (m.dicts m.cur).has k = true := by simp [Dict.has, hm]
  simp [Sys.run, Sys.step, step, begin, Th.start, sampleCall, hm, hk, ask, List.replicate]
  exact fun den hs => hg.value hs _

/-! ## Concrete cases -/

example (n : Nat) : ∀ m', m' = ((⟨⟨3, fun _ => [(false, false, 4), (true, false, 16)], 0⟩, fun _ => .start [hyperCall [] (fun _ => 10)]⟩ : Sys Int Bool Int).run exCfg
    (List.replicate n 0)).mem → (m'.inp = 3 ∨ m'.inp = 10) ∧ Right exDen m'.inp (m'.dicts m'.cur) := by
  rintro m' rfl
  exact C157_assign exCfg exDen [] (fun _ => 10) ⟨3, fun _ => [(false, false, 4), (true, false, 16)], 0⟩
    (by intro p hp; simp at hp; rcases hp with rfl | rfl <;> decide)
    (fun d => ⟨by simp [Dict.WF, Dict.keys], fun p hp => by simp at hp; rcases hp with rfl | rfl <;> rfl⟩) (fun k hk => by simp [exCfg] at hk) n

/-- Three threads stopped after ten steps, an assignment stopped after four, before it has written. -/
example : (((⟨((⟨((⟨exMem, readers exKeys⟩ : Sys Int Bool Int).run exCfg (exSched.take 10)).mem, fun _ => .start [hyperCall [] fun _ => 10]⟩ : Sys Int Bool Int).run exCfg
    (List.replicate 4 0)).mem, readers exKeys⟩ : Sys Int Bool Int).run exCfg exSched).th 2).log = [(some false, .ok 4), (some true, .ok 16)] := by
  have h1 := Interrupted.quiet (fun i => (exKeys i).map fun k => [.eval k]) (exSched.take 10) (Interrupted.new (c := exCfg) (den := exDen) 3) (readers_quiet exKeys)
  have h2 := Interrupted.hyper [] (fun _ => 10) 4 h1 (fun k hk => by simp [exCfg] at hk)
  exact ((C157_usable_partial exCfg exDen exSound _ h2 exKeys exSched 2).2 ⟨by decide +kernel, by decide +kernel, by decide +kernel⟩).trans (by decide +kernel)

example : ∃ n n', ∀ S, S = (⟨⟨3, fun _ => [(false, false, 4)], 0⟩, fun _ => .start [sampleCall fun _ => 10]⟩ : Sys Int Bool Int).run exCfg (List.replicate n 0) →
    S.mem.inp = 10 ∧ (((ask S false).run exCfg (List.replicate n' 5)).th 5).log = [(some false, .ok 4)] := by
  obtain ⟨n, n', h⟩ := C157_sample_violated exCfg ⟨3, fun _ => [(false, false, 4)], 0⟩ false (· + 1) rfl (fun _ => 10) rfl
  exact ⟨n, n', fun S hS => ⟨(h S hS).1, (h S hS).2.2⟩⟩

end Threads
end Kerch
