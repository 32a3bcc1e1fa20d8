import Verif.Model.Threads
import Verif.Lemmas.Dict
import Mathlib.Data.Nat.Find
set_option linter.unusedSectionVars false
set_option linter.unusedSimpArgs false
/-!
# C156: one object, several threads
-/
namespace Kerch
namespace Threads

variable {σ κ α : Type} [DecidableEq κ]

/-! ## Specification -/

/-- The value of a function on inputs `s` that do not change, its elements having the values `den`. -/
def value (den : κ → σ → α) (s : σ) : Prog σ κ α → α
  | .ret v => v
  | .read f => value den s (f s)
  | .get k f => value den s (f (den k s))

/-- `den k s` is the element `k` on the inputs `s`. -/
def Sound (c : Cfg σ κ α) (den : κ → σ → α) : Prop := ∀ k s, value den s (c.prog k) = den k s

/-- A dictionary with nothing but right values. -/
def Right (den : κ → σ → α) (s : σ) (D : Dict κ (Bool × α)) : Prop := ∀ p ∈ D, p.2.2 = den p.1 s

/-- No instruction changes the inputs. -/
def Quiet : Instr σ κ α → Prop
  | .write _ => False
  | _ => True

/-- An instruction to come. -/
def Th.todo (t : Th σ κ α) : List (Instr σ κ α) := t.code ++ t.calls.flatten

/-- Between two instructions. -/
def Pc.isIdle : Pc σ κ α → Bool
  | .idle => true
  | _ => false

/-- The thread has made all its calls. -/
def Th.finished (t : Th σ κ α) : Prop := t.calls = [] ∧ t.code = [] ∧ t.pc.isIdle = true

/-- Threads that evaluate the elements `ks i`, one after the other. -/
def readers (ks : Nat → List κ) : Nat → Th σ κ α := fun i => .start ((ks i).map fun k => [.eval k])

/-! ## Helper lemmas -/

theorem mem_set {D : Dict κ (Bool × α)} {k : κ} {v : Bool × α} {p : κ × Bool × α} (h : p ∈ D.set k v) : p = (k, v) ∨ p ∈ D := by
  induction D with
  | nil => simpa [Dict.set] using h
  | cons q t ih =>
    obtain ⟨a, b⟩ := q
    simp only [Dict.set] at h
    split at h
    · rcases List.mem_cons.1 h with h | h
      · subst_vars; exact .inl rfl
      · exact .inr (List.mem_cons_of_mem _ h)
    · rcases List.mem_cons.1 h with h | h
      · exact .inr (h ▸ List.mem_cons_self)
      · rcases ih h with h | h
        · exact .inl h
        · exact .inr (List.mem_cons_of_mem _ h)

theorem run_nil (c : Cfg σ κ α) (S : Sys σ κ α) : S.run c [] = S := rfl

theorem run_cons (c : Cfg σ κ α) (S : Sys σ κ α) (i : Nat) (l : List Nat) : S.run c (i :: l) = (S.step c i).run c l := rfl

theorem run_append (c : Cfg σ κ α) (S : Sys σ κ α) (l l' : List Nat) : S.run c (l ++ l') = (S.run c l).run c l' := by
  simp [Sys.run]

/-- The frames of a thread, the running function being worth `w` and the whole `w0`. -/
def Good (den : κ → σ → α) (s : σ) (w0 : α) : List (κ × (α → Prog σ κ α)) → α → Prop
  | [], w => w = w0
  | (k, f) :: t, w => w = den k s ∧ Good den s w0 t (value den s (f w))

/-- Where the dictionaries in use begin and end. -/
def Within (b n d : Nat) : Prop := b ≤ d ∧ d < n

/-- What holds of a thread at every point, the inputs staying `s`. -/
def PcOk (den : κ → σ → α) (s : σ) (b n : Nat) (op : Option κ) (st : List (κ × (α → Prog σ κ α))) : Pc σ κ α → Prop
  | .prog p => ∃ k0, op = some k0 ∧ Good den s (den k0 s) st (value den s p)
  | .test k d => Within b n d ∧ ∃ k0 f t, op = some k0 ∧ st = (k, f) :: t ∧ Good den s (den k0 s) st (den k s)
  | .load k => ∃ k0 f t, op = some k0 ∧ st = (k, f) :: t ∧ Good den s (den k0 s) st (den k s)
  | .fetch k d => Within b n d ∧ ∃ k0 f t, op = some k0 ∧ st = (k, f) :: t ∧ Good den s (den k0 s) st (den k s)
  | .store k v d => Within b n d ∧ v = den k s ∧ ∃ k0 f t, op = some k0 ∧ st = (k, f) :: t ∧ Good den s (den k0 s) st (den k s)
  | _ => st = []

structure MemOk (den : κ → σ → α) (s : σ) (b : Nat) (m : Mem σ κ α) : Prop where
  inp : m.inp = s
  cur : b ≤ m.cur
  right : ∀ d, Within b (m.cur + 1) d → Right den s (m.dicts d)

structure ThOk (den : κ → σ → α) (s : σ) (b n : Nat) (t : Th σ κ α) : Prop where
  pc : PcOk den s b n t.op t.stack t.pc
  quiet : ∀ i ∈ t.todo, Quiet i
  vals : ∀ k v, (some k, .ok v) ∈ t.log → v = den k s
  errs : ∀ o e, (o, .error e) ∈ t.log → e = .keyError ∨ e = .runtimeError

theorem Right.set {den : κ → σ → α} {s : σ} {D : Dict κ (Bool × α)} (h : Right den s D) (k : κ) (b : Bool) : Right den s (D.set k (b, den k s)) := by
  intro p hp
  rcases mem_set hp with rfl | hp
  · rfl
  · exact h p hp

theorem Right.pop {den : κ → σ → α} {s : σ} {D : Dict κ (Bool × α)} (h : Right den s D) (k : κ) : Right den s (D.pop k) := fun p hp => h p (Dict.mem_pop hp)

theorem MemOk.upd {den : κ → σ → α} {s : σ} {b : Nat} {m : Mem σ κ α} (h : MemOk den s b m) (d : Nat) (D : Dict κ (Bool × α)) (hD : Within b (m.cur + 1) d → Right den s D) :
    MemOk den s b (m.upd d D) := by
  refine ⟨h.inp, h.cur, fun j hj => ?_⟩
  simp only [Mem.upd]
  split
  · rename_i e; subst e; exact hD hj
  · exact h.right j hj

theorem ThOk.raise {den : κ → σ → α} {s : σ} {b n : Nat} {t : Th σ κ α} (h : ThOk den s b n t) (e : Err) (he : e = .keyError ∨ e = .runtimeError) : ThOk den s b n (t.raise e) := by
  refine ⟨rfl, fun i hi => h.quiet i ?_, fun k v hv => ?_, fun o e' he' => ?_⟩
  · simp only [Th.raise, Th.todo, List.nil_append] at hi
    simp [Th.todo, hi]
  · simp only [Th.raise, List.mem_append, List.mem_singleton, Prod.mk.injEq, reduceCtorEq, and_false, or_false] at hv
    exact h.vals k v hv
  · simp only [Th.raise, List.mem_append, List.mem_singleton, Prod.mk.injEq, Except.error.injEq] at he'
    rcases he' with he' | ⟨_, rfl⟩
    · exact h.errs o e' he'
    · exact he

/-- Replacing the point of execution and the frames. -/
theorem ThOk.move {den : κ → σ → α} {s : σ} {b n : Nat} {t : Th σ κ α} (h : ThOk den s b n t) (p : Pc σ κ α) (st : List (κ × (α → Prog σ κ α))) (hp : PcOk den s b n t.op st p) :
    ThOk den s b n { t with pc := p, stack := st } := ⟨hp, h.quiet, h.vals, h.errs⟩

theorem step_ok {c : Cfg σ κ α} {den : κ → σ → α} (hs : Sound c den) {s : σ} {b : Nat} {m : Mem σ κ α} {t : Th σ κ α} (hm : MemOk den s b m) (ht : ThOk den s b (m.cur + 1) t) :
    MemOk den s b (step c m t).1 ∧ ThOk den s b ((step c m t).1.cur + 1) (step c m t).2 ∧ m.cur + 1 ≤ (step c m t).1.cur + 1 := by
  obtain ⟨calls, code, pc, stack, op, log⟩ := t
  have hpc := ht.pc
  simp only at hpc
  cases pc with
  | idle =>
    cases code with
    | nil =>
      cases calls with
      | nil => exact ⟨hm, ht, Nat.le_refl _⟩
      | cons x xs =>
        refine ⟨hm, ⟨hpc, fun i hi => ht.quiet i ?_, ht.vals, ht.errs⟩, Nat.le_refl _⟩
        simp only [step] at hi
        simpa [Th.todo] using hi
    | cons i rest =>
      have hq : ∀ j ∈ rest ++ calls.flatten, Quiet j := fun j hj => ht.quiet j (by simp [Th.todo] at hj ⊢; exact .inr hj)
      have hi := ht.quiet i (by simp [Th.todo])
      have hst : stack = [] := hpc
      cases i with
      | eval k =>
        refine ⟨hm, ⟨⟨k, rfl, ?_⟩, hq, ht.vals, ht.errs⟩, Nat.le_refl _⟩
        simp only [step, begin, hst, Good, value]
      | write u => exact absurd hi id
      | clear =>
        simp only [step, begin]
        refine ⟨⟨hm.inp, Nat.le_succ_of_le hm.cur, fun d hd => ?_⟩, ⟨hpc, hq, ht.vals, ht.errs⟩, Nat.le_succ _⟩
        · simp only [Mem.upd]
          split
          · intro p hp; cases hp
          · rename_i hne
            exact hm.right d ⟨hd.1, by have := hd.2; simp only at this; omega⟩
      | purge av rp => exact ⟨hm, ⟨hpc, hq, ht.vals, ht.errs⟩, Nat.le_refl _⟩
      | walk => exact ⟨hm, ⟨hpc, hq, ht.vals, ht.errs⟩, Nat.le_refl _⟩
  | prog p =>
    obtain ⟨k0, hop, hg⟩ := hpc
    cases p with
    | ret v =>
      cases stack with
      | nil =>
        refine ⟨hm, ⟨rfl, ht.quiet, fun k w hw => ?_, fun o e he => ?_⟩, Nat.le_refl _⟩
        · simp only [step, List.mem_append, List.mem_singleton, Prod.mk.injEq, Except.ok.injEq] at hw
          rcases hw with hw | ⟨h1, rfl⟩
          · exact ht.vals k w hw
          · rw [hop] at h1
            cases h1
            exact hg
        · simp only [step, List.mem_append, List.mem_singleton, Prod.mk.injEq, reduceCtorEq, and_false, or_false] at he
          exact ht.errs o e he
      | cons kf st =>
        obtain ⟨k, f⟩ := kf
        simp only [Good, value] at hg
        simp only [step]
        by_cases hk : c.keep k = true
        · rw [if_pos hk]
          refine ⟨hm, ht.move _ _ ⟨⟨hm.cur, Nat.lt_succ_self _⟩, hg.1, k0, f, st, hop, rfl, rfl, ?_⟩, Nat.le_refl _⟩
          rw [← hg.1]; exact hg.2
        · rw [if_neg hk]
          exact ⟨hm, ht.move _ _ ⟨k0, hop, hg.2⟩, Nat.le_refl _⟩
    | read f =>
      refine ⟨hm, ht.move _ _ ⟨k0, hop, ?_⟩, Nat.le_refl _⟩
      simpa only [hm.inp, value] using hg
    | get k f =>
      exact ⟨hm, ht.move _ _ ⟨⟨hm.cur, Nat.lt_succ_self _⟩, k0, f, stack, hop, rfl, rfl, hg⟩, Nat.le_refl _⟩
  | test k d =>
    obtain ⟨-, k0, f, st, hop, hst, hg⟩ := hpc
    simp only [step]
    by_cases hk : (m.dicts d).has k = true
    · rw [if_pos hk]
      exact ⟨hm, ht.move _ _ ⟨k0, f, st, hop, hst, hg⟩, Nat.le_refl _⟩
    · rw [if_neg hk]
      exact ⟨hm, ht.move _ _ ⟨k0, hop, by rw [hs]; exact hg⟩, Nat.le_refl _⟩
  | load k =>
    obtain ⟨k0, f, st, hop, hst, hg⟩ := hpc
    exact ⟨hm, ht.move _ _ ⟨⟨hm.cur, Nat.lt_succ_self _⟩, k0, f, st, hop, hst, hg⟩, Nat.le_refl _⟩
  | fetch k d =>
    obtain ⟨hd, k0, f, st, hop, hst, hg⟩ := hpc
    subst hst
    simp only [step]
    cases hf : (m.dicts d).find k with
    | none => exact ⟨hm, ht.raise _ (.inl rfl), Nat.le_refl _⟩
    | some e =>
      have := hm.right d hd _ (Dict.mem_of_find hf)
      simp only at this
      refine ⟨hm, ht.move _ _ ⟨k0, hop, ?_⟩, Nat.le_refl _⟩
      rw [this]; exact hg.2
  | store k v d =>
    obtain ⟨hd, hv, k0, f, st, hop, hst, hg⟩ := hpc
    subst hst
    subst hv
    simp only [step]
    exact ⟨hm.upd _ _ fun _ => (hm.right d hd).set k _, ht.move _ _ ⟨k0, hop, hg.2⟩, Nat.le_refl _⟩
  | pkeys av rp d => exact ⟨hm, ht.move _ _ hpc, Nat.le_refl _⟩
  | pnext av rp ks =>
    cases ks with
    | nil => exact ⟨hm, ht.move _ _ hpc, Nat.le_refl _⟩
    | cons k ks => exact ⟨hm, ht.move _ _ hpc, Nat.le_refl _⟩
  | ptest av rp k ks d =>
    simp only [step]
    split <;> exact ⟨hm, ht.move _ _ hpc, Nat.le_refl _⟩
  | pload av rp k ks => exact ⟨hm, ht.move _ _ hpc, Nat.le_refl _⟩
  | pfetch av rp k ks d =>
    simp only [step]
    cases (m.dicts d).find k with
    | none => exact ⟨hm, ht.raise _ (.inl rfl), Nat.le_refl _⟩
    | some e =>
      simp only
      split <;> exact ⟨hm, ht.move _ _ hpc, Nat.le_refl _⟩
  | pdel av rp k ks => exact ⟨hm, ht.move _ _ hpc, Nat.le_refl _⟩
  | ppop av rp k ks d =>
    simp only [step]
    split
    · exact ⟨hm.upd _ _ fun hd => (hm.right d hd).pop k, ht.move _ _ hpc, Nat.le_refl _⟩
    · exact ⟨hm, ht.raise _ (.inl rfl), Nat.le_refl _⟩
  | walking d n i =>
    simp only [step]
    split
    · exact ⟨hm, ht.raise _ (.inr rfl), Nat.le_refl _⟩
    · split <;> exact ⟨hm, ht.move _ _ hpc, Nat.le_refl _⟩

theorem PcOk.mono {den : κ → σ → α} {s : σ} {b n n' : Nat} (h : n ≤ n') {op : Option κ} {st : List (κ × (α → Prog σ κ α))} {p : Pc σ κ α} (hp : PcOk den s b n op st p) :
    PcOk den s b n' op st p := by
  cases p <;> simp only [PcOk, Within] at hp ⊢
  case test => exact ⟨⟨hp.1.1, Nat.lt_of_lt_of_le hp.1.2 h⟩, hp.2⟩
  case fetch => exact ⟨⟨hp.1.1, Nat.lt_of_lt_of_le hp.1.2 h⟩, hp.2⟩
  case store => exact ⟨⟨hp.1.1, Nat.lt_of_lt_of_le hp.1.2 h⟩, hp.2⟩
  all_goals exact hp

theorem run_ok {c : Cfg σ κ α} {den : κ → σ → α} (hs : Sound c den) {s : σ} {b : Nat} (sched : List Nat) : ∀ (S : Sys σ κ α), MemOk den s b S.mem →
    (∀ i, ThOk den s b (S.mem.cur + 1) (S.th i)) → MemOk den s b (S.run c sched).mem ∧ ∀ i, ThOk den s b ((S.run c sched).mem.cur + 1) ((S.run c sched).th i) := by
  induction sched with
  | nil => exact fun S h1 h2 => ⟨h1, h2⟩
  | cons i l ih =>
    intro S h1 h2
    obtain ⟨h3, h4, h5⟩ := step_ok hs h1 (h2 i)
    rw [run_cons]
    refine ih _ h3 fun j => ?_
    simp only [Sys.step]
    split
    · exact h4
    · exact ⟨(h2 j).pc.mono h5, (h2 j).quiet, (h2 j).vals, (h2 j).errs⟩

/-! ### Threads that only evaluate -/

/-- The key of an evaluation. -/
def keyOf : Instr σ κ α → Option κ
  | .eval k => some k
  | _ => none

/-- Where a thread that only evaluates can be: no element it was told to be there has gone. -/
def RPc (m : Mem σ κ α) : Pc σ κ α → Prop
  | .idle => True
  | .prog _ => True
  | .test _ d => d = m.cur
  | .load k => (m.dicts m.cur).has k = true
  | .fetch k d => d = m.cur ∧ (m.dicts m.cur).has k = true
  | .store _ _ d => d = m.cur
  | _ => False

/-- The evaluation being made. -/
def Th.busy (t : Th σ κ α) : List (Option κ) :=
  match t.pc with
  | .idle => []
  | _ => [t.op]

structure RTh (m : Mem σ κ α) (ks : List κ) (t : Th σ κ α) : Prop where
  pc : RPc m t.pc
  oks : ∀ x ∈ t.log, ∃ v, x.2 = .ok v
  evals : ∀ i ∈ t.todo, ∃ k, i = .eval k
  order : t.log.map Prod.fst ++ t.busy ++ t.todo.map keyOf = ks.map some

theorem has_set (D : Dict κ (Bool × α)) (k k' : κ) (v : Bool × α) (h : D.has k' = true) : (D.set k v).has k' = true := by
  simp only [Dict.has, Dict.find_set] at h ⊢
  split
  · rfl
  · exact h

theorem has_set_self (D : Dict κ (Bool × α)) (k : κ) (v : Bool × α) : (D.set k v).has k = true := by
  simp [Dict.has, Dict.find_set]

theorem RPc.mono {m m' : Mem σ κ α} (hc : m'.cur = m.cur) (hd : ∀ k, (m.dicts m.cur).has k = true → (m'.dicts m.cur).has k = true) {p : Pc σ κ α} (h : RPc m p) : RPc m' p := by
  cases p <;> simp only [RPc, hc] at h ⊢
  all_goals first | exact h | exact hd _ h | exact ⟨h.1, hd _ h.2⟩

theorem step_rd {c : Cfg σ κ α} {den : κ → σ → α} {s : σ} {b n : Nat} {m : Mem σ κ α} {t : Th σ κ α} {ks : List κ} (ht : ThOk den s b n t) (hr : RTh m ks t) :
    (step c m t).1.cur = m.cur ∧ (∀ k, (m.dicts m.cur).has k = true → ((step c m t).1.dicts m.cur).has k = true) ∧ RTh (step c m t).1 ks (step c m t).2 := by
  obtain ⟨calls, code, pc, stack, op, log⟩ := t
  have hpc := ht.pc
  have hrp := hr.pc
  have hro := hr.order
  simp only [Th.busy, Th.todo] at hpc hrp hro
  cases pc with
  | idle =>
    cases code with
    | nil =>
      cases calls with
      | nil => exact ⟨rfl, fun _ h => h, hr⟩
      | cons x xs =>
        refine ⟨rfl, fun _ h => h, ⟨trivial, hr.oks, fun i hi => hr.evals i ?_, ?_⟩⟩
        · simp only [step] at hi
          simpa [Th.todo] using hi
        · simp only [step, Th.busy, Th.todo]
          simpa using hro
    | cons i rest =>
      obtain ⟨k, rfl⟩ := hr.evals i (by simp [Th.todo])
      refine ⟨rfl, fun _ h => h, ⟨trivial, hr.oks, fun j hj => hr.evals j ?_, ?_⟩⟩
      · simp only [step, begin, Th.todo] at hj
        simp only [Th.todo, List.cons_append]
        exact List.mem_cons_of_mem _ hj
      · simp only [step, begin, Th.busy, Th.todo]
        simpa [keyOf] using hro
  | prog p =>
    cases p with
    | ret v =>
      cases stack with
      | nil =>
        refine ⟨rfl, fun _ h => h, ⟨trivial, fun x hx => ?_, hr.evals, ?_⟩⟩
        · simp only [step, List.mem_append, List.mem_singleton] at hx
          rcases hx with hx | rfl
          · exact hr.oks x hx
          · exact ⟨v, rfl⟩
        · simp only [step, Th.busy, Th.todo]
          simpa using hro
      | cons kf st =>
        obtain ⟨k, f⟩ := kf
        simp only [step]
        by_cases hk : c.keep k = true
        · rw [if_pos hk]
          exact ⟨rfl, fun _ h => h, ⟨rfl, hr.oks, hr.evals, hro⟩⟩
        · rw [if_neg hk]
          exact ⟨rfl, fun _ h => h, ⟨trivial, hr.oks, hr.evals, hro⟩⟩
    | read f => exact ⟨rfl, fun _ h => h, ⟨trivial, hr.oks, hr.evals, hro⟩⟩
    | get k f => exact ⟨rfl, fun _ h => h, ⟨rfl, hr.oks, hr.evals, hro⟩⟩
  | test k d =>
    have hd : d = m.cur := hrp
    subst hd
    simp only [step]
    by_cases hk : (m.dicts m.cur).has k = true
    · rw [if_pos hk]
      exact ⟨rfl, fun _ h => h, ⟨hk, hr.oks, hr.evals, hro⟩⟩
    · rw [if_neg hk]
      exact ⟨rfl, fun _ h => h, ⟨trivial, hr.oks, hr.evals, hro⟩⟩
  | load k => exact ⟨rfl, fun _ h => h, ⟨⟨rfl, hrp⟩, hr.oks, hr.evals, hro⟩⟩
  | fetch k d =>
    obtain ⟨-, k0, f, st, hop, hst, hg⟩ := hpc
    subst hst
    obtain ⟨hd, hk⟩ := hrp
    subst hd
    obtain ⟨e, he⟩ := Option.isSome_iff_exists.1 hk
    simp only [step, he]
    exact ⟨trivial, fun _ h => h, ⟨trivial, hr.oks, hr.evals, hro⟩⟩
  | store k v d =>
    obtain ⟨-, -, k0, f, st, hop, hst, hg⟩ := hpc
    subst hst
    have hd : d = m.cur := hrp
    subst hd
    simp only [step]
    refine ⟨rfl, fun k' h => ?_, ⟨trivial, hr.oks, hr.evals, hro⟩⟩
    simp only [Mem.upd, if_true]
    exact has_set _ _ _ _ h
  | _ => exact absurd hrp id

theorem run_rd {c : Cfg σ κ α} {den : κ → σ → α} (hs : Sound c den) {s : σ} {b : Nat} {ks : Nat → List κ} (sched : List Nat) : ∀ (S : Sys σ κ α), MemOk den s b S.mem →
    (∀ i, ThOk den s b (S.mem.cur + 1) (S.th i)) → (∀ i, RTh S.mem (ks i) (S.th i)) →
    (S.run c sched).mem.cur = S.mem.cur ∧ ∀ i, RTh (S.run c sched).mem (ks i) ((S.run c sched).th i) := by
  induction sched with
  | nil => exact fun S _ _ h => ⟨rfl, h⟩
  | cons i l ih =>
    intro S h1 h2 h3
    obtain ⟨h4, h5⟩ := run_ok hs [i] S h1 h2
    obtain ⟨h6, h7, h8⟩ := step_rd (c := c) (h2 i) (h3 i)
    rw [run_cons]
    obtain ⟨h9, h10⟩ := ih (S.step c i) h4 h5 fun j => by
      simp only [Sys.step]
      split
      · rename_i e; subst e; exact h8
      · exact ⟨(h3 j).pc.mono h6 h7, (h3 j).oks, (h3 j).evals, (h3 j).order⟩
    exact ⟨h9.trans h6, h10⟩

theorem mem_start {den : κ → σ → α} {m : Mem σ κ α} (hm : Right den m.inp (m.dicts m.cur)) : MemOk den m.inp m.cur m :=
  ⟨rfl, Nat.le_refl _, fun d hd => by
    have : d = m.cur := by have := hd.1; have := hd.2; omega
    rw [this]; exact hm⟩

theorem th_start {den : κ → σ → α} {s : σ} {b n : Nat} {calls : List (List (Instr σ κ α))} (hc : ∀ x ∈ calls, ∀ j ∈ x, Quiet j) : ThOk den s b n (.start calls) :=
  ⟨rfl, fun j hj => by
    simp only [Th.start, Th.todo, List.nil_append, List.mem_flatten] at hj
    obtain ⟨x, hx, hj⟩ := hj
    exact hc x hx j hj, fun k v hv => by simp [Th.start] at hv, fun o e he => by simp [Th.start] at he⟩

theorem readers_quiet (ks : Nat → List κ) (i : Nat) : ∀ x ∈ ((ks i).map fun k => [(.eval k : Instr σ κ α)]), ∀ j ∈ x, Quiet j := by
  intro x hx j hj
  obtain ⟨k, -, rfl⟩ := List.mem_map.1 hx
  simp only [List.mem_singleton] at hj
  subst hj; trivial

theorem flat_evals (l : List κ) : (l.map fun k => [(.eval k : Instr σ κ α)]).flatten = l.map .eval := by
  induction l with
  | nil => rfl
  | cons k t ih => simp [ih]

theorem rd_start (m : Mem σ κ α) (l : List κ) : RTh m l (.start (l.map fun k => [.eval k])) := by
  refine ⟨trivial, fun x hx => by simp [Th.start] at hx, fun i hi => ?_, ?_⟩
  · simp only [Th.start, Th.todo, List.nil_append, flat_evals] at hi
    obtain ⟨k, -, rfl⟩ := List.mem_map.1 hi
    exact ⟨k, rfl⟩
  · simp [Th.start, Th.busy, Th.todo, flat_evals, keyOf, Function.comp_def]

/-! ### Coming to an end -/

/-- A function asks only for elements of a lower rank. -/
def Below (rank : κ → Nat) (n : Nat) : Prog σ κ α → Prop
  | .ret _ => True
  | .read f => ∀ s, Below rank n (f s)
  | .get k f => rank k < n ∧ ∀ v, Below rank n (f v)

/-- The thread comes to its end in finitely many steps of its own, whatever the others do in between. -/
inductive Halts (c : Cfg σ κ α) : Th σ κ α → Prop where
  | done (t : Th σ κ α) : t.finished → Halts c t
  | next (t : Th σ κ α) : (∀ m, Halts c (step c m t).2) → Halts c t

theorem halts_prog (c : Cfg σ κ α) (rank : κ → Nat) (hr : ∀ k, Below rank (rank k) (c.prog k)) (calls : List (List (Instr σ κ α))) (code : List (Instr σ κ α)) (op : Option κ)
    (log : List (Option κ × Except Err α)) (h0 : ∀ o l, Halts c ⟨calls, [], .idle, [], o, l⟩) : ∀ (n : Nat) (p : Prog σ κ α), Below rank n p →
    ∀ stack, (∀ v, Halts c ⟨calls, code, .prog (.ret v), stack, op, log⟩) → Halts c ⟨calls, code, .prog p, stack, op, log⟩ := by
  intro n
  induction n using Nat.strongRecOn with
  | ind n ihn =>
    intro p
    induction p with
    | ret v => exact fun _ st h => h v
    | read f ih => exact fun hb st h => .next _ fun m => ih m.inp (hb _) st h
    | get k f ih =>
      intro hb st h
      have hf : ∀ v, Halts c ⟨calls, code, .prog (f v), st, op, log⟩ := fun v => ih v (hb.2 v) st h
      refine .next _ fun m => .next _ fun m' => ?_
      simp only [step]
      by_cases hk : (m'.dicts m.cur).has k = true
      · rw [if_pos hk]
        refine .next _ fun m1 => .next _ fun m2 => ?_
        simp only [step]
        cases (m2.dicts m1.cur).find k with
        | none => exact h0 _ _
        | some e => exact hf _
      · rw [if_neg hk]
        refine ihn (rank k) hb.1 (c.prog k) (hr k) _ fun v => .next _ fun m1 => ?_
        simp only [step]
        by_cases hk : c.keep k = true
        · rw [if_pos hk]
          exact .next _ fun m2 => hf v
        · rw [if_neg hk]
          exact hf v

theorem halts_purge (c : Cfg σ κ α) (calls : List (List (Instr σ κ α))) (code : List (Instr σ κ α)) (op : Option κ) (log : List (Option κ × Except Err α))
    (h0 : ∀ o l, Halts c ⟨calls, [], .idle, [], o, l⟩) (h1 : ∀ o l, Halts c ⟨calls, code, .idle, [], o, l⟩) (av : List κ) (rp : Bool) :
    ∀ ks, Halts c ⟨calls, code, .pnext av rp ks, [], op, log⟩ := by
  intro ks
  induction ks with
  | nil => exact .next _ fun m => h1 _ _
  | cons k ks ih =>
    refine .next _ fun m => .next _ fun m1 => ?_
    simp only [step]
    split
    · refine .next _ fun m2 => .next _ fun m3 => ?_
      simp only [step]
      cases (m3.dicts m2.cur).find k with
      | none => exact h0 _ _
      | some e =>
        simp only
        split
        · refine .next _ fun m4 => .next _ fun m5 => ?_
          simp only [step]
          split
          · exact ih
          · exact h0 _ _
        · exact ih
    · exact ih

theorem halts_walk (c : Cfg σ κ α) (calls : List (List (Instr σ κ α))) (code : List (Instr σ κ α)) (op : Option κ) (log : List (Option κ × Except Err α))
    (h0 : ∀ o l, Halts c ⟨calls, [], .idle, [], o, l⟩) (h1 : ∀ o l, Halts c ⟨calls, code, .idle, [], o, l⟩) (d n : Nat) :
    ∀ j i, n - i = j → Halts c ⟨calls, code, .walking d n i, [], op, log⟩ := by
  intro j
  induction j with
  | zero =>
    intro i hi
    refine .next _ fun m => ?_
    simp only [step]
    split
    · exact h0 _ _
    · rw [if_neg (by omega)]
      exact h1 _ _
  | succ j ih =>
    intro i hi
    refine .next _ fun m => ?_
    simp only [step]
    split
    · exact h0 _ _
    · rw [if_pos (by omega)]
      exact ih (i + 1) (by omega)

theorem halts_start (c : Cfg σ κ α) (rank : κ → Nat) (hr : ∀ k, Below rank (rank k) (c.prog k)) (calls : List (List (Instr σ κ α))) :
    ∀ code op log, Halts c ⟨calls, code, .idle, [], op, log⟩ := by
  have key : ∀ calls : List (List (Instr σ κ α)), (∀ o l, Halts c ⟨calls, [], .idle, [], o, l⟩) → ∀ code op log, Halts c ⟨calls, code, .idle, [], op, log⟩ := by
    intro calls h0 code
    induction code with
    | nil => exact h0
    | cons i rest ih =>
      intro op log
      refine .next _ fun m => ?_
      simp only [step]
      cases i with
      | eval k =>
        exact halts_prog c rank hr calls rest (some k) log h0 (rank k + 1) (.get k .ret) ⟨Nat.lt_succ_self _, fun _ => trivial⟩ [] fun v => .next _ fun m => ih _ _
      | write u => exact ih _ _
      | clear => exact ih _ _
      | purge av rp => exact .next _ fun m1 => halts_purge c calls rest none log h0 ih av rp _
      | walk => exact halts_walk c calls rest none log h0 ih _ _ _ 0 rfl
  induction calls with
  | nil => exact key [] fun o l => .done _ ⟨rfl, rfl, rfl⟩
  | cons x xs ih => exact key (x :: xs) fun o l => .next _ fun m => ih x o l

theorem run_other (c : Cfg σ κ α) (i : Nat) : ∀ (l : List Nat) (S : Sys σ κ α), i ∉ l → (S.run c l).th i = S.th i
  | [], S, _ => rfl
  | j :: l, S, h => by
    rw [run_cons, run_other c i l _ (fun hc => h (List.mem_cons_of_mem _ hc))]
    simp only [Sys.step]
    rw [if_neg]
    rintro rfl
    exact h List.mem_cons_self

theorem halts_run {c : Cfg σ κ α} {i : Nat} {t : Th σ κ α} (ht : Halts c t) : ∀ (S : Sys σ κ α), S.th i = t → ∀ sch : Nat → Nat, (∀ n, ∃ N, n ≤ N ∧ sch N = i) →
    ∃ N, ((S.run c ((List.range N).map sch)).th i).finished := by
  induction ht with
  | done t h => exact fun S hS sch _ => ⟨0, by rw [← hS] at h; exact h⟩
  | next t _ ih =>
    intro S hS sch hinf
    have hex : ∃ N, sch N = i := let ⟨N, _, h⟩ := hinf 0; ⟨N, h⟩
    classical
    let N0 := Nat.find hex
    have h1 : sch N0 = i := Nat.find_spec hex
    have h2 : i ∉ (List.range N0).map sch := by
      intro hc
      obtain ⟨n, hn, hi⟩ := List.mem_map.1 hc
      exact Nat.find_min hex (List.mem_range.1 hn) hi
    let S1 := S.run c ((List.range N0).map sch)
    have h3 : S1.th i = t := by rw [← hS]; exact run_other c i _ S h2
    obtain ⟨N, hN⟩ := ih S1.mem (S1.step c i) (by simp [Sys.step, h3]) (fun n => sch (N0 + 1 + n)) fun n => by
      obtain ⟨N, hN, hi⟩ := hinf (N0 + 1 + n)
      exact ⟨N - (N0 + 1), by omega, by rw [← hi]; congr 1; omega⟩
    refine ⟨N0 + 1 + N, ?_⟩
    rw [List.range_add, List.map_append, run_append, List.range_succ, List.map_append, run_append, List.map_map]
    simp only [List.map_singleton, h1]
    exact hN

/-! ### One thread alone -/

/-- What holds of all dictionaries whatever is done. -/
def Tidy (c : Cfg σ κ α) (m : Mem σ κ α) : Prop := ∀ d, (m.dicts d).WF ∧ ∀ p ∈ m.dicts d, p.2.1 = c.pers p.1

theorem Tidy.upd {c : Cfg σ κ α} {m : Mem σ κ α} (h : Tidy c m) (d : Nat) (D : Dict κ (Bool × α)) (hD : D.WF ∧ ∀ p ∈ D, p.2.1 = c.pers p.1) : Tidy c (m.upd d D) := by
  intro j
  simp only [Mem.upd]
  split
  · exact hD
  · exact h j

theorem step_tidy (c : Cfg σ κ α) (m : Mem σ κ α) (t : Th σ κ α) (h : Tidy c m) : Tidy c (step c m t).1 := by
  obtain ⟨calls, code, pc, stack, op, log⟩ := t
  cases pc with
  | idle =>
    cases code with
    | nil => cases calls <;> exact h
    | cons i rest =>
      cases i with
      | clear => exact h.upd _ _ ⟨Dict.WF.nil, fun p hp => by cases hp⟩
      | _ => exact h
  | prog p =>
    cases p with
    | ret v =>
      cases stack with
      | nil => exact h
      | cons kf st => obtain ⟨k, f⟩ := kf; simp only [step]; split <;> exact h
    | _ => exact h
  | test k d => simp only [step]; split <;> exact h
  | fetch k d => simp only [step]; split <;> exact h
  | store k v d =>
    cases stack with
    | nil => exact h
    | cons kf st =>
      obtain ⟨k', f⟩ := kf
      refine h.upd _ _ ⟨(h d).1.set k _, fun p hp => ?_⟩
      rcases mem_set hp with rfl | hp
      · rfl
      · exact (h d).2 p hp
  | pnext av rp ks => cases ks <;> exact h
  | ptest av rp k ks d => simp only [step]; split <;> exact h
  | pfetch av rp k ks d =>
    simp only [step]
    cases (m.dicts d).find k with
    | none => exact h
    | some e => simp only; split <;> exact h
  | ppop av rp k ks d =>
    simp only [step]
    split
    · exact h.upd _ _ ⟨(h d).1.pop k, fun p hp => (h d).2 p (Dict.mem_pop hp)⟩
    · exact h
  | walking d n i =>
    simp only [step]
    split
    · exact h
    · split <;> exact h
  | _ => exact h

theorem run_tidy (c : Cfg σ κ α) (l : List Nat) : ∀ S : Sys σ κ α, Tidy c S.mem → Tidy c (S.run c l).mem := by
  induction l with
  | nil => exact fun _ h => h
  | cons i l ih => exact fun S h => ih _ (step_tidy c _ _ h)

/-- `n` steps of one thread. -/
def alone (c : Cfg σ κ α) : Nat → Mem σ κ α × Th σ κ α → Mem σ κ α × Th σ κ α
  | 0, x => x
  | n + 1, x => alone c n (step c x.1 x.2)

theorem alone_add (c : Cfg σ κ α) (n k : Nat) : ∀ x, alone c (n + k) x = alone c k (alone c n x) := by
  induction n with
  | zero => intro x; rw [Nat.zero_add]; rfl
  | succ n ih => intro x; rw [Nat.add_right_comm]; exact ih _

theorem finished_stays (c : Cfg σ κ α) {x : Mem σ κ α × Th σ κ α} (h : x.2.finished) : ∀ n, alone c n x = x := by
  have : step c x.1 x.2 = x := by
    obtain ⟨m, ⟨calls, code, pc, stack, op, log⟩⟩ := x
    obtain ⟨h1, h2, h3⟩ := h
    simp only at h1 h2
    subst h1; subst h2
    cases pc <;> first | rfl | cases h3
  intro n
  induction n with
  | zero => rfl
  | succ n ih => rw [alone, this, ih]

theorem finished_same (c : Cfg σ κ α) {x : Mem σ κ α × Th σ κ α} {n k : Nat} (hn : (alone c n x).2.finished) (hk : (alone c k x).2.finished) : alone c n x = alone c k x := by
  rcases Nat.le_total n k with h | h
  · obtain ⟨j, rfl⟩ := Nat.exists_eq_add_of_le h
    rw [alone_add, finished_stays c hn]
  · obtain ⟨j, rfl⟩ := Nat.exists_eq_add_of_le h
    rw [alone_add, finished_stays c hk]

theorem run_alone (c : Cfg σ κ α) (i : Nat) (n : Nat) : ∀ S : Sys σ κ α, ((S.run c (List.replicate n i)).mem, (S.run c (List.replicate n i)).th i) = alone c n (S.mem, S.th i) := by
  induction n with
  | zero => intro S; rfl
  | succ n ih =>
    intro S
    rw [List.replicate_succ, run_cons, ih]
    simp [Sys.step, alone]

theorem purge_alone (c : Cfg σ κ α) (av : List κ) (calls : List (List (Instr σ κ α))) (code : List (Instr σ κ α)) (log : List (Option κ × Except Err α)) :
    ∀ (ks : List κ) (m : Mem σ κ α), Tidy c m → ∃ n m', alone c n (m, ⟨calls, code, .pnext av false ks, [], none, log⟩) = (m', ⟨calls, code, .idle, [], none, log⟩) ∧
      m'.inp = m.inp ∧ m'.cur = m.cur ∧ Tidy c m' ∧ (∀ p ∈ m'.dicts m.cur, p ∈ m.dicts m.cur) ∧ ∀ p ∈ m'.dicts m.cur, p.1 ∈ ks → p.1 ∈ av ∨ c.pers p.1 = true := by
  intro ks
  induction ks with
  | nil => exact fun m hm => ⟨1, m, rfl, rfl, rfl, hm, fun _ h => h, fun p _ h => by cases h⟩
  | cons k ks ih =>
    intro m hm
    by_cases h1 : ((m.dicts m.cur).has k && !av.contains k) = true
    · have hk : (m.dicts m.cur).has k = true := by simp at h1; exact h1.1
      obtain ⟨e, he⟩ := Option.isSome_iff_exists.1 hk
      by_cases h2 : (!e.1 || false) = true
      · obtain ⟨n, m', e1, e2, e3, e4, e5, e6⟩ := ih (m.upd m.cur ((m.dicts m.cur).pop k)) (hm.upd _ _ ⟨(hm _).1.pop k, fun p hp => (hm _).2 p (Dict.mem_pop hp)⟩)
        have hcur : (m.upd m.cur ((m.dicts m.cur).pop k)).dicts m.cur = (m.dicts m.cur).pop k := by simp [Mem.upd]
        refine ⟨6 + n, m', ?_, e2, e3, e4, fun p hp => ?_, fun p hp hpk => ?_⟩
        · rw [alone_add, ← e1]
          congr 1
          simp [alone, step, h1, he, h2, hk]
          simp_all
        · have := e5 p hp
          rw [show (m.upd m.cur ((m.dicts m.cur).pop k)).cur = m.cur from rfl, hcur] at this
          exact Dict.mem_pop this
        · rcases List.mem_cons.1 hpk with h | h
          · have := e5 p hp
            rw [show (m.upd m.cur ((m.dicts m.cur).pop k)).cur = m.cur from rfl, hcur] at this
            have hf := Dict.find_of_mem ((hm m.cur).1.pop k) (show (p.1, p.2) ∈ _ from this)
            rw [Dict.find_pop (hm m.cur).1, h] at hf
            simp at hf
          · exact e6 p hp h
      · obtain ⟨n, m', e1, e2, e3, e4, e5, e6⟩ := ih m hm
        refine ⟨4 + n, m', ?_, e2, e3, e4, e5, fun p hp hpk => ?_⟩
        · rw [alone_add, ← e1]
          congr 1
          simp [alone, step, h1, he, h2]
          simp_all
        · rcases List.mem_cons.1 hpk with h | h
          · have h3 := Dict.find_of_mem (hm m.cur).1 (show (p.1, p.2) ∈ _ from e5 p hp)
            rw [h, he] at h3
            have h4 := (hm m.cur).2 p (e5 p hp)
            refine .inr ?_
            rw [← h4, ← Option.some.inj h3]
            simpa using h2
          · exact e6 p hp h
    · obtain ⟨n, m', e1, e2, e3, e4, e5, e6⟩ := ih m hm
      refine ⟨2 + n, m', ?_, e2, e3, e4, e5, fun p hp hpk => ?_⟩
      · rw [alone_add, ← e1]
        congr 1
        exact if_neg h1
      · rcases List.mem_cons.1 hpk with h | h
        · have h3 := Dict.find_of_mem (hm m.cur).1 (show (p.1, p.2) ∈ _ from e5 p hp)
          rw [h] at h3
          refine .inl ?_
          simp [Dict.has, h3] at h1
          rw [h]; exact h1
        · exact e6 p hp h

/-- A whole reset: what is left was there and is either avoided or persisting. -/
theorem reset_alone (c : Cfg σ κ α) (av : List κ) (calls : List (List (Instr σ κ α))) (code : List (Instr σ κ α)) (log : List (Option κ × Except Err α)) (o : Option κ)
    (m : Mem σ κ α) (hm : Tidy c m) : ∃ n m' o', alone c n (m, ⟨calls, .purge av false :: code, .idle, [], o, log⟩) = (m', ⟨calls, code, .idle, [], o', log⟩) ∧
      m'.inp = m.inp ∧ m'.cur = m.cur ∧ Tidy c m' ∧ ∀ p ∈ m'.dicts m.cur, p ∈ m.dicts m.cur ∧ (p.1 ∈ av ∨ c.pers p.1 = true) := by
  obtain ⟨n, m', e1, e2, e3, e4, e5, e6⟩ := purge_alone c av calls code log (m.dicts m.cur).keys m hm
  refine ⟨2 + n, m', none, ?_, e2, e3, e4, fun p hp => ⟨e5 p hp, e6 p hp ?_⟩⟩
  · rw [alone_add, ← e1]; rfl
  · exact List.mem_map.2 ⟨p, e5 p hp, rfl⟩

/-! ## C156 -/

/-- Threads that evaluate, reset, print and clean one object, its inputs left alone: in every schedule each value given back is the one a thread alone would have got, or the call raised
one of two exceptions. -/
theorem C156_values_partial (c : Cfg σ κ α) (den : κ → σ → α) (hs : Sound c den) (m : Mem σ κ α) (hm : Right den m.inp (m.dicts m.cur))
    (calls : Nat → List (List (Instr σ κ α))) (hc : ∀ i, ∀ x ∈ calls i, ∀ j ∈ x, Quiet j) (sched : List Nat) (i : Nat) (o : Option κ) (r : Except Err α)
    (hr : (o, r) ∈ (((⟨m, fun i => .start (calls i)⟩ : Sys σ κ α).run c sched).th i).log) :
    (∀ k v, o = some k → r = .ok v → v = den k m.inp) ∧ ∀ e, r = .error e → e = .keyError ∨ e = .runtimeError := by
  have := (run_ok hs sched ⟨m, fun i => .start (calls i)⟩ (mem_start hm) fun i => th_start (hc i)).2 i
  refine ⟨fun k v ho hr' => ?_, fun e he => ?_⟩
  · subst ho hr'; exact this.vals k v hr
  · subst he; exact this.errs o e hr

/-- Threads that only evaluate disturb each other in no schedule: at every point each has been given the right values of the first elements it asked for, none has met an exception, and
one that has come to its end has been given all. -/
theorem C156_readers (c : Cfg σ κ α) (den : κ → σ → α) (hs : Sound c den) (m : Mem σ κ α) (hm : Right den m.inp (m.dicts m.cur)) (ks : Nat → List κ) (sched : List Nat) (i : Nat) :
    let t := ((⟨m, readers ks⟩ : Sys σ κ α).run c sched).th i
    (∃ done rest, ks i = done ++ rest ∧ t.log = done.map fun k => (some k, .ok (den k m.inp))) ∧
      (t.finished → t.log = (ks i).map fun k => (some k, .ok (den k m.inp))) := by
  intro t
  have h1 : ThOk den m.inp m.cur _ t := (run_ok hs sched ⟨m, readers ks⟩ (mem_start hm) fun i => th_start (readers_quiet ks i)).2 i
  have h2 : RTh _ (ks i) t := (run_rd hs sched ⟨m, readers ks⟩ (mem_start hm) (fun i => th_start (readers_quiet ks i)) fun i => rd_start m (ks i)).2 i
  have key : ∀ (L : List (Option κ × Except Err α)) (R : List (Option κ)) (l : List κ), (∀ x ∈ L, ∃ v, x.2 = .ok v) → (∀ k v, (some k, .ok v) ∈ L → v = den k m.inp) →
      L.map Prod.fst ++ R = l.map some → ∃ done rest, l = done ++ rest ∧ L = done.map (fun k => (some k, .ok (den k m.inp))) ∧ rest.length = R.length := by
    intro L
    induction L with
    | nil => exact fun R l _ _ h => ⟨[], l, rfl, rfl, by simpa using (congrArg List.length h).symm⟩
    | cons x L ih =>
      intro R l h3 h4 h5
      cases l with
      | nil => simp at h5
      | cons k l =>
        simp only [List.map_cons, List.cons_append, List.cons.injEq] at h5
        obtain ⟨d, r, h6, h7, h8⟩ := ih R l (fun y hy => h3 y (List.mem_cons_of_mem _ hy)) (fun k v hv => h4 k v (List.mem_cons_of_mem _ hv)) h5.2
        obtain ⟨v, hv⟩ := h3 x List.mem_cons_self
        obtain ⟨a, e⟩ := x
        simp only at hv h5
        obtain ⟨ha, -⟩ := h5
        subst hv; subst ha
        exact ⟨k :: d, r, by rw [h6]; rfl, by rw [h4 k v List.mem_cons_self, h7]; rfl, h8⟩
  obtain ⟨d, r, h3, h4, h5⟩ := key t.log (t.busy ++ t.todo.map keyOf) (ks i) h2.oks h1.vals (by rw [← List.append_assoc]; exact h2.order)
  refine ⟨⟨d, r, h3, h4⟩, fun hf => ?_⟩
  have h6 : t.busy ++ t.todo.map keyOf = [] := by
    obtain ⟨f1, f2, f3⟩ := hf
    have : t.busy = [] := by
      unfold Th.busy
      cases hp : t.pc <;> simp [hp, Pc.isIdle] at f3 ⊢
    simp [this, Th.todo, f1, f2]
  rw [h6, List.length_nil, List.length_eq_zero_iff] at h5
  rw [h4, h3, h5, List.append_nil]

/-- No call waits for another thread: if elements are built from elements of lower rank, a thread that is given its turn again and again comes to the end of all its calls, whatever the
others do and however the turns are distributed. -/
theorem C156_ends (c : Cfg σ κ α) (rank : κ → Nat) (hr : ∀ k, Below rank (rank k) (c.prog k)) (m : Mem σ κ α) (calls : Nat → List (List (Instr σ κ α))) (i : Nat) (sch : Nat → Nat)
    (hinf : ∀ n, ∃ N, n ≤ N ∧ sch N = i) : ∃ N, (((⟨m, fun i => .start (calls i)⟩ : Sys σ κ α).run c ((List.range N).map sch)).th i).finished :=
  halts_run (halts_start c rank hr (calls i) [] none []) _ rfl sch hinf

/-- A reset between the test and the access makes an evaluation fail: for every element that is in the cache there is a schedule in which a thread asking for it is given a `KeyError`, the
other one doing nothing but a reset. -/
theorem C156_reset_violated (c : Cfg σ κ α) (m : Mem σ κ α) (k : κ) (hk : (m.dicts m.cur).has k = true) :
    ∃ sched : List Nat, (((⟨m, fun i => if i = 0 then .start [[.eval k]] else .start [resetCall]⟩ : Sys σ κ α).run c sched).th 0).log = [(some k, .error .keyError)] := by
  refine ⟨[0, 0, 0, 0, 1, 1, 0, 0], ?_⟩
  simp [Sys.run, Sys.step, step, begin, Th.start, resetCall, Mem.upd, hk, Th.raise, Dict.find]

/-- An element computed from the inputs alone. -/
def Leaf (c : Cfg σ κ α) (k : κ) (g : σ → α) : Prop := c.prog k = .read fun s => .ret (g s)

/-- The state both threads leave, with a third one about to ask for the element. -/
def ask (S : Sys σ κ α) (k : κ) : Sys σ κ α := ⟨S.mem, fun _ => .start [[.eval k]]⟩

theorem Leaf.value {c : Cfg σ κ α} {k : κ} {g : σ → α} (hg : Leaf c k g) {den : κ → σ → α} (hs : Sound c den) (s : σ) : den k s = g s := by
  rw [← hs, hg]; rfl

/-- Assigning a hyper-parameter while another thread evaluates: in some schedule, in which the evaluation is not even interrupted, no call fails and afterwards the element asked for is
the one of the former value. -/
theorem C156_hyper_violated (c : Cfg σ κ α) (m : Mem σ κ α) (k : κ) (g : σ → α) (hg : Leaf c k g) (hk : c.keep k = true) (u : σ → σ) (av : List κ) (hm : m.dicts m.cur = []) :
    ∃ sched n, ∀ S, S = (⟨m, fun i => if i = 0 then .start [[.eval k]] else .start [hyperCall av u]⟩ : Sys σ κ α).run c sched →
      (S.th 0).finished ∧ (S.th 1).finished ∧ (S.th 0).log = [(some k, .ok (g m.inp))] ∧ (S.th 1).log = [] ∧ S.mem.inp = u m.inp ∧ (∀ den, Sound c den → den k S.mem.inp = g (u m.inp)) ∧
        (((ask S k).run c (List.replicate n 5)).th 5).log = [(some k, .ok (g m.inp))] := by
  refine ⟨[1, 1, 1, 1] ++ List.replicate 8 0 ++ [1], 7, ?_⟩
  rintro S rfl
  simp [Sys.run, Sys.step, step, begin, Th.start, hyperCall, Mem.upd, hk, hm, Dict.find, Dict.has, Dict.keys, Dict.set, show c.prog k = _ from hg, Th.finished, Pc.isIdle, ask, List.replicate]
  exact fun den hs => hg.value hs _

/-- The same with the sample, although the cache is reset after the sample has been written: the evaluation had read the former one. -/
theorem C156_sample_violated (c : Cfg σ κ α) (m : Mem σ κ α) (k : κ) (g : σ → α) (hg : Leaf c k g) (hk : c.keep k = true) (u : σ → σ) (hm : m.dicts m.cur = []) :
    ∃ sched n, ∀ S, S = (⟨m, fun i => if i = 0 then .start [[.eval k]] else .start [sampleCall u]⟩ : Sys σ κ α).run c sched →
      (S.th 0).finished ∧ (S.th 1).finished ∧ (S.th 0).log = [(some k, .ok (g m.inp))] ∧ (S.th 1).log = [] ∧ S.mem.inp = u m.inp ∧ (∀ den, Sound c den → den k S.mem.inp = g (u m.inp)) ∧
        (((ask S k).run c (List.replicate n 5)).th 5).log = [(some k, .ok (g m.inp))] := by
  refine ⟨List.replicate 5 0 ++ List.replicate 5 1 ++ List.replicate 3 0, 7, ?_⟩
  rintro S rfl
  simp [Sys.run, Sys.step, step, begin, Th.start, sampleCall, Mem.upd, hk, hm, Dict.find, Dict.has, Dict.keys, Dict.set, show c.prog k = _ from hg, Th.finished, Pc.isIdle, ask, List.replicate]
  exact fun den hs => hg.value hs _

/-- Not interrupting evaluations is not enough for the sample either: one made during the loop of the reset takes a part that has not been removed yet, and what it stores is not among
the keys the loop goes through. -/
theorem C156_loop_violated (c : Cfg σ κ α) (m : Mem σ κ α) (j k : κ) (hjk : j ≠ k) (g : σ → α) (h : α → α) (hg : Leaf c j g) (hh : c.prog k = .get j fun v => .ret (h v))
    (hk : c.keep k = true) (u : σ → σ) (hm : m.dicts m.cur = [(j, false, g m.inp)]) :
    ∃ sched n, ∀ S, S = (⟨m, fun i => if i = 0 then .start [[.eval k]] else .start [sampleCall u]⟩ : Sys σ κ α).run c sched →
      (∃ a b, sched = a ++ List.replicate 11 0 ++ b ∧ 0 ∉ a ++ b) ∧
      (S.th 0).finished ∧ (S.th 1).finished ∧ (S.th 1).log = [] ∧ S.mem.inp = u m.inp ∧ (∀ den, Sound c den → den k S.mem.inp = h (g (u m.inp))) ∧
        (((ask S k).run c (List.replicate n 5)).th 5).log = [(some k, .ok (h (g m.inp)))] := by
  refine ⟨List.replicate 4 1 ++ List.replicate 11 0 ++ List.replicate 7 1, 7, ?_⟩
  rintro S rfl
  refine ⟨⟨_, _, rfl, by decide +kernel⟩, ?_⟩
  simp [Sys.run, Sys.step, step, begin, Th.start, sampleCall, Mem.upd, hk, hm, Dict.find, Dict.has, Dict.keys, Dict.set, Dict.pop, show c.prog j = _ from hg, hh, Th.finished, Pc.isIdle, ask,
    List.replicate, hjk, hjk.symm]
  intro den hs
  rw [← hs, hh, value, value, hg.value hs]

/-- Two assignments at once: in some schedule one of them raises a `KeyError`, and its value is not assigned. -/
theorem C156_assign_violated (c : Cfg σ κ α) (m : Mem σ κ α) (k : κ) (v : α) (u u' : σ → σ) (hm : m.dicts m.cur = [(k, false, v)]) :
    ∃ sched : List Nat, ∀ S, S = (⟨m, fun i => if i = 0 then .start [hyperCall [] u] else .start [hyperCall [] u']⟩ : Sys σ κ α).run c sched →
      (S.th 0).finished ∧ (S.th 1).finished ∧ (S.th 0).log = [] ∧ (S.th 1).log = [(none, .error .keyError)] ∧ S.mem.inp = u m.inp := by
  refine ⟨[1, 1, 1, 1, 1] ++ List.replicate 11 0 ++ [1, 1], ?_⟩
  rintro S rfl
  simp [Sys.run, Sys.step, step, begin, Th.start, hyperCall, Mem.upd, hm, Dict.find, Dict.has, Dict.keys, Dict.pop, Th.finished, Pc.isIdle, Th.raise, List.replicate]

/-- Printing, listing, porting or changing the level while another thread evaluates: in some schedule it raises a `RuntimeError`. -/
theorem C156_walk_violated (c : Cfg σ κ α) (m : Mem σ κ α) (k : κ) (g : σ → α) (hg : Leaf c k g) (hk : c.keep k = true) (hm : (m.dicts m.cur).has k = false) :
    ∃ sched : List Nat, (((⟨m, fun i => if i = 0 then .start [[.walk]] else .start [[.eval k]]⟩ : Sys σ κ α).run c sched).th 0).log = [(none, .error .runtimeError)] := by
  have hl : ∀ (D : Dict κ (Bool × α)) (v : Bool × α), D.has k = false → (D.set k v).length = D.length + 1 := by
    intro D v
    induction D with
    | nil => intro _; rfl
    | cons p t ih =>
      obtain ⟨a, b⟩ := p
      intro h
      simp only [Dict.has, Dict.find] at h
      by_cases e : a = k
      · simp [e] at h
      · simp only [e, if_false] at h
        simp [Dict.set, e, ih h]
  refine ⟨[0, 0] ++ List.replicate 8 1 ++ [0], ?_⟩
  simp [Sys.run, Sys.step, step, begin, Th.start, Mem.upd, hk, hm, hl, show c.prog k = _ from hg, Th.raise, List.replicate]

/-- What the object went through: evaluations by any number of threads in any schedule, and assignments and resets, each made while nothing else is under way. What an assignment leaves
in the cache must not depend on what it assigns. -/
inductive Orderly (c : Cfg σ κ α) (den : κ → σ → α) : Mem σ κ α → Prop where
  | new (s : σ) : Orderly c den ⟨s, fun _ => [], 0⟩
  | read {m : Mem σ κ α} (ks : Nat → List κ) (sched : List Nat) : Orderly c den m → (∀ i, (((⟨m, readers ks⟩ : Sys σ κ α).run c sched).th i).finished) →
      Orderly c den ((⟨m, readers ks⟩ : Sys σ κ α).run c sched).mem
  | call {m : Mem σ κ α} (x : List (Instr σ κ α)) (n : Nat) : Orderly c den m →
      (x = resetCall ∨ (∃ av u, x = hyperCall av u ∧ ∀ k, k ∈ av ∨ c.pers k = true → den k (u m.inp) = den k m.inp) ∨
        ∃ u, x = sampleCall u ∧ ∀ k, c.pers k = true → den k (u m.inp) = den k m.inp) →
      (((⟨m, fun _ => .start [x]⟩ : Sys σ κ α).run c (List.replicate n 0)).th 0).finished → Orderly c den ((⟨m, fun _ => .start [x]⟩ : Sys σ κ α).run c (List.replicate n 0)).mem

/-- With assignments and resets kept apart, all values are those of the current inputs: through every such history, then evaluated by any number of threads in any schedule. -/
theorem C156_orderly_partial (c : Cfg σ κ α) (den : κ → σ → α) (hs : Sound c den) (m : Mem σ κ α) (h : Orderly c den m) (ks : Nat → List κ) (sched : List Nat) (i : Nat) :
    let t := ((⟨m, readers ks⟩ : Sys σ κ α).run c sched).th i
    (∃ done rest, ks i = done ++ rest ∧ t.log = done.map fun k => (some k, .ok (den k m.inp))) ∧
      (t.finished → t.log = (ks i).map fun k => (some k, .ok (den k m.inp))) := by
  have hinv : Right den m.inp (m.dicts m.cur) ∧ Tidy c m := by
    induction h with
    | new s => exact ⟨fun p hp => (by cases hp), fun d => ⟨Dict.WF.nil, fun p hp => (by cases hp)⟩⟩
    | @read m ks sched _ _ ih =>
      have h1 := (run_ok hs sched ⟨m, readers ks⟩ (mem_start ih.1) fun i => th_start (readers_quiet ks i)).1
      refine ⟨?_, run_tidy c sched _ ih.2⟩
      rw [h1.inp]
      exact h1.right _ ⟨h1.cur, Nat.lt_succ_self _⟩
    | @call m x n _ hx hf ih =>
      have hr := run_alone c 0 n (⟨m, fun _ => .start [x]⟩ : Sys σ κ α)
      refine ⟨?_, run_tidy c _ _ ih.2⟩
      have hmem := congrArg Prod.fst hr
      have hth := congrArg Prod.snd hr
      simp only at hmem hth
      rw [hth] at hf
      rw [hmem]
      suffices hsuf : ∃ n' m' t', alone c n' (m, .start [x]) = (m', t') ∧ t'.finished ∧ Right den m'.inp (m'.dicts m'.cur) by
        obtain ⟨n', m', t', e1, e2, e3⟩ := hsuf
        have := finished_same c hf (k := n') (by rw [e1]; exact e2)
        rw [this, e1]; exact e3
      rcases hx with rfl | ⟨av, u, rfl, hd⟩ | ⟨u, rfl, hd⟩
      · refine ⟨2, _, _, rfl, ⟨rfl, rfl, rfl⟩, ?_⟩
        intro p hp
        simp [step, begin, Th.start, resetCall, Mem.upd] at hp
      · obtain ⟨n1, m1, o1, e1, e2, e3, e4, e5⟩ := reset_alone c av [] [.write u] [] none m ih.2
        refine ⟨1 + (n1 + 1), { m1 with inp := u m1.inp }, ⟨[], [], .idle, [], o1, []⟩, ?_, ⟨rfl, rfl, rfl⟩, ?_⟩
        · rw [alone_add, alone_add]
          have : alone c 1 (m, Th.start [hyperCall av u]) = (m, ⟨[], [.purge av false, .write u], .idle, [], none, []⟩) := rfl
          rw [this, e1]; rfl
        · intro p hp
          simp only [e3] at hp
          obtain ⟨h1, h2⟩ := e5 p hp
          rw [ih.1 p h1, e2, hd _ h2]
      · obtain ⟨n1, m1, o1, e1, e2, e3, e4, e5⟩ := reset_alone c [] [] [] [] none { m with inp := u m.inp } ih.2
        refine ⟨2 + n1, m1, ⟨[], [], .idle, [], o1, []⟩, ?_, ⟨rfl, rfl, rfl⟩, ?_⟩
        · rw [alone_add]
          have : alone c 2 (m, Th.start [sampleCall u]) = ({ m with inp := u m.inp }, ⟨[], [.purge [] false], .idle, [], none, []⟩) := rfl
          rw [this, e1]
        · intro p hp
          simp only [e3] at hp
          obtain ⟨h1, h2⟩ := e5 p hp
          rw [ih.1 p h1, e2, hd _ (by simpa using h2)]
  exact C156_readers c den hs m hinv.1 ks sched i

/-! ## Concrete cases -/

/-- Features computed from the sample (`false`) and a kernel matrix computed from them (`true`), both kept. -/
def exCfg : Cfg Int Bool Int := ⟨fun k => if k then .get false fun v => .ret (v * v) else .read fun s => .ret (s + 1), fun _ => true, fun _ => false⟩

/-- Their values. -/
def exDen (k : Bool) (s : Int) : Int := if k then (s + 1) * (s + 1) else s + 1

theorem exSound : Sound exCfg exDen := by
  intro k s
  cases k <;> simp [exCfg, exDen, value]

/-- A new object with sample 3. -/
def exMem : Mem Int Bool Int := ⟨3, fun _ => [], 0⟩

/-- Three threads asking for the matrix, the features and both. -/
def exKeys (i : Nat) : List Bool := if i = 0 then [true] else if i = 1 then [false] else if i = 2 then [false, true] else []

/-- Turns given in rotation. -/
def exSched : List Nat := (List.range 60).map (· % 3)

example : (((⟨exMem, readers exKeys⟩ : Sys Int Bool Int).run exCfg exSched).th 2).log = [(some false, .ok 4), (some true, .ok 16)] := by
  have h := (C156_readers exCfg exDen exSound exMem (fun p hp => by cases hp) exKeys exSched 2).2 ⟨by decide +kernel, by decide +kernel, by decide +kernel⟩
  exact h.trans (by decide +kernel)

example : ∀ k v, (some k, .ok v) ∈ (((⟨exMem, fun i => .start (if i = 0 then [[.eval true], [.walk]] else [resetCall, [.purge [] false]])⟩ : Sys Int Bool Int).run exCfg exSched).th 0).log →
    v = exDen k 3 :=
  fun k v h => (C156_values_partial exCfg exDen exSound exMem (fun p hp => by cases hp) _ (by
    intro i x hx j hj
    split at hx <;> simp [resetCall] at hx <;> rcases hx with rfl | rfl <;> simp at hj <;> subst hj <;> trivial) exSched 0 (some k) (.ok v) h).1 k v rfl rfl

example : ∃ N, (((⟨exMem, fun i => .start [[.eval true], hyperCall [] (· + (i : Int))]⟩ : Sys Int Bool Int).run exCfg ((List.range N).map (· % 4))).th 3).finished :=
  C156_ends exCfg (fun k => if k then 1 else 0) (by intro k; cases k <;> simp [exCfg, Below]) exMem _ 3 _ fun n => ⟨4 * n + 3, by omega, by omega⟩

example : ∃ sched : List Nat, (((⟨⟨3, fun _ => [(false, false, 4)], 0⟩, fun i => if i = 0 then .start [[.eval false]] else .start [resetCall]⟩ : Sys Int Bool Int).run exCfg sched).th 0).log =
    [(some false, .error .keyError)] :=
  C156_reset_violated exCfg ⟨3, fun _ => [(false, false, 4)], 0⟩ false rfl

example : ∃ sched n, ∀ S, S = (⟨exMem, fun i => if i = 0 then .start [[.eval false]] else .start [hyperCall [] (fun _ => 10)]⟩ : Sys Int Bool Int).run exCfg sched →
    S.mem.inp = 10 ∧ (((ask S false).run exCfg (List.replicate n 5)).th 5).log = [(some false, .ok 4)] := by
  obtain ⟨sched, n, h⟩ := C156_hyper_violated exCfg exMem false (· + 1) rfl rfl (fun _ => 10) [] rfl
  exact ⟨sched, n, fun S hS => ⟨(h S hS).2.2.2.2.1, (h S hS).2.2.2.2.2.2⟩⟩

example : ∃ sched n, ∀ S, S = (⟨exMem, fun i => if i = 0 then .start [[.eval false]] else .start [sampleCall (fun _ => 10)]⟩ : Sys Int Bool Int).run exCfg sched →
    S.mem.inp = 10 ∧ (((ask S false).run exCfg (List.replicate n 5)).th 5).log = [(some false, .ok 4)] := by
  obtain ⟨sched, n, h⟩ := C156_sample_violated exCfg exMem false (· + 1) rfl rfl (fun _ => 10) rfl
  exact ⟨sched, n, fun S hS => ⟨(h S hS).2.2.2.2.1, (h S hS).2.2.2.2.2.2⟩⟩

example : ∃ sched n, ∀ S, S = (⟨⟨3, fun _ => [(false, false, 4)], 0⟩, fun i => if i = 0 then .start [[.eval true]] else .start [sampleCall (fun _ => 10)]⟩ : Sys Int Bool Int).run exCfg sched →
    S.mem.inp = 10 ∧ (((ask S true).run exCfg (List.replicate n 5)).th 5).log = [(some true, .ok 16)] := by
  obtain ⟨sched, n, h⟩ := C156_loop_violated exCfg ⟨3, fun _ => [(false, false, 4)], 0⟩ false true (by decide) (· + 1) (fun v => v * v) rfl rfl rfl (fun _ => 10) rfl
  exact ⟨sched, n, fun S hS => ⟨(h S hS).2.2.2.2.1, (h S hS).2.2.2.2.2.2⟩⟩

example : ∃ sched : List Nat, ∀ S, S = (⟨⟨3, fun _ => [(false, false, 4)], 0⟩, fun i => if i = 0 then .start [hyperCall [] (fun _ => 10)] else .start [hyperCall [] (fun _ => 20)]⟩ :
    Sys Int Bool Int).run exCfg sched → (S.th 1).log = [(none, .error .keyError)] ∧ S.mem.inp = 10 := by
  obtain ⟨sched, h⟩ := C156_assign_violated exCfg ⟨3, fun _ => [(false, false, 4)], 0⟩ false 4 (fun _ => 10) (fun _ => 20) rfl
  exact ⟨sched, fun S hS => ⟨(h S hS).2.2.2.1, (h S hS).2.2.2.2⟩⟩

example : ∃ sched : List Nat, (((⟨exMem, fun i => if i = 0 then .start [[.walk]] else .start [[.eval false]]⟩ : Sys Int Bool Int).run exCfg sched).th 0).log =
    [(none, .error .runtimeError)] := C156_walk_violated exCfg exMem false (· + 1) rfl rfl rfl

/-- An object evaluated by three threads, then given the sample 10, is evaluated on 10. -/
example : (((⟨((⟨((⟨exMem, readers exKeys⟩ : Sys Int Bool Int).run exCfg exSched).mem, fun _ => .start [sampleCall fun _ => 10]⟩ : Sys Int Bool Int).run exCfg (List.replicate 30 0)).mem,
    readers exKeys⟩ : Sys Int Bool Int).run exCfg exSched).th 2).log = [(some false, .ok 11), (some true, .ok 121)] := by
  have fin : ∀ i, (((⟨exMem, readers exKeys⟩ : Sys Int Bool Int).run exCfg exSched).th i).finished := by
    intro i
    by_cases hi : i < 3
    · have : i = 0 ∨ i = 1 ∨ i = 2 := by omega
      rcases this with rfl | rfl | rfl <;> exact ⟨by decide +kernel, by decide +kernel, by decide +kernel⟩
    · rw [run_other exCfg i exSched _ (by
        intro hc
        obtain ⟨n, -, h⟩ := List.mem_map.1 hc
        have := Nat.mod_lt n (show 0 < 3 by decide)
        omega)]
      have : exKeys i = [] := by unfold exKeys; rw [if_neg (by omega), if_neg (by omega), if_neg (by omega)]
      simp [readers, this, Th.start, Th.finished, Pc.isIdle]
  have h1 := Orderly.read exKeys exSched (Orderly.new (c := exCfg) (den := exDen) 3) fin
  have h2 := Orderly.call (sampleCall fun _ => 10) 30 h1 (.inr (.inr ⟨fun _ => 10, rfl, fun k hk => by cases hk⟩)) ⟨by decide +kernel, by decide +kernel, by decide +kernel⟩
  exact ((C156_orderly_partial exCfg exDen exSound _ h2 exKeys exSched 2).2 ⟨by decide +kernel, by decide +kernel, by decide +kernel⟩).trans (by decide +kernel)

end Threads
end Kerch
