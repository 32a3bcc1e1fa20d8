import Verif.Lemmas.Memo
import Verif.Model.Defaults
/-!
# Properties C01-C04 and C63: the cache
-/
set_option linter.unusedSectionVars false
set_option linter.unusedSimpArgs false
namespace Kerch
open Dict CacheSt
variable {κ Env α : Type} [DecidableEq κ] [CacheKey κ]

/-- A level argument that the code recognises. -/
def LvlArg.Known : LvlArg → Prop
  | .none => True
  | .int _ => True
  | .str s => levelSwitcher.has s = true

theorem getLevel_known {c : CacheSt κ α} (h : ∃ n, c.level = .num n) {a : LvlArg} (ha : a.Known) :
    ∃ n, c.getLevel a = .num n := by
  cases a with
  | none => exact h
  | int n => exact ⟨n, rfl⟩
  | str s =>
    simp only [LvlArg.Known, has, Option.isSome_iff_exists] at ha
    obtain ⟨n, hn⟩ := ha
    exact ⟨n, by simp [getLevel, hn]⟩

/-- With the real level table, every request whose default level is a known name has a known level. -/
theorem knownLevels_default (D : Defs κ Env α) (ht : D.table = defaultCacheLevel)
    (hd : ∀ key, (D.cfg key).defaultLevel.Known) : D.KnownLevels := by
  intro key c hc
  unfold resolveLevel
  cases (D.cfg key).levelKey with
  | none => exact getLevel_known hc (hd key)
  | some k =>
    simp only
    cases hf : D.table.find k with
    | none => exact getLevel_known hc (hd key)
    | some s =>
      apply getLevel_known hc
      rw [ht] at hf
      have hmem := mem_of_find hf
      have hall : ∀ kv ∈ defaultCacheLevel, levelSwitcher.has kv.2 = true := by decide
      exact hall _ hmem

/-- C01 side condition: each state update comes with a reset that keeps only quantities it does not affect; level names are
known ones.  (That the code's updates satisfy it is a separate matter: C07, C29, C37, C52 are places where they do not.) -/
def Admissible (D : Defs κ Env α) (env : Env) : List (Defs.Op κ Env) → Prop
  | [] => True
  | .update f rp av :: ops =>
      (∀ key, (key ∈ av ∨ ((D.cfg key).persisting = true ∧ rp = false)) → D.fresh (f env) key = D.fresh env key) ∧
      Admissible D (f env) ops
  | .clean a :: ops => a.Known ∧ Admissible D env ops
  | .setLevel a :: ops => a.Known ∧ Admissible D env ops
  | _ :: ops => Admissible D env ops

theorem coherent_step (D : Defs κ Env α) (hr : D.Ranked) (hl : D.KnownLevels) {env : Env} {c : CacheSt κ α}
    (h : D.Coherent env c) (op : Defs.Op κ Env) (ops : List (Defs.Op κ Env)) (ha : Admissible D env (op :: ops)) :
    D.Coherent (D.step (env, c) op).1.1 (D.step (env, c) op).1.2 ∧ Admissible D (D.step (env, c) op).1.1 ops ∧
    (match (D.step (env, c) op).2 with
      | some o => D.specRun env (op :: ops) = o :: D.specRun (D.step (env, c) op).1.1 ops
      | none => D.specRun env (op :: ops) = D.specRun (D.step (env, c) op).1.1 ops) := by
  obtain ⟨m, hm⟩ := h.numeric.1
  cases op with
  | read key =>
    have hs := Defs.readN_spec hr hl env c.level (D.rank key + 1) key (Nat.lt_succ_self _) c ⟨h, rfl⟩
    refine ⟨hs.2.1, ha, ?_⟩
    simp only [Defs.step, Defs.specRun]
    rw [← hs.1]
    rfl
  | update f rp av =>
    obtain ⟨ha1, ha2⟩ := ha
    obtain ⟨s1, s2, s3⟩ := resetCache_spec c h.wf rp av
    refine ⟨⟨s1, ⟨⟨m, s2.trans hm⟩, ?_⟩, ?_, ?_⟩, ha2, rfl⟩
    · intro k e he
      simp only [Defs.step, s3, Option.filter_eq_some_iff] at he
      exact h.numeric.2 k e he.1
    · intro k e he
      simp only [Defs.step, s3, Option.filter_eq_some_iff] at he
      obtain ⟨he1, he2⟩ := he
      have := ha1 k (by
        simp only [Bool.or_eq_true, Bool.and_eq_true, Bool.not_eq_true', List.contains_iff_mem] at he2
        rcases he2 with h2 | ⟨h2, h3⟩
        · exact Or.inl h2
        · exact Or.inr ⟨(h.pers k e he1) ▸ h2, h3⟩)
      show D.fresh (f env) k = _
      rw [this]
      exact h.val k e he1
    · intro k e he
      simp only [Defs.step, s3, Option.filter_eq_some_iff] at he
      exact h.pers k e he.1
  | reset rp =>
    obtain ⟨s1, s2, s3⟩ := resetCache_spec c h.wf rp []
    refine ⟨h.mono s1 ⟨m, s2.trans hm⟩ (fun k e he => ?_), ha, rfl⟩
    simp only [Defs.step, s3, Option.filter_eq_some_iff] at he
    exact he.1
  | clean a =>
    obtain ⟨ha1, ha2⟩ := ha
    obtain ⟨n, hn⟩ := getLevel_known h.numeric.1 ha1
    obtain ⟨_, s1, s2, s3⟩ := clean_spec c h.wf h.numeric a n hn
    refine ⟨h.mono s1 ⟨m, s2.trans hm⟩ (fun k e he => ?_), ha2, rfl⟩
    simp only [Defs.step, s3] at he
    split at he
    · cases he
    · rw [Option.filter_eq_some_iff] at he
      exact he.1
  | remove k =>
    have hs := remove_spec c h.wf k
    exact ⟨h.mono hs.1 ⟨m, hs.2.1.trans hm⟩ (fun k' e he => Defs.remove_sub h.wf _ k' e he), ha, rfl⟩
  | setLevel a =>
    obtain ⟨ha1, ha2⟩ := ha
    exact ⟨h.mono h.wf (getLevel_known h.numeric.1 ha1) (fun k e he => he), ha2, rfl⟩

theorem run_eq_spec (D : Defs κ Env α) (hr : D.Ranked) (hl : D.KnownLevels) (ops : List (Defs.Op κ Env)) (env : Env)
    (c : CacheSt κ α) (h : D.Coherent env c) (ha : Admissible D env ops) :
    (D.run (env, c) ops).2 = D.specRun env ops ∧
      D.Coherent (D.run (env, c) ops).1.1 (D.run (env, c) ops).1.2 := by
  induction ops generalizing env c with
  | nil => exact ⟨rfl, h⟩
  | cons op ops ih =>
    obtain ⟨h1, h2, h3⟩ := coherent_step D hr hl h op ops ha
    have := ih _ _ h1 h2
    simp only [Defs.run]
    refine ⟨?_, this.2⟩
    cases ho : (D.step (env, c) op).2 with
    | none => rw [ho] at h3; simp only at h3 ⊢; rw [h3]; exact this.1
    | some o => rw [ho] at h3; simp only at h3 ⊢; rw [h3]; exact congrArg _ this.1

theorem init_coherent (D : Defs κ Env α) (env : Env) {lvl : LvlArg} (hlvl : lvl.Known) :
    D.Coherent env (CacheSt.init lvl) where
  wf := WF.nil
  numeric := ⟨by
    have := getLevel_known (c := ({ level := .num 0, dict := [] } : CacheSt κ α)) ⟨0, rfl⟩ hlvl
    simpa [CacheSt.init, setLevel] using this, by intro k e h; cases h⟩
  val := by intro k e h; cases h
  pers := by intro k e h; cases h

/-- **C01.** Every read of every history returns what a module without any cache returns (nested cached quantities
included), whatever the cache level the module was created with. -/
theorem C01_cache_transparent (D : Defs κ Env α) (hr : D.Ranked) (hl : D.KnownLevels) (env : Env) (lvl : LvlArg)
    (hlvl : lvl.Known) (ops : List (Defs.Op κ Env)) (ha : Admissible D env ops) :
    (D.run (env, CacheSt.init lvl) ops).2 = D.specRun env ops :=
  (run_eq_spec D hr hl ops env _ (init_coherent D env hlvl) ha).1

/-- **C01**, as independence of the level: two modules of different cache levels are indistinguishable by reads. -/
theorem C01_level_irrelevant (D : Defs κ Env α) (hr : D.Ranked) (hl : D.KnownLevels) (env : Env) (l₁ l₂ : LvlArg)
    (h₁ : l₁.Known) (h₂ : l₂.Known) (ops : List (Defs.Op κ Env)) (ha : Admissible D env ops) :
    (D.run (env, CacheSt.init l₁) ops).2 = (D.run (env, CacheSt.init l₂) ops).2 := by
  rw [C01_cache_transparent D hr hl env l₁ h₁ ops ha, C01_cache_transparent D hr hl env l₂ h₂ ops ha]

/-- **C01**, the reason for resets: when an update is made without resetting a cached quantity it affects, the next read is
wrong.  (So the hypothesis `Admissible` cannot be dropped.) -/
theorem C01_reset_needed (D : Defs κ Env α) (hr : D.Ranked) (hl : D.KnownLevels) (env env' : Env) (key : κ) (v : α)
    (c : CacheSt κ α) (hov : (D.cfg key).overwrite = false)
    (hc : ∃ e, c.dict.find key = some e ∧ e.val = v) (hne : D.fresh env' key ≠ .ok v) :
    (D.read env' key c).1 ≠ D.fresh env' key := by
  obtain ⟨e, he, hv⟩ := hc
  have : (D.read env' key c).1 = .ok v := by
    simp [Defs.read, Defs.readN, CacheSt.get, hov, he, hv]
  rw [this]
  exact fun h => hne h.symm

section Example
/-- The cached quantities of `Kernel` as an instance: `C` (kernel.py:160-171) and `K` (explicit route, 173-193) need `phi`
(148-158); the environment is a feature function of the state. Matrices are abstracted to a number here. -/
def kernelDefs : Defs String Int Int where
  table := defaultCacheLevel
  body := fun key =>
    if key = "C" then .need "phi" (fun v => .ret (fun _ => .ok (v * v)))
    else if key = "K" then .need "phi" (fun v => .ret (fun _ => .ok (v + v)))
    else .ret (fun env => .ok env)
  cfg := fun key => { levelKey := some ("sample_" ++ key) }
  rank := fun key => if key = "phi" then 0 else 1

example : kernelDefs.Ranked := by
  intro key
  by_cases h1 : key = "C"
  · subst h1; simp [kernelDefs, Prog.Below]
  · by_cases h2 : key = "K"
    · subst h2; simp [kernelDefs, Prog.Below]
    · simp [kernelDefs, Prog.Below, h1, h2]

example : kernelDefs.KnownLevels := knownLevels_default kernelDefs rfl (by intro key; show levelSwitcher.has "normal" = true; decide)

example : Admissible kernelDefs 3 [.read "C", .update (fun e => e + 1) false [], .setLevel (.str "light"), .read "K"] := by
  refine ⟨?_, ?_, trivial⟩
  · intro key h; simp [kernelDefs] at h
  · show levelSwitcher.has "light" = true; decide

example : (kernelDefs.run (3, CacheSt.init) [.read "C", .update (fun e => e + 1) false [], .read "C", .read "K"]).2
    = [.ok 9, .ok 16, .ok 8] := by decide +kernel
end Example

/-! ## C02 -/

/-- All elements of the cache are of integer level at most the module's. -/
structure Bounded (L : Int) (c : CacheSt κ α) : Prop where
  wf : c.dict.WF
  level : c.level = .num L
  bound : ∀ k e, c.dict.find k = some e → ∃ l, e.level = .num l ∧ l ≤ L

theorem Bounded.mono {L : Int} {c c' : CacheSt κ α} (h : Bounded L c) (hw : c'.dict.WF) (hl : c'.level = .num L)
    (hsub : ∀ k e, c'.dict.find k = some e → c.dict.find k = some e) : Bounded L c' :=
  ⟨hw, hl, fun k e he => h.bound k e (hsub k e he)⟩

theorem runCached_inv (D : Defs κ Env α) {env : Env} {r : Nat} {rec : κ → M κ α α} (P : CacheSt κ α → Prop)
    (p : Prog κ Env α) (hb : p.Below D.rank r)
    (hrec : ∀ key, D.rank key < r → ∀ c, P c → P (rec key c).2)
    (c : CacheSt κ α) (hc : P c) : P (p.runCached rec env c).2 := by
  induction p generalizing c with
  | ret f => exact hc
  | need key k ih =>
    obtain ⟨h1, h2⟩ := hb
    have g2 := hrec key h1 c hc
    simp only [Prog.runCached]
    generalize rec key c = x at *
    obtain ⟨x1, x2⟩ := x
    cases x1 with
    | error e => exact g2
    | ok v => exact ih v (h2 v) _ g2

theorem readN_bounded (D : Defs κ Env α) (hr : D.Ranked) (hf : ∀ key, (D.cfg key).force = false) (env : Env) (L : Int)
    (n : Nat) (key : κ) (h : D.rank key < n) (c : CacheSt κ α) (hc : Bounded L c) :
    Bounded L (D.readN n env key c).2 := by
  induction n using Nat.strongRecOn generalizing key c with
  | _ n ih =>
    cases n with
    | zero => omega
    | succ n =>
      simp only [Defs.readN, CacheSt.get]
      split
      · exact hc
      · have hrun := runCached_inv D (env := env) (r := D.rank key) (rec := D.readN n env) (Bounded L) (D.body key) (hr key)
          (fun key' hk' c' hc' => ih n (by omega) key' (by omega) c' hc') c hc
        simp only [save]
        generalize hx : (D.body key).runCached (D.readN n env) env c = x at *
        obtain ⟨x1, x2⟩ := x
        simp only at hrun
        cases x1 with
        | error e => exact hrun
        | ok v =>
          simp only
          have hrm : ∀ c' : CacheSt κ α, Bounded L c' →
              Bounded L (if (D.cfg key).destroy = true then c'.remove (.str key) else c') := by
            intro c' hc'
            split
            · have hs := remove_spec c' hc'.wf (.str key)
              exact hc'.mono hs.1 (hs.2.1.trans hc'.level) (fun k e he => Defs.remove_sub hc'.wf _ k e he)
            · exact hc'
          cases hle : (resolveLevel D.table c (D.cfg key)).le x2.level with
          | error e => exact hrun
          | ok b =>
            simp only [hf, Bool.or_false]
            cases b with
            | false => exact hrm _ hrun
            | true =>
              apply hrm
              refine ⟨hrun.wf.set _ _, hrun.level, fun k e he => ?_⟩
              rw [find_set] at he
              split at he
              · cases he
                rw [hrun.level] at hle
                generalize resolveLevel D.table c (D.cfg key) = lv at *
                cases lv with
                | msg => simp [Lvl.le] at hle
                | num l => exact ⟨l, rfl, by simpa [Lvl.le] using hle⟩
              · exact hrun.bound k e he

/-- The level is never lowered along the history (and only known level names are used). -/
def RaiseOnly (L : Int) : List (Defs.Op κ Env) → Prop
  | [] => True
  | .setLevel a :: ops => ∃ m, ({ level := .num L, dict := [] } : CacheSt String Unit).getLevel a = .num m ∧ L ≤ m ∧ RaiseOnly m ops
  | .clean a :: ops => a.Known ∧ RaiseOnly L ops
  | _ :: ops => RaiseOnly L ops

/-- **C02.** Without forced elements and as long as the level is not lowered, after any history every element kept has a level
not exceeding the module's one. -/
theorem C02_level_bound (D : Defs κ Env α) (hr : D.Ranked) (hf : ∀ key, (D.cfg key).force = false) (ops : List (Defs.Op κ Env))
    (env : Env) (L : Int) (hops : RaiseOnly L ops) :
    ∃ M, (D.run (env, { level := .num L, dict := [] }) ops).1.2.level = .num M ∧ L ≤ M ∧
      ∀ k e, (D.run (env, { level := .num L, dict := [] }) ops).1.2.dict.find k = some e →
        ∃ l, e.level = .num l ∧ l ≤ M := by
  suffices h : ∀ (ops : List (Defs.Op κ Env)) (env : Env) (L : Int) (c : CacheSt κ α), Bounded L c → RaiseOnly L ops →
      ∃ M, L ≤ M ∧ Bounded M (D.run (env, c) ops).1.2 by
    obtain ⟨M, h1, h2⟩ := h ops env L { level := .num L, dict := [] }
      ⟨WF.nil, rfl, by intro k e h; cases h⟩ hops
    exact ⟨M, h2.level, h1, h2.bound⟩
  intro ops
  induction ops with
  | nil => intro env L c hc _; exact ⟨L, Int.le_refl _, hc⟩
  | cons op ops ih =>
    intro env L c hc hops
    have key : ∀ (env' : Env) (c' : CacheSt κ α), (D.step (env, c) op).1 = (env', c') → Bounded L c' → RaiseOnly L ops →
        ∃ M, L ≤ M ∧ Bounded M (D.run (env, c) (op :: ops)).1.2 := by
      intro env' c' hst hb ho
      simp only [Defs.run, hst]
      exact ih env' L c' hb ho
    cases op with
    | read k => exact key _ _ rfl (readN_bounded D hr hf env L _ k (Nat.lt_succ_self _) c hc) hops
    | update f rp av =>
      obtain ⟨s1, s2, s3⟩ := resetCache_spec c hc.wf rp av
      refine key _ _ rfl (hc.mono s1 (s2.trans hc.level) (fun k e he => ?_)) hops
      simp only [s3, Option.filter_eq_some_iff] at he
      exact he.1
    | reset rp =>
      obtain ⟨s1, s2, s3⟩ := resetCache_spec c hc.wf rp []
      refine key _ _ rfl (hc.mono s1 (s2.trans hc.level) (fun k e he => ?_)) hops
      simp only [s3, Option.filter_eq_some_iff] at he
      exact he.1
    | clean a =>
      obtain ⟨n, hn⟩ := getLevel_known (c := c) ⟨L, hc.level⟩ hops.1
      have hnum : c.Numeric := ⟨⟨L, hc.level⟩, fun k e he => by
        obtain ⟨l, hl, _⟩ := hc.bound k e he; exact ⟨l, hl⟩⟩
      obtain ⟨_, s1, s2, s3⟩ := clean_spec c hc.wf hnum a n hn
      refine key _ _ rfl (hc.mono s1 (s2.trans hc.level) (fun k e he => ?_)) hops.2
      rw [s3] at he
      split at he
      · cases he
      · rw [Option.filter_eq_some_iff] at he; exact he.1
    | remove k =>
      have hs := remove_spec c hc.wf k
      exact key _ _ rfl (hc.mono hs.1 (hs.2.1.trans hc.level) (fun k' e he => Defs.remove_sub hc.wf _ k' e he)) hops
    | setLevel a =>
      obtain ⟨m, hm, hLm, ho⟩ := hops
      have hl : c.getLevel a = .num m := by
        rw [← hm]
        cases a with
        | none => simp [getLevel, hc.level]
        | int n => rfl
        | str s => rfl
      have hb : Bounded m (c.setLevel a) := ⟨hc.wf, hl, fun k e he => by
        obtain ⟨l, h1, h2⟩ := hc.bound k e he
        exact ⟨l, h1, by omega⟩⟩
      simp only [Defs.run, Defs.step]
      obtain ⟨M, h1, h2⟩ := ih env m _ hb ho
      exact ⟨M, by omega, h2⟩

example : RaiseOnly (κ := String) (Env := Int) 1 [.read "C", .setLevel (.str "heavy"), .clean .none, .setLevel (.int 7)] := by
  refine ⟨3, by decide, by decide, ⟨trivial, 7, by decide, by decide, trivial⟩⟩

/-- **C02**, cleaning: whatever is in the cache (forced elements included), cleaning at the module's own level leaves exactly
the elements not above it, and nothing at all when that level is `'none'`. -/
theorem C02_clean_exact (c : CacheSt κ α) (w : c.dict.WF) (hn : c.Numeric) (L : Int) (hL : c.level = .num L) :
    (clean .none c).1 = .ok () ∧ (clean .none c).2.level = .num L ∧
    (L = 0 → (clean .none c).2.dict = []) ∧
    (L ≠ 0 → ∀ k e, (clean .none c).2.dict.find k = some e ↔
      (c.dict.find k = some e ∧ ∃ l, e.level = .num l ∧ l ≤ L)) := by
  obtain ⟨h1, h2, h3, h4⟩ := clean_spec c w hn .none L hL
  refine ⟨h1, h3.trans hL, ?_, ?_⟩
  · intro h0
    subst h0
    unfold clean
    simp [getLevel, hL, resetCache]
  · intro h0 k e
    rw [h4, if_neg h0, Option.filter_eq_some_iff]
    refine and_congr_right fun he => ?_
    obtain ⟨n, hne⟩ := hn.2 k e he
    unfold notAbove
    simp [hne]

/-- **C02**, what is kept is used: once a quantity was obtained and its level does not exceed the module's (or it was forced),
the next request returns it without computing anything. -/
theorem C02_kept_is_reused (table : Dict String String) (key : κ) (a : GetArgs) (fn fn' : M κ α α) (c c1 : CacheSt κ α)
    (v : α) (l m : Int) (hov : a.overwrite = false) (hde : a.destroy = false)
    (hget : CacheSt.get table key a fn c = (.ok v, c1)) (hl : resolveLevel table c a = .num l)
    (hm : c1.level = .num m) (hlm : l ≤ m ∨ a.force = true) :
    CacheSt.get table key a fn' c1 = (.ok v, c1) := by
  have hfind : ∃ e, c1.dict.find key = some e ∧ e.val = v := by
    simp only [CacheSt.get, hov] at hget
    split at hget
    · rename_i e he
      cases hget
      exact ⟨e, by simpa using he, rfl⟩
    · simp only [save, hde, Bool.false_eq_true, if_false] at hget
      generalize fn c = x at *
      obtain ⟨x1, x2⟩ := x
      cases x1 with
      | error e => cases hget
      | ok v' =>
        simp only [hl] at hget
        cases hle : Lvl.le (.num l) x2.level with
        | error e => simp [hle] at hget
        | ok b =>
          have hx2 : ∃ m', x2.level = .num m' := by
            cases hx : x2.level with
            | num m' => exact ⟨m', rfl⟩
            | msg => simp [hx, Lvl.le] at hle
          obtain ⟨m', hm'⟩ := hx2
          simp only [hle] at hget
          by_cases hbf : (b || a.force) = true
          · simp only [hbf, if_true] at hget
            cases hget
            exact ⟨_, by rw [find_set, if_pos rfl], rfl⟩
          · exfalso
            simp only [hbf] at hget
            cases hget
            rw [hm] at hm'
            cases hm'
            simp only [hm, Lvl.le] at hle
            simp only [Except.ok.injEq] at hle
            simp only [Bool.or_eq_true, not_or, ← hle, decide_eq_true_eq] at hbf
            rcases hlm with h | h
            · exact hbf.1 h
            · exact hbf.2 h
  obtain ⟨e, he, hv⟩ := hfind
  simp [CacheSt.get, hov, he, hv]

/-! ## C03 -/

/-- **C03**, one module: `reset` keeps exactly the persisting elements if told so, and nothing otherwise. -/
theorem C03_reset_exact (c : CacheSt κ α) (w : c.dict.WF) (rp : Bool) (k : κ) (e : Entry α) :
    (c.resetCache rp).dict.find k = some e ↔ (c.dict.find k = some e ∧ rp = false ∧ e.persisting = true) := by
  rw [(resetCache_spec c w rp []).2.2, Option.filter_eq_some_iff]
  simp [and_comm]

/-- **C03**, full reset: the cache is empty and the level kept. -/
theorem C03_reset_empties (c : CacheSt κ α) : (c.resetCache true).dict = [] ∧ (c.resetCache true).level = c.level := by
  simp [resetCache]

theorem resetChildren_get (recurse rp : Bool) (ts : List (ModTree κ α)) (i : Nat) :
    (ModTree.resetChildren recurse rp ts)[i]? =
      (ts[i]?).map (fun t => if t.isCache then t.reset recurse rp else t) := by
  induction ts generalizing i with
  | nil => simp [ModTree.resetChildren]
  | cons t ts ih =>
    cases i with
    | zero => simp [ModTree.resetChildren]
    | succ i => simpa [ModTree.resetChildren] using ih i

/-- **C03**, recursive reset: each module reached through `Cache` modules only has its cache reset; every other one is untouched;
the structure of the tree is unchanged. -/
theorem C03_reset_recursive (t : ModTree κ α) (rp : Bool) (p : List Nat) :
    (t.CachePath p → ((t.reset true rp).sub p).map ModTree.cache = (t.sub p).map (fun s => s.cache.resetCache rp)) ∧
    (¬ t.CachePath p → ((t.reset true rp).sub p).map ModTree.cache = (t.sub p).map ModTree.cache) := by
  induction p generalizing t with
  | nil =>
    obtain ⟨b, c, ch⟩ := t
    simp [ModTree.CachePath, ModTree.sub, ModTree.reset, ModTree.cache]
  | cons i p ih =>
    obtain ⟨b, c, ch⟩ := t
    have hch : (ModTree.reset true rp (.node b c ch)).children[i]? =
        (ch[i]?).map (fun t => if t.isCache then t.reset true rp else t) := by
      simp [ModTree.reset, ModTree.children, resetChildren_get]
    simp only [ModTree.sub, ModTree.CachePath, hch]
    cases hi : ch[i]? with
    | none => simp [ModTree.children, hi]
    | some t' =>
      have hi' : (ModTree.node b c ch).children[i]? = some t' := by simpa [ModTree.children] using hi
      simp only [hi', Option.map_some, Option.some.injEq, exists_eq_left']
      by_cases hb : t'.isCache = true
      · simp only [hb, true_and, if_true]
        exact ih t'
      · simp [hb]

/-- **C03**, non-recursive reset: all descendants are untouched. -/
theorem C03_reset_local (t : ModTree κ α) (rp : Bool) (i : Nat) (p : List Nat) :
    (t.reset false rp).cache = t.cache.resetCache rp ∧ (t.reset false rp).sub (i :: p) = t.sub (i :: p) := by
  obtain ⟨b, c, ch⟩ := t
  exact ⟨rfl, by simp [ModTree.sub, ModTree.reset, ModTree.children]⟩

example : (ModTree.node true (CacheSt.init : CacheSt String Nat) [.node true CacheSt.init [], .node false CacheSt.init []]).CachePath [0]
    ∧ ¬ (ModTree.node true (CacheSt.init : CacheSt String Nat) [.node true CacheSt.init [], .node false CacheSt.init []]).CachePath [1] := by
  refine ⟨⟨_, rfl, rfl, trivial⟩, ?_⟩
  rintro ⟨t, h, h2, _⟩
  simp [ModTree.children] at h
  subst h
  simp [ModTree.isCache] at h2

/-! ## C04 -/

/-- **C04**, what holds: removing by a *list* of keys removes these and no other. -/
theorem C04_remove_list_partial (c : CacheSt κ α) (w : c.dict.WF) (ks : List κ) (k : κ) :
    (c.remove (.list ks)).dict.find k = if k ∈ ks then none else c.dict.find k :=
  (remove_spec c w (.list ks)).2.2 k

/-- **C04**, what holds: removing by a one-character key removes it and no other. -/
theorem C04_remove_char_partial (c : CacheSt String α) (w : c.dict.WF) (ch : Char) (k : String) :
    (c.remove (.str (String.ofList [ch]))).dict.find k = if k = String.ofList [ch] then none else c.dict.find k := by
  rw [(remove_spec c w _).2.2]
  simp [KeyArg.items, CacheKey.iter]

theorem not_mem_items_of_length {s : String} (h : s.toList.length ≠ 1) : s ∉ (KeyArg.str s).items := by
  intro hm
  simp only [KeyArg.items, CacheKey.iter, List.mem_map] at hm
  obtain ⟨ch, _, hch⟩ := hm
  apply h
  rw [← hch]
  simp

/-- **C04 is violated** for every key of two characters or more: removing it by name leaves it in the cache, whatever its value. -/
theorem C04_remove_str_violated (c : CacheSt String α) (w : c.dict.WF) (s : String) (h : s.toList.length ≠ 1) :
    (c.remove (.str s)).dict.find s = c.dict.find s := by
  rw [(remove_spec c w _).2.2, if_neg (not_mem_items_of_length h)]

/-- **C04 is violated**: a quantity of (integer) level requested with `force` and `destroy` (as the sample distances are,
kernel/distance/distance.py:15-17) is still in the cache afterwards, for every key but the one-letter ones. -/
theorem C04_destroy_violated (table : Dict String String) (key : String) (hk : key.toList.length ≠ 1) (a : GetArgs)
    (hf : a.force = true) (hd : a.destroy = true) (c : CacheSt String α) (w : c.dict.WF) (v : α) (fn : M String α α)
    (hfn : fn c = (.ok v, c)) (l m : Int) (hl : resolveLevel table c a = .num l) (hm : c.level = .num m)
    (hnew : c.dict.find key = none) :
    (CacheSt.get table key a fn c).1 = .ok v ∧
    (CacheSt.get table key a fn c).2.dict.find key = some ⟨.num l, a.persisting, v⟩ := by
  have h1 : (if a.overwrite then none else c.dict.find key) = none := by simp [hnew]
  simp only [CacheSt.get, h1, save, hfn, hl, hm, Lvl.le, hf, hd, Bool.or_true, if_true]
  refine ⟨trivial, ?_⟩
  rw [C04_remove_str_violated _ (w.set _ _) key hk, find_set, if_pos rfl]

/-- The keys concerned in the code: `Distance._sample_dist`, `RandomFeatures.after_step`, `Polynomial.alpha`. -/
example : ∀ k ∈ ["_kernel_dist_sample", "_kernel_square_dist_sample", "Kernel_RF_weights_pinv", "_poly_explicit"],
    k.toList.length ≠ 1 := by decide

/-! ## C63 -/

/-- **C63**, what holds: a known level name is read back unchanged. -/
theorem C63_level_roundtrip_partial (c : CacheSt κ α) (s : String) (h : levelSwitcher.has s = true) :
    (c.setLevel (.str s)).levelName = .ok s := by
  have hall : ∀ kv ∈ levelSwitcher, (CacheSt.setLevel ({ level := .num 0, dict := [] } : CacheSt String Unit) (.str kv.1)).levelName = .ok kv.1 := by
    decide
  simp only [has, Option.isSome_iff_exists] at h
  obtain ⟨n, hn⟩ := h
  have hm := mem_of_find hn
  have := hall _ hm
  simpa [levelName, setLevel, getLevel, hn] using this

/-- **C63 is violated**: an unknown level name is accepted silently (no exception, whatever the state); reading the level back then
raises `KeyError`, and every request of a quantity of known level that is not yet in the cache raises `TypeError` after having
computed it. -/
theorem C63_unknown_level_violated (c : CacheSt κ α) (s : String) (h : levelSwitcher.has s = false) :
    (c.setLevel (.str s)).dict = c.dict ∧ (c.setLevel (.str s)).levelName = .error .keyError ∧
    ∀ (table : Dict String String) (key : κ) (a : GetArgs) (v : α) (l : Int),
      c.dict.find key = none → resolveLevel table (c.setLevel (.str s)) a = .num l →
      (CacheSt.get table key a (fun c => (.ok v, c)) (c.setLevel (.str s))).1 = .error .typeError := by
  have hf : levelSwitcher.find s = none := by simpa [has] using h
  have hl : (c.setLevel (.str s)).level = .msg := by simp [setLevel, getLevel, hf]
  refine ⟨rfl, ?_, ?_⟩
  · unfold levelName
    rw [hl]
    simp [levelSwitcher]
  · intro table key a v l hk hr
    have h1 : (if a.overwrite then none else (c.setLevel (.str s)).dict.find key) = none := by
      simp [setLevel, hk]
    simp only [CacheSt.get, h1, save, hr, hl, Lvl.le]

example : levelSwitcher.has "Normal" = false := by decide

end Kerch

/-! ## Concrete cases meeting the hypotheses of the theorems above -/

namespace Kerch
open CacheSt
namespace CacheCase

theorem ranked : kernelDefs.Ranked := by
  intro key
  by_cases h1 : key = "C"
  · subst h1; simp [kernelDefs, Prog.Below]
  · by_cases h2 : key = "K"
    · subst h2; simp [kernelDefs, Prog.Below]
    · simp [kernelDefs, Prog.Below, h1, h2]

theorem known : kernelDefs.KnownLevels := knownLevels_default kernelDefs rfl (by intro key; show levelSwitcher.has "normal" = true; decide)

theorem light : (LvlArg.str "light").Known := by show levelSwitcher.has "light" = true; decide
theorem heavy : (LvlArg.str "heavy").Known := by show levelSwitcher.has "heavy" = true; decide

/-- Reads around an update that resets the cache. -/
def ops : List (Defs.Op String Int) := [.read "C", .update (fun e => e + 1) false [], .setLevel (.str "light"), .read "K"]

theorem admissible : Admissible kernelDefs 3 ops := by
  refine ⟨?_, light, trivial⟩
  intro key h; simp [kernelDefs] at h

/-- A cache holding an element of level `lightweight` and a forced one of level `heavy`. -/
def held : CacheSt String Int := ⟨.num 1, [("phi", ⟨.num 1, false, 3⟩), ("extra", ⟨.num 3, true, 5⟩)]⟩

theorem held_wf : held.dict.WF := by unfold Dict.WF; decide

theorem held_numeric : held.Numeric := ⟨⟨1, rfl⟩, fun k e h => by
  by_cases h1 : k = "phi"
  · subst h1; cases h; exact ⟨1, rfl⟩
  · by_cases h2 : k = "extra"
    · subst h2; cases h; exact ⟨3, rfl⟩
    · simp [held, Dict.find, Ne.symm h1, Ne.symm h2] at h⟩

example := C01_cache_transparent kernelDefs ranked known 3 (.str "heavy") heavy ops admissible
example := C01_level_irrelevant kernelDefs ranked known 3 (.str "heavy") (.str "light") heavy light ops admissible
/-- `phi` is read after the environment went from 3 to 4 without a reset. -/
example : (kernelDefs.read 4 "phi" held).1 ≠ kernelDefs.fresh 4 "phi" :=
  C01_reset_needed kernelDefs ranked known 3 4 "phi" 3 held rfl ⟨_, rfl, rfl⟩ (by decide +kernel)
example := C02_level_bound kernelDefs ranked (fun _ => rfl) [.read "C", .setLevel (.str "heavy"), .clean .none, .setLevel (.int 7)] 3 1
  ⟨3, by decide, by decide, ⟨trivial, 7, by decide, by decide, trivial⟩⟩
example := C02_clean_exact held held_wf held_numeric 1 rfl
example := C02_kept_is_reused [] "phi" { defaultLevel := .str "light" } (fun c => (.ok 3, c)) (fun c => (.ok 8, c)) (CacheSt.init : CacheSt String Int)
  _ 3 1 2 rfl rfl rfl rfl rfl (Or.inl (by decide))
example := C04_remove_str_violated held held_wf "phi" (by decide)
example := C04_destroy_violated [] "_kernel_dist" (by decide) { force := true, destroy := true } rfl rfl held held_wf 9 (fun c => (.ok 9, c)) rfl
  2 1 rfl rfl rfl
example := C63_level_roundtrip_partial held "heavy" (by decide)
example := C63_unknown_level_violated held "Normal" (by decide)

end CacheCase
end Kerch
