import Verif.Model.Memo
import Verif.Lemmas.Cache
/-! Soundness of memoisation: helper lemmas for C01 and C02. -/
set_option linter.unusedSectionVars false
set_option linter.unusedSimpArgs false
namespace Kerch
namespace Defs
open CacheSt Dict
variable {κ Env α : Type} [DecidableEq κ] [CacheKey κ] (D : Defs κ Env α)

/-- Quantities only need quantities of lower rank. -/
def Ranked : Prop := ∀ key, (D.body key).Below D.rank (D.rank key)

/-- The level of each quantity is a known one. -/
def KnownLevels : Prop := ∀ key (c : CacheSt κ α), (∃ n, c.level = .num n) → ∃ n, resolveLevel D.table c (D.cfg key) = .num n

/-- Every element of the cache is what a fresh computation gives. -/
structure Coherent (env : Env) (c : CacheSt κ α) : Prop where
  wf : c.dict.WF
  numeric : c.Numeric
  val : ∀ k e, c.dict.find k = some e → D.fresh env k = .ok e.val
  pers : ∀ k e, c.dict.find k = some e → e.persisting = (D.cfg k).persisting

variable {D}

theorem runFresh_congr {rank : κ → Nat} {r : Nat} {rec rec' : κ → Except Err α} {env : Env}
    (p : Prog κ Env α) (hb : p.Below rank r) (h : ∀ key, rank key < r → rec key = rec' key) :
    p.runFresh rec env = p.runFresh rec' env := by
  induction p with
  | ret f => rfl
  | need key k ih =>
    obtain ⟨h1, h2⟩ := hb
    simp only [Prog.runFresh, h key h1]
    split
    · rfl
    · exact ih _ (h2 _)

theorem freshN_eq (hr : D.Ranked) (env : Env) (n : Nat) (key : κ) (h : D.rank key < n) :
    D.freshN n env key = D.fresh env key := by
  induction n using Nat.strongRecOn generalizing key with
  | _ n ih =>
    cases n with
    | zero => omega
    | succ n =>
      simp only [fresh, freshN]
      apply runFresh_congr _ (hr key)
      intro key' hk'
      by_cases hn : n = D.rank key
      · rw [hn]
      · rw [ih n (by omega) key' (by omega), ih (D.rank key) (by omega) key' hk']

theorem fresh_eq_runFresh (hr : D.Ranked) (env : Env) (key : κ) :
    D.fresh env key = (D.body key).runFresh (D.fresh env) env := by
  simp only [fresh, freshN]
  apply runFresh_congr _ (hr key)
  intro key' hk'
  exact freshN_eq hr env _ key' hk'

theorem runCached_spec {env : Env} {r : Nat} {rec : κ → M κ α α} (P : CacheSt κ α → Prop)
    (p : Prog κ Env α) (hb : p.Below D.rank r)
    (hrec : ∀ key, D.rank key < r → ∀ c, P c → (rec key c).1 = D.fresh env key ∧ P (rec key c).2)
    (c : CacheSt κ α) (hc : P c) :
    (p.runCached rec env c).1 = p.runFresh (D.fresh env) env ∧ P (p.runCached rec env c).2 := by
  induction p generalizing c with
  | ret f => exact ⟨rfl, hc⟩
  | need key k ih =>
    obtain ⟨h1, h2⟩ := hb
    obtain ⟨g1, g2⟩ := hrec key h1 c hc
    simp only [Prog.runCached, Prog.runFresh]
    generalize hx : rec key c = x at *
    obtain ⟨x1, x2⟩ := x
    simp only at g1 g2
    subst g1
    cases hf : D.fresh env key with
    | error e => exact ⟨rfl, g2⟩
    | ok v => exact ih v (h2 v) _ g2

theorem Coherent.set {env : Env} {c : CacheSt κ α} (h : D.Coherent env c) {key : κ} {l : Int} {v : α}
    (hv : D.fresh env key = .ok v) :
    D.Coherent env { c with dict := c.dict.set key ⟨.num l, (D.cfg key).persisting, v⟩ } where
  wf := h.wf.set _ _
  numeric := by
    refine ⟨h.numeric.1, fun k e he => ?_⟩
    rw [find_set] at he
    split at he
    · cases he; exact ⟨_, rfl⟩
    · exact h.numeric.2 k e he
  val := fun k e he => by
    rw [find_set] at he
    split at he
    · rename_i hk; subst hk; cases he; exact hv
    · exact h.val k e he
  pers := fun k e he => by
    rw [find_set] at he
    split at he
    · rename_i hk; subst hk; cases he; rfl
    · exact h.pers k e he

/-- A sub-dictionary of a coherent cache is coherent. -/
theorem Coherent.mono {env : Env} {c c' : CacheSt κ α} (h : D.Coherent env c) (hw : c'.dict.WF)
    (hl : ∃ n, c'.level = .num n)
    (hsub : ∀ k e, c'.dict.find k = some e → c.dict.find k = some e) : D.Coherent env c' where
  wf := hw
  numeric := ⟨hl, fun k e he => h.numeric.2 k e (hsub k e he)⟩
  val := fun k e he => h.val k e (hsub k e he)
  pers := fun k e he => h.pers k e (hsub k e he)

theorem remove_sub {c : CacheSt κ α} (w : c.dict.WF) (a : KeyArg κ) (k : κ) (e : Entry α)
    (h : (c.remove a).dict.find k = some e) : c.dict.find k = some e := by
  rw [(remove_spec c w a).2.2] at h
  split at h
  · cases h
  · exact h

/-- Everything `Cache._get` guarantees when the cache is coherent: right value, coherent cache, unchanged level. -/
theorem readN_spec (hr : D.Ranked) (hl : D.KnownLevels) (env : Env) (L : Lvl) (n : Nat) (key : κ)
    (h : D.rank key < n) (c : CacheSt κ α) (hc : D.Coherent env c ∧ c.level = L) :
    (D.readN n env key c).1 = D.fresh env key ∧
      (D.Coherent env (D.readN n env key c).2 ∧ (D.readN n env key c).2.level = L) := by
  induction n using Nat.strongRecOn generalizing key c with
  | _ n ih =>
    cases n with
    | zero => omega
    | succ n =>
      obtain ⟨hco, hL⟩ := hc
      have hlvl : ∃ m, L = .num m := by obtain ⟨m, hm⟩ := hco.numeric.1; exact ⟨m, hL ▸ hm⟩
      simp only [readN, CacheSt.get]
      split
      · -- found in the cache
        rename_i e he
        split at he
        · cases he
        · exact ⟨(hco.val _ _ he).symm, hco, hL⟩
      · -- computed
        have hrun := runCached_spec (D := D) (env := env) (r := D.rank key) (rec := D.readN n env)
          (fun c => D.Coherent env c ∧ c.level = L) (D.body key) (hr key)
          (fun key' hk' c' hc' => ih n (by omega) key' (by omega) c' hc') c ⟨hco, hL⟩
        rw [← fresh_eq_runFresh hr] at hrun
        simp only [save]
        generalize hx : (D.body key).runCached (D.readN n env) env c = x at *
        obtain ⟨x1, x2⟩ := x
        obtain ⟨r1, r2, r3⟩ := hrun
        simp only at r1 r2 r3
        subst r1
        cases hf : D.fresh env key with
        | error e => exact ⟨rfl, r2, r3⟩
        | ok v =>
          obtain ⟨m, hm⟩ := hlvl
          obtain ⟨l, hlv⟩ := hl key c ⟨m, hL.trans hm⟩
          obtain ⟨xl, xd⟩ := x2
          simp only at r3
          subst r3
          subst hm
          simp only [hlv, Lvl.le]
          have hset : D.Coherent env
              { level := .num m, dict := xd.set key ⟨.num l, (D.cfg key).persisting, v⟩ } := r2.set hf
          by_cases hb : (decide (l ≤ m) || (D.cfg key).force) = true
          · rw [if_pos hb]
            refine ⟨rfl, ?_⟩
            simp only
            split
            · have hs := remove_spec _ hset.wf (.str key)
              exact ⟨hset.mono hs.1 ⟨m, hs.2.1⟩ (fun k e he => remove_sub hset.wf _ k e he), hs.2.1⟩
            · exact ⟨hset, rfl⟩
          · rw [if_neg hb]
            refine ⟨rfl, ?_⟩
            simp only
            split
            · have hs := remove_spec _ r2.wf (.str key)
              exact ⟨r2.mono hs.1 ⟨m, hs.2.1⟩ (fun k e he => remove_sub r2.wf _ k e he), hs.2.1⟩
            · exact ⟨r2, rfl⟩

end Defs
end Kerch
