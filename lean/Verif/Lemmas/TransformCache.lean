import Verif.Lemmas.Memo
import Verif.Model.TransformCache
/-! Helper lemmas on the caches of transform trees. -/
set_option linter.unusedSectionVars false
set_option linter.unusedSimpArgs false
namespace Kerch
open Dict CacheSt

section General
variable {κ Env α : Type} [DecidableEq κ] [CacheKey κ]

/-- Running a program whose requests preserve `P` preserves `P`. -/
theorem runCached_inv' {rank : κ → Nat} {env : Env} {r : Nat} {rec : κ → M κ α α} (P : CacheSt κ α → Prop)
    (p : Prog κ Env α) (hb : p.Below rank r)
    (hrec : ∀ key, rank key < r → ∀ c, P c → P (rec key c).2)
    (c : CacheSt κ α) (hc : P c) : P (p.runCached rec env c).2 := by
  induction p generalizing c with
  | ret f => exact hc
  | need key k ih =>
    obtain ⟨h1, h2⟩ := hb
    have g2 := hrec key h1 c hc
    simp only [Prog.runCached]
    generalize rec key c = x at *
    obtain ⟨x1, x2⟩ := x
    cases x1 with
    | error e => exact g2
    | ok v => exact ih v (h2 v) _ g2

/-- A property of caches preserved by storing any quantity with its own level is preserved by reads, when nothing is one-shot. -/
theorem readN_inv (D : Defs κ Env α) (hr : D.Ranked) (hd : ∀ key, (D.cfg key).destroy = false)
    (lv : κ → Lvl) (hlv : ∀ key (c : CacheSt κ α), resolveLevel D.table c (D.cfg key) = lv key)
    (P : CacheSt κ α → Prop)
    (hP : ∀ (c : CacheSt κ α) key v, P c → P { c with dict := c.dict.set key ⟨lv key, (D.cfg key).persisting, v⟩ })
    (env : Env) (n : Nat) (key : κ) (h : D.rank key < n) (c : CacheSt κ α) (hc : P c) :
    P (D.readN n env key c).2 := by
  induction n using Nat.strongRecOn generalizing key c with
  | _ n ih =>
    cases n with
    | zero => omega
    | succ n =>
      simp only [Defs.readN, CacheSt.get]
      split
      · exact hc
      · have hrun := runCached_inv' (env := env) (rec := D.readN n env) P (D.body key) (hr key)
          (fun key' hk' c' hc' => ih n (by omega) key' (by omega) c' hc') c hc
        simp only [save, hd, Bool.false_eq_true, if_false]
        generalize hx : (D.body key).runCached (D.readN n env) env c = x at *
        obtain ⟨x1, x2⟩ := x
        simp only at hrun
        cases x1 with
        | error e => exact hrun
        | ok v =>
          simp only
          rw [hlv]
          cases hle : (lv key).le x2.level with
          | error e => exact hrun
          | ok b =>
            simp only
            by_cases hb : (b || (D.cfg key).force) = true
            · rw [if_pos hb]; exact hP _ _ _ hrun
            · rw [if_neg hb]; exact hrun

/-- A successful read of a quantity that may be stored leaves it stored, with the value returned. -/
theorem read_kept (D : Defs κ Env α) (hr : D.Ranked) (hd : ∀ key, (D.cfg key).destroy = false)
    (env : Env) (key : κ) (c : CacheSt κ α) (l L : Int) (ho : (D.cfg key).overwrite = false)
    (hl : resolveLevel D.table c (D.cfg key) = .num l)
    (hL : c.level = .num L) (hlL : l ≤ L) (v : α) (hv : (D.read env key c).1 = .ok v)
    (hlev : (D.read env key c).2.level = .num L) :
    ∃ e, (D.read env key c).2.dict.find key = some e ∧ e.val = v := by
  simp only [Defs.read, Defs.readN, CacheSt.get, ho, Bool.false_eq_true, if_false] at hv hlev ⊢
  cases hf : c.dict.find key with
  | some e =>
    simp only [hf] at hv ⊢
    refine ⟨e, rfl, ?_⟩
    simpa using hv
  | none =>
    simp only [hf, save, hd, Bool.false_eq_true, if_false] at hv hlev ⊢
    generalize (D.body key).runCached (D.readN (D.rank key) env) env c = x at *
    obtain ⟨x1, x2⟩ := x
    cases x1 with
    | error e => simp at hv
    | ok w =>
      simp only [hl] at hv hlev ⊢
      obtain ⟨xl, xd⟩ := x2
      cases xl with
      | msg => simp [Lvl.le] at hv
      | num m =>
        simp only [Lvl.le] at hv hlev ⊢
        by_cases hb : (decide (l ≤ m) || (D.cfg key).force) = true
        · simp only [hb, if_true] at hv ⊢
          refine ⟨_, by rw [find_set, if_pos rfl], ?_⟩
          simpa using hv
        · rw [if_neg hb] at hlev
          exfalso
          simp only [Lvl.num.injEq] at hlev
          subst hlev
          simp [hlL] at hb

end General

variable {V : Type}

/-- The level of each element of a tree (default / other node). -/
def treeLevel (dflt : List Kind) (key : TKey) : Int :=
  match key.what with
  | .sampleData | .sampleStat => if key.path = dflt then 1 else 2
  | .oosStat _ => if key.path = dflt then 2 else 3
  | .oosData _ | .oosData2 _ _ => 2

theorem tree_resolve (dflt : List Kind) (key : TKey) (c : CacheSt TKey V) :
    resolveLevel defaultCacheLevel c (treeCfg dflt key) = .num (treeLevel dflt key) := by
  obtain ⟨p, w⟩ := key
  by_cases h : p = dflt <;> cases w <;> simp [treeCfg, treeLevel, h, resolveLevel, getLevel] <;> rfl

/-- What is common to explicit and implicit trees. -/
structure IsTree (D : Defs TKey (TEnv V) V) (dflt : List Kind) : Prop where
  table : D.table = defaultCacheLevel
  cfg : D.cfg = treeCfg dflt
  ranked : D.Ranked

namespace IsTree
variable {D : Defs TKey (TEnv V) V} {dflt : List Kind} (hD : IsTree D dflt)
include hD

theorem resolve (key : TKey) (c : CacheSt TKey V) :
    resolveLevel D.table c (D.cfg key) = .num (treeLevel dflt key) := by
  rw [hD.table, hD.cfg]; exact tree_resolve dflt key c

theorem knownLevels : D.KnownLevels := fun key c _ => ⟨_, hD.resolve key c⟩

theorem destroy (key : TKey) : (D.cfg key).destroy = false := by
  rw [hD.cfg]; obtain ⟨p, w⟩ := key; cases w <;> rfl

theorem overwrite (key : TKey) : (D.cfg key).overwrite = false := by
  rw [hD.cfg]; obtain ⟨p, w⟩ := key; cases w <;> rfl

end IsTree

/-- All elements carry the level of their key. -/
def TreeLevels (dflt : List Kind) (c : CacheSt TKey V) : Prop :=
  ∀ k e, c.dict.find k = some e → e.level = .num (treeLevel dflt k)

theorem TreeLevels.set {dflt : List Kind} {c : CacheSt TKey V} (h : TreeLevels dflt c) (key : TKey) (b : Bool) (v : V) :
    TreeLevels dflt { c with dict := c.dict.set key ⟨.num (treeLevel dflt key), b, v⟩ } := by
  intro k e he
  rw [find_set] at he
  split at he
  · cases he; subst_vars; rfl
  · exact h k e he

/-- Invariant of a tree's cache whatever was evaluated and changed. -/
structure TreeOK (dflt : List Kind) (L : Int) (c : CacheSt TKey V) : Prop where
  wf : c.dict.WF
  level : c.level = .num L
  levels : TreeLevels dflt c

theorem TreeOK.numeric {dflt : List Kind} {L : Int} {c : CacheSt TKey V} (h : TreeOK dflt L c) : c.Numeric :=
  ⟨⟨L, h.level⟩, fun k e he => ⟨_, h.levels k e he⟩⟩

theorem TreeOK.read {D : Defs TKey (TEnv V) V} {dflt : List Kind} (hD : IsTree D dflt) {L : Int} {c : CacheSt TKey V}
    (h : TreeOK dflt L c) (env : TEnv V) (key : TKey) : TreeOK dflt L (D.read env key c).2 := by
  apply readN_inv D hD.ranked hD.destroy (fun k => .num (treeLevel dflt k)) hD.resolve (TreeOK dflt L) _ env _ key
    (Nat.lt_succ_self _) c h
  intro c key v hc
  exact ⟨hc.wf.set _ _, hc.level, hc.levels.set key _ v⟩

/-- What `_clean_cache()` keeps in a tree of level `L`. -/
theorem tree_clean {dflt : List Kind} {L : Int} {c : CacheSt TKey V} (h : TreeOK dflt L c) :
    (clean .none c).1 = .ok () ∧ TreeOK dflt L (clean .none c).2 ∧
    ∀ k e, (clean .none c).2.dict.find k = some e ↔ (c.dict.find k = some e ∧ treeLevel dflt k ≤ L ∧ L ≠ 0) := by
  obtain ⟨h1, h2, h3, h4⟩ := clean_spec c h.wf h.numeric .none L h.level
  have h5 : ∀ k e, (clean .none c).2.dict.find k = some e ↔ (c.dict.find k = some e ∧ treeLevel dflt k ≤ L ∧ L ≠ 0) := by
    intro k e
    rw [h4]
    by_cases h0 : L = 0
    · simp [h0]
    · rw [if_neg h0, Option.filter_eq_some_iff]
      refine and_congr_right fun he => ?_
      unfold notAbove
      simp [h.levels k e he, h0]
  refine ⟨h1, ⟨h2, h3.trans h.level, fun k e he => h.levels k e ((h5 k e).1 he).1⟩, h5⟩

theorem treeApply_ok {D : Defs TKey (TEnv V) V} {dflt : List Kind} (hD : IsTree D dflt) {L : Int} {c : CacheSt TKey V}
    (h : TreeOK dflt L c) (env : TEnv V) (key : TKey) :
    TreeOK dflt L (treeApply D env key c).2 ∧ (treeApply D env key c).1 = (D.read env key c).1 ∧
    (∀ v, (treeApply D env key c).1 = .ok v → (treeApply D env key c).2 = (clean .none (D.read env key c).2).2) := by
  have hr := h.read hD env key
  unfold treeApply
  generalize D.read env key c = x at *
  obtain ⟨x1, x2⟩ := x
  cases x1 with
  | error e => exact ⟨hr, rfl, by intro v hv; cases hv⟩
  | ok v =>
    obtain ⟨h1, h2, h3⟩ := tree_clean hr
    simp only
    simp only at h1 h2
    generalize clean LvlArg.none x2 = y at *
    obtain ⟨y1, y2⟩ := y
    simp only at h1
    subst h1
    exact ⟨h2, rfl, fun _ _ => rfl⟩

theorem explicit_ranked (S : TSem V) (dflt : List Kind) : (explicitTree S dflt).Ranked := by
  intro key
  obtain ⟨p, w⟩ := key
  cases p with
  | nil => cases w <;> simp [explicitTree, explicitBody, Prog.Below]
  | cons k p =>
    cases w with
    | oosStat x =>
      simp only [explicitTree, explicitBody, Prog.Below]
      refine ⟨by simp [treeRank]; omega, fun v => ?_⟩
      cases S.ownStat k with
      | some f => simp [Prog.Below]
      | none => simp [Prog.Below, treeRank]
    | _ => simp [explicitTree, explicitBody, Prog.Below, treeRank] <;> omega

theorem implicit_ranked (S : TSem V) (dflt : List Kind) : (implicitTree S dflt).Ranked := by
  intro key
  obtain ⟨p, w⟩ := key
  cases p with
  | nil => cases w <;> simp [implicitTree, implicitBody, Prog.Below]
  | cons k p =>
    cases p with
    | nil => cases k <;> cases w <;> simp [implicitTree, implicitBody, Prog.Below, treeRank]
    | cons k' p => cases k <;> cases w <;> simp [implicitTree, implicitBody, Prog.Below, treeRank] <;> omega

theorem isTree_explicit (S : TSem V) (dflt : List Kind) : IsTree (explicitTree S dflt) dflt :=
  ⟨rfl, rfl, explicit_ranked S dflt⟩

theorem isTree_implicit (S : TSem V) (dflt : List Kind) : IsTree (implicitTree S dflt) dflt :=
  ⟨rfl, rfl, implicit_ranked S dflt⟩

/-- The key of an element concerning the sample only. -/
def TKey.ofSample (key : TKey) : Prop := key.what = .sampleData ∨ key.what = .sampleStat

/-- The elements concerning the sample do not depend on arguments. -/
def SampleOnly (D : Defs TKey (TEnv V) V) : Prop :=
  ∀ env env', env.base0 = env'.base0 → ∀ key, key.ofSample → D.fresh env key = D.fresh env' key

theorem explicit_sampleOnly (S : TSem V) (dflt : List Kind) : SampleOnly (explicitTree S dflt) := by
  intro env env' h0 key hk
  obtain ⟨p, w⟩ := key
  have hr := explicit_ranked S dflt
  suffices hh : (explicitTree S dflt).fresh env ⟨p, .sampleData⟩ = (explicitTree S dflt).fresh env' ⟨p, .sampleData⟩ ∧
      (explicitTree S dflt).fresh env ⟨p, .sampleStat⟩ = (explicitTree S dflt).fresh env' ⟨p, .sampleStat⟩ by
    rcases hk with hk | hk
    · simp only at hk; subst hk; exact hh.1
    · simp only at hk; subst hk; exact hh.2
  clear hk
  induction p with
  | nil =>
    constructor
    · rw [Defs.fresh_eq_runFresh hr, Defs.fresh_eq_runFresh hr]; exact h0
    · rw [Defs.fresh_eq_runFresh hr, Defs.fresh_eq_runFresh hr]; rfl
  | cons k p ih =>
    have h2 : (explicitTree S dflt).fresh env ⟨k :: p, .sampleStat⟩ = (explicitTree S dflt).fresh env' ⟨k :: p, .sampleStat⟩ := by
      rw [Defs.fresh_eq_runFresh hr, Defs.fresh_eq_runFresh hr]
      have h1 := ih
      simp only [explicitTree, explicitBody, Prog.runFresh] at h1 ⊢
      rw [h1.1]
    refine ⟨?_, h2⟩
    rw [Defs.fresh_eq_runFresh hr, Defs.fresh_eq_runFresh hr]
    have h1 := ih
    simp only [explicitTree, explicitBody, Prog.runFresh] at h1 h2 ⊢
    rw [h1.1]
    split
    · rfl
    · rw [h2]

theorem implicit_sampleOnly (S : TSem V) (dflt : List Kind) : SampleOnly (implicitTree S dflt) := by
  intro env env' h0 key hk
  obtain ⟨p, w⟩ := key
  have hr := implicit_ranked S dflt
  suffices hh : (implicitTree S dflt).fresh env ⟨p, .sampleData⟩ = (implicitTree S dflt).fresh env' ⟨p, .sampleData⟩ ∧
      (implicitTree S dflt).fresh env ⟨p, .sampleStat⟩ = (implicitTree S dflt).fresh env' ⟨p, .sampleStat⟩ by
    rcases hk with hk | hk
    · simp only at hk; subst hk; exact hh.1
    · simp only at hk; subst hk; exact hh.2
  clear hk
  induction p with
  | nil =>
    constructor
    · rw [Defs.fresh_eq_runFresh hr, Defs.fresh_eq_runFresh hr]; exact h0
    · rw [Defs.fresh_eq_runFresh hr, Defs.fresh_eq_runFresh hr]; rfl
  | cons k p ih =>
    have h2 : (implicitTree S dflt).fresh env ⟨k :: p, .sampleStat⟩ = (implicitTree S dflt).fresh env' ⟨k :: p, .sampleStat⟩ := by
      rw [Defs.fresh_eq_runFresh hr, Defs.fresh_eq_runFresh hr]
      have h1 := ih
      cases k <;> simp only [implicitTree, implicitBody, Prog.runFresh] at h1 ⊢
      all_goals rw [h1.1]
    refine ⟨?_, h2⟩
    rw [Defs.fresh_eq_runFresh hr, Defs.fresh_eq_runFresh hr]
    have h1 := ih
    cases k <;> simp only [implicitTree, implicitBody, Prog.runFresh] at h1 h2 ⊢
    all_goals
      rw [h1.1]
      split
      · rfl
      · rw [h2]

end Kerch
