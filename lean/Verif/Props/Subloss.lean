import Verif.Model.Subloss
import Verif.Lemmas.Cache
set_option linter.unusedSectionVars false
set_option linter.unusedSimpArgs false
/-!
# C79: the loss of a level reflects its current parameters once `before_step` was called
-/
namespace Kerch
namespace Subloss
open CacheSt
variable {P : Type}

/-! ## Specification -/

/-- The loss as a function of the parameters. -/
noncomputable def lossAt (parts : List (Part P)) (p : P) : ℝ := (parts.map fun q => q.weight * q.val p).sum

/-- What a user relies on (docs/source/features/cache.rst): the loss of the parameters of the moment. -/
noncomputable def freshRun (parts : List (Part P)) : P → List (Op P) → List (Except Err (Option ℝ))
  | _, [] => []
  | _, .step p :: ops => .ok none :: freshRun parts p ops
  | p, .loss :: ops => .ok (some (lossAt parts p)) :: freshRun parts p ops
  | p, _ :: ops => .ok none :: freshRun parts p ops

/-- What happens: the loss of the parameters `held` when it was first needed after the last `stochastic`. -/
noncomputable def heldRun (parts : List (Part P)) : Option P → P → List (Op P) → List (Except Err (Option ℝ))
  | _, _, [] => []
  | h, _, .step p :: ops => .ok none :: heldRun parts h p ops
  | h, p, .loss :: ops => .ok (some (lossAt parts (h.getD p))) :: heldRun parts (some (h.getD p)) p ops
  | h, p, .beforeStep :: ops => .ok none :: heldRun parts (some (h.getD p)) p ops
  | h, p, .afterStep :: ops => .ok none :: heldRun parts h p ops
  | _, p, .stochastic :: ops => .ok none :: heldRun parts none p ops

/-- The keys of the constituents are distinct and none is a name of a constituent or `'Level loss'`. -/
structure Named (parts : List (Part P)) : Prop where
  inj : ∀ q ∈ parts, ∀ r ∈ parts, q.key = r.key → q = r
  apart : ∀ q ∈ parts, q.key ≠ "Level loss" ∧ ∀ r ∈ parts, q.key ≠ r.name

theorem kpca_named (original projected : P → ℝ) :
    Named (kpcaParts "dual" original projected) ∧ Named (kpcaParts "primal" original projected) := by
  constructor <;> constructor <;> simp [kpcaParts] <;> decide

theorem lssvm_named (n γ : ℝ) (reg mse : P → ℝ) :
    Named (lssvmParts "dual" n γ reg mse) ∧ Named (lssvmParts "primal" n γ reg mse) := by
  constructor <;> constructor <;> simp [lssvmParts] <;> decide

/-! ## Invariants -/

def entryOf (v : ℝ) : Entry ℝ := ⟨.num 2, false, v⟩

/-- The cache holds some of the constituents, at the parameters `h`; if one is missing, `h` are the parameters of the moment. -/
structure J (parts : List (Part P)) (L : Int) (cur h : P) (c : CacheSt String ℝ) : Prop where
  level : c.level = .num L
  wf : c.dict.WF
  ent : ∀ q ∈ parts, c.dict.find q.key = some (entryOf (q.val h)) ∨ (c.dict.find q.key = none ∧ cur = h)

theorem resolve_two (c : CacheSt String ℝ) :
    resolveLevel defaultCacheLevel c { levelKey := some "Level_subloss_default_representation" } = .num 2 := rfl

theorem readPart_J {parts : List (Part P)} (hn : Named parts) {L : Int} (hL : 2 ≤ L) {cur h : P} {c : CacheSt String ℝ}
    (j : J parts L cur h c) (q : Part P) (hq : q ∈ parts) :
    ∃ c1, readPart cur q c = (.ok (q.val h), c1) ∧ J parts L cur h c1 ∧ c1.dict.find q.key = some (entryOf (q.val h)) ∧
      ∀ k e, c.dict.find k = some e → c1.dict.find k = some e := by
  rcases j.ent q hq with h1 | ⟨h1, h2⟩
  · refine ⟨c, ?_, j, h1, fun _ _ h => h⟩
    simp [readPart, CacheSt.get, h1, entryOf]
  · subst h2
    refine ⟨{ c with dict := c.dict.set q.key (entryOf (q.val cur)) }, ?_, ⟨j.level, j.wf.set _ _, fun r hr => ?_⟩, ?_, ?_⟩
    · simp only [readPart, CacheSt.get, h1, save, resolve_two, j.level, Lvl.le, decide_eq_true hL]
      simp [entryOf]
    · by_cases hk : q.key = r.key
      · have := hn.inj q hq r hr hk
        subst this
        left
        simp [Dict.find_set]
      · simp only [Dict.find_set, if_neg hk]
        exact (j.ent r hr).imp_right fun h => ⟨h.1, trivial⟩
    · simp [Dict.find_set]
    · intro k e he
      by_cases hk : q.key = k
      · subst hk; rw [h1] at he; cases he
      · simp [Dict.find_set, hk, he]

theorem loss_J {parts : List (Part P)} (hn : Named parts) {L : Int} (hL : 2 ≤ L) {cur h : P} (t : List (Part P)) :
    (∀ q ∈ t, q ∈ parts) → ∀ {c : CacheSt String ℝ}, J parts L cur h c →
    ∃ c1, loss cur t c = (.ok (lossAt t h), c1) ∧ J parts L cur h c1 ∧ (∀ q ∈ t, c1.dict.find q.key = some (entryOf (q.val h))) ∧
      ∀ k e, c.dict.find k = some e → c1.dict.find k = some e := by
  induction t with
  | nil => intro _ c j; exact ⟨c, rfl, j, by simp, fun _ _ h => h⟩
  | cons q t ih =>
    intro ht c j
    obtain ⟨c1, e1, j1, f1, m1⟩ := readPart_J hn hL j q (ht q List.mem_cons_self)
    obtain ⟨c2, e2, j2, f2, m2⟩ := ih (fun r hr => ht r (List.mem_cons_of_mem _ hr)) j1
    refine ⟨c2, ?_, j2, ?_, fun k e he => m2 k e (m1 k e he)⟩
    · simp only [loss, e1, e2, lossAt, List.map_cons, List.sum_cons]
    · intro r hr
      rcases List.mem_cons.1 hr with rfl | hr
      · exact m2 _ _ f1
      · exact f2 r hr

theorem losses_J {parts : List (Part P)} (hn : Named parts) {L : Int} (hL : 2 ≤ L) {cur h : P} (t : List (Part P)) :
    (∀ q ∈ t, q ∈ parts) → ∀ {c : CacheSt String ℝ}, J parts L cur h c →
    ∃ d c1, losses cur parts t c = (.ok d, c1) ∧ d.map Prod.fst = t.map Part.name ++ ["Level loss"] ∧ J parts L cur h c1 ∧
      ∀ q ∈ parts, c1.dict.find q.key = some (entryOf (q.val h)) := by
  induction t with
  | nil =>
    intro _ c j
    obtain ⟨c1, e1, j1, f1, _⟩ := loss_J hn hL (cur := cur) (h := h) parts (fun _ h => h) j
    exact ⟨[("Level loss", lossAt parts h)], c1, by simp only [losses, e1], by simp, j1, f1⟩
  | cons q t ih =>
    intro ht c j
    obtain ⟨c1, e1, j1, f1, m1⟩ := readPart_J hn hL j q (ht q List.mem_cons_self)
    obtain ⟨d, c2, e2, n2, j2, f2⟩ := ih (fun r hr => ht r (List.mem_cons_of_mem _ hr)) j1
    exact ⟨(q.name, q.val h) :: d, c2, by simp only [losses, e1, e2], by simp [n2], j2, f2⟩

theorem beforeStep_J {parts : List (Part P)} (hn : Named parts) {L : Int} (hL : 2 ≤ L) {cur h : P} {c : CacheSt String ℝ}
    (j : J parts L cur h c) :
    ∃ c1, beforeStep cur parts c = (.ok (), c1) ∧ c1.level = .num L ∧ c1.dict.WF ∧
      ∀ q ∈ parts, c1.dict.find q.key = some (entryOf (q.val h)) := by
  obtain ⟨d, c1, e1, n1, j1, f1⟩ := losses_J hn hL parts (fun _ h => h) j
  obtain ⟨w, l, r⟩ := remove_spec c1 j1.wf (.list (d.map Prod.fst))
  refine ⟨c1.remove (.list (d.map Prod.fst)), by simp only [beforeStep, e1], l.trans j1.level, w, fun q hq => ?_⟩
  rw [r, if_neg, f1 q hq]
  simp only [KeyArg.items, n1, List.mem_append, List.mem_map, List.mem_singleton, not_or]
  refine ⟨?_, (hn.apart q hq).1⟩
  rintro ⟨s, hs, h⟩
  exact (hn.apart q hq).2 s hs h.symm

/-- The state after a history: the constituents are held at `h`, or none is. -/
def Holds (parts : List (Part P)) (L : Int) (h : Option P) (c : CacheSt String ℝ) : Prop :=
  c.level = .num L ∧ c.dict.WF ∧ ∀ q ∈ parts, c.dict.find q.key = h.map fun p => entryOf (q.val p)

theorem Holds.toJ {parts : List (Part P)} {L : Int} {h : Option P} {c : CacheSt String ℝ} (H : Holds parts L h c) (cur : P) :
    J parts L cur (h.getD cur) c := by
  refine ⟨H.1, H.2.1, fun q hq => ?_⟩
  rw [H.2.2 q hq]
  cases h with
  | none => right; exact ⟨rfl, rfl⟩
  | some p => left; rfl

theorem run_held {parts : List (Part P)} (hn : Named parts) {L : Int} (hL : 2 ≤ L) (ops : List (Op P)) :
    ∀ (p : P) (h : Option P) (c : CacheSt String ℝ), Holds parts L h c → (St.run parts ⟨p, c⟩ ops).1 = heldRun parts h p ops := by
  induction ops with
  | nil => intros; rfl
  | cons o ops ih =>
    intro p h c H
    cases o with
    | step p' => simp only [St.run, St.step, heldRun]; rw [ih p' h c H]
    | loss =>
      obtain ⟨c1, e1, j1, f1, _⟩ := loss_J hn hL parts (fun _ h => h) (H.toJ p)
      simp only [St.run, St.step, heldRun, e1]
      rw [ih p (some (h.getD p)) c1 ⟨j1.level, j1.wf, f1⟩]
    | beforeStep =>
      obtain ⟨c1, e1, l1, w1, f1⟩ := beforeStep_J hn hL (H.toJ p)
      simp only [St.run, St.step, heldRun, e1]
      rw [ih p (some (h.getD p)) c1 ⟨l1, w1, f1⟩]
    | afterStep =>
      simp only [St.run, St.step, heldRun]
      rw [ih p h (afterStep c)]
      obtain ⟨w, l, r⟩ := remove_spec c H.2.1 (.list [])
      exact ⟨l.trans H.1, w, fun q hq => by rw [afterStep, r]; simpa [KeyArg.items] using H.2.2 q hq⟩
    | stochastic =>
      simp only [St.run, St.step, heldRun]
      rw [ih p none (c.resetCache false)]
      obtain ⟨w, l, r⟩ := resetCache_spec c H.2.1 false []
      refine ⟨l.trans H.1, w, fun q hq => ?_⟩
      rw [r, H.2.2 q hq]
      cases h <;> simp [entryOf]

end Subloss
open Subloss CacheSt

/-- **C79 is violated** at the default cache level (and above): the exact outputs of every history.  `before_step` does not reset the
constituents of the loss; on the contrary it fills the cache. -/
theorem C79_history_violated {P : Type} (parts : List (Part P)) (hn : Named parts) (L : Int) (hL : 2 ≤ L) (p : P) (ops : List (Op P)) :
    (St.run parts ⟨p, { level := .num L, dict := [] }⟩ ops).1 = heldRun parts none p ops :=
  run_held hn hL ops p none _ ⟨rfl, Dict.WF.nil, fun _ _ => rfl⟩

/-- **C79 is violated**: after `before_step`, a step of the optimiser, `after_step` and a further `before_step`, the loss is the one of the
initial parameters, for every level. -/
theorem C79_violated {P : Type} (parts : List (Part P)) (hn : Named parts) (L : Int) (hL : 2 ≤ L) (p p' : P) :
    (St.run parts ⟨p, { level := .num L, dict := [] }⟩ [.beforeStep, .step p', .afterStep, .beforeStep, .loss]).1.getLast?
      = some (.ok (some (lossAt parts p))) := by
  rw [C79_history_violated parts hn L hL]
  rfl

/-- The parameters of the two histories have different losses: KPCA with one component, its weight `w` and a kernel matrix `[1]`. -/
example : lossAt (kpcaParts "dual" (fun _ : ℝ => 1) fun w => w * w) 0 ≠ lossAt (kpcaParts "dual" (fun _ : ℝ => 1) fun w => w * w) 1 := by
  simp [lossAt, kpcaParts]

/-- What is known of the constituents in the cache: none is there, those of the parameters of the moment, or possibly older ones. -/
inductive Kept
  | empty | current | stale

/-- A history is refreshed when no loss is asked between a step of the optimiser that follows a computation of the loss and the next
`stochastic`. -/
def Refreshed {P : Type} : Kept → List (Op P) → Prop
  | _, [] => True
  | .empty, .step _ :: ops => Refreshed .empty ops
  | _, .step _ :: ops => Refreshed .stale ops
  | k, .loss :: ops => k ≠ .stale ∧ Refreshed .current ops
  | .empty, .beforeStep :: ops => Refreshed .current ops
  | k, .beforeStep :: ops => Refreshed k ops
  | k, .afterStep :: ops => Refreshed k ops
  | _, .stochastic :: ops => Refreshed .empty ops

/-- What a knowledge means. -/
def Kept.Means {P : Type} : Kept → Option P → P → Prop
  | .empty, h, _ => h = none
  | .current, h, p => h = some p
  | .stale, h, _ => h ≠ none

/-- **C79**, what holds: when `stochastic` is called between each step of the optimiser and the next loss, as `Trainer.fit` does before
every batch, each loss is the one of the parameters of the moment. -/
theorem C79_refreshed_partial {P : Type} (parts : List (Part P)) (hn : Named parts) (L : Int) (hL : 2 ≤ L) (p : P) (ops : List (Op P))
    (h : Refreshed .empty ops) :
    (St.run parts ⟨p, { level := .num L, dict := [] }⟩ ops).1 = freshRun parts p ops := by
  rw [C79_history_violated parts hn L hL]
  suffices H : ∀ (ops : List (Op P)) (p : P) (k : Kept) (h : Option P), k.Means h p → Refreshed k ops →
      heldRun parts h p ops = freshRun parts p ops from H ops p .empty none rfl h
  intro ops
  induction ops with
  | nil => intros; rfl
  | cons o ops ih =>
    intro p k h hh hr
    cases o with
    | step p' =>
      simp only [heldRun, freshRun]
      cases k with
      | empty => rw [ih p' .empty h hh hr]
      | current => rw [ih p' .stale h (by simp only [Kept.Means] at hh ⊢; simp [hh]) hr]
      | stale => rw [ih p' .stale h hh hr]
    | loss =>
      have hp : h.getD p = p := by
        cases k with
        | empty => simp only [Kept.Means] at hh; simp [hh]
        | current => simp only [Kept.Means] at hh; simp [hh]
        | stale => exact absurd rfl hr.1
      have hr2 : Refreshed .current ops := by cases k <;> exact hr.2
      simp only [heldRun, freshRun, hp]; rw [ih p .current (some p) rfl hr2]
    | beforeStep =>
      simp only [heldRun, freshRun]
      cases k with
      | empty => simp only [Kept.Means] at hh; subst hh; simp only [Option.getD]; rw [ih p .current _ rfl hr]
      | current => simp only [Kept.Means] at hh; subst hh; simp only [Option.getD]; rw [ih p .current _ rfl hr]
      | stale => rw [ih p .stale _ (by simp [Kept.Means]) hr]
    | afterStep =>
      have hr2 : Refreshed k ops := by cases k <;> exact hr
      simp only [heldRun, freshRun]; rw [ih p k h hh hr2]
    | stochastic =>
      have hr2 : Refreshed .empty ops := by cases k <;> exact hr
      simp only [heldRun, freshRun]; rw [ih p .empty none rfl hr2]

/-- The order of `Trainer.fit` with an optimiser that evaluates the closure once per step (train/Trainer.py:211-215) satisfies the
condition, for any number of batches. -/
example {P : Type} (ps : List P) : ∀ k : Kept, Refreshed k (ps.flatMap fun p => [Op.beforeStep, .stochastic, .loss, .step p, .afterStep]) := by
  induction ps with
  | nil => intro k; cases k <;> trivial
  | cons p ps ih => intro k; cases k <;> exact ⟨by simp, ih .stale⟩

/-- **C79**, what holds: with a cache level below `'normal'` each loss is the one of the parameters of the moment, for every history. -/
theorem C79_light_partial {P : Type} (parts : List (Part P)) (L : Int) (hL : L < 2) (p : P) (ops : List (Op P)) :
    (St.run parts ⟨p, { level := .num L, dict := [] }⟩ ops).1 = freshRun parts p ops := by
  have hread : ∀ (p : P) (q : Part P), readPart p q { level := .num L, dict := [] } = (.ok (q.val p), { level := .num L, dict := [] }) := by
    intro p q
    have h0 : Dict.find (ν := Entry ℝ) [] q.key = none := rfl
    have : ¬ (2 : Int) ≤ L := by omega
    simp [readPart, CacheSt.get, save, resolve_two, Lvl.le, h0, this]
  have hloss : ∀ (p : P) (t : List (Part P)), Subloss.loss p t { level := .num L, dict := [] } = (.ok (lossAt t p), { level := .num L, dict := [] }) := by
    intro p t
    induction t with
    | nil => rfl
    | cons q t ih => simp only [Subloss.loss, hread, ih, lossAt, List.map_cons, List.sum_cons]
  have hlosses : ∀ (p : P) (t : List (Part P)), ∃ d, losses p parts t { level := .num L, dict := [] } = (.ok d, { level := .num L, dict := [] }) := by
    intro p t
    induction t with
    | nil => exact ⟨_, by simp only [losses, hloss]; rfl⟩
    | cons q t ih =>
      obtain ⟨d, hd⟩ := ih
      exact ⟨_, by simp only [losses, hread, hd]; rfl⟩
  have hrem : ∀ l : List String, ({ level := .num L, dict := [] } : CacheSt String ℝ).remove (.list l) = { level := .num L, dict := [] } := by
    intro l
    have : ∀ l : List String, l.foldl (fun (d : Dict String (Entry ℝ)) s => if Dict.has d s then Dict.pop d s else d) [] = [] := by
      intro l
      induction l with
      | nil => rfl
      | cons a l ih => simpa [Dict.has, Dict.find, Dict.pop] using ih
    simp [CacheSt.remove, KeyArg.items, this]
  induction ops generalizing p with
  | nil => rfl
  | cons o ops ih =>
    cases o with
    | step p' => simp only [St.run, St.step, freshRun]; rw [ih p']
    | loss => simp only [St.run, St.step, freshRun, hloss]; rw [ih p]
    | beforeStep =>
      obtain ⟨d, hd⟩ := hlosses p parts
      simp only [St.run, St.step, freshRun, Subloss.beforeStep, hd, hrem]; rw [ih p]
    | afterStep => simp only [St.run, St.step, freshRun, afterStep, hrem]; rw [ih p]
    | stochastic =>
      have : ({ level := .num L, dict := [] } : CacheSt String ℝ).resetCache false = { level := .num L, dict := [] } := by simp [resetCache, Dict.keys]
      simp only [St.run, St.step, freshRun, this]; rw [ih p]

end Kerch
