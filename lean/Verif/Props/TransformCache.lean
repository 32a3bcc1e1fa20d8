import Verif.Lemmas.TransformCache
/-!
# Properties C05-C07: transform trees and the cache level
-/
set_option linter.unusedSectionVars false
set_option linter.unusedSimpArgs false
namespace Kerch
open Dict CacheSt
variable {V : Type}

/-! ## C05 -/

theorem setLevels_get (a : Lvl) (ts : List TNode) (i : Nat) :
    (TNode.setLevels a ts)[i]? = (ts[i]?).map (TNode.setLevel a) := by
  induction ts generalizing i with
  | nil => simp [TNode.setLevels]
  | cons t ts ih =>
    cases i with
    | zero => simp [TNode.setLevels]
    | succ i => simpa [TNode.setLevels] using ih i

/-- **C05**, what holds: assigning the level of a transform tree itself reaches every node of it. -/
theorem C05_tree_level_reaches_nodes_partial (t : TNode) (a : Lvl) (p : List Nat) :
    ((t.setLevel a).sub p).map TNode.level = (t.sub p).map (fun _ => a) := by
  induction p generalizing t with
  | nil => obtain ⟨k, l, o⟩ := t; simp [TNode.sub, TNode.setLevel, TNode.level]
  | cons i p ih =>
    obtain ⟨k, l, o⟩ := t
    simp only [TNode.sub, TNode.setLevel, TNode.offspring, setLevels_get]
    cases o[i]? with
    | none => simp
    | some t' => simpa using ih t'

/-- **C05 is violated**: assigning `cache_level` on a module that already holds a transform tree leaves the tree, its level included, as it
was, for every module state and every level. -/
theorem C05_owner_level_violated (c : CacheSt String (OVal V)) (a : LvlArg) :
    (setLevelOwner c a).level = c.getLevel a ∧ (setLevelOwner c a).dict = c.dict := by
  refine ⟨rfl, ?_⟩
  simp [setLevelOwner, tupleIsCache]

/-! ## C06 -/

/-- **C06**, what holds: at level `'light'` or `'none'` (or any integer below 2) nothing about out-of-sample data remains after a
successful evaluation, forced statistics included, in explicit and implicit trees. -/
theorem C06_light_nothing_kept_partial {D : Defs TKey (TEnv V) V} {dflt : List Kind} (hD : IsTree D dflt) (L : Int) (hL : L < 2)
    (c : CacheSt TKey V) (h : TreeOK dflt L c) (env : TEnv V) (key : TKey) (v : V)
    (hv : (treeApply D env key c).1 = .ok v) (k : TKey) (e : Entry V)
    (hk : (treeApply D env key c).2.dict.find k = some e) : k.ofSample := by
  obtain ⟨_, _, h3⟩ := treeApply_ok hD h env key
  rw [h3 v hv] at hk
  obtain ⟨_, h2, _⟩ := (tree_clean (h.read hD env key)).2.2 k e |>.1 hk
  obtain ⟨p, w⟩ := k
  cases w with
  | sampleData => exact Or.inl rfl
  | sampleStat => exact Or.inr rfl
  | oosStat x => simp only [treeLevel] at h2; split at h2 <;> omega
  | oosData x => simp only [treeLevel] at h2; omega
  | oosData2 x y => simp only [treeLevel] at h2; omega

/-- The result of an evaluation: key of oos data. -/
def TKey.ofOosData (key : TKey) : Prop := match key.what with
  | .oosData _ | .oosData2 _ _ => True
  | _ => False

theorem treeLevel_oosData {dflt : List Kind} {key : TKey} (h : key.ofOosData) : treeLevel dflt key = 2 := by
  obtain ⟨p, w⟩ := key
  cases w <;> simp [TKey.ofOosData] at h <;> rfl

/-- **C06 is violated**: from level `'normal'` on (the default!) every evaluated out-of-sample matrix stays in memory after the evaluation,
whatever the tree. -/
theorem C06_normal_keeps_violated {D : Defs TKey (TEnv V) V} {dflt : List Kind} (hD : IsTree D dflt) (L : Int) (hL : 2 ≤ L)
    (c : CacheSt TKey V) (h : TreeOK dflt L c) (env : TEnv V) (key : TKey) (hkey : key.ofOosData) (v : V)
    (hv : (treeApply D env key c).1 = .ok v) :
    ∃ e, (treeApply D env key c).2.dict.find key = some e ∧ e.val = v := by
  obtain ⟨_, h2, h3⟩ := treeApply_ok hD h env key
  have hr := h.read hD env key
  obtain ⟨e, he, hev⟩ := read_kept D hD.ranked hD.destroy env key c _ L (hD.overwrite key) (hD.resolve key c) h.level
    (by rw [treeLevel_oosData hkey]; exact hL) v (h2 ▸ hv) hr.level
  refine ⟨e, ?_, hev⟩
  rw [h3 v hv]
  exact ((tree_clean hr).2.2 key e).2 ⟨he, by rw [treeLevel_oosData hkey]; exact hL, by omega⟩

theorem read_retains {D : Defs TKey (TEnv V) V} {dflt : List Kind} (hD : IsTree D dflt)
    (c : CacheSt TKey V) (env : TEnv V) (key k : TKey) (hk : ∃ e, c.dict.find k = some e) :
    ∃ e, (D.read env key c).2.dict.find k = some e := by
  apply readN_inv D hD.ranked hD.destroy (fun k => .num (treeLevel dflt k)) hD.resolve
    (fun c => ∃ e, c.dict.find k = some e) _ env _ key (Nat.lt_succ_self _) c hk
  intro c key v hc
  simp only [find_set]
  split
  · exact ⟨_, rfl⟩
  · exact hc

theorem treeApply_retains {D : Defs TKey (TEnv V) V} {dflt : List Kind} (hD : IsTree D dflt) (L : Int)
    (c : CacheSt TKey V) (h : TreeOK dflt L c) (env : TEnv V) (key k : TKey) (hk : ∃ e, c.dict.find k = some e)
    (hl : treeLevel dflt k ≤ L) (h0 : L ≠ 0) :
    ∃ e, (treeApply D env key c).2.dict.find k = some e := by
  have hr := h.read hD env key
  have hrr := read_retains hD c env key k hk
  unfold treeApply
  generalize D.read env key c = x at *
  obtain ⟨x1, x2⟩ := x
  cases x1 with
  | error e => exact hrr
  | ok v =>
    obtain ⟨e, he⟩ := hrr
    obtain ⟨h1, _, h3⟩ := tree_clean hr
    have := (h3 k e).2 ⟨he, hl, h0⟩
    simp only at h1 this ⊢
    generalize clean LvlArg.none x2 = y at *
    obtain ⟨y1, y2⟩ := y
    simp only at h1
    subst h1
    exact ⟨e, this⟩

/-- **C06 is violated**, unbounded growth: after any history of successful evaluations from level `'normal'` on, *all* the evaluated
matrices are held, one per distinct argument. -/
theorem C06_memory_grows_violated {D : Defs TKey (TEnv V) V} {dflt : List Kind} (hD : IsTree D dflt) (L : Int) (hL : 2 ≤ L)
    (ops : List (TOp V)) (env : TEnv V) (c : CacheSt TKey V) (h : TreeOK dflt L c)
    (hok : ∀ r ∈ (treeRun D ops env c).1, ∃ v, r = .ok v) (key : TKey) (hkey : key.ofOosData) (hin : TOp.apply key ∈ ops) :
    ∃ e, (treeRun D ops env c).2.dict.find key = some e := by
  have hlev : treeLevel dflt key ≤ L := by rw [treeLevel_oosData hkey]; exact hL
  have keep : ∀ (ops : List (TOp V)) (env : TEnv V) (c : CacheSt TKey V), TreeOK dflt L c →
      (∃ e, c.dict.find key = some e) → ∃ e, (treeRun D ops env c).2.dict.find key = some e := by
    intro ops
    induction ops with
    | nil => intro env c _ hk; exact hk
    | cons op ops ih =>
      intro env c hc hk
      cases op with
      | apply k' =>
        exact ih _ _ (treeApply_ok hD hc env k').1 (treeApply_retains hD L c hc env k' key hk hlev (by omega))
      | mutate b1 b2 d => exact ih _ _ hc hk
  induction ops generalizing env c with
  | nil => cases hin
  | cons op ops ih =>
    cases op with
    | apply k' =>
      rcases List.mem_cons.1 hin with heq | hin'
      · cases heq
        obtain ⟨v, hv⟩ := hok (treeApply D env key c).1 (by simp [treeRun])
        obtain ⟨e, he, _⟩ := C06_normal_keeps_violated hD L hL c h env key hkey v hv
        exact keep ops env _ (treeApply_ok hD h env key).1 ⟨e, he⟩
      · exact ih env _ (treeApply_ok hD h env k').1 (fun r hr => hok r (by simp [treeRun]; exact Or.inr hr)) hin'
    | mutate b1 b2 d =>
      rcases List.mem_cons.1 hin with heq | hin'
      · cases heq
      · exact ih _ c h hok hin'

/-- **C06 is violated**, intermediate matrices: from level `'normal'` on an explicit tree keeps, besides the final matrix, the matrix of *each*
intermediate transform on the way, not only at `'total'`. -/
theorem C06_intermediate_kept_violated (S : TSem V) (dflt : List Kind) (L : Int) (hL : 2 ≤ L) (env : TEnv V) (x : Nat)
    (p : List Kind) (c : CacheSt TKey V) (h : TreeOK dflt L c) (hfresh : ∀ q, c.dict.find ⟨q, .oosData x⟩ = none) (v : V)
    (hv : (treeApply (explicitTree S dflt) env ⟨p, .oosData x⟩ c).1 = .ok v) (q : List Kind) (hq : q <:+ p) :
    ∃ e, (treeApply (explicitTree S dflt) env ⟨p, .oosData x⟩ c).2.dict.find ⟨q, .oosData x⟩ = some e := by
  have hD := isTree_explicit S dflt
  have hlev : ∀ q, treeLevel dflt ⟨q, .oosData x⟩ ≤ L := fun q => by
    rw [treeLevel_oosData (by simp [TKey.ofOosData])]; exact hL
  suffices key : ∀ n p (c : CacheSt TKey V), treeRank ⟨p, .oosData x⟩ < n → TreeOK dflt L c →
      (∀ q, c.dict.find ⟨q, .oosData x⟩ = none) → ∀ v, ((explicitTree S dflt).readN n env ⟨p, .oosData x⟩ c).1 = .ok v →
      ∀ q, q <:+ p → ∃ e, ((explicitTree S dflt).readN n env ⟨p, .oosData x⟩ c).2.dict.find ⟨q, .oosData x⟩ = some e by
    obtain ⟨_, h2, h3⟩ := treeApply_ok hD h env ⟨p, .oosData x⟩
    obtain ⟨e, he⟩ := key _ p c (Nat.lt_succ_self _) h hfresh v (h2 ▸ hv) q hq
    refine ⟨e, ?_⟩
    rw [h3 v hv]
    exact ((tree_clean (h.read hD env _)).2.2 _ e).2 ⟨he, hlev q, by omega⟩
  have inv : ∀ (P : CacheSt TKey V → Prop), (∀ (c : CacheSt TKey V) key v, P c →
      P { c with dict := c.dict.set key ⟨.num (treeLevel dflt key), ((explicitTree S dflt).cfg key).persisting, v⟩ }) →
      ∀ n key (c : CacheSt TKey V), treeRank key < n → P c → P ((explicitTree S dflt).readN n env key c).2 := by
    intro P hP n key c hn hc
    exact readN_inv (explicitTree S dflt) hD.ranked hD.destroy (fun k => .num (treeLevel dflt k)) hD.resolve P hP env n key hn c hc
  have invOK := inv (TreeOK dflt L) (fun c key v hc => ⟨hc.wf.set _ _, hc.level, hc.levels.set key _ v⟩)
  have invHas := fun k => inv (fun c => ∃ e, c.dict.find k = some e) (fun c key v hc => by
    simp only [find_set]
    split
    · exact ⟨_, rfl⟩
    · exact hc)
  intro n p
  induction p generalizing n with
  | nil =>
    intro c hn hc hf v hv q hq
    obtain rfl : q = [] := List.eq_nil_of_suffix_nil hq
    cases n with
    | zero => omega
    | succ n =>
      simp only [Defs.readN, CacheSt.get, hD.overwrite, Bool.false_eq_true, if_false, hf, save, hD.destroy] at hv ⊢
      have hbody : (explicitTree S dflt).body ⟨[], .oosData x⟩ = .ret fun env => env.base1 x := rfl
      rw [hbody] at hv ⊢
      simp only [Prog.runCached] at hv ⊢
      cases hb : env.base1 x with
      | error e => simp [hb] at hv
      | ok w =>
        have hres := hD.resolve ⟨[], .oosData x⟩ c
        have hh := hlev []
        simp only [hres, hc.level, Lvl.le, hh, decide_true, Bool.true_or, if_true]
        exact ⟨_, by rw [find_set, if_pos rfl]⟩
  | cons k p ih =>
    intro c hn hc hf v hv q hq
    cases n with
    | zero => omega
    | succ n =>
      have hn1 : treeRank ⟨p, .oosData x⟩ < n := by simp [treeRank] at hn ⊢; omega
      have hn2 : treeRank ⟨k :: p, .oosStat x⟩ < n := by simp [treeRank] at hn ⊢; omega
      have ihp := ih n c hn1 hc hf
      have hres := hD.resolve ⟨k :: p, .oosData x⟩ c
      have hh := hlev (k :: p)
      have ok1 := invOK n ⟨p, .oosData x⟩ c hn1 hc
      have ok2 := fun c2 (h2 : TreeOK dflt L c2) => invOK n ⟨k :: p, .oosStat x⟩ c2 hn2 h2
      have has2 := fun kk c2 => invHas kk n ⟨k :: p, .oosStat x⟩ c2 hn2
      simp only [Defs.readN, CacheSt.get, hD.overwrite, Bool.false_eq_true, if_false, hf, save, hD.destroy] at hv ⊢
      have hbody : (explicitTree S dflt).body ⟨k :: p, .oosData x⟩ = .need ⟨p, .oosData x⟩ fun o =>
        .need ⟨k :: p, .oosStat x⟩ fun st => .ret fun _ => S.comb k o st := rfl
      rw [hbody] at hv ⊢
      simp only [Prog.runCached] at hv ⊢
      generalize (explicitTree S dflt).readN n env ⟨p, .oosData x⟩ c = y at *
      obtain ⟨y1, y2⟩ := y
      cases y1 with
      | error e => simp at hv
      | ok w =>
        simp only at hv ⊢ ihp ok1
        have ihw := ihp w rfl
        have okz := ok2 y2 ok1
        have hasz := fun kk hk => has2 kk y2 hk
        generalize (explicitTree S dflt).readN n env ⟨k :: p, .oosStat x⟩ y2 = z at *
        obtain ⟨z1, z2⟩ := z
        cases z1 with
        | error e => simp at hv
        | ok st =>
          simp only at hv ⊢ okz hasz
          cases hcm : S.comb k w st with
          | error e => simp [hcm] at hv
          | ok res =>
            simp only [hres, okz.level, Lvl.le, hh, decide_true, Bool.true_or, if_true]
            rw [find_set]
            split
            · exact ⟨_, rfl⟩
            · rename_i hne
              rcases List.suffix_cons_iff.1 hq with rfl | hq'
              · exact absurd rfl hne
              · exact hasz _ (ihw q hq')

/-! ## C07 -/

/-- **C07**, what holds: at level `'light'` or `'none'`, for every history of evaluations and in-place modifications of arguments in which no
evaluation raises, each result is the one computed from the contents at the time of the call. -/
theorem C07_current_content_partial {D : Defs TKey (TEnv V) V} {dflt : List Kind} (hD : IsTree D dflt) (hS : SampleOnly D)
    (L : Int) (hL : L < 2) (ops : List (TOp V)) (env : TEnv V) (hok : ∀ r ∈ treeSpec D ops env, ∃ v, r = .ok v) :
    (treeRun D ops env { level := .num L, dict := [] }).1 = treeSpec D ops env := by
  suffices key : ∀ (ops : List (TOp V)) (env : TEnv V) (c : CacheSt TKey V), TreeOK dflt L c → D.Coherent env c →
      (∀ k e, c.dict.find k = some e → k.ofSample) → (∀ r ∈ treeSpec D ops env, ∃ v, r = .ok v) →
      (treeRun D ops env c).1 = treeSpec D ops env by
    refine key ops env _ ⟨WF.nil, rfl, ?_⟩ ⟨WF.nil, ⟨⟨L, rfl⟩, ?_⟩, ?_, ?_⟩ ?_ hok <;> (intro k e hk; cases hk)
  intro ops
  induction ops with
  | nil => intros; rfl
  | cons op ops ih =>
    intro env c hc hco hs hok
    cases op with
    | apply key =>
      obtain ⟨h1, h2, h3⟩ := treeApply_ok hD hc env key
      have hspec := Defs.readN_spec hD.ranked hD.knownLevels env c.level (D.rank key + 1) key (Nat.lt_succ_self _) c ⟨hco, rfl⟩
      have hval : (treeApply D env key c).1 = D.fresh env key := h2.trans hspec.1
      obtain ⟨v, hv⟩ := hok (D.fresh env key) (by simp [treeSpec])
      have hv' := hval.trans hv
      simp only [treeRun, treeSpec, hval]
      congr 1
      apply ih
      · exact h1
      · have h4 := h3 v hv'
        obtain ⟨_, ht2, ht3⟩ := tree_clean (hc.read hD env key)
        rw [h4]
        exact Defs.Coherent.mono hspec.2.1 ht2.wf ⟨L, ht2.level⟩ (fun k e he => ((ht3 k e).1 he).1)
      · exact C06_light_nothing_kept_partial hD L hL c hc env key v hv'
      · exact fun r hr => hok r (by simp only [treeSpec, List.mem_cons]; exact Or.inr hr)
    | mutate b1 b2 d =>
      simp only [treeRun, treeSpec]
      apply ih
      · exact hc
      · exact ⟨hco.wf, hco.numeric, fun k e he => by
          rw [← hco.val k e he]
          exact hS (env.mutate b1 b2 d) env rfl k (hs k e he), hco.pers⟩
      · exact hs
      · exact hok

/-- C07 applies to explicit trees (the transforms of a sample, and of an explicit feature map) ... -/
theorem C07_explicit_partial (S : TSem V) (dflt : List Kind) (L : Int) (hL : L < 2) (ops : List (TOp V)) (env : TEnv V)
    (hok : ∀ r ∈ treeSpec (explicitTree S dflt) ops env, ∃ v, r = .ok v) :
    (treeRun (explicitTree S dflt) ops env { level := .num L, dict := [] }).1 = treeSpec (explicitTree S dflt) ops env :=
  C07_current_content_partial (isTree_explicit S dflt) (explicit_sampleOnly S dflt) L hL ops env hok

/-- ... and to implicit ones (of a kernel matrix). -/
theorem C07_implicit_partial (S : TSem V) (dflt : List Kind) (L : Int) (hL : L < 2) (ops : List (TOp V)) (env : TEnv V)
    (hok : ∀ r ∈ treeSpec (implicitTree S dflt) ops env, ∃ v, r = .ok v) :
    (treeRun (implicitTree S dflt) ops env { level := .num L, dict := [] }).1 = treeSpec (implicitTree S dflt) ops env :=
  C07_current_content_partial (isTree_implicit S dflt) (implicit_sampleOnly S dflt) L hL ops env hok

/-- **C07 is violated** from level `'normal'` on (the default): once an argument was evaluated, evaluating it again returns the former result
whatever its content has become. -/
theorem C07_stale_violated {D : Defs TKey (TEnv V) V} {dflt : List Kind} (hD : IsTree D dflt) (L : Int) (hL : 2 ≤ L)
    (c : CacheSt TKey V) (h : TreeOK dflt L c) (env env' : TEnv V) (key : TKey) (hkey : key.ofOosData) (v : V)
    (hv : (treeApply D env key c).1 = .ok v) :
    (treeApply D env' key (treeApply D env key c).2).1 = .ok v := by
  obtain ⟨e, he, hev⟩ := C06_normal_keeps_violated hD L hL c h env key hkey v hv
  rw [(treeApply_ok hD (treeApply_ok hD h env key).1 env' key).2.1]
  simp [Defs.read, Defs.readN, CacheSt.get, hD.overwrite, he, hev]

section Examples
/-- A numerical semantics on numbers for examples: centering subtracts, normalising divides. -/
def semInt : TSem Int where
  stat := fun _ _ v => .ok v
  ownStat := fun k => if k = .sphere then some (fun v => .ok v) else none
  comb := fun k v s => if k = .sphere then .ok (v / s) else .ok (v - s)
  iStatMean := fun o _ => .ok o
  iStatSphere := fun d => .ok d
  icomb := fun _ m a b => .ok (m - a - b)

def envInt : TEnv Int where
  base0 := .ok 10
  base1 := fun x => .ok x
  base2 := fun x y => if y = 9 then .error .runtimeError else .ok (x + y)
  diag := fun x => .ok x

/-- The hypotheses of `C07_explicit_partial` are met by a history with an in-place change, whose two evaluations differ. -/
example : treeSpec (explicitTree semInt [.mean])
    [.apply ⟨[.mean], .oosData 3⟩, .mutate (fun _ => .ok 50) envInt.base2 envInt.diag, .apply ⟨[.mean], .oosData 3⟩] envInt
    = [.ok (-7), .ok 40] := by decide +kernel

/-- The same history at level `'normal'` returns the stale value. -/
example : (treeRun (explicitTree semInt [.mean])
    [.apply ⟨[.mean], .oosData 3⟩, .mutate (fun _ => .ok 50) envInt.base2 envInt.diag, .apply ⟨[.mean], .oosData 3⟩] envInt
    { level := .num 2, dict := [] }).1 = [.ok (-7), .ok (-7)] := by decide +kernel

example : TreeOK (V := Int) [.mean] 2 { level := .num 2, dict := [] } :=
  ⟨WF.nil, rfl, by intro k e h; cases h⟩

/-- **C07 is violated at every level after an exception** (hence the hypothesis that no evaluation raises): an evaluation `k(x,y)` raising
because of `y` leaves the forced statistics of `x` in the cache, which a later evaluation at `x` uses after `x` was changed. -/
theorem C07_after_error_violated :
    let ops : List (TOp Int) := [.apply ⟨[.mean], .oosData2 3 9⟩, .mutate (fun _ => .ok 50) envInt.base2 envInt.diag,
      .apply ⟨[.mean], .oosData 3⟩]
    (treeRun (implicitTree semInt [.mean]) ops envInt { level := .num 0, dict := [] }).1
      ≠ treeSpec (implicitTree semInt [.mean]) ops envInt := by decide +kernel

/-- **C05 is violated**, observably: a module lowered from `'normal'` to `'light'` still keeps the evaluated matrix in the tree it holds, a
module created at `'light'` does not. -/
theorem C05_owner_level_observable_violated (S : TSem V) (dflt : List Kind) (env : TEnv V) (key : TKey) (hkey : key.ofOosData)
    (c : CacheSt String (OVal V)) (t : CacheSt TKey V) (ht : TreeOK dflt 2 t) (name : String) (b : Bool) (l : Lvl)
    (hc : c.dict.find name = some ⟨l, b, .tree t⟩) (v v' : V)
    (hv : (treeApply (implicitTree S dflt) env key t).1 = .ok v)
    (hv' : (treeApply (implicitTree S dflt) env key { level := .num 1, dict := [] }).1 = .ok v') :
    ∃ t', (setLevelOwner c (.str "light")).dict.find name = some ⟨l, b, .tree t'⟩ ∧
      ((treeApply (implicitTree S dflt) env key t').2.dict.find key ≠ none) ∧
      ((treeApply (implicitTree S dflt) env key { level := .num 1, dict := [] }).2.dict.find key = none) := by
  have hD := isTree_implicit S dflt
  refine ⟨t, ?_, ?_, ?_⟩
  · rw [(C05_owner_level_violated c _).2]; exact hc
  · obtain ⟨e, he, _⟩ := C06_normal_keeps_violated hD 2 (by omega) t ht env key hkey v hv
    simp [he]
  · have h1 : TreeOK dflt 1 ({ level := .num 1, dict := [] } : CacheSt TKey V) := ⟨WF.nil, rfl, by intro k e h; cases h⟩
    cases hf : (treeApply (implicitTree S dflt) env key { level := .num 1, dict := [] }).2.dict.find key with
    | none => rfl
    | some e =>
      exfalso
      have := C06_light_nothing_kept_partial hD 1 (by omega) _ h1 env key v' hv' key e hf
      obtain ⟨p, w⟩ := key
      cases w <;> simp [TKey.ofSample, TKey.ofOosData] at this hkey

/-! ## Cases -/

theorem case_ok (L : Int) : TreeOK (V := Int) [.mean] L { level := .num L, dict := [] } := ⟨WF.nil, rfl, by intro k e h; cases h⟩

example (k : TKey) (e : Entry Int) := C06_light_nothing_kept_partial (isTree_explicit semInt [.mean]) 1 (by omega) _ (case_ok 1) envInt ⟨[.mean], .oosData 3⟩ (-7) (by decide +kernel) k e
example : ∃ e, (treeApply (explicitTree semInt [.mean]) envInt ⟨[.mean], .oosData 3⟩ { level := .num 2, dict := [] }).2.dict.find ⟨[.mean], .oosData 3⟩ = some e ∧ e.val = -7 :=
  C06_normal_keeps_violated (isTree_explicit semInt [.mean]) 2 (by omega) _ (case_ok 2) envInt _ (by simp [TKey.ofOosData]) _ (by decide +kernel)
example : ∃ e, (treeRun (explicitTree semInt [.mean]) [.apply ⟨[.mean], .oosData 3⟩, .apply ⟨[.mean], .oosData 4⟩] envInt { level := .num 2, dict := [] }).2.dict.find ⟨[.mean], .oosData 3⟩ = some e :=
  C06_memory_grows_violated (isTree_explicit semInt [.mean]) 2 (by omega) _ envInt _ (case_ok 2)
    (by
      have : (treeRun (explicitTree semInt [.mean]) [.apply ⟨[.mean], .oosData 3⟩, .apply ⟨[.mean], .oosData 4⟩] envInt { level := .num 2, dict := [] }).1 = [.ok (-7), .ok (-6)] := by decide +kernel
      rw [this]; simp) _ (by simp [TKey.ofOosData]) (by simp)
example : ∃ e, (treeApply (explicitTree semInt [.mean]) envInt ⟨[.sphere, .mean], .oosData 3⟩ { level := .num 2, dict := [] }).2.dict.find ⟨[.mean], .oosData 3⟩ = some e :=
  C06_intermediate_kept_violated semInt [.mean] 2 (by omega) envInt 3 [.sphere, .mean] _ (case_ok 2) (fun _ => rfl) 1 (by decide +kernel) [.mean] ⟨[.sphere], rfl⟩
theorem case_spec : treeSpec (implicitTree semInt [.mean])
    [.apply ⟨[.mean], .oosData 3⟩, .mutate (fun _ => .ok 50) envInt.base2 envInt.diag, .apply ⟨[.mean], .oosData 3⟩] envInt = [.ok (-10), .ok (-10)] := by decide +kernel
example := C07_implicit_partial semInt [.mean] 1 (by omega)
    [.apply ⟨[.mean], .oosData 3⟩, .mutate (fun _ => .ok 50) envInt.base2 envInt.diag, .apply ⟨[.mean], .oosData 3⟩] envInt (by rw [case_spec]; simp)
example := C07_current_content_partial (isTree_implicit semInt [.mean]) (implicit_sampleOnly semInt [.mean]) 1 (by omega)
    [.apply ⟨[.mean], .oosData 3⟩, .mutate (fun _ => .ok 50) envInt.base2 envInt.diag, .apply ⟨[.mean], .oosData 3⟩] envInt (by rw [case_spec]; simp)
example (env' : TEnv Int) := C07_stale_violated (isTree_explicit semInt [.mean]) 2 (by omega) _ (case_ok 2) envInt env' ⟨[.mean], .oosData 3⟩ (by simp [TKey.ofOosData]) (-7) (by decide +kernel)
example := C05_owner_level_observable_violated semInt [.mean] envInt ⟨[.mean], .oosData 3⟩ (by simp [TKey.ofOosData])
    { level := .num 2, dict := [("kernel transform", ⟨.num 1, true, .tree { level := .num 2, dict := [] }⟩)] } _ (case_ok 2) "kernel transform" true (.num 1) rfl (-10) (-10)
    (by decide +kernel) (by decide +kernel)


end Examples
end Kerch
