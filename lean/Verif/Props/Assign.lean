import Verif.Model.Assign
import Verif.Props.Cache
import Verif.Props.RandomFeatures
import Mathlib.Tactic.Linarith
import Mathlib.Tactic.Positivity
import Mathlib.Tactic.NormNum
/-!
# Property C108: an assigned hyper-parameter is what everything computed afterwards uses
-/
set_option linter.unusedSectionVars false
set_option linter.unusedSimpArgs false
namespace Kerch
namespace Assign
open Dict CacheSt
variable {X H M : Type} (S : Sem X H M)

/-! ### Specification: a kernel without any cache -/

/-- What each quantity is for given points and hyper-parameters. -/
def value (x : X) (h : H) : String → Except Err M
  | "phi" => S.phi x h
  | "C" => (S.phi x h).map (S.gramC x)
  | "K" => if S.explicit then (S.phi x h).map S.gramK else S.kimp x h
  | "_kernel_dist_sample" => S.dist x
  | "_kernel_square_dist_sample" => S.dist x
  | _ => .error .keyError

/-- Points and hyper-parameters after an operation. -/
def after (e : X × H) : Op X H → X × H
  | .assign _ f => (e.1, f e.2)
  | .select f => (f e.1, e.2)
  | .train f => f e
  | _ => e

/-- The results expected of the reads of a history. -/
def spec (e : X × H) : List (Op X H) → List (Except Err M)
  | [] => []
  | .read key :: l => value S e.1 e.2 key :: spec e l
  | o :: l => spec (after e o) l

/-! ### Helpers -/

theorem ranked : (defs S).Ranked := by
  intro key
  show (body S key).Below rank (rank key)
  unfold body
  split <;> try trivial
  · exact ⟨by simp [rank], fun _ => trivial⟩
  · split
    · exact ⟨by simp [rank], fun _ => trivial⟩
    · trivial

theorem known : (defs S).KnownLevels := by
  refine knownLevels_default _ rfl fun key => ?_
  show (cfg key).defaultLevel.Known
  unfold cfg
  split <;> simp only [LvlArg.Known] <;> decide

theorem fresh_eq (e : X × H) (key : String) : (defs S).fresh e key = value S e.1 e.2 key := by
  have hphi : (defs S).fresh e "phi" = S.phi e.1 e.2 := rfl
  rw [Defs.fresh_eq_runFresh (ranked S)]
  show (body S key).runFresh ((defs S).fresh e) e = _
  unfold body value
  split
  · rfl
  · simp only [Prog.runFresh, hphi]; cases S.phi e.1 e.2 <;> rfl
  · split
    · simp only [Prog.runFresh, hphi]; cases S.phi e.1 e.2 <;> rfl
    · rfl
  · rfl
  · rfl
  · split <;> first | rfl | (exfalso; simp_all)

theorem pers_false (key : String) : (cfg key).persisting = false := by unfold cfg; split <;> rfl

/-- The operation as one on the cached quantities. -/
def tr : Op X H → Defs.Op String (X × H)
  | .read key => .read key
  | .assign a f => match a.reset with
    | some (rp, av) => .update (fun e => (e.1, f e.2)) rp av
    | none => .reset true
  | .select f => .update (fun e => (f e.1, e.2)) false []
  | .train _ => .reset true
  | .afterStep => .remove (.str "Kernel_RF_weights_pinv")
  | .reset => .reset true

/-- Everything but training steps and the assignment of the parameters of the hyperbola, the weights and their number. -/
def Clean : Op X H → Prop
  | .assign a _ => a ≠ .hyperbola ∧ a ≠ .weights ∧ a ≠ .numWeights
  | .train _ => False
  | _ => True

theorem reset_avoid {a : Attr} {rp : Bool} {av : List String} (h : a.reset = some (rp, av)) {key : String} (hk : key ∈ av) :
    key = "sample_transform" ∨ key = "_kernel_dist_sample" ∨ key = "_kernel_square_dist_sample" := by
  cases a <;> simp only [Attr.reset, Option.some.injEq, Prod.mk.injEq, reduceCtorEq] at h <;> obtain ⟨-, rfl⟩ := h <;> simp at hk <;> simp [hk]

theorem clean_reset {a : Attr} (h : a ≠ .hyperbola ∧ a ≠ .weights ∧ a ≠ .numWeights) : ∃ q, a.reset = some q := by
  cases a <;> first | exact ⟨_, rfl⟩ | exact absurd rfl h.1 | exact absurd rfl h.2.1 | exact absurd rfl h.2.2

theorem admissible (e : X × H) (l : List (Op X H)) (hl : ∀ o ∈ l, Clean o) : Admissible (defs S) e (l.map tr) := by
  induction l generalizing e with
  | nil => trivial
  | cons o l ih =>
    have hl' := fun o' ho' => hl o' (List.mem_cons_of_mem _ ho')
    have ho := hl o List.mem_cons_self
    cases o with
    | read key => exact ih e hl'
    | assign a f =>
      obtain ⟨⟨rp, av⟩, hr⟩ := clean_reset ho
      · simp only [List.map_cons, tr, hr]
        refine ⟨fun key hk => ?_, ih _ hl'⟩
        rcases hk with hk | hk
        · rw [fresh_eq, fresh_eq]
          rcases reset_avoid hr hk with rfl | rfl | rfl <;> rfl
        · have := hk.1
          rw [show ((defs S).cfg key) = cfg key from rfl, pers_false] at this
          cases this
    | select f =>
      refine ⟨fun key hk => ?_, ih _ hl'⟩
      rcases hk with hk | hk
      · cases hk
      · have := hk.1
        rw [show ((defs S).cfg key) = cfg key from rfl, pers_false] at this
        cases this
    | train f => exact absurd ho id
    | afterStep => exact ih e hl'
    | reset => exact ih e hl'

theorem step_tr {o : Op X H} (ho : Clean o) (s : St X H M) : step S s o = (defs S).step s (tr o) := by
  cases o with
  | assign a f =>
    obtain ⟨q, hr⟩ := clean_reset ho
    simp only [step, tr, hr]
  | train f => exact absurd ho id
  | _ => rfl

theorem run_tr (s : St X H M) (l : List (Op X H)) (hl : ∀ o ∈ l, Clean o) : run S s l = (defs S).run s (l.map tr) := by
  induction l generalizing s with
  | nil => rfl
  | cons o l ih =>
    simp only [run, List.map_cons, Defs.run, step_tr S (hl o List.mem_cons_self),
      ih _ (fun o' ho' => hl o' (List.mem_cons_of_mem _ ho'))]
    rfl

theorem spec_tr (e : X × H) (l : List (Op X H)) (hl : ∀ o ∈ l, Clean o) : (defs S).specRun e (l.map tr) = spec S e l := by
  induction l generalizing e with
  | nil => rfl
  | cons o l ih =>
    have hl' := fun o' ho' => hl o' (List.mem_cons_of_mem _ ho')
    have ho := hl o List.mem_cons_self
    cases o with
    | read key =>
      show (defs S).fresh e key :: (defs S).specRun e (l.map tr) = value S e.1 e.2 key :: spec S e l
      rw [fresh_eq, ih e hl']
    | assign a f =>
      obtain ⟨q, hr⟩ := clean_reset ho
      · simp only [List.map_cons, tr, hr, Defs.specRun, spec, after]; exact ih _ hl'
    | select f => exact ih _ hl'
    | train f => exact absurd ho id
    | afterStep => exact ih _ hl'
    | reset => exact ih _ hl'

/-- Reading never removes nor replaces what is kept. -/
theorem readN_keeps (n : Nat) (e : X × H) (key : String) (c : CacheSt String M) :
    ((defs S).readN n e key c).2.level = c.level ∧
    ∀ k v, c.dict.find k = some v → ((defs S).readN n e key c).2.dict.find k = some v := by
  induction n generalizing key c with
  | zero => exact ⟨rfl, fun k v h => h⟩
  | succ n ih =>
    have hov : (cfg key).overwrite = false := by unfold cfg; split <;> rfl
    have hde : (cfg key).destroy = false := by unfold cfg; split <;> rfl
    have hrun : ∀ (p : Prog String (X × H) M) (c : CacheSt String M), (p.runCached ((defs S).readN n e) e c).2.level = c.level ∧
        ∀ k v, c.dict.find k = some v → (p.runCached ((defs S).readN n e) e c).2.dict.find k = some v := by
      intro p
      induction p with
      | ret f => exact fun c => ⟨rfl, fun k v h => h⟩
      | need key' k' ihp =>
        intro c
        simp only [Prog.runCached]
        have h1 := ih key' c
        generalize (defs S).readN n e key' c = r at h1
        obtain ⟨r1, r2⟩ := r
        cases r1 with
        | error er => exact h1
        | ok v => exact ⟨(ihp v r2).1.trans h1.1, fun k w hk => (ihp v r2).2 k w (h1.2 k w hk)⟩
    simp only [Defs.readN, CacheSt.get, show (defs S).cfg key = cfg key from rfl, hov, hde, Bool.false_eq_true, if_false]
    cases hf : c.dict.find key with
    | some en => exact ⟨rfl, fun k v h => h⟩
    | none =>
      simp only [CacheSt.save]
      have h1 := hrun (body S key) c
      simp only [show (defs S).body key = body S key from rfl]
      generalize (body S key).runCached ((defs S).readN n e) e c = r at h1
      obtain ⟨r1, r2⟩ := r
      cases r1 with
      | error er => exact h1
      | ok v =>
        simp only
        cases (resolveLevel (defs S).table c (cfg key)).le r2.level with
        | error er => exact h1
        | ok b =>
          simp only
          by_cases hb : (b || (cfg key).force) = true
          · rw [if_pos hb]
            refine ⟨h1.1, fun k w hk => ?_⟩
            simp only [find_set]
            rw [if_neg (by rintro rfl; rw [hf] at hk; cases hk)]
            exact h1.2 k w hk
          · rw [if_neg hb]
            exact h1

/-- What a successful reading keeps, when its level allows it. -/
theorem read_stores (e : X × H) (key : String) (c : CacheSt String M) (m k : Int) (hc : c.level = .num m)
    (hk : ∀ c' : CacheSt String M, resolveLevel defaultCacheLevel c' (cfg key) = .num k) (hkm : k ≤ m) (v : M)
    (h : ((defs S).read e key c).1 = .ok v) : ∃ en, ((defs S).read e key c).2.dict.find key = some en ∧ en.val = v := by
  have hov : (cfg key).overwrite = false := by unfold cfg; split <;> rfl
  have hde : (cfg key).destroy = false := by unfold cfg; split <;> rfl
  have hlev : ∀ (p : Prog String (X × H) M) (n : Nat) (c : CacheSt String M), (p.runCached ((defs S).readN n e) e c).2.level = c.level := by
    intro p n
    induction p with
    | ret f => exact fun c => rfl
    | need key' k' ihp =>
      intro c
      simp only [Prog.runCached]
      have h1 := (readN_keeps S n e key' c).1
      generalize (defs S).readN n e key' c = r at h1
      obtain ⟨r1, r2⟩ := r
      cases r1 with
      | error er => exact h1
      | ok v => exact (ihp v r2).trans h1
  simp only [Defs.read, Defs.readN, CacheSt.get, show (defs S).cfg key = cfg key from rfl, hov, hde, Bool.false_eq_true, if_false] at h ⊢
  cases hf : c.dict.find key with
  | some en =>
    rw [hf] at h
    simp only [Except.ok.injEq] at h
    exact ⟨en, hf, h⟩
  | none =>
    rw [hf] at h
    simp only [CacheSt.save] at h ⊢
    have h1 := hlev ((defs S).body key) ((defs S).rank key) c
    generalize ((defs S).body key).runCached ((defs S).readN ((defs S).rank key) e) e c = r at h h1
    obtain ⟨r1, r2⟩ := r
    cases r1 with
    | error er => cases h
    | ok w =>
      simp only at h h1 ⊢
      rw [show (defs S).table = defaultCacheLevel from rfl, hk, h1, hc] at h ⊢
      simp only [Lvl.le, hkm, decide_true, Bool.true_or, if_true, Except.ok.injEq] at h ⊢
      subst h
      exact ⟨_, by rw [find_set, if_pos rfl], rfl⟩

theorem level_cfg (c : CacheSt String M) (key : String) (h : key = "phi" ∨ key = "C" ∨ key = "K") :
    resolveLevel defaultCacheLevel c (cfg key) = .num 1 := by
  rcases h with rfl | rfl | rfl <;> rfl

/-- Operations that never empty the cache: reading, assigning what does not reset it, training steps and what is called after them. -/
def Silent : Op X H → Prop
  | .read _ => True
  | .assign a _ => a = .hyperbola ∨ a = .weights ∨ a = .numWeights
  | .train _ => True
  | .afterStep => True
  | _ => False

theorem silent_reset {a : Attr} (h : a = .hyperbola ∨ a = .weights ∨ a = .numWeights) : a.reset = none := by
  rcases h with rfl | rfl | rfl <;> rfl

/-- The characters of the name given to `after_step`. -/
theorem iter_pinv : CacheKey.iter "Kernel_RF_weights_pinv" =
    ["K", "e", "r", "n", "e", "l", "_", "R", "F", "_", "w", "e", "i", "g", "h", "t", "s", "_", "p", "i", "n", "v"] := by decide +kernel

/-- Getting a quantity through the cache: how the dictionary changes, given how it does while computing it. -/
theorem get_inv (P : CacheSt String M → Prop) (key : String) (fn : CacheSt.M String M M) (c : CacheSt String M) (hc : P c) (hfn : P (fn c).2)
    (hset : ∀ (c1 : CacheSt String M) (l : Lvl) (v : M), P c1 → fn c = (.ok v, c1) → c.dict.find key = none →
      P { c1 with dict := c1.dict.set key ⟨l, (cfg key).persisting, v⟩ }) :
    P (CacheSt.get defaultCacheLevel key (cfg key) fn c).2 := by
  have hov : (cfg key).overwrite = false := by unfold cfg; split <;> rfl
  have hde : (cfg key).destroy = false := by unfold cfg; split <;> rfl
  simp only [CacheSt.get, hov, hde, Bool.false_eq_true, if_false]
  cases hf : c.dict.find key with
  | some en => exact hc
  | none =>
    simp only [CacheSt.save]
    generalize hr : fn c = r at hfn
    obtain ⟨r1, r2⟩ := r
    cases r1 with
    | error er => exact hfn
    | ok v =>
      simp only
      cases (resolveLevel defaultCacheLevel c (cfg key)).le r2.level with
      | error er => exact hfn
      | ok b =>
        simp only
        by_cases hb : (b || (cfg key).force) = true
        · rw [if_pos hb]; exact hset r2 _ v hfn hr hf
        · rw [if_neg hb]; exact hfn

theorem readN_wf (n : Nat) (e : X × H) (key : String) (c : CacheSt String M) (h : c.dict.WF) : ((defs S).readN n e key c).2.dict.WF := by
  induction n generalizing key c with
  | zero => exact h
  | succ n ih =>
    refine get_inv (fun c => c.dict.WF) key _ c h ?_ (fun c1 l v h1 _ _ => h1.set _ _)
    have : ∀ (p : Prog String (X × H) M) (c : CacheSt String M), c.dict.WF → (p.runCached ((defs S).readN n e) e c).2.dict.WF := by
      intro p
      induction p with
      | ret f => exact fun c h => h
      | need key' k' ihp =>
        intro c h
        simp only [Prog.runCached]
        have h1 := ih key' c h
        generalize (defs S).readN n e key' c = r at h1
        obtain ⟨r1, r2⟩ := r
        cases r1 with
        | error er => exact h1
        | ok v => exact ihp v r2 h1
    exact this _ _ h

/-- Reading anything but `K` neither stores nor changes `K`. -/
theorem readN_noK (n : Nat) (e : X × H) (key : String) (c : CacheSt String M) (hk : key ≠ "K") :
    ((defs S).readN n e key c).2.dict.find "K" = c.dict.find "K" := by
  induction n generalizing key c with
  | zero => rfl
  | succ n ih =>
    refine get_inv (fun c' => c'.dict.find "K" = c.dict.find "K") key _ c rfl ?_ (fun c1 l v h1 _ _ => by
      show (c1.dict.set key _).find "K" = _
      rw [find_set, if_neg hk]; exact h1)
    show ((body S key).runCached _ e c).2.dict.find "K" = _
    unfold body
    split
    · rfl
    · simp only [Prog.runCached]
      have h1 := ih "phi" c (by decide)
      generalize (defs S).readN n e "phi" c = r at h1
      obtain ⟨r1, r2⟩ := r
      cases r1 <;> exact h1
    · exact absurd rfl hk
    · rfl
    · rfl
    · rfl

/-- The features `φ` are kept, and with them at most the kernel matrix they give. -/
def Kept (φ : M) (c : CacheSt String M) : Prop :=
  c.dict.WF ∧ (∃ en, c.dict.find "phi" = some en ∧ en.val = φ) ∧ ∀ en, c.dict.find "K" = some en → en.val = S.gramK φ

theorem get_found (key : String) (fn : CacheSt.M String M M) (c : CacheSt String M) (en : Entry M) (h : c.dict.find key = some en) :
    CacheSt.get defaultCacheLevel key (cfg key) fn c = (.ok en.val, c) := by
  have hov : (cfg key).overwrite = false := by unfold cfg; split <;> rfl
  simp only [CacheSt.get, hov, Bool.false_eq_true, if_false, h]

/-- The result of computing is the result of getting when nothing is kept (levels being numbers). -/
theorem get_none (key : String) (fn : CacheSt.M String M M) (c c1 : CacheSt String M) (v : M) (h : c.dict.find key = none) (hv : fn c = (.ok v, c1))
    (m k : Int) (hm : c1.level = .num m) (hk : resolveLevel defaultCacheLevel c (cfg key) = .num k) :
    (CacheSt.get defaultCacheLevel key (cfg key) fn c).1 = .ok v := by
  have hov : (cfg key).overwrite = false := by unfold cfg; split <;> rfl
  have hde : (cfg key).destroy = false := by unfold cfg; split <;> rfl
  simp only [CacheSt.get, hov, hde, Bool.false_eq_true, if_false, h, CacheSt.save, hv, hm, hk, Lvl.le]
  by_cases hb : (decide (k ≤ m) || (cfg key).force) = true
  · rw [if_pos hb]
  · rw [if_neg hb]

theorem kept_phi (hS : S.explicit = true) (φ : M) (e : X × H) (c : CacheSt String M) (h : Kept S φ c) (n : Nat) :
    (defs S).readN (n + 1) e "phi" c = (.ok φ, c) := by
  obtain ⟨en, h1, rfl⟩ := h.2.1
  exact get_found "phi" _ c en h1

theorem kept_bodyK (hS : S.explicit = true) (φ : M) (e : X × H) (c : CacheSt String M) (h : Kept S φ c) :
    ((defs S).body "K").runCached ((defs S).readN 1 e) e c = (.ok (S.gramK φ), c) := by
  have hb : (defs S).body "K" = .need "phi" fun φ => .ret fun _ => .ok (S.gramK φ) := by
    show body S "K" = _
    simp only [body, hS, if_true]
  rw [hb]
  simp only [Prog.runCached, kept_phi S hS φ e c h 0]

theorem kept_K (hS : S.explicit = true) (φ : M) (e : X × H) (c : CacheSt String M) (m : Int) (hm : c.level = .num m) (h : Kept S φ c) :
    ((defs S).read e "K" c).1 = .ok (S.gramK φ) := by
  have hb := kept_bodyK S hS φ e c h
  show (CacheSt.get defaultCacheLevel "K" (cfg "K") (((defs S).body "K").runCached ((defs S).readN 1 e) e) c).1 = _
  cases hf : c.dict.find "K" with
  | some en => rw [get_found _ _ _ _ hf, h.2.2 en hf]
  | none => exact get_none "K" _ c c _ hf hb m 1 hm (level_cfg c "K" (by simp))

theorem kept_read (hS : S.explicit = true) (φ : M) (e : X × H) (c : CacheSt String M) (h : Kept S φ c) (key : String) :
    Kept S φ ((defs S).read e key c).2 := by
  refine ⟨readN_wf S _ e key c h.1, ?_, ?_⟩
  · obtain ⟨en, h1, h2⟩ := h.2.1
    exact ⟨en, (readN_keeps S _ e key c).2 _ _ h1, h2⟩
  · by_cases hk : key = "K"
    · subst hk
      refine get_inv (fun c' => ∀ en, c'.dict.find "K" = some en → en.val = S.gramK φ) "K" _ c h.2.2 ?_ ?_
      · show ∀ en, (((defs S).body "K").runCached ((defs S).readN 1 e) e c).2.dict.find "K" = some en → _
        rw [kept_bodyK S hS φ e c h]
        exact h.2.2
      · intro c1 l v h1 h2 h3 en hen
        simp only [find_set, if_true, Option.some.injEq] at hen
        have h4 : (.ok (S.gramK φ), c) = ((.ok v, c1) : Except Err M × CacheSt String M) := (kept_bodyK S hS φ e c h).symm.trans h2
        rw [← hen]
        simpa using (congrArg Prod.fst h4).symm
    · intro en hen
      rw [show ((defs S).read e key c).2.dict.find "K" = c.dict.find "K" from readN_noK S _ e key c hk] at hen
      exact h.2.2 en hen

theorem kept_step (hS : S.explicit = true) (φ : M) (s : St X H M) (h : Kept S φ s.2) (o : Op X H) (ho : Silent o) :
    Kept S φ (step S s o).1.2 ∧ (step S s o).1.2.level = s.2.level := by
  cases o with
  | read key => exact ⟨kept_read S hS φ s.1 s.2 h key, (readN_keeps S _ _ _ _).1⟩
  | assign a f => simp only [step, silent_reset ho]; exact ⟨h, trivial⟩
  | train f => exact ⟨h, rfl⟩
  | afterStep =>
    obtain ⟨h1, h2, h3⟩ := remove_spec s.2 h.1 (.str "Kernel_RF_weights_pinv")
    simp only [KeyArg.items, iter_pinv] at h3
    refine ⟨⟨h1, ?_, fun en hen => ?_⟩, h2⟩
    · obtain ⟨en, h4, h5⟩ := h.2.1
      exact ⟨en, by simp only [step, Defs.step]; rw [h3, if_neg (by decide)]; exact h4, h5⟩
    · simp only [step, Defs.step] at hen
      rw [h3, if_pos (by decide)] at hen
      cases hen
  | select f => exact absurd ho id
  | reset => exact absurd ho id

theorem kept_run (hS : S.explicit = true) (φ : M) (s : St X H M) (h : Kept S φ s.2) (l : List (Op X H)) (hl : ∀ o ∈ l, Silent o) :
    Kept S φ (run S s l).1.2 ∧ (run S s l).1.2.level = s.2.level := by
  induction l generalizing s with
  | nil => exact ⟨h, rfl⟩
  | cons o l ih =>
    obtain ⟨h1, h2⟩ := kept_step S hS φ s h o (hl o List.mem_cons_self)
    obtain ⟨h3, h4⟩ := ih _ h1 (fun o' ho' => hl o' (List.mem_cons_of_mem _ ho'))
    exact ⟨h3, h4.trans h2⟩

theorem run_append (s : St X H M) (l l' : List (Op X H)) : run S s (l ++ l') =
    ((run S (run S s l).1 l').1, (run S s l).2 ++ (run S (run S s l).1 l').2) := by
  induction l generalizing s with
  | nil => rfl
  | cons o l ih =>
    simp only [List.cons_append, run, ih]
    cases (step S s o).2 <;> rfl

/-- The first reading of the features of a new kernel. -/
theorem first_phi (x : X) (h : H) (m : Int) (hm : 1 ≤ m) (φ : M) (hφ : S.phi x h = .ok φ) :
    (step S ((x, h), CacheSt.init (.int m)) (.read "phi")) = (((x, h), ⟨.num m, [("phi", ⟨.num 1, false, φ⟩)]⟩), some (.ok φ)) := by
  have hb : ((defs S).body "phi").runCached ((defs S).readN 0 (x, h)) (x, h) (CacheSt.init (.int m)) = (.ok φ, CacheSt.init (.int m)) := by
    show (S.phi x h, _) = _
    rw [hφ]
  have : (defs S).read (x, h) "phi" (CacheSt.init (.int m)) = (.ok φ, ⟨.num m, [("phi", ⟨.num 1, false, φ⟩)]⟩) := by
    have hr : (defs S).rank "phi" = 0 := rfl
    rw [Defs.read, hr]
    show CacheSt.get defaultCacheLevel "phi" (cfg "phi") (((defs S).body "phi").runCached ((defs S).readN 0 (x, h)) (x, h)) (CacheSt.init (.int m)) = _
    have hl := level_cfg (CacheSt.init (.int m) : CacheSt String M) "phi" (by simp)
    simp only [CacheSt.get, CacheSt.save, hb, hl]
    simp [cfg, CacheSt.init, CacheSt.setLevel, CacheSt.getLevel, Lvl.le, hm, Dict.find, Dict.set]
  simp only [step, Defs.step, this]

/-! ### Below the level at which matrices are kept -/

/-- At level `none` (or below), only distances are ever kept. -/
def Bare (c : CacheSt String M) : Prop :=
  ∀ k en, c.dict.find k = some en → k = "_kernel_dist_sample" ∨ k = "_kernel_square_dist_sample"

theorem level_ge (c : CacheSt String M) (key : String) (h1 : key ≠ "_kernel_dist_sample") (h2 : key ≠ "_kernel_square_dist_sample") :
    ∃ k : Int, 1 ≤ k ∧ resolveLevel defaultCacheLevel c (cfg key) = .num k ∧ (cfg key).force = false := by
  unfold cfg
  split
  · exact ⟨1, le_refl _, rfl, rfl⟩
  · exact ⟨1, le_refl _, rfl, rfl⟩
  · exact ⟨1, le_refl _, rfl, rfl⟩
  · exact absurd rfl h1
  · exact absurd rfl h2
  · exact ⟨2, by norm_num, rfl, rfl⟩

theorem bare_readN (n : Nat) (e : X × H) (key : String) (c : CacheSt String M) (m : Int) (hm : c.level = .num m) (hm1 : m < 1) (h : Bare c) :
    Bare ((defs S).readN n e key c).2 := by
  induction n generalizing key c with
  | zero => exact h
  | succ n ih =>
    have hrun : ∀ (p : Prog String (X × H) M) (c : CacheSt String M), c.level = .num m → Bare c →
        Bare (p.runCached ((defs S).readN n e) e c).2 ∧ (p.runCached ((defs S).readN n e) e c).2.level = .num m := by
      intro p
      induction p with
      | ret f => exact fun c hm h => ⟨h, hm⟩
      | need key' k' ihp =>
        intro c hm h
        simp only [Prog.runCached]
        have h1 := ih key' c hm h
        have h2 := (readN_keeps S n e key' c).1
        generalize (defs S).readN n e key' c = r at h1 h2
        obtain ⟨r1, r2⟩ := r
        cases r1 with
        | error er => exact ⟨h1, h2.trans hm⟩
        | ok v => exact ihp v r2 (h2.trans hm) h1
    obtain ⟨g1, g2⟩ := hrun ((defs S).body key) c hm h
    have hov : (cfg key).overwrite = false := by unfold cfg; split <;> rfl
    have hde : (cfg key).destroy = false := by unfold cfg; split <;> rfl
    by_cases hd : key = "_kernel_dist_sample" ∨ key = "_kernel_square_dist_sample"
    · refine get_inv Bare key _ c h g1 (fun c1 l v h1 _ _ => fun k en hen => ?_)
      simp only [find_set] at hen
      split at hen
      · rename_i hk; rw [← hk]; exact hd
      · exact h1 k en hen
    · obtain ⟨k, hk1, hk2, hk3⟩ := level_ge c key (fun h => hd (Or.inl h)) (fun h => hd (Or.inr h))
      simp only [Defs.readN, CacheSt.get, show (defs S).cfg key = cfg key from rfl, hov, hde, Bool.false_eq_true, if_false]
      cases hf : c.dict.find key with
      | some en => exact h
      | none =>
        simp only [CacheSt.save]
        generalize ((defs S).body key).runCached ((defs S).readN n e) e c = r at g1 g2
        obtain ⟨r1, r2⟩ := r
        cases r1 with
        | error er => exact g1
        | ok v =>
          simp only at g1 g2 ⊢
          rw [show (defs S).table = defaultCacheLevel from rfl, hk2, g2, hk3]
          simp only [Lvl.le, Bool.or_false, decide_eq_true_eq]
          rw [if_neg (by omega)]
          exact g1

theorem value_dist {k : String} (h : k = "_kernel_dist_sample" ∨ k = "_kernel_square_dist_sample") (x : X) (a b : H) : value S x a k = value S x b k := by
  rcases h with rfl | rfl <;> rfl

theorem coherent_bare {e e' : X × H} {c : CacheSt String M} (h : (defs S).Coherent e c) (hb : Bare c) (he : e'.1 = e.1) : (defs S).Coherent e' c where
  wf := h.wf
  numeric := h.numeric
  val := fun k en hk => by
    have := h.val k en hk
    rw [fresh_eq] at this ⊢
    rw [← this, he]
    exact value_dist S (hb k en hk) _ _ _
  pers := h.pers

/-! ### C108 -/

/-- C108, the part that holds: after any history of readings, selections, resets and assignments of a bandwidth, a lag, a shape, a slope (not the weights, nor the parameters of the
hyperbola, nor training), every reading is computed from the current points and hyper-parameters. -/
theorem C108_assign_partial (x : X) (h : H) (lvl : LvlArg) (hlvl : lvl.Known) (l : List (Op X H)) (hl : ∀ o ∈ l, Clean o) :
    (run S ((x, h), CacheSt.init lvl) l).2 = spec S (x, h) l := by
  rw [run_tr S _ l hl, (run_eq_spec (defs S) (ranked S) (known S) (l.map tr) (x, h) _ (init_coherent _ _ hlvl) (admissible S _ l hl)).1, spec_tr S _ l hl]

/-- C108: at the cache level `none`, the same for all assignments, and training that does not move the points. -/
theorem C108_none_partial (x : X) (h : H) (m : Int) (hm : m < 1) (l : List (Op X H)) (hl : ∀ o ∈ l, ∀ f, o = .train f → ∀ e, (f e).1 = e.1) :
    (run S ((x, h), CacheSt.init (.int m)) l).2 = spec S (x, h) l := by
  have key : ∀ (s : St X H M), (defs S).Coherent s.1 s.2 → s.2.level = .num m → Bare s.2 → (run S s l).2 = spec S s.1 l := by
    induction l with
    | nil => intros; rfl
    | cons o l ih =>
      intro s hc hlev hb
      have ih' := ih (fun o' ho' => hl o' (List.mem_cons_of_mem _ ho'))
      have hsub : ∀ (c' : CacheSt String M), (∀ k en, c'.dict.find k = some en → s.2.dict.find k = some en) → Bare c' :=
        fun c' hs k en hk => hb k en (hs k en hk)
      cases o with
      | read k =>
        have hs := Defs.readN_spec (ranked S) (known S) s.1 s.2.level ((defs S).rank k + 1) k (Nat.lt_succ_self _) s.2 ⟨hc, rfl⟩
        have := ih' (step S s (.read k)).1 hs.2.1 (hs.2.2.trans hlev) (bare_readN S _ s.1 k s.2 m hlev hm hb)
        simp only [run, this]
        show ((defs S).read s.1 k s.2).1 :: _ = value S s.1.1 s.1.2 k :: _
        rw [← fresh_eq]
        exact congrArg₂ _ hs.1 rfl
      | assign a f =>
        cases hr : a.reset with
        | none =>
          have := ih' ((s.1.1, f s.1.2), s.2) (coherent_bare S hc hb rfl) hlev hb
          simp only [run, step, hr, this]
          rfl
        | some q =>
          obtain ⟨rp, av⟩ := q
          obtain ⟨r1, r2, r3⟩ := resetCache_spec s.2 hc.wf rp av
          have hs : ∀ k en, (s.2.resetCache rp av).dict.find k = some en → s.2.dict.find k = some en := fun k en hk => by
            rw [r3, Option.filter_eq_some_iff] at hk; exact hk.1
          have := ih' ((s.1.1, f s.1.2), s.2.resetCache rp av) (coherent_bare S (hc.mono r1 ⟨m, r2.trans hlev⟩ hs) (hsub _ hs) rfl) (r2.trans hlev) (hsub _ hs)
          simp only [run, step, hr, Defs.step, this]
          rfl
      | select f =>
        obtain ⟨r1, r2, r3⟩ := resetCache_spec s.2 hc.wf false []
        have hs : ∀ k, (s.2.resetCache false []).dict.find k = none := fun k => by
          rw [r3]
          cases hk : s.2.dict.find k with
          | none => rfl
          | some en =>
            have := hc.pers k en hk
            rw [show (defs S).cfg k = cfg k from rfl, pers_false] at this
            simp [this]
        refine ih' ((f s.1.1, s.1.2), s.2.resetCache false []) ⟨r1, ⟨⟨m, r2.trans hlev⟩, ?_⟩, ?_, ?_⟩ (r2.trans hlev) ?_
        all_goals intro k en hk; rw [hs k] at hk; cases hk
      | train f =>
        exact ih' (f s.1, s.2) (coherent_bare S hc hb (hl _ List.mem_cons_self f rfl s.1)) hlev hb
      | afterStep =>
        obtain ⟨r1, r2, r3⟩ := remove_spec s.2 hc.wf (.str "Kernel_RF_weights_pinv")
        have hs : ∀ k en, (s.2.remove (.str "Kernel_RF_weights_pinv")).dict.find k = some en → s.2.dict.find k = some en :=
          fun k en hk => Defs.remove_sub hc.wf _ k en hk
        have := ih' (s.1, s.2.remove (.str "Kernel_RF_weights_pinv")) (hc.mono r1 ⟨m, r2.trans hlev⟩ hs) (r2.trans hlev) (hsub _ hs)
        simp only [run, step, Defs.step, this]
        rfl
      | reset =>
        obtain ⟨r1, r2, r3⟩ := resetCache_spec s.2 hc.wf true []
        have hs : ∀ k en, (s.2.resetCache true []).dict.find k = some en → s.2.dict.find k = some en := fun k en hk => by
          rw [r3, Option.filter_eq_some_iff] at hk; exact hk.1
        exact ih' (s.1, s.2.resetCache true []) (hc.mono r1 ⟨m, r2.trans hlev⟩ hs) (r2.trans hlev) (hsub _ hs)
  exact key _ (init_coherent _ _ (by trivial)) rfl (fun k en hk => by cases hk)

/-- C108 fails for the others: from the cache level `light` on, once the features have been read, the kernel matrix is that of those features whatever weights, number of weights or
parameters of the hyperbola are assigned, whatever training does, and even after `after_step`. -/
theorem C108_stale_violated (hS : S.explicit = true) (x : X) (h : H) (m : Int) (hm : 1 ≤ m) (φ : M) (hφ : S.phi x h = .ok φ)
    (l : List (Op X H)) (hl : ∀ o ∈ l, Silent o) :
    (run S ((x, h), CacheSt.init (.int m)) (.read "phi" :: l ++ [.read "phi", .read "K"])).2.drop
      (run S ((x, h), CacheSt.init (.int m)) (.read "phi" :: l)).2.length = [.ok φ, .ok (S.gramK φ)] := by
  rw [run_append, List.drop_left]
  have h0 := first_phi S x h m hm φ hφ
  have hk0 : Kept S φ (⟨.num m, [("phi", ⟨.num 1, false, φ⟩)]⟩ : CacheSt String M) := by
    refine ⟨by simp [Dict.WF, Dict.keys], ⟨_, rfl, rfl⟩, fun en hen => ?_⟩
    simp [Dict.find] at hen
  obtain ⟨h1, h2⟩ := kept_run S hS φ ((x, h), ⟨.num m, [("phi", ⟨.num 1, false, φ⟩)]⟩) hk0 l hl
  have hrun : (run S ((x, h), CacheSt.init (.int m)) (.read "phi" :: l)).1 = (run S ((x, h), ⟨.num m, [("phi", ⟨.num 1, false, φ⟩)]⟩) l).1 := by
    simp only [run, h0]
  rw [hrun]
  generalize (run S ((x, h), (⟨.num m, [("phi", ⟨.num 1, false, φ⟩)]⟩ : CacheSt String M)) l).1 = s at h1 h2
  have hp : (defs S).read s.1 "phi" s.2 = (.ok φ, s.2) := kept_phi S hS φ s.1 s.2 h1 0
  have hK := kept_K S hS φ s.1 s.2 m h2 h1
  simp only [run, step, Defs.step, hp, hK]

/-- C108: the same for a kernel matrix computed without features (a trained bandwidth, for instance). -/
theorem C108_trained_violated (s : St X H M) (m : Int) (hm : s.2.level = .num m) (hm1 : 1 ≤ m) (v : M)
    (hv : (step S s (.read "K")).2 = some (.ok v)) (l : List (Op X H)) (hl : ∀ o ∈ l, Silent o ∧ o ≠ .afterStep) :
    (step S (run S (step S s (.read "K")).1 l).1 (.read "K")).2 = some (.ok v) := by
  have hv' : ((defs S).read s.1 "K" s.2).1 = .ok v := by simpa [step, Defs.step] using hv
  obtain ⟨en, h1, rfl⟩ := read_stores S s.1 "K" s.2 m 1 hm (fun c' => level_cfg c' "K" (by simp)) hm1 v hv'
  have hkeep : ∀ (s : St X H M), s.2.dict.find "K" = some en → (run S s l).1.2.dict.find "K" = some en := by
    clear hv hv' h1 hm
    induction l with
    | nil => exact fun s h => h
    | cons o l ih =>
      intro s h
      refine ih (fun o' ho' => hl o' (List.mem_cons_of_mem _ ho')) _ ?_
      obtain ⟨ho, ho'⟩ := hl o List.mem_cons_self
      cases o with
      | read key => exact (readN_keeps S _ s.1 key s.2).2 _ _ h
      | assign a f => simp only [step, silent_reset ho]; exact h
      | train f => exact h
      | afterStep => exact absurd rfl ho'
      | select f => exact absurd ho id
      | reset => exact absurd ho id
  have h2 := hkeep (step S s (.read "K")).1 h1
  generalize (run S (step S s (.read "K")).1 l).1 = t at h2
  show some ((defs S).read t.1 "K" t.2).1 = _
  rw [show (defs S).read t.1 "K" t.2 = (.ok en.val, t.2) from get_found "K" _ t.2 en h2]

/-- A kernel with one point and one weight: the feature is their product. -/
def one : Sem ℤ ℤ ℤ := ⟨true, fun x w => .ok (x * w), fun _ φ => φ * φ, fun φ => φ * φ, fun x w => .ok (w * x), fun _ => .ok 0⟩

/-- C108: what that means for weights assigned after a first reading. -/
theorem C108_weights_violated : (run one ((3, 2), CacheSt.init) [.read "K", .assign .weights (fun _ => 5), .read "K"]).2 = [.ok 36, .ok 36] ∧
    spec one (3, 2) [.read "K", .assign .weights (fun _ => 5), .read "K"] = [.ok 36, .ok 225] := by
  constructor <;> decide +kernel

/-- Non-vacuity of `C108_assign_partial`, `C108_none_partial`, `C108_stale_violated`: histories meeting their hypotheses, with what is read. -/
example : (∀ o ∈ ([.read "K", .assign .rfSigma (fun _ => 5), .read "K", .afterStep, .select (fun _ => 1), .read "phi"] : List (Op ℤ ℤ)), Clean o) ∧
    spec one (3, 2) [.read "K", .assign .rfSigma (fun _ => 5), .read "K", .afterStep, .select (fun _ => 1), .read "phi"] = [.ok 36, .ok 225, .ok 5] := by
  refine ⟨by simp [Clean], by decide +kernel⟩
example : (run one ((3, 2), CacheSt.init (.int 0)) [.read "K", .assign .weights (fun _ => 5), .read "K", .train (fun e => (e.1, 7)), .read "K"]).2
    = [.ok 36, .ok 225, .ok 441] := by decide +kernel
example : ∀ o ∈ ([.assign .hyperbola (fun _ => 5), .train (fun e => (e.1 + 1, e.2)), .afterStep, .read "C"] : List (Op ℤ ℤ)), Silent o := by simp [Silent]
/-- `after_step` does forget the kernel matrix, but not the features. -/
example : (run one ((3, 2), CacheSt.init) [.read "K", .train (fun e => (e.1, 5)), .afterStep, .read "K"]).2 = [.ok 36, .ok 36] := by decide +kernel
example : (run { one with explicit := false } ((3, 2), CacheSt.init) [.read "K", .train (fun e => (e.1, 5)), .read "K"]).2 = [.ok 6, .ok 6] := by decide +kernel

/-! ### The hyperbola -/

/-- The admissible parameters (those of `C36_activation`). -/
def Hyp.Good (h : Hyp) : Prop := (Activation.hyperbola h.alpha h.beta h.gamma h.delta).Admissible

theorem good_iff (h : Hyp) : h.Good ↔ 0 < h.alpha ∧ 0 < h.beta ∧ 0 < h.gamma ∧ 0 < h.delta ∧ h.alpha * h.gamma < h.beta ^ 2 := Iff.rfl

/-- C108: a hyperbola is constructed only with admissible parameters, and its activation is then a real number everywhere. -/
theorem C108_hyperbola_construct (a g d b : Option ℝ) (h : Hyp) (hc : Hyp.construct a g d b = .ok h) :
    h.Good ∧ h = ⟨a.getD 1, b.getD 2, g.getD 1, d.getD 1⟩ ∧ ∀ x, h.fn x = some ((Activation.hyperbola h.alpha h.beta h.gamma h.delta).fn x) := by
  have key : h.Good ∧ h = ⟨a.getD 1, b.getD 2, g.getD 1, d.getD 1⟩ := by
    unfold Hyp.construct Hyp.step at hc
    by_cases ha : 0 < a.getD 1
    · by_cases hg : 0 < g.getD 1
      · by_cases hd : 0 < d.getD 1
        · by_cases hb : 0 < b.getD 2
          · by_cases hq : a.getD 1 * g.getD 1 < b.getD 2 ^ 2
            · simp only [ha, hg, hd, hb, hq, if_true, Except.ok.injEq] at hc
              subst hc
              exact ⟨⟨ha, hb, hg, hd, hq⟩, rfl⟩
            · simp [ha, hg, hd, hb, hq] at hc
          · simp [ha, hg, hd, hb] at hc
        · simp [ha, hg, hd] at hc
      · simp [ha, hg] at hc
    · simp [ha] at hc
  refine ⟨key.1, key.2, fun x => ?_⟩
  obtain ⟨h1, h2, h3, h4, h5⟩ := key.1
  rw [Hyp.fn, if_neg]
  · rfl
  · push Not
    have : 0 ≤ h.beta ^ 2 - h.gamma * h.alpha := by nlinarith
    positivity

/-- C108: whatever is assigned later, the four parameters stay positive and refused values change nothing … -/
theorem C108_hyperbola_positive (h : Hyp) (hg : h.Good) (l : List HypOp) :
    0 < (h.run l).alpha ∧ 0 < (h.run l).beta ∧ 0 < (h.run l).gamma ∧ 0 < (h.run l).delta := by
  obtain ⟨h1, h2, h3, h4, _⟩ := hg
  have key : ∀ (h : Hyp), 0 < h.alpha → 0 < h.beta → 0 < h.gamma → 0 < h.delta →
      0 < (h.run l).alpha ∧ 0 < (h.run l).beta ∧ 0 < (h.run l).gamma ∧ 0 < (h.run l).delta := by
    induction l with
    | nil => exact fun h a b c d => ⟨a, b, c, d⟩
    | cons o l ih =>
      intro h a b c d
      cases o with
      | alpha v => by_cases hv : 0 < v <;> simp only [Hyp.run, Hyp.step, hv, if_true, if_false] <;> apply ih <;> assumption
      | beta v =>
        by_cases hv : 0 < v
        · by_cases hq : h.alpha * h.gamma < v ^ 2 <;> simp only [Hyp.run, Hyp.step, hv, hq, if_true, if_false] <;> apply ih <;> assumption
        · simp only [Hyp.run, Hyp.step, hv, if_false]; apply ih <;> assumption
      | gamma v => by_cases hv : 0 < v <;> simp only [Hyp.run, Hyp.step, hv, if_true, if_false] <;> apply ih <;> assumption
      | delta v => by_cases hv : 0 < v <;> simp only [Hyp.run, Hyp.step, hv, if_true, if_false] <;> apply ih <;> assumption
  exact key h h1 h2 h3 h4

/-- … but they are not kept admissible: from any admissible parameters, one accepted assignment of `alpha` (or of `gamma`) gives an activation that is not a number at some point. -/
theorem C108_hyperbola_violated (h : Hyp) (hg : h.Good) : ∃ v, 0 < v ∧ (h.step (.alpha v)).1 = .ok () ∧ (h.step (.gamma v)).1 = .ok () ∧
    (∃ x, (h.step (.alpha v)).2.fn x = none) ∧ ∃ x, (h.step (.gamma v)).2.fn x = none := by
  obtain ⟨h1, h2, h3, h4, h5⟩ := hg
  have key : ∀ {α γ : ℝ}, h.beta ^ 2 + 1 ≤ γ * α → 0 < γ → (h.beta ^ 2 - γ * α) * (Real.sqrt (γ * h.delta) + 1) ^ 2 + γ * h.delta < 0 := by
    intro α γ hq hγ
    have hs := Real.sq_sqrt (show 0 ≤ γ * h.delta by positivity)
    have hs0 := Real.sqrt_nonneg (γ * h.delta)
    nlinarith [sq_nonneg (Real.sqrt (γ * h.delta) + 1)]
  have hv : 0 < (h.beta ^ 2 + 1) / h.gamma + (h.beta ^ 2 + 1) / h.alpha := by positivity
  refine ⟨(h.beta ^ 2 + 1) / h.gamma + (h.beta ^ 2 + 1) / h.alpha, hv, by simp [Hyp.step, hv], by simp [Hyp.step, hv], ⟨Real.sqrt (h.gamma * h.delta) + 1, ?_⟩, ?_⟩
  · simp only [Hyp.step, hv, if_true]
    rw [Hyp.fn, if_pos]
    refine key ?_ h3
    have : h.gamma * ((h.beta ^ 2 + 1) / h.gamma) = h.beta ^ 2 + 1 := by field_simp
    have h6 : 0 < h.gamma * ((h.beta ^ 2 + 1) / h.alpha) := by positivity
    rw [mul_add]; linarith
  · refine ⟨Real.sqrt (((h.beta ^ 2 + 1) / h.gamma + (h.beta ^ 2 + 1) / h.alpha) * h.delta) + 1, ?_⟩
    simp only [Hyp.step, hv, if_true]
    rw [Hyp.fn, if_pos]
    refine key ?_ hv
    have : (h.beta ^ 2 + 1) / h.alpha * h.alpha = h.beta ^ 2 + 1 := by field_simp
    have h6 : 0 < (h.beta ^ 2 + 1) / h.gamma * h.alpha := by positivity
    rw [add_mul]; linarith

/-- C108: any admissible parameters are reached by assigning them with `beta` last … -/
theorem C108_hyperbola_reach (h t : Hyp) (ht : t.Good) : h.run [.alpha t.alpha, .gamma t.gamma, .delta t.delta, .beta t.beta] = t := by
  obtain ⟨h1, h2, h3, h4, h5⟩ := ht
  simp [Hyp.run, Hyp.step, h1, h2, h3, h4, h5]

/-- … but not with `beta` first: there the assertion concerns the former `alpha` and `gamma`. -/
theorem C108_hyperbola_order_violated (h t : Hyp) (hlt : t.beta ^ 2 ≤ h.alpha * h.gamma) :
    (h.step (.beta t.beta)).1 = .error .assertionError ∧ (h.run [.beta t.beta, .alpha t.alpha, .gamma t.gamma, .delta t.delta]).beta = h.beta := by
  have hq : ¬ h.alpha * h.gamma < t.beta ^ 2 := not_lt.2 hlt
  have hb : h.step (.beta t.beta) = (.error .assertionError, h) := by
    by_cases hv : 0 < t.beta <;> simp [Hyp.step, hv, hq]
  refine ⟨by rw [hb], ?_⟩
  simp only [Hyp.run, hb]
  by_cases ha : 0 < t.alpha <;> by_cases hg : 0 < t.gamma <;> by_cases hd : 0 < t.delta <;> simp [Hyp.step, ha, hg, hd]

example : ∃ h : Hyp, Hyp.construct none none none none = .ok h := ⟨⟨1, 2, 1, 1⟩, by norm_num [Hyp.construct, Hyp.step]⟩
example : (⟨1, 2, 1, 1⟩ : Hyp).Good ∧ (⟨1 / 4, 1, 1, 1⟩ : Hyp).Good := by constructor <;> norm_num [Hyp.Good, Activation.Admissible]
example : (⟨1 / 4, 1, 1, 1⟩ : Hyp).beta ^ 2 ≤ (⟨1, 2, 1, 1⟩ : Hyp).alpha * (⟨1, 2, 1, 1⟩ : Hyp).gamma := by norm_num

/-! ### The others -/

/-- C108: an assigned bandwidth is what is read, whatever was there and whatever the heuristic gives. -/
theorem C108_sigma (b : Band) (v : ℝ) (q : Option ℝ) : (b.assign (some v)).1 = .ok () ∧ ((b.assign (some v)).2.get q).1 = .ok v := ⟨rfl, rfl⟩

/-- C108: assigning `None` (to return to the heuristic) raises, and yet the bandwidth counts as defined: what is read afterwards is the value a new kernel is filled with, not the
heuristic. -/
theorem C108_sigma_none_violated (v q : ℝ) : ((Band.assign ⟨false, v⟩ none).1 = .error .typeError) ∧
    ((Band.assign ⟨false, v⟩ none).2.get (some q)).1 = .ok v ∧ ((Band.get ⟨false, v⟩ (some q)).1 = .ok q) := ⟨rfl, rfl, rfl⟩

/-- C108: whether the lag is trainable can be read from one of the two kernels on time only. -/
theorem C108_lag_trainable_violated (b : Bool) : hatLagTrainable b = .error .attributeError ∧ indicatorLagTrainable b = .ok b := ⟨rfl, rfl⟩

/-- C108: on the sigmoid kernel, `a` and `b` can be assigned and read back, and the kernel ignores them. -/
theorem C108_sigmoid_violated (s : Sig) (name : String) (hn : name ≠ "params_trainable") (v : ℝ) :
    (s.setattr name v).1 = .ok () ∧ (s.setattr name v).2.getattr name = .ok v ∧ (s.setattr name v).2.kernel = s.kernel := by
  simp only [Sig.setattr, hn, if_false]
  exact ⟨trivial, by simp [Sig.getattr, find_set], rfl⟩

/-- The value asked for would give another kernel. -/
example : (⟨1, 0, []⟩ : Sig).kernel 1 ≠ (⟨2, 0, []⟩ : Sig).kernel 1 := by
  have h : Real.exp (-2) < Real.exp (-1) := Real.exp_lt_exp.2 (by norm_num)
  simp only [Sig.kernel]
  intro hh
  norm_num at hh
example : ("a" : String) ≠ "params_trainable" := by decide

/-- C108: the setters of the hyperbola refuse exactly what is not positive (and for `beta` what makes the activation undefined), with an `AssertionError` and without any change. -/
theorem C108_hyperbola_refused (h : Hyp) (v : ℝ) :
    (0 < v → h.step (.alpha v) = (.ok (), { h with alpha := v }) ∧ h.step (.gamma v) = (.ok (), { h with gamma := v }) ∧
      h.step (.delta v) = (.ok (), { h with delta := v }) ∧
      (h.alpha * h.gamma < v ^ 2 → h.step (.beta v) = (.ok (), { h with beta := v })) ∧
      (v ^ 2 ≤ h.alpha * h.gamma → h.step (.beta v) = (.error .assertionError, h))) ∧
    (v ≤ 0 → ∀ o ∈ [HypOp.alpha v, .beta v, .gamma v, .delta v], h.step o = (.error .assertionError, h)) := by
  refine ⟨fun hv => ⟨by simp [Hyp.step, hv], by simp [Hyp.step, hv], by simp [Hyp.step, hv], fun hb => by simp [Hyp.step, hv, hb],
    fun hb => by simp [Hyp.step, hv, not_lt.2 hb]⟩, fun hv o ho => ?_⟩
  have hv' : ¬ 0 < v := not_lt.2 hv
  simp only [List.mem_cons, List.not_mem_nil, or_false] at ho
  rcases ho with rfl | rfl | rfl | rfl <;> simp [Hyp.step, hv']

example : (⟨1, 2, 1, 1⟩ : Hyp).step (.beta 1) = (.error .assertionError, ⟨1, 2, 1, 1⟩) := ((C108_hyperbola_refused _ 1).1 one_pos).2.2.2.2 (by norm_num)

/-- C108: the bandwidth that is computed when first read is kept, whatever the heuristic gives later; without sample the reading is refused and changes nothing. -/
theorem C108_sigma_kept (b : Band) (q : ℝ) (q' : Option ℝ) : ((b.get (some q)).2.get q').1 = (b.get (some q)).1 ∧ ((b.get q').2.get q').1 = (b.get q').1 ∧
    ∀ v, Band.get ⟨false, v⟩ none = (.error .notInitialized, ⟨false, v⟩) := by
  obtain ⟨d, v⟩ := b
  cases d <;> cases q' <;> exact ⟨rfl, rfl, fun _ => rfl⟩

/-- C108: the sigmoid kernel is the one of its parameters, names that have not been assigned cannot be read, and whether its parameters are trainable cannot be assigned. -/
theorem C108_sigmoid {d : Type} [Fintype d] (s : Sig) (x y : d → ℝ) (v : ℝ) : s.kernel (x ⬝ᵥ y) = sigmoidKernel s.a s.b x y ∧
    s.setattr "params_trainable" v = (.error .attributeError, s) ∧ ∀ name, s.extra.find name = none → s.getattr name = .error .attributeError := by
  refine ⟨?_, by simp [Sig.setattr], fun name h => by simp [Sig.getattr, h]⟩
  rw [Sig.kernel, sigmoidKernel, Real.sigmoid_def, one_div]

end Assign
end Kerch
