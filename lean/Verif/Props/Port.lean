import Verif.Model.Port
import Verif.Model.Defaults
import Verif.Lemmas.Cache
import Verif.Lemmas.Memo
import Verif.Props.Cache
import Mathlib.Logic.Function.Iterate
import Mathlib.Tactic.Push
/-!
# C75 (identity of the current size), C76 (porting a module)
-/
set_option linter.unusedSectionVars false
set_option linter.unusedSimpArgs false
namespace Kerch
open Port

variable {α : Type}

/-! ## specification -/

mutual
/-- The module with every cached tensor and every parameter, at any depth, replaced by its image. -/
def ported (f : α → α) : Tree α → Tree α
  | .node true ts cs ps ch => .node true (ts.map f) (portedAll f cs) (ps.map f) (portedAll f ch)
  | .node false ts cs ps ch => .node false ts cs (ps.map f) (portedAll f ch)
/-- A list of modules. -/
def portedAll (f : α → α) : List (Tree α) → List (Tree α)
  | [] => []
  | t :: l => ported f t :: portedAll f l
end

/-! ## helper lemmas -/

theorem portedAll_eq (f : α → α) (l : List (Tree α)) : portedAll f l = l.map (ported f) := by
  induction l with
  | nil => rfl
  | cons t l ih => rw [portedAll, ih, List.map_cons]

theorem height_le_all (l : List (Tree α)) (t : Tree α) (h : t ∈ l) : t.height ≤ heightAll l := by
  induction l with
  | nil => simp at h
  | cons a l ih =>
    rw [heightAll]
    rcases List.mem_cons.mp h with rfl | h
    · exact Nat.le_max_left _ _
    · exact Nat.le_trans (ih h) (Nat.le_max_right _ _)

theorem heightAll_map (g : Tree α → Tree α) (l : List (Tree α)) (h : ∀ t ∈ l, (g t).height = t.height) : heightAll (l.map g) = heightAll l := by
  induction l with
  | nil => rfl
  | cons a l ih =>
    rw [List.map_cons, heightAll, heightAll, h a (by simp), ih (fun t ht => h t (by simp [ht]))]

theorem ported_idem (f : α → α) (hf : ∀ a, f (f a) = f a) (k : Nat) (t : Tree α) (h : t.height ≤ k) :
    ported f (ported f t) = ported f t ∧ (ported f t).height = t.height := by
  induction k generalizing t with
  | zero =>
    cases t with
    | node b ts cs ps ch => rw [Tree.height] at h; omega
  | succ k ih =>
    cases t with
    | node b ts cs ps ch =>
      rw [Tree.height] at h
      have hcs : ∀ t ∈ cs, t.height ≤ k := fun t ht => by
        have := height_le_all cs t ht
        omega
      have hch : ∀ t ∈ ch, t.height ≤ k := fun t ht => by
        have := height_le_all ch t ht
        omega
      have hmap : ∀ l : List α, (l.map f).map f = l.map f := by
        intro l
        rw [List.map_map]
        exact List.map_congr_left fun a _ => hf a
      have hall : ∀ l : List (Tree α), (∀ t ∈ l, t.height ≤ k) → (l.map (ported f)).map (ported f) = l.map (ported f) := by
        intro l hl
        rw [List.map_map]
        exact List.map_congr_left fun t ht => (ih t (hl t ht)).1
      cases b with
      | true =>
        simp only [ported, portedAll_eq, Tree.height]
        rw [hmap, hmap, hall cs hcs, hall ch hch, heightAll_map _ cs fun t ht => (ih t (hcs t ht)).2, heightAll_map _ ch fun t ht => (ih t (hch t ht)).2]
        exact ⟨rfl, rfl⟩
      | false =>
        simp only [ported, portedAll_eq, Tree.height]
        rw [hmap, hall ch hch, heightAll_map _ ch fun t ht => (ih t (hch t ht)).2]
        exact ⟨rfl, rfl⟩

theorem applyN_eq (f : α → α) (hf : ∀ a, f (f a) = f a) (k : Nat) (t : Tree α) (h : t.height ≤ k) : applyN f k t = ported f t := by
  induction k generalizing t with
  | zero =>
    cases t with
    | node b ts cs ps ch => rw [Tree.height] at h; omega
  | succ k ih =>
    cases t with
    | node b ts cs ps ch =>
      rw [Tree.height] at h
      have hcs : ∀ t ∈ cs, t.height ≤ k := fun t ht => by
        have := height_le_all cs t ht
        omega
      have hch : ∀ t ∈ ch, t.height ≤ k := fun t ht => by
        have := height_le_all ch t ht
        omega
      have e1 : cs.map (applyN f k) = cs.map (ported f) := List.map_congr_left fun t ht => ih t (hcs t ht)
      have e2 : ch.map (applyN f k) = ch.map (ported f) := List.map_congr_left fun t ht => ih t (hch t ht)
      cases b with
      | true =>
        simp only [ported, portedAll_eq, applyN]
        rw [e1, e2, List.map_map]
        congr 1
        apply List.map_congr_left
        intro t ht
        obtain ⟨h1, h2⟩ := ported_idem f hf k t (hch t ht)
        show applyN f k (ported f t) = _
        rw [ih _ (by rw [h2]; exact hch t ht), h1]
      | false =>
        simp only [ported, portedAll_eq, applyN]
        rw [e2]

/-! ## C76 -/

/-- **C76**: porting (any operation that does nothing more when done again, such as moving to a device or changing the type) reaches every cached tensor and every
parameter of the module, of its cached modules and of its descendants, however deep. -/
theorem C76_ported (f : α → α) (hf : ∀ a, f (f a) = f a) (t : Tree α) : t.apply f = ported f t := applyN_eq f hf _ t (Nat.le_refl _)

/-- Porting again changes nothing. -/
theorem C76_again (f : α → α) (hf : ∀ a, f (f a) = f a) (t : Tree α) : (t.apply f).apply f = t.apply f := by
  rw [C76_ported f hf, C76_ported f hf]
  exact (ported_idem f hf _ t (Nat.le_refl _)).1

/-- The operation is done several times on descendants: `2 ^ k` times on the parameters of the `k`-th descendant, for every depth. -/
theorem C76_repeated (f : α → α) (k : Nat) (p : α) :
    let chain : Nat → Tree α := fun k => Nat.rec (.node true [] [] [p] []) (fun _ t => .node true [] [] [] [t]) k
    (chain k).apply f = Nat.rec (motive := fun _ => Tree α) (.node true [] [] [f^[2 ^ k] p] []) (fun _ t => .node true [] [] [] [t]) k := by
  intro chain
  have gen : ∀ k q, ∀ e, applyN f (k + 1 + e) (Nat.rec (motive := fun _ => Tree α) (.node true [] [] [q] []) (fun _ t => .node true [] [] [] [t]) k) =
      Nat.rec (motive := fun _ => Tree α) (.node true [] [] [f^[2 ^ k] q] []) (fun _ t => .node true [] [] [] [t]) k := by
    intro k
    induction k with
    | zero => intro q e; rw [Nat.add_right_comm]; rfl
    | succ k ih =>
      intro q e
      rw [show k + 1 + 1 + e = (k + 1 + e) + 1 by omega]
      show Tree.node true [] [] [] [applyN f (k + 1 + e) (applyN f (k + 1 + e) _)] = _
      rw [ih q e, ih _ e, ← Function.iterate_add_apply, ← Nat.two_mul, ← Nat.pow_succ']
  have hh : ∀ k, (chain k).height = k + 1 := by
    intro k
    induction k with
    | zero => rfl
    | succ k ih =>
      show (Tree.node true [] [] [] [chain k]).height = _
      rw [Tree.height, heightAll, heightAll, heightAll, ih]
      simp
      omega
  rw [Tree.apply, hh]
  exact gen k p 0

/-! ## C75 -/

/-- What is stored under the key is an identity. -/
def EyeInv (key : String) (eye : Nat → α) (c : CacheSt String α) : Prop :=
  c.dict.WF ∧ ∀ e, c.dict.find key = some e → ∃ m, e.val = eye m

theorem cleanLoop_sub (m : Lvl) (ks : List String) (c : CacheSt String α) (w : c.dict.WF) :
    (CacheSt.cleanLoop m ks c).2.dict.WF ∧ (CacheSt.cleanLoop m ks c).2.level = c.level ∧
    ∀ k e, (CacheSt.cleanLoop m ks c).2.dict.find k = some e → c.dict.find k = some e := by
  induction ks generalizing c with
  | nil => exact ⟨w, rfl, fun _ _ h => h⟩
  | cons a t ih =>
    rw [CacheSt.cleanLoop]
    cases hda : c.dict.find a with
    | none => exact ih c w
    | some e =>
      simp only
      cases hg : e.level.gt m with
      | error err => exact ⟨w, rfl, fun _ _ h => h⟩
      | ok b =>
        cases b with
        | false => exact ih c w
        | true =>
          obtain ⟨h1, h2, h3⟩ := ih { c with dict := c.dict.pop a } (w.pop a)
          refine ⟨h1, h2, fun k e' h => ?_⟩
          have := h3 k e' h
          simp only [Dict.find_pop w] at this
          split at this
          · cases this
          · exact this

theorem get_eye (table : Dict String String) (key lk : String) (eye : Nat → α) (ow : Bool) (n : Nat) (c : CacheSt String α) (h : EyeInv key eye c) :
    EyeInv key eye (CacheSt.get table key { levelKey := some lk, overwrite := ow, persisting := true } (fun c => (.ok (eye n), c)) c).2 ∧
    (CacheSt.get table key { levelKey := some lk, overwrite := ow, persisting := true } (fun c => (.ok (eye n), c)) c).2.level = c.level ∧
    ∀ v, (CacheSt.get table key { levelKey := some lk, overwrite := ow, persisting := true } (fun c => (.ok (eye n), c)) c).1 = .ok v →
      (∃ m, v = eye m) ∧ (ow = true → v = eye n) := by
  have hsave : ∀ a : CacheSt.GetArgs, a.destroy = false →
      EyeInv key eye (CacheSt.save table key a (fun c => (.ok (eye n), c)) c).2 ∧ (CacheSt.save table key a (fun c => (.ok (eye n), c)) c).2.level = c.level ∧
      ∀ v, (CacheSt.save table key a (fun c => (.ok (eye n), c)) c).1 = .ok v → v = eye n := by
    intro a _
    unfold CacheSt.save
    simp only
    cases hle : (CacheSt.resolveLevel table c a).le c.level with
    | error e => exact ⟨h, rfl, fun v hv => by cases hv⟩
    | ok b =>
      simp only
      split
      · refine ⟨⟨h.1.set _ _, ?_⟩, rfl, fun v hv => by cases hv; rfl⟩
        intro e he
        simp only [Dict.find_set, if_true] at he
        cases he
        exact ⟨n, rfl⟩
      · exact ⟨h, rfl, fun v hv => by cases hv; rfl⟩
  obtain ⟨s1, s2, s3⟩ := hsave { levelKey := some lk, overwrite := ow, persisting := true } rfl
  unfold CacheSt.get
  cases hfind : (if ow then none else c.dict.find key) with
  | some e =>
    simp only [hfind]
    cases ow with
    | true => simp at hfind
    | false =>
      refine ⟨h, trivial, fun v hv => ?_⟩
      cases hv
      exact ⟨h.2 e hfind, by simp⟩
  | none =>
    simp only [hfind]
    cases hs : CacheSt.save table key { levelKey := some lk, overwrite := ow, persisting := true } (fun c => (.ok (eye n), c)) c with
    | mk r c1 =>
      rw [hs] at s1 s2 s3
      cases r with
      | error e => exact ⟨s1, s2, fun v hv => by cases hv⟩
      | ok v0 =>
        refine ⟨by simpa using s1, by simpa using s2, fun v hv => ?_⟩
        cases hv
        exact ⟨⟨n, s3 _ rfl⟩, fun _ => s3 _ rfl⟩

theorem identity_eye (table : Dict String String) (key lk : String) (eye : Nat → α) (size : α → Nat) (hsize : ∀ m, size (eye m) = m) (n : Nat)
    (c : CacheSt String α) (h : EyeInv key eye c) :
    EyeInv key eye (identity table key lk eye size n c).2 ∧ (identity table key lk eye size n c).2.level = c.level ∧
    ∀ v, (identity table key lk eye size n c).1 = .ok v → v = eye n := by
  unfold identity
  obtain ⟨g1, g2, g3⟩ := get_eye table key lk eye false n c h
  cases hs : CacheSt.get table key { levelKey := some lk, persisting := true } (fun c => (.ok (eye n), c)) c with
  | mk r c1 =>
    rw [hs] at g1 g2 g3
    cases r with
    | error e => exact ⟨g1, g2, fun v hv => by cases hv⟩
    | ok v0 =>
      simp only
      obtain ⟨⟨m, hm⟩, _⟩ := g3 v0 rfl
      by_cases hn : size v0 ≠ n
      · rw [if_pos hn]
        obtain ⟨k1, k2, k3⟩ := get_eye table key lk eye true n c1 g1
        exact ⟨k1, k2.trans g2, fun v hv => (k3 v hv).2 rfl⟩
      · rw [if_neg hn]
        refine ⟨g1, g2, fun v hv => ?_⟩
        cases hv
        rw [hm, hsize] at hn
        rw [hm, Decidable.not_not.mp hn]

theorem get_other (table : Dict String String) (key k : String) (hk : k ≠ key) (a : CacheSt.GetArgs) (v : Except Err α) (eye : Nat → α)
    (c : CacheSt String α) (h : EyeInv key eye c) : EyeInv key eye (CacheSt.get table k a (fun c => (v, c)) c).2 ∧
      (CacheSt.get table k a (fun c => (v, c)) c).2.level = c.level := by
  unfold CacheSt.get
  cases hfind : (if a.overwrite then none else c.dict.find k) with
  | some e => simp only [hfind]; exact ⟨h, trivial⟩
  | none =>
    simp only [hfind]
    have s1 : EyeInv key eye (CacheSt.save table k a (fun c => (v, c)) c).2 ∧ (CacheSt.save table k a (fun c => (v, c)) c).2.level = c.level := by
      unfold CacheSt.save
      cases v with
      | error e => exact ⟨h, rfl⟩
      | ok w =>
        simp only
        cases (CacheSt.resolveLevel table c a).le c.level with
        | error e => exact ⟨h, rfl⟩
        | ok b =>
          simp only
          split
          · refine ⟨⟨h.1.set _ _, ?_⟩, rfl⟩
            intro e he
            simp only [Dict.find_set] at he
            rw [if_neg hk] at he
            exact h.2 e he
          · exact ⟨h, rfl⟩
    cases hs : CacheSt.save table k a (fun c => (v, c)) c with
    | mk r c1 =>
      rw [hs] at s1
      cases r with
      | error e => exact s1
      | ok v0 =>
        simp only
        split
        · obtain ⟨r1, r2, r3⟩ := CacheSt.remove_spec c1 s1.1.1 (.str k)
          refine ⟨⟨r1, ?_⟩, r2.trans s1.2⟩
          intro e he
          rw [r3] at he
          split at he
          · cases he
          · exact s1.1.2 e he
        · exact s1

theorem step_eye (table : Dict String String) (key : String) (eye : Nat → α) (size : α → Nat) (hsize : ∀ m, size (eye m) = m) (c : CacheSt String α)
    (h : EyeInv key eye c) (op : Port.Op α) : EyeInv key eye (Port.step table key eye size c op) := by
  cases op with
  | read n lk => exact (identity_eye table key lk eye size hsize n c h).1
  | other k a v =>
    unfold Port.step
    simp only
    split
    · exact h
    · next hk => exact (get_other table key k hk a v eye c h).1
  | reset p =>
    obtain ⟨r1, _, r3⟩ := CacheSt.resetCache_spec c h.1 p []
    refine ⟨r1, fun e he => ?_⟩
    have he' : (c.resetCache p).dict.find key = some e := he
    rw [r3] at he'
    exact h.2 e (Option.filter_eq_some_iff.mp he').1
  | remove ks =>
    obtain ⟨r1, _, r3⟩ := CacheSt.remove_spec c h.1 (.list ks)
    refine ⟨r1, fun e he => ?_⟩
    have he' : (c.remove (.list ks)).dict.find key = some e := he
    rw [r3] at he'
    split at he'
    · cases he'
    · exact h.2 e he'
  | level l => exact h
  | clean =>
    show EyeInv key eye (CacheSt.clean .none c).2
    unfold CacheSt.clean
    simp only
    split
    · obtain ⟨r1, _, r3⟩ := CacheSt.resetCache_spec c h.1 true []
      refine ⟨r1, fun e he => ?_⟩
      rw [r3] at he
      exact h.2 e (Option.filter_eq_some_iff.mp he).1
    · obtain ⟨r1, _, r3⟩ := cleanLoop_sub (c.getLevel .none) c.dict.keys c h.1
      exact ⟨r1, fun e he => h.2 e (r3 _ _ he)⟩

/-- **C75**: whatever happened before (readings with other sizes, changes of the cache level, resets, removals, other cached values), the identity that is read is
the one of the current size. -/
theorem C75_current (table : Dict String String) (key : String) (eye : Nat → α) (size : α → Nat) (hsize : ∀ m, size (eye m) = m) (lvl : LvlArg)
    (ops : List (Port.Op α)) (n : Nat) (lk : String) (v : α)
    (h : (identity table key lk eye size n (ops.foldl (Port.step table key eye size) (CacheSt.init lvl))).1 = .ok v) : v = eye n := by
  have : ∀ c, EyeInv key eye c → EyeInv key eye (ops.foldl (Port.step table key eye size) c) := by
    clear h
    induction ops with
    | nil => exact fun c hc => hc
    | cons op t ih => exact fun c hc => ih _ (step_eye table key eye size hsize c hc op)
  exact (identity_eye table key lk eye size hsize n _ (this _ ⟨Dict.WF.nil, fun e he => by cases he⟩)).2.2 v h

theorem step_eye_level (key : String) (eye : Nat → α) (size : α → Nat) (hsize : ∀ m, size (eye m) = m) (c : CacheSt String α) (h : EyeInv key eye c)
    (hn : ∃ n, c.level = .num n) (op : Port.Op α) (hop : ∀ l, op = .level l → l.Known) :
    ∃ n, (Port.step defaultCacheLevel key eye size c op).level = .num n := by
  cases op with
  | read n lk =>
    obtain ⟨m, hm⟩ := hn
    exact ⟨m, (identity_eye defaultCacheLevel key lk eye size hsize n c h).2.1.trans hm⟩
  | other k a v =>
    unfold Port.step
    simp only
    split
    · exact hn
    · next hk =>
      obtain ⟨m, hm⟩ := hn
      exact ⟨m, (get_other defaultCacheLevel key k hk a v eye c h).2.trans hm⟩
  | reset p =>
    obtain ⟨m, hm⟩ := hn
    exact ⟨m, (CacheSt.resetCache_spec c h.1 p []).2.1.trans hm⟩
  | remove ks => exact hn
  | level l => exact getLevel_known hn (hop l rfl)
  | clean =>
    obtain ⟨m, hm⟩ := hn
    show ∃ n, (CacheSt.clean .none c).2.level = .num n
    unfold CacheSt.clean
    simp only
    split
    · exact ⟨m, (CacheSt.resetCache_spec c h.1 true []).2.1.trans hm⟩
    · exact ⟨m, (cleanLoop_sub (c.getLevel .none) c.dict.keys c h.1).2.1.trans hm⟩

theorem get_available (key lk : String) (ow : Bool) (w : α) (c : CacheSt String α) (hn : ∃ n, c.level = .num n) :
    ∃ v, (CacheSt.get defaultCacheLevel key { levelKey := some lk, overwrite := ow, persisting := true } (fun c => (.ok w, c)) c).1 = .ok v := by
  obtain ⟨r, hr⟩ : ∃ n, CacheSt.resolveLevel defaultCacheLevel c { levelKey := some lk, overwrite := ow, persisting := true } = .num n := by
    unfold CacheSt.resolveLevel
    simp only
    cases hf : Dict.find defaultCacheLevel lk with
    | none => exact getLevel_known hn (show levelSwitcher.has "normal" = true by decide)
    | some s =>
      apply getLevel_known hn
      have hmem := Dict.mem_of_find hf
      have hall : ∀ kv ∈ defaultCacheLevel, levelSwitcher.has kv.2 = true := by decide
      exact hall _ hmem
  obtain ⟨m, hm⟩ := hn
  unfold CacheSt.get
  cases hfind : (if ow then none else c.dict.find key) with
  | some e => simp only [hfind]; exact ⟨_, rfl⟩
  | none =>
    simp only [hfind, CacheSt.save, hr, hm, Lvl.le]
    by_cases hrm : r ≤ m <;> simp [hrm]

/-- … and it can always be read, for known cache levels. -/
theorem C75_available (key : String) (eye : Nat → α) (size : α → Nat) (hsize : ∀ m, size (eye m) = m) (lvl : LvlArg) (hl : lvl.Known)
    (ops : List (Port.Op α)) (hops : ∀ op ∈ ops, ∀ l, op = .level l → l.Known) (n : Nat) (lk : String) :
    (identity defaultCacheLevel key lk eye size n (ops.foldl (Port.step defaultCacheLevel key eye size) (CacheSt.init lvl))).1 = .ok (eye n) := by
  have : ∀ c, EyeInv key eye c → (∃ n, c.level = .num n) → EyeInv key eye (ops.foldl (Port.step defaultCacheLevel key eye size) c) ∧
      ∃ n, (ops.foldl (Port.step defaultCacheLevel key eye size) c).level = .num n := by
    induction ops with
    | nil => exact fun c hc hn => ⟨hc, hn⟩
    | cons op t ih =>
      intro c hc hn
      exact ih (fun o ho => hops o (by simp [ho])) _ (step_eye defaultCacheLevel key eye size hsize c hc op)
        (step_eye_level key eye size hsize c hc hn op (hops op (by simp)))
  obtain ⟨h1, h2⟩ := this (CacheSt.init lvl) ⟨Dict.WF.nil, fun e he => by cases he⟩ (getLevel_known ⟨0, rfl⟩ hl)
  have hav : ∃ v, (identity defaultCacheLevel key lk eye size n (ops.foldl (Port.step defaultCacheLevel key eye size) (CacheSt.init lvl))).1 = .ok v := by
    obtain ⟨C, hC⟩ : ∃ C, C = ops.foldl (Port.step defaultCacheLevel key eye size) (CacheSt.init lvl) := ⟨_, rfl⟩
    rw [← hC] at h1 h2 ⊢
    unfold identity
    obtain ⟨v, hv⟩ := get_available key lk false (eye n) C h2
    obtain ⟨g1, g2, _⟩ := get_eye defaultCacheLevel key lk eye false n C h1
    cases hs : CacheSt.get defaultCacheLevel key { levelKey := some lk, persisting := true } (fun c => (.ok (eye n), c)) C with
    | mk r c1 =>
      rw [hs] at hv g1 g2
      simp only at hv
      subst hv
      simp only
      split
      · exact get_available key lk true (eye n) c1 (by rw [g2]; exact h2)
      · exact ⟨v, rfl⟩
  obtain ⟨v, hv⟩ := hav
  rw [hv, C75_current defaultCacheLevel key eye size hsize lvl ops n lk v hv]

/-! ## non-vacuity -/

example : (identity defaultCacheLevel "Level_I_dual" "Level_I_default_representation" (fun n => n) id 5
    ([.read 3 "Level_I_default_representation", .reset false, .level (.str "none")].foldl (Port.step defaultCacheLevel "Level_I_dual" (fun n => n) id)
      (CacheSt.init (.str "normal")))).1 = .ok 5 :=
  C75_available _ _ _ (fun _ => rfl) (.str "normal") (show levelSwitcher.has "normal" = true by decide) _ (by
    intro op hop l hl
    simp only [List.mem_cons, List.not_mem_nil, or_false] at hop
    rcases hop with rfl | rfl | rfl <;> cases hl
    exact (show levelSwitcher.has "none" = true by decide)) _ _

example : (Tree.node true [1] [] [2] [.node true [3] [] [-4] []] : Tree Int).apply (fun x => max x 0) = .node true [1] [] [2] [.node true [3] [] [0] []] := by rfl
example : (Tree.node true [1] [] [2] [.node true [3] [] [4] []] : Tree Int).apply (fun x => 2 * x) = .node true [2] [] [4] [.node true [12] [] [16] []] := by rfl

end Kerch
