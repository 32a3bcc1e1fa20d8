import Verif.Model.Cache
import Verif.Lemmas.Dict
/-! Helper lemmas on the cache model. -/
set_option linter.unusedSectionVars false
set_option linter.unusedSimpArgs false
namespace Kerch
namespace CacheSt
variable {κ α : Type} [DecidableEq κ] [CacheKey κ]
open Dict

/-- Popping the keys of `ks` selected by `q`, each looked up at its turn. -/
theorem foldl_pop_spec (q : κ → Entry α → Bool) (step : Dict κ (Entry α) → κ → Dict κ (Entry α))
    (hstep : ∀ d key, step d key = match d.find key with
      | some v => if q key v then d.pop key else d
      | none => d)
    (ks : List κ) (d : Dict κ (Entry α)) (w : d.WF) :
    (ks.foldl step d).WF ∧ ∀ k, (ks.foldl step d).find k
      = if k ∈ ks then (d.find k).filter (fun v => !(q k v)) else d.find k := by
  induction ks generalizing d with
  | nil => exact ⟨w, fun k => by simp⟩
  | cons a t ih =>
    rw [List.foldl_cons]
    have hw : (step d a).WF := by
      rw [hstep]; split
      · split
        · exact w.pop _
        · exact w
      · exact w
    obtain ⟨h1, h2⟩ := ih _ hw
    refine ⟨h1, fun k => ?_⟩
    rw [h2, hstep]
    cases hda : d.find a with
    | none =>
      simp only []
      by_cases hk : k = a
      · subst hk; simp [hda]
      · simp [hk]
    | some v =>
      simp only []
      by_cases hq : q a v = true
      · simp only [hq, if_true]
        rw [find_pop w]
        by_cases hk : k = a
        · subst hk; simp [hda, Option.filter, hq]
        · have hk' : a ≠ k := fun e => hk e.symm
          simp [hk, hk']
      · simp only [hq, if_false]
        by_cases hk : k = a
        · subst hk
          simp only [List.mem_cons, true_or, if_true]
          split
          · rfl
          · simp [hda, Option.filter, hq]
        · simp [hk]

theorem resetCache_spec (c : CacheSt κ α) (w : c.dict.WF) (rp : Bool) (av : List κ) :
    (c.resetCache rp av).dict.WF ∧ (c.resetCache rp av).level = c.level ∧
    ∀ k, (c.resetCache rp av).dict.find k =
      (c.dict.find k).filter (fun e => av.contains k || (e.persisting && !rp)) := by
  unfold resetCache
  by_cases h : (rp && av.isEmpty) = true
  · rw [if_pos h]
    refine ⟨WF.nil, rfl, fun k => ?_⟩
    simp only [Bool.and_eq_true, List.isEmpty_iff] at h
    obtain ⟨h1, h2⟩ := h
    subst h2; subst h1
    cases c.dict.find k <;> simp [Option.filter]
  · rw [if_neg h]
    have := foldl_pop_spec (fun key (e : Entry α) => !(av.contains key) && (!e.persisting || rp))
      (fun d key => if d.has key && !(av.contains key) then
          match d.find key with
          | some v => if !v.persisting || rp then d.pop key else d
          | none => d
        else d)
      (by
        intro d key
        cases hd : d.find key with
        | none => simp [has, hd]
        | some v =>
          simp only [has, hd, Option.isSome_some, Bool.true_and, Bool.and_eq_true]
          by_cases h1 : (!av.contains key) = true <;> by_cases h2 : (!v.persisting || rp) = true <;>
            simp [h1, h2] <;> simp_all)
      c.dict.keys c.dict w
    refine ⟨this.1, rfl, fun k => ?_⟩
    have h2 := this.2 k
    refine h2.trans ?_
    by_cases hk : k ∈ c.dict.keys
    · rw [if_pos hk]
      congr 1
      funext e
      cases av.contains k <;> cases e.persisting <;> cases rp <;> rfl
    · rw [if_neg hk]
      rw [← find_eq_none_iff] at hk
      simp [hk]

theorem remove_spec (c : CacheSt κ α) (w : c.dict.WF) (a : KeyArg κ) :
    (c.remove a).dict.WF ∧ (c.remove a).level = c.level ∧
    ∀ k, (c.remove a).dict.find k = if k ∈ a.items then none else c.dict.find k := by
  unfold remove
  have := foldl_pop_spec (fun _ (_ : Entry α) => true)
    (fun d s => if d.has s then d.pop s else d)
    (by
      intro d key
      cases hd : d.find key <;> simp [has, hd])
    a.items c.dict w
  refine ⟨this.1, rfl, fun k => ?_⟩
  refine (this.2 k).trans ?_
  split
  · cases c.dict.find k <;> simp [Option.filter]
  · rfl

/-- All levels of the cache are integers. -/
def Numeric (c : CacheSt κ α) : Prop :=
  (∃ n, c.level = .num n) ∧ ∀ k e, c.dict.find k = some e → ∃ n, e.level = .num n

/-- The element's level is an integer not above `m`. -/
def notAbove (m : Int) (e : Entry α) : Bool :=
  match e.level with
  | .num n => decide (n ≤ m)
  | .msg => false

theorem cleanLoop_spec (m : Int) (ks : List κ) (c : CacheSt κ α) (w : c.dict.WF)
    (hn : ∀ k e, c.dict.find k = some e → ∃ n, e.level = .num n) :
    (cleanLoop (.num m) ks c).1 = .ok () ∧ (cleanLoop (.num m) ks c).2.dict.WF ∧
    (cleanLoop (.num m) ks c).2.level = c.level ∧
    ∀ k, (cleanLoop (.num m) ks c).2.dict.find k =
      if k ∈ ks then (c.dict.find k).filter (notAbove m) else c.dict.find k := by
  induction ks generalizing c with
  | nil => exact ⟨rfl, w, rfl, fun k => by simp [cleanLoop]⟩
  | cons a t ih =>
    simp only [cleanLoop]
    cases hda : c.dict.find a with
    | none =>
      obtain ⟨h1, h2, h3, h4⟩ := ih c w hn
      refine ⟨h1, h2, h3, fun k => ?_⟩
      rw [h4]
      by_cases hk : k = a
      · subst hk; simp [hda]
      · simp [hk]
    | some e =>
      obtain ⟨n, hen⟩ := hn a e hda
      simp only [hen, Lvl.gt]
      have hna : notAbove m e = decide (n ≤ m) := by simp [notAbove, hen]
      by_cases hmn : m < n
      · simp only [hmn, decide_true]
        have w' : ({ c with dict := c.dict.pop a } : CacheSt κ α).dict.WF := w.pop a
        obtain ⟨h1, h2, h3, h4⟩ := ih { c with dict := c.dict.pop a } w' (by
          intro k e' h
          rw [find_pop w] at h
          split at h
          · cases h
          · exact hn k e' h)
        refine ⟨h1, h2, h3, fun k => ?_⟩
        rw [h4]
        simp only [find_pop w]
        by_cases hk : k = a
        · subst hk; simp [hda, Option.filter, hna]; omega
        · have hk' : a ≠ k := fun e => hk e.symm
          simp [hk, hk']
      · simp only [hmn, decide_false]
        obtain ⟨h1, h2, h3, h4⟩ := ih c w hn
        refine ⟨h1, h2, h3, fun k => ?_⟩
        rw [h4]
        by_cases hk : k = a
        · subst hk
          simp only [List.mem_cons, true_or, if_true]
          split
          · rfl
          · simp [hda, Option.filter, hna]; omega
        · simp [hk]

/-- Cleaning at a non-zero numeric level removes exactly the elements above it; at level 0 everything. -/
theorem clean_spec (c : CacheSt κ α) (w : c.dict.WF) (hn : c.Numeric) (a : LvlArg) (m : Int)
    (ha : c.getLevel a = .num m) :
    (clean a c).1 = .ok () ∧ (clean a c).2.dict.WF ∧ (clean a c).2.level = c.level ∧
    ∀ k, (clean a c).2.dict.find k =
      if m = 0 then none else (c.dict.find k).filter (notAbove m) := by
  unfold clean
  simp only [ha]
  by_cases h0 : m = 0
  · subst h0
    rw [if_pos rfl]
    refine ⟨rfl, WF.nil, rfl, fun k => ?_⟩
    simp [resetCache]
  · have : ¬ (Lvl.num m = Lvl.num 0) := by simpa using h0
    simp only [this, if_false, h0]
    obtain ⟨h1, h2, h3, h4⟩ := cleanLoop_spec m c.dict.keys c w hn.2
    refine ⟨h1, h2, h3, fun k => ?_⟩
    rw [h4]
    split
    · rfl
    · rename_i hk
      rw [← find_eq_none_iff] at hk
      simp [hk]

end CacheSt
end Kerch
