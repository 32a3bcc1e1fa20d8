import Verif.Model.Defaults
import Verif.Lemmas.Cache
set_option linter.unusedSectionVars false
set_option linter.unusedSimpArgs false
/-!
# C80: the listing of the cache
-/
namespace Kerch
namespace CacheKeys
open CacheSt Dict
variable {α : Type}

/-- The operations on the cache of a module. -/
inductive Op (α : Type)
  /-- `_get(key, fun, …)` where `fun` returns a value or raises -/
  | get (key : String) (a : GetArgs) (r : Except Err α)
  /-- `_save(key, fun, …)` -/
  | save (key : String) (a : GetArgs) (r : Except Err α)
  | remove (k : KeyArg String)
  | reset (persisting : Bool)
  | clean (max : LvlArg)
  | setLevel (a : LvlArg)

/-- The state after an operation, whether it raises or not. -/
def apply (c : CacheSt String α) : Op α → CacheSt String α
  | .get key a r => (CacheSt.get defaultCacheLevel key a (fun c => (r, c)) c).2
  | .save key a r => (CacheSt.save defaultCacheLevel key a (fun c => (r, c)) c).2
  | .remove k => c.remove k
  | .reset p => c.resetCache p
  | .clean m => (c.clean m).2
  | .setLevel a => c.setLevel a

/-- No operation names an element by the empty string. -/
def Op.Nonempty : Op α → Prop
  | .get key _ _ => key ≠ ""
  | .save key _ _ => key ≠ ""
  | _ => True

/-- The value of `key` is available: asked with a function that raises, it is returned all the same. -/
def Available (c : CacheSt String α) (key : String) : Prop :=
  ∃ v, (CacheSt.get defaultCacheLevel key {} (fun c => (.error .kerchError, c)) c).1 = .ok v

structure Inv (c : CacheSt String α) : Prop where
  wf : c.dict.WF
  ne : ∀ k ∈ c.dict.keys, k ≠ ""

theorem foldl_sublist {β : Type} (f : Dict String (Entry α) → β → Dict String (Entry α)) (hf : ∀ d b, (f d b).Sublist d) (l : List β)
    (d : Dict String (Entry α)) : (l.foldl f d).Sublist d := by
  induction l generalizing d with
  | nil => exact List.Sublist.refl _
  | cons a l ih => exact (ih (f d a)).trans (hf d a)

theorem Inv.sub {c c' : CacheSt String α} (h : Inv c) (hs : c'.dict.Sublist c.dict) : Inv c' :=
  ⟨h.wf.sublist hs, fun k hk => h.ne k ((hs.map Prod.fst).mem hk)⟩

theorem remove_sub (c : CacheSt String α) (k : KeyArg String) : (c.remove k).dict.Sublist c.dict :=
  foldl_sublist _ (fun d b => by
    show (if d.has b then d.pop b else d).Sublist d
    by_cases h : d.has b = true
    · rw [if_pos h]; exact pop_sublist d b
    · rw [if_neg h]; exact List.Sublist.refl _) _ _

theorem reset_sub (c : CacheSt String α) (p : Bool) : (c.resetCache p).dict.Sublist c.dict := by
  unfold resetCache
  split
  · exact List.nil_sublist _
  · refine foldl_sublist _ (fun d b => ?_) _ _
    split
    · split
      · split
        · exact pop_sublist d b
        · exact List.Sublist.refl _
      · exact List.Sublist.refl _
    · exact List.Sublist.refl _

theorem cleanLoop_sub (m : Lvl) (ks : List String) (c : CacheSt String α) : (cleanLoop m ks c).2.dict.Sublist c.dict := by
  induction ks generalizing c with
  | nil => exact List.Sublist.refl _
  | cons k ks ih =>
    unfold cleanLoop
    split
    · exact ih c
    · split
      · exact List.Sublist.refl _
      · exact (ih _).trans (pop_sublist c.dict k)
      · exact ih c

theorem save_inv {c : CacheSt String α} (h : Inv c) (key : String) (hk : key ≠ "") (a : GetArgs) (r : Except Err α) :
    Inv (CacheSt.save defaultCacheLevel key a (fun c => (r, c)) c).2 := by
  unfold save
  cases r with
  | error e => exact h
  | ok v =>
    simp only
    split
    · exact h
    · split
      · refine ⟨h.wf.set _ _, fun k hk' => ?_⟩
        simp only [keys_set] at hk'
        split at hk'
        · exact h.ne k hk'
        · rcases List.mem_append.1 hk' with hk' | hk'
          · exact h.ne k hk'
          · rw [List.mem_singleton.1 hk']; exact hk
      · exact h

theorem apply_inv {c : CacheSt String α} (h : Inv c) (o : Op α) (ho : o.Nonempty) : Inv (apply c o) := by
  cases o with
  | get key a r =>
    have hs := save_inv h key ho a r
    show Inv (CacheSt.get defaultCacheLevel key a (fun c => (r, c)) c).2
    unfold CacheSt.get
    split
    · exact h
    · split
      · next e => simpa [e] using hs
      · next e =>
        rw [e] at hs
        simp only
        split
        · exact hs.sub (remove_sub _ _)
        · exact hs
  | save key a r => exact save_inv h key ho a r
  | remove k => exact h.sub (remove_sub c k)
  | reset p => exact h.sub (reset_sub c p)
  | clean m =>
    show Inv (c.clean m).2
    unfold clean
    simp only
    split
    · exact h.sub (reset_sub c true)
    · exact h.sub (cleanLoop_sub _ _ c)
  | setLevel a => exact ⟨h.wf, h.ne⟩

theorem keys_list (priv : Bool) (l : Lvl) (d : Dict String (Entry α)) (h : ∀ k ∈ d.keys, k ≠ "") :
    CacheSt.cacheKeys ⟨l, d⟩ priv = .ok (d.keys.filter fun k => k.toList.head? ≠ some '_' || priv) := by
  induction d with
  | nil => rfl
  | cons kv d ih =>
    obtain ⟨k, e⟩ := kv
    have hr : CacheSt.cacheKeys ⟨l, (k, e) :: d⟩ priv = match k.toList with
      | [] => .error .indexError
      | ch :: _ => match CacheSt.cacheKeys ⟨l, d⟩ priv with
        | .error e => .error e
        | .ok l => .ok (if ch ≠ '_' || priv then k :: l else l) := rfl
    rw [hr, ih fun x hx => h x (List.mem_cons_of_mem _ hx)]
    have hkeys : Dict.keys ((k, e) :: d) = k :: Dict.keys d := rfl
    cases hk : k.toList with
    | nil =>
      refine absurd ?_ (h k List.mem_cons_self)
      rw [← String.toList_inj, hk]; rfl
    | cons ch t => simp only [hkeys, List.filter_cons, hk, List.head?_cons, ne_eq, Option.some.injEq]

theorem available_iff (c : CacheSt String α) (k : String) : Available c k ↔ k ∈ c.dict.keys := by
  rw [mem_keys_iff]
  unfold Available CacheSt.get
  cases h : c.dict.find k with
  | none => simp [save, h]
  | some e => simp [h]

end CacheKeys
open CacheKeys CacheSt

/-- **C80**: after any history of a cache, `cache_keys(private=True)` enumerates exactly the elements that would be returned without being
computed, each once, and `cache_keys()` those among them whose name does not begin with an underscore, in the same order. -/
theorem C80_keys {α : Type} (lvl : LvlArg) (ops : List (CacheKeys.Op α)) (ho : ∀ o ∈ ops, o.Nonempty) :
    ∃ all : List String, (ops.foldl CacheKeys.apply (CacheSt.init lvl)).cacheKeys true = .ok all
      ∧ all.Nodup ∧ (∀ k, k ∈ all ↔ Available (ops.foldl CacheKeys.apply (CacheSt.init lvl)) k)
      ∧ (ops.foldl CacheKeys.apply (CacheSt.init lvl)).cacheKeys = .ok (all.filter fun k => k.toList.head? ≠ some '_') := by
  have hi : CacheKeys.Inv (ops.foldl CacheKeys.apply (CacheSt.init lvl)) := by
    suffices H : ∀ (ops : List (CacheKeys.Op α)) (c : CacheSt String α), CacheKeys.Inv c → (∀ o ∈ ops, o.Nonempty) →
        CacheKeys.Inv (ops.foldl CacheKeys.apply c) from
      H ops _ ⟨Dict.WF.nil, fun k hk => by simp [CacheSt.init, setLevel, Dict.keys] at hk⟩ ho
    intro ops
    induction ops with
    | nil => intro c h _; exact h
    | cons o ops ih =>
      intro c h ho
      exact ih _ (apply_inv h o (ho o List.mem_cons_self)) fun x hx => ho x (List.mem_cons_of_mem _ hx)
  obtain ⟨c, hc⟩ : ∃ c, c = ops.foldl CacheKeys.apply (CacheSt.init lvl) := ⟨_, rfl⟩
  rw [← hc] at hi ⊢
  refine ⟨c.dict.keys, ?_, hi.wf, fun k => (available_iff c k).symm, ?_⟩
  · refine (keys_list true c.level c.dict hi.ne).trans ?_; simp
  · refine (keys_list false c.level c.dict hi.ne).trans ?_; simp

/-- A history with private elements (kernel/nystrom.py:146-148), an element too high for the level, and a public one. -/
example : let c := [CacheKeys.Op.get "_nystrom_H" {} (.ok 3), .get "phi" {} (.ok 4),
      .get "K" { defaultLevel := .str "total" } (.ok 5)].foldl CacheKeys.apply (CacheSt.init (κ := String) (α := Nat) (.str "normal"))
    c.cacheKeys true = .ok ["_nystrom_H", "phi"] ∧ c.cacheKeys = .ok ["phi"] := by decide

end Kerch
