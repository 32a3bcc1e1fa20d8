import Verif.Model.CacheLevels
import Verif.Lemmas.Dict
set_option linter.unusedSectionVars false
set_option linter.unusedSimpArgs false
/-!
# C78: the documented cache-level tables
-/
namespace Kerch
open CacheSt

/-- The documentation: the lowest level (0 none, 1 light, 2 normal, 3 heavy, 4 total) at which the entry is ticked
(docs/source/features/cache_levels/*.csv). -/
def DocEntry.documented : DocEntry → Int
  | .sampleTransform => 0
  | .samplePhi => 1
  | .sampleC => 1
  | .sampleK => 1
  | .kernelExplicitTransform => 0
  | .kernelImplicitTransform => 0
  | .trSampleData true => 1
  | .trSampleData false => 2
  | .trSampleStat _ => 1
  | .trOosData true => 3
  | .trOosData false => 4
  | .trOosStat true => 2
  | .trOosStat false => 3
  | .forwardSample true => 1
  | .forwardSample false => 2
  | .forwardOos true => 3
  | .forwardOos false => 4
  | .identity true => 1
  | .identity false => 4
  | .subloss true => 1
  | .subloss false => 4

/-- The level names in the order of the columns of the tables. -/
def docNames : List (String × Int) := [("none", 0), ("light", 1), ("normal", 2), ("heavy", 3), ("total", 4)]

/-- What is observed: on a module constructed with the cache level named `name`, requesting the entry once leaves it in the cache. -/
def KeptAt (e : DocEntry) (name : String) : Prop :=
  ∀ (κ α : Type) [DecidableEq κ] [CacheKey κ] (key : κ) (v : α),
    (((CacheSt.get defaultCacheLevel key e.call (fun c => (.ok v, c)) (CacheSt.init (.str name))).2.dict.find key).map Entry.val) = some v

/-- The opposite: it is not left there. -/
def DroppedAt (e : DocEntry) (name : String) : Prop :=
  ∀ (κ α : Type) [DecidableEq κ] [CacheKey κ] (key : κ) (v : α),
    (CacheSt.get defaultCacheLevel key e.call (fun c => (.ok v, c)) (CacheSt.init (.str name))).2.dict.find key = none

/-- The levels at which the code stores the entries. -/
def DocEntry.actual : DocEntry → Int
  | .trSampleStat false => 2
  | .trOosData _ => 2
  | .trOosStat _ => 0
  | .forwardSample _ => 2
  | .forwardOos _ => 2
  | .identity true => 2
  | .subloss _ => 2
  | e => e.documented

theorem kept_or_dropped (e : DocEntry) (name : String) (n : Int) (hn : (name, n) ∈ docNames) :
    (e.actual ≤ n → KeptAt e name) ∧ (n < e.actual → DroppedAt e name) := by
  have key : ∀ (κ α : Type) [DecidableEq κ] [CacheKey κ] (key : κ) (v : α) (l : Int) (f : Bool),
      resolveLevel defaultCacheLevel (CacheSt.init (.str name) : CacheSt κ α) e.call = .num l → e.call.overwrite = false →
      e.call.destroy = false → e.call.force = f → (CacheSt.init (.str name) : CacheSt κ α).level = .num n →
      ((l ≤ n ∨ f = true) → (CacheSt.get defaultCacheLevel key e.call (fun c => (.ok v, c)) (CacheSt.init (.str name))).2.dict.find key
          = some ⟨.num l, e.call.persisting, v⟩) ∧
      ((¬ l ≤ n ∧ f = false) → (CacheSt.get defaultCacheLevel key e.call (fun c => (.ok v, c)) (CacheSt.init (.str name))).2.dict.find key
          = none) := by
    intro κ α _ _ key v l f h1 h2 h3 h4 h5
    have h6 : (CacheSt.init (.str name) : CacheSt κ α).dict.find key = none := rfl
    constructor
    · intro h
      simp only [CacheSt.get, h2, h6, save, h1, h5, Lvl.le, h3, h4]
      rw [if_neg (by simp)]
      have : (decide (l ≤ n) || f) = true := by rcases h with h | h <;> simp [h]
      simp [this, Dict.find_set]
    · rintro ⟨h, hf⟩
      simp only [CacheSt.get, h2, h6, save, h1, h5, Lvl.le, h3, h4]
      rw [if_neg (by simp)]
      have : (decide (l ≤ n) || f) = false := by simp [h, hf]
      simp [this, h6]
  have hlev : ∀ (κ α : Type) [DecidableEq κ] [CacheKey κ], (CacheSt.init (.str name) : CacheSt κ α).level = .num n := by
    intro κ α _ _
    simp only [docNames, List.mem_cons, Prod.mk.injEq, List.not_mem_nil, or_false] at hn
    rcases hn with ⟨rfl, rfl⟩ | ⟨rfl, rfl⟩ | ⟨rfl, rfl⟩ | ⟨rfl, rfl⟩ | ⟨rfl, rfl⟩ <;> rfl
  have hn0 : 0 ≤ n := by
    simp only [docNames, List.mem_cons, Prod.mk.injEq, List.not_mem_nil, or_false] at hn
    omega
  obtain ⟨l, f, hl, hf, hlf⟩ : ∃ (l : Int) (f : Bool), (∀ (κ α : Type) [DecidableEq κ] [CacheKey κ] (c : CacheSt κ α),
      resolveLevel defaultCacheLevel c e.call = .num l) ∧ e.call.force = f ∧ ((f = false ∧ l = e.actual) ∨ (f = true ∧ e.actual = 0)) := by
    cases e with
    | trSampleData b => cases b <;> exact ⟨_, _, fun _ _ _ _ _ => rfl, rfl, Or.inl ⟨rfl, rfl⟩⟩
    | trSampleStat b => cases b <;> exact ⟨_, _, fun _ _ _ _ _ => rfl, rfl, Or.inl ⟨rfl, rfl⟩⟩
    | trOosData b => cases b <;> exact ⟨_, _, fun _ _ _ _ _ => rfl, rfl, Or.inl ⟨rfl, rfl⟩⟩
    | trOosStat b => cases b <;> exact ⟨_, _, fun _ _ _ _ _ => rfl, rfl, Or.inr ⟨rfl, rfl⟩⟩
    | identity b => cases b <;> exact ⟨_, _, fun _ _ _ _ _ => rfl, rfl, Or.inl ⟨rfl, rfl⟩⟩
    | subloss b => cases b <;> exact ⟨_, _, fun _ _ _ _ _ => rfl, rfl, Or.inl ⟨rfl, rfl⟩⟩
    | _ => exact ⟨_, _, fun _ _ _ _ _ => rfl, rfl, Or.inl ⟨rfl, rfl⟩⟩
  have ho : e.call.overwrite = false ∧ e.call.destroy = false := by cases e <;> exact ⟨rfl, rfl⟩
  constructor
  · intro h κ α _ _ k v
    rw [(key κ α k v l f (hl κ α _) ho.1 ho.2 hf (hlev κ α)).1]
    · rfl
    · rcases hlf with ⟨h1, h2⟩ | ⟨h1, h2⟩
      · exact Or.inl (h2 ▸ h)
      · exact Or.inr h1
  · intro h κ α _ _ k v
    refine (key κ α k v l f (hl κ α _) ho.1 ho.2 hf (hlev κ α)).2 ?_
    rcases hlf with ⟨h1, h2⟩ | ⟨h1, h2⟩
    · exact ⟨by omega, h1⟩
    · omega

/-- **C78**, what holds: feature maps, kernel matrices, explicit matrices, transformation trees, transformed samples, statistics of the
default transform on the sample and the identity of the other representation are kept exactly from their documented level on. -/
theorem C78_documented_partial (e : DocEntry) (he : e ∈ [.sampleTransform, .samplePhi, .sampleC, .sampleK, .kernelExplicitTransform,
      .kernelImplicitTransform, .trSampleData true, .trSampleData false, .trSampleStat true, .identity false])
    (name : String) (n : Int) (hn : (name, n) ∈ docNames) :
    (e.documented ≤ n → KeptAt e name) ∧ (n < e.documented → DroppedAt e name) := by
  have h := kept_or_dropped e name n hn
  have : e.actual = e.documented := by
    simp only [List.mem_cons, List.not_mem_nil, or_false] at he
    rcases he with rfl | rfl | rfl | rfl | rfl | rfl | rfl | rfl | rfl | rfl <;> rfl
  rwa [this] at h

example : KeptAt .sampleK "light" ∧ DroppedAt .sampleK "none" :=
  ⟨(C78_documented_partial .sampleK (by decide) "light" 1 (by decide)).1 (by decide),
    (C78_documented_partial .sampleK (by decide) "none" 0 (by decide)).2 (by decide)⟩

/-- **C78 is violated**: outputs of levels are all kept at `'normal'` and not below, whether of the sample or not and in whichever
representation; so are the transformed out-of-sample points and the sub-losses. -/
theorem C78_normal_violated (e : DocEntry) (he : e ∈ [.forwardSample true, .forwardOos true, .forwardOos false, .trOosData true,
      .trOosData false, .subloss true, .subloss false, .identity true, .trSampleStat false]) :
    e.documented ≠ 2 ∧ DroppedAt e "light" ∧ KeptAt e "normal" := by
  have ha : e.actual = 2 ∧ e.documented ≠ 2 := by
    simp only [List.mem_cons, List.not_mem_nil, or_false] at he
    rcases he with rfl | rfl | rfl | rfl | rfl | rfl | rfl | rfl | rfl <;> exact ⟨rfl, by decide⟩
  exact ⟨ha.2, (kept_or_dropped e "light" 1 (by decide)).2 (by rw [ha.1]; decide),
    (kept_or_dropped e "normal" 2 (by decide)).1 (by rw [ha.1]; decide)⟩

/-- **C78 is violated**: statistics of out-of-sample points are stored at every level, even `'none'` (they are only removed by the cleaning
which follows a successful evaluation, see C06 and C07). -/
theorem C78_statistics_violated (b : Bool) (name : String) (n : Int) (hn : (name, n) ∈ docNames) :
    KeptAt (.trOosStat b) name ∧ 0 < (DocEntry.trOosStat b).documented := by
  refine ⟨(kept_or_dropped _ name n hn).1 ?_, by cases b <;> decide⟩
  simp only [docNames, List.mem_cons, Prod.mk.injEq, List.not_mem_nil, or_false] at hn
  show (0 : Int) ≤ n
  omega

end Kerch
