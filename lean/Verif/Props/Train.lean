import Verif.Model.Train
import Mathlib.Data.List.Range
import Mathlib.Data.List.Nodup
import Mathlib.Tactic.Ring
import Mathlib.Tactic.Linarith
/-!
# C56 (batches), C57 (gradient of a batch), C70 (fit)
-/
set_option linter.unusedSectionVars false
set_option linter.unusedSimpArgs false
namespace Kerch
open Train

/-! ## specification -/

/-- A list of batches of size `b` over `l`: `l` cut in its order, all batches of size `b` but the last one, which has between 1 and `b` elements. -/
structure CutIn {α : Type} (l : List α) (b : Nat) (batches : List (List α)) : Prop where
  joined : batches.flatten = l
  full : ∀ x ∈ batches.dropLast, x.length = b
  last : ∀ x ∈ batches, 0 < x.length ∧ x.length ≤ b

/-- The batch size meant by a value. -/
def batchSizeOf (num : Nat) : BArg → Option Nat
  | .str t => if t = "all" ∧ 0 < num then some num else none
  | .int z => if 0 < z ∧ z ≤ num then some z.toNat else none
  | _ => none

/-- The last meaningful value among the given ones, if there is one. -/
def lastSize (num : Nat) (l : List BArg) : Option Nat := (l.filterMap (batchSizeOf num)).getLast?

/-- Descent along the gradient of each batch on its own. -/
def descent {ι β : Type} (lr : ι → ℝ) (g : (ι → ℝ) → β → ι → ℝ) (p : ι → ℝ) (batches : List β) : ι → ℝ :=
  batches.foldl (fun p b i => p i - lr i * g p b i) p

/-! ## helper lemmas -/

theorem batchLoop_cut {α : Type} (b : Nat) (hb : 0 < b) (l acc : List α) (ha : acc.length < b) :
    CutIn (acc ++ l) b (batchLoop b acc l) := by
  induction l generalizing acc with
  | nil =>
    rw [batchLoop]
    split
    · next h => exact ⟨by simp [h], by simp, by simp⟩
    · next h =>
      refine ⟨by simp, by simp, ?_⟩
      intro x hx
      simp only [List.mem_singleton] at hx
      subst hx
      exact ⟨List.length_pos_of_ne_nil h, ha.le⟩
  | cons x t ih =>
    rw [batchLoop]
    split
    · next h =>
      have hc := ih [] (by simpa using hb)
      refine ⟨?_, ?_, ?_⟩
      · rw [List.flatten_cons, hc.joined]; simp
      · intro y hy
        rcases hbl : batchLoop b [] t with _ | ⟨z, zs⟩
        · rw [hbl] at hy; simp at hy
        · rw [hbl, List.dropLast_cons_cons] at hy
          rcases List.mem_cons.mp hy with rfl | hy
          · simp [h]
          · exact hc.full y (by rw [hbl]; exact hy)
      · intro y hy
        rcases List.mem_cons.mp hy with rfl | hy
        · simp [h]; omega
        · exact hc.last y hy
    · next h =>
      have hc := ih (acc ++ [x]) (by rw [List.length_append, List.length_singleton]; omega)
      rw [List.append_assoc, List.singleton_append] at hc
      exact hc

theorem setBatchSize_spec (s : Train.St) (v : BArg) :
    (∃ b, batchSizeOf s.num v = some b ∧ s.setBatchSize v = (.ok (), { s with sampler := some b, batchSize := some v })) ∨
    (batchSizeOf s.num v = none ∧ ∃ e, s.setBatchSize v = (.error e, s)) := by
  cases v with
  | str t =>
    by_cases ht : t = "all"
    · by_cases hn : 0 < s.num
      · left
        refine ⟨s.num, by rw [batchSizeOf, if_pos ⟨ht, hn⟩], ?_⟩
        have : (0 : Int) < s.num := by omega
        simp only [Train.St.setBatchSize, if_pos ht, mkSampler, if_pos this, Int.toNat_natCast]
      · right
        refine ⟨by rw [batchSizeOf, if_neg (fun h => hn h.2)], .valueError, ?_⟩
        have : ¬ (0 : Int) < s.num := by omega
        simp only [Train.St.setBatchSize, if_pos ht, mkSampler, if_neg this]
    · right
      exact ⟨by rw [batchSizeOf, if_neg (fun h => ht h.1)], .assertionError, by simp only [Train.St.setBatchSize, if_neg ht]⟩
  | int z =>
    by_cases h0 : 0 < z
    · by_cases hn : z ≤ s.num
      · left
        refine ⟨z.toNat, by rw [batchSizeOf, if_pos ⟨h0, hn⟩], ?_⟩
        simp only [Train.St.setBatchSize, gt_iff_lt, if_pos h0, if_pos hn, mkSampler]
      · right
        exact ⟨by rw [batchSizeOf, if_neg (fun h => hn h.2)], .assertionError, by
          simp only [Train.St.setBatchSize, gt_iff_lt, if_pos h0, if_neg hn]⟩
    · right
      exact ⟨by rw [batchSizeOf, if_neg (fun h => h0 h.1)], .assertionError, by
        simp only [Train.St.setBatchSize, gt_iff_lt, if_neg h0]⟩
  | bool b =>
    right
    refine ⟨rfl, ?_⟩
    cases b with
    | false => exact ⟨.assertionError, rfl⟩
    | true =>
      by_cases hn : (1 : Int) ≤ s.num
      · refine ⟨.valueError, ?_⟩
        simp only [Train.St.setBatchSize, mkSampler]
        rw [if_pos (by decide)]
        simp only [if_true]
        rw [if_pos hn]
      · refine ⟨.assertionError, ?_⟩
        simp only [Train.St.setBatchSize, mkSampler]
        rw [if_pos (by decide)]
        simp only [if_true]
        rw [if_neg hn]
  | other => right; exact ⟨rfl, .assertionError, rfl⟩

theorem foldl_sampler (num : Nat) (l : List BArg) (s : Train.St) (hs : s.num = num) :
    (l.foldl (fun s w => (s.setBatchSize w).2) s).num = num ∧
    (l.foldl (fun s w => (s.setBatchSize w).2) s).sampler = (lastSize num l).or s.sampler := by
  induction l generalizing s with
  | nil => exact ⟨hs, rfl⟩
  | cons v t ih =>
    rw [List.foldl_cons]
    rcases setBatchSize_spec s v with ⟨b, hb, he⟩ | ⟨hb, e, he⟩
    · rw [he]
      obtain ⟨h1, h2⟩ := ih { s with sampler := some b, batchSize := some v } hs
      refine ⟨h1, ?_⟩
      rw [h2]
      rw [hs] at hb
      simp only [lastSize, List.filterMap_cons, hb]
      cases h : (t.filterMap (batchSizeOf num)).getLast? with
      | none =>
        rw [List.getLast?_eq_none_iff] at h
        rw [h]; rfl
      | some c =>
        rw [List.getLast?_cons, h]
        rfl
    · rw [he]
      obtain ⟨h1, h2⟩ := ih s hs
      refine ⟨h1, ?_⟩
      rw [h2]
      rw [hs] at hb
      simp only [lastSize, List.filterMap_cons, hb]

/-! ## C56 -/

/-- **C56**: after every history of assignments to `batch_size`, accepted or refused, the batches of an epoch cut the training indices in batches of the size
last accepted. -/
theorem C56 (num : Nat) (v : BArg) (later : List BArg) (s : Train.St) (h : Train.St.history num v later = .ok s) :
    ∃ b, lastSize num (v :: later) = some b ∧ 0 < b ∧ b ≤ num ∧ CutIn (List.range num) b s.batches := by
  unfold Train.St.history at h
  rcases setBatchSize_spec ⟨num, none, none⟩ v with ⟨b, hb, he⟩ | ⟨hb, e, he⟩
  · rw [he] at h
    simp only [Except.ok.injEq] at h
    obtain ⟨h1, h2⟩ := foldl_sampler num later ⟨num, some v, some b⟩ rfl
    rw [h] at h1 h2
    have hb' : batchSizeOf num v = some b := hb
    have hl : lastSize num (v :: later) = s.sampler := by
      rw [h2]
      simp only [lastSize, List.filterMap_cons, hb']
      cases h : (later.filterMap (batchSizeOf num)).getLast? with
      | none => rw [List.getLast?_eq_none_iff] at h; rw [h]; rfl
      | some c => rw [List.getLast?_cons, h]; rfl
    have hpos : ∀ c, lastSize num (v :: later) = some c → 0 < c ∧ c ≤ num := by
      intro c hc
      have hm : c ∈ (v :: later).filterMap (batchSizeOf num) := List.mem_of_getLast? hc
      obtain ⟨w, _, hw⟩ := List.mem_filterMap.mp hm
      cases w with
      | str t =>
        simp only [batchSizeOf] at hw
        split at hw
        · next hh => cases hw; exact ⟨hh.2, Nat.le_refl _⟩
        · exact absurd hw (by simp)
      | int z =>
        simp only [batchSizeOf] at hw
        split at hw
        · next hh => cases hw; omega
        · exact absurd hw (by simp)
      | bool _ => exact absurd hw (by simp [batchSizeOf])
      | other => exact absurd hw (by simp [batchSizeOf])
    cases hc : s.sampler with
    | none =>
      rw [hc] at h2
      cases h3 : lastSize num later with
      | none => rw [h3] at h2; simp at h2
      | some c => rw [h3] at h2; simp at h2
    | some c =>
      rw [hc] at hl
      obtain ⟨p1, p2⟩ := hpos c hl
      refine ⟨c, hl, p1, p2, ?_⟩
      have : s.batches = batchLoop c [] (List.range num) := by
        unfold Train.St.batches
        rw [hc, h1]
      rw [this]
      exact batchLoop_cut c p1 (List.range num) [] (by simpa using p1)
  · rw [he] at h
    exact absurd h (by simp)

/-- In particular each training point is visited exactly once per epoch. -/
theorem C56_once (num : Nat) (v : BArg) (later : List BArg) (s : Train.St) (h : Train.St.history num v later = .ok s) (i : Nat) :
    s.batches.flatten.count i = if i < num then 1 else 0 := by
  obtain ⟨b, _, _, _, hc⟩ := C56 num v later s h
  rw [hc.joined]
  split
  · next hi => exact List.count_eq_one_of_mem List.nodup_range (List.mem_range.mpr hi)
  · next hi => exact List.count_eq_zero_of_not_mem (fun hm => hi (List.mem_range.mp hm))

/-- **C56**, refusals: everything but `'all'` and the integers `0 < b ≤ num` is refused and changes nothing, at construction and later; those are accepted
(`'all'` provided there are training points). -/
theorem C56_refused (s : Train.St) (v : BArg) :
    ((∃ b, batchSizeOf s.num v = some b) ↔ (s.setBatchSize v).1 = .ok ()) ∧ (batchSizeOf s.num v = none → (s.setBatchSize v).2 = s) := by
  rcases setBatchSize_spec s v with ⟨b, hb, he⟩ | ⟨hb, e, he⟩
  · rw [he, hb]
    exact ⟨⟨fun _ => rfl, fun _ => ⟨b, rfl⟩⟩, fun h => absurd h (by simp)⟩
  · rw [he, hb]
    exact ⟨⟨fun h => absurd h (by simp), fun h => absurd h (by simp)⟩, fun _ => rfl⟩

/-! ## C57 -/

section
variable {ι β : Type} (lr : ι → ℝ) (g : (ι → ℝ) → β → ι → ℝ)

/-- The gradients used within an epoch, the first being that of batch `b` at `p`, from what has been accumulated: the parameters after each batch of the
list, with the gradient used. -/
def usedGrads (acc : ι → ℝ) (p : ι → ℝ) : List β → List (ι → ℝ)
  | [] => []
  | b :: t => (fun i => acc i + g p b i) :: usedGrads (fun i => acc i + g p b i) (fun i => p i - lr i * (acc i + g p b i)) t

theorem epoch_foldl (batches : List β) (s : Opt ι) :
    (batches.foldl (Opt.batch lr g) s).p = fun i => s.p i - lr i * ((usedGrads lr g (s.grad.getD 0) s.p batches).map (fun d => d i)).sum := by
  induction batches generalizing s with
  | nil => funext i; simp [usedGrads]
  | cons b t ih =>
    rw [List.foldl_cons, ih]
    funext i
    have e1 : (Opt.batch lr g s b).p = fun i => s.p i - lr i * ((s.grad.getD 0) i + g s.p b i) := rfl
    have e2 : (Opt.batch lr g s b).grad.getD 0 = fun i => (s.grad.getD 0) i + g s.p b i := rfl
    rw [e2, e1]
    simp only [usedGrads, List.map_cons, List.sum_cons]
    ring

/-- What the code does: within an epoch, the update of each batch uses the sum of the gradients of this batch and of all the previous ones of the epoch. -/
theorem C57_accumulated_partial (batches : List β) (s : Opt ι) :
    (s.epoch lr g batches).p = fun i => s.p i - lr i * ((usedGrads lr g 0 s.p batches).map (fun d => d i)).sum := by
  unfold Opt.epoch
  rw [epoch_foldl]
  rfl

/-- C57 fails as soon as an epoch has two batches: for all gradients and learning rates, the result is that of descending along each batch's own gradient
minus another step along the gradient of the first batch; it is right only where that one vanishes. -/
theorem C57_violated (b1 b2 : β) (s : Opt ι) (i : ι) :
    (s.epoch lr g [b1, b2]).p i = descent lr g s.p [b1, b2] i - lr i * g s.p b1 i ∧
    ((s.epoch lr g [b1, b2]).p i = descent lr g s.p [b1, b2] i ↔ lr i * g s.p b1 i = 0) := by
  have h : (s.epoch lr g [b1, b2]).p i = descent lr g s.p [b1, b2] i - lr i * g s.p b1 i := by
    rw [C57_accumulated_partial]
    simp only [usedGrads, List.map_cons, List.map_nil, List.sum_cons, List.sum_nil, descent, List.foldl_cons, List.foldl_nil, Pi.zero_apply, zero_add]
    ring
  exact ⟨h, by rw [h]; constructor <;> intro hh <;> linarith⟩

/-- C57 holds with one batch per epoch (`batch_size='all'`): any number of epochs is that many descent steps. -/
theorem C57_single_partial (b : β) (n : Nat) (s : Opt ι) : (s.train lr g [b] n).p = descent lr g s.p (List.replicate n b) := by
  induction n generalizing s with
  | zero => rfl
  | succ n ih =>
    rw [Opt.train, ih, List.replicate_succ]
    show descent lr g _ _ = descent lr g _ (List.replicate n b)
    congr 1
    funext i
    show s.p i - lr i * ((0 : ι → ℝ) i + g s.p b i) = _
    rw [Pi.zero_apply, zero_add]

/-! ## C70 -/

/-- C70 fails: `fit` raises for every watcher type before anything is trained. -/
theorem C70_violated (batches : List β) (epochs : Nat) (wt : String) (s : Opt ι) :
    ∃ e, fit lr g batches epochs wt s = (.error e, s) := by
  by_cases h : wt = "none"
  · exact ⟨.typeError, by simp only [fit, watcherFactory, if_pos h]⟩
  · exact ⟨.attributeError, by simp only [fit, watcherFactory, if_neg h]⟩

end

/-! ## non-vacuity -/

example : (Train.St.history 5 (.str "all") [.int 9, .int 2, .bool true, .int 0]).toOption.map Train.St.batches = some [[0, 1], [2, 3], [4]] := by decide
example : Train.St.history 0 (.str "all") [] = .error .valueError := rfl
/-- Gradient of the square: a quadratic loss, two batches. -/
example : ((⟨fun _ => 1, none⟩ : Opt Unit).epoch (fun _ => 1/2) (fun p (_ : Unit) i => p i) [(), ()]).p () = -1/4 := by
  rw [C57_accumulated_partial]
  simp only [usedGrads, List.map_cons, List.map_nil, List.sum_cons, List.sum_nil, Pi.zero_apply, zero_add]
  norm_num
example : descent (fun _ => 1/2) (fun p (_ : Unit) i => p i) (fun _ : Unit => (1 : ℝ)) [(), ()] () = 1/4 := by
  simp only [descent, List.foldl_cons, List.foldl_nil]
  norm_num

end Kerch
