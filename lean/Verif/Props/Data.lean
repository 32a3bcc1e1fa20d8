import Verif.Model.Data
import Mathlib.Data.List.Nodup
import Mathlib.Data.List.Perm.Basic
import Mathlib.Data.List.Range
import Mathlib.Tactic.Linarith
/-!
# C58 (splits of a learning set)
-/
set_option linter.unusedSectionVars false
set_option linter.unusedSimpArgs false
namespace Kerch
open Data

/-! ## specification -/

/-- What is expected of a split of `total` points: parts of the requested sizes, inside the data, none sharing a point with another or having one twice,
and together everything if the sizes sum to the total. -/
structure IsSplit (total : Nat) (sizes : List Nat) (parts : List (List Nat)) : Prop where
  lengths : parts.map List.length = sizes
  inside : ∀ p ∈ parts, ∀ i ∈ p, i < total
  once : ∀ p ∈ parts, p.Nodup
  disjoint : parts.Pairwise fun p q => ∀ i, i ∈ p → i ∉ q
  exhausts : sizes.sum = total → ∀ i, i < total → ∃ p ∈ parts, i ∈ p

/-- The part of `S` is the data at the given indices, each point with its own label. -/
def PartAt {α β : Type} (data : List α) (labels : List β) (part : List (α × β)) (idx : List Nat) : Prop :=
  part.map (fun p => (some p.1, some p.2)) = idx.map fun i => (data[i]?, labels[i]?)

/-! ## helper lemmas -/

theorem pySlice_nat {α : Type _} (l : List α) (a s : Nat) : pySlice l (a : Int) ((a : Int) + (s : Int)) = (l.drop a).take s := by
  have hb : clampIdx l.length ((a : Int) + (s : Int)) = min (a + s) l.length := by
    unfold clampIdx
    rw [if_neg (by omega)]
    congr 1
  have ha : clampIdx l.length (a : Int) = min a l.length := by
    unfold clampIdx
    rw [if_neg (by omega)]
    congr 1
  unfold pySlice
  rw [hb, ha, List.take_drop]
  rcases Nat.le_total a l.length with h | h
  · rw [Nat.min_eq_left h]
    congr 1
    rcases Nat.le_total (a + s) l.length with h' | h'
    · rw [Nat.min_eq_left h']
    · rw [Nat.min_eq_right h', List.take_of_length_le (Nat.le_refl _), List.take_of_length_le h']
  · rw [Nat.min_eq_right h, List.drop_eq_nil_of_le (by simp), List.drop_eq_nil_of_le (by simp; omega)]

theorem pieces_nat {α : Type _} (idx : List α) (pos : Nat) (s : Nat) (rest : List Int) :
    pieces idx (pos : Int) ((s : Int) :: rest) = (idx.drop pos).take s :: pieces idx ((pos + s : Nat) : Int) rest := by
  by_cases h : s = 0
  · subst h
    simp [pieces]
  · simp only [pieces]
    rw [if_neg (by omega), pySlice_nat]
    rw [show ((pos : Int) + (s : Int)) = ((pos + s : Nat) : Int) by push_cast; rfl]

theorem pieces_flatten {α : Type _} (idx : List α) (sizes : List Nat) (pos : Nat) :
    (pieces idx (pos : Int) (sizes.map Int.ofNat)).flatten = (idx.drop pos).take sizes.sum := by
  induction sizes generalizing pos with
  | nil => simp [pieces]
  | cons s t ih =>
    rw [List.map_cons, show Int.ofNat s = (s : Int) from rfl, pieces_nat, List.flatten_cons, ih, List.sum_cons, List.take_add, List.drop_drop]

theorem pieces_lengths {α : Type _} (idx : List α) (sizes : List Nat) (pos : Nat) (h : pos + sizes.sum ≤ idx.length) :
    (pieces idx (pos : Int) (sizes.map Int.ofNat)).map List.length = sizes := by
  induction sizes generalizing pos with
  | nil => simp [pieces]
  | cons s t ih =>
    rw [List.sum_cons] at h
    rw [List.map_cons, show Int.ofNat s = (s : Int) from rfl, pieces_nat, List.map_cons, ih _ (by omega)]
    congr 1
    rw [List.length_take, List.length_drop]
    omega

theorem flatten_disjoint {α : Type _} (ps : List (List α)) (h : ps.flatten.Nodup) :
    (∀ p ∈ ps, p.Nodup) ∧ ps.Pairwise fun p q => ∀ i, i ∈ p → i ∉ q := by
  rw [List.nodup_flatten] at h
  refine ⟨h.1, h.2.imp ?_⟩
  intro p q hpq i hp hq
  exact hpq hp hq

theorem pieces_split (idx : List Nat) (total : Nat) (hp : idx.Perm (List.range total)) (sizes : List Nat) (h : sizes.sum ≤ total) :
    IsSplit total sizes (pieces idx 0 (sizes.map Int.ofNat)) := by
  have hl : idx.length = total := by rw [hp.length_eq, List.length_range]
  have hf := pieces_flatten idx sizes 0
  rw [List.drop_zero] at hf
  have hnd : idx.Nodup := hp.nodup_iff.mpr List.nodup_range
  have hmem : ∀ i, i ∈ idx ↔ i < total := fun i => by rw [hp.mem_iff, List.mem_range]
  have hfn : (pieces idx 0 (sizes.map Int.ofNat)).flatten.Nodup := by
    rw [show (0 : Int) = ((0 : Nat) : Int) from rfl, hf]
    exact hnd.sublist (List.take_sublist _ _)
  obtain ⟨ho, hd⟩ := flatten_disjoint _ hfn
  refine ⟨?_, ?_, ho, hd, ?_⟩
  · exact pieces_lengths idx sizes 0 (by omega)
  · intro p hpp i hi
    have : i ∈ (pieces idx ((0 : Nat) : Int) (sizes.map Int.ofNat)).flatten := List.mem_flatten.mpr ⟨p, hpp, hi⟩
    rw [hf] at this
    exact (hmem i).mp (List.mem_of_mem_take this)
  · intro hs i hi
    have : i ∈ (pieces idx ((0 : Nat) : Int) (sizes.map Int.ofNat)).flatten := by
      rw [hf, List.take_of_length_le (by omega)]
      exact (hmem i).mpr hi
    exact List.mem_flatten.mp this

theorem rows_ok {α : Type _} (data : List α) (idx : List Nat) (h : ∀ i ∈ idx, i < data.length) :
    ∃ r, rows data idx = .ok r ∧ r.map some = idx.map (fun i => data[i]?) := by
  unfold rows
  induction idx with
  | nil => exact ⟨[], rfl, rfl⟩
  | cons i t ih =>
    obtain ⟨r, hr, hm⟩ := ih fun j hj => h j (List.mem_cons_of_mem _ hj)
    have hi : i < data.length := h i (List.mem_cons_self ..)
    refine ⟨data[i] :: r, ?_, ?_⟩
    · rw [List.mapM_cons, hr]
      rw [List.getElem?_eq_getElem hi]
      rfl
    · rw [List.map_cons, List.map_cons, hm, List.getElem?_eq_getElem hi]

theorem partAt_ok {α β : Type} (data : List α) (labels : List β) (hl : data.length = labels.length) (idx : List Nat)
    (h : ∀ i ∈ idx, i < data.length) :
    ∃ r s p, rows data idx = .ok r ∧ rows labels idx = .ok s ∧ tensorDataset r s = .ok p ∧ PartAt data labels p idx := by
  obtain ⟨r, hr, hrm⟩ := rows_ok data idx h
  obtain ⟨s, hs, hsm⟩ := rows_ok labels idx (by rw [← hl]; exact h)
  have h1 : r.length = idx.length := by simpa using congrArg List.length hrm
  have h2 : s.length = idx.length := by simpa using congrArg List.length hsm
  refine ⟨r, s, r.zip s, hr, hs, by rw [tensorDataset, if_pos (by omega)], ?_⟩
  unfold PartAt
  rw [show (fun p : α × β => (some p.1, some p.2)) = Prod.map some some from rfl, ← List.zip_map, hrm, hsm, List.zip_map']

/-! ## C58 -/

/-- **C58**, on the indices: for every shuffling, every list of sizes and every total at least their sum, `_indices` returns a split. -/
theorem C58_indices (sh : List Nat → List Nat) (hsh : ∀ l, (sh l).Perm l) (sizes : List Nat) (total : Nat) (h : sizes.sum ≤ total) :
    ∃ ps, indices sh (.list (sizes.map Int.ofNat)) (some total) = .ok ps ∧ IsSplit total sizes ps :=
  ⟨_, rfl, pieces_split _ total (by
    have := hsh (rangeOf (total : Int))
    simpa [rangeOf] using this) sizes h⟩

/-- Without an explicit total the sizes are taken to sum to it, and the split exhausts it. -/
theorem C58_indices_default (sh : List Nat → List Nat) (hsh : ∀ l, (sh l).Perm l) (sizes : List Nat) :
    ∃ ps, indices sh (.list (sizes.map Int.ofNat)) none = .ok ps ∧ IsSplit sizes.sum sizes ps ∧ ∀ i, i < sizes.sum → ∃ p ∈ ps, i ∈ p := by
  have hs : (sizes.map Int.ofNat).sum = ((sizes.sum : Nat) : Int) := by
    clear hsh
    induction sizes with
    | nil => rfl
    | cons a t ih => rw [List.map_cons, List.sum_cons, List.sum_cons, ih]; rfl
  have h := pieces_split (sh (rangeOf ((sizes.map Int.ofNat).sum))) sizes.sum (by
    rw [hs]
    have := hsh (rangeOf ((sizes.sum : Nat) : Int))
    simpa [rangeOf] using this) sizes (Nat.le_refl _)
  exact ⟨_, rfl, h, h.exhausts rfl⟩

/-- **C58** for learning sets drawn from one source (`_LearningSetTrain`), whenever the source gives at least the requested number of points: the
constructor succeeds, the three parts are the data at three index lists forming a split, each point with its own label. -/
theorem C58_train {α β : Type} (sh : List Nat → List Nat) (hsh : ∀ l, (sh l).Perm l) (gen : Int → List α × List β)
    (ntr nva nte : Nat) (hlab : ∀ n, (gen n).1.length = (gen n).2.length)
    (hnum : ntr + nva + nte ≤ (gen ((ntr + nva + nte : Nat) : Int)).1.length) :
    ∃ S tr va te, learningSetTrain sh gen ntr nva nte = .ok S
      ∧ IsSplit (gen ((ntr + nva + nte : Nat) : Int)).1.length [ntr, nva, nte] [tr, va, te]
      ∧ PartAt (gen ((ntr + nva + nte : Nat) : Int)).1 (gen ((ntr + nva + nte : Nat) : Int)).2 S.training tr
      ∧ PartAt (gen ((ntr + nva + nte : Nat) : Int)).1 (gen ((ntr + nva + nte : Nat) : Int)).2 S.validation va
      ∧ PartAt (gen ((ntr + nva + nte : Nat) : Int)).1 (gen ((ntr + nva + nte : Nat) : Int)).2 S.test te := by
  have hl := hlab ((ntr + nva + nte : Nat) : Int)
  have hsum : ([(ntr : Int), (nva : Int), (nte : Int)]).sum = ((ntr + nva + nte : Nat) : Int) := by
    simp only [List.sum_cons, List.sum_nil]
    push_cast
    omega
  have hgen : gen ([(ntr : Int), (nva : Int), (nte : Int)]).sum = gen ((ntr + nva + nte : Nat) : Int) := by rw [hsum]
  obtain ⟨d, hd⟩ : ∃ d, d = gen ((ntr + nva + nte : Nat) : Int) := ⟨_, rfl⟩
  rw [← hd] at hl hnum hgen ⊢
  obtain ⟨data, labels⟩ := d
  simp only at hl hnum hgen ⊢
  obtain ⟨ps, hps, hsp⟩ := C58_indices sh hsh [ntr, nva, nte] data.length (by simp only [List.sum_cons, List.sum_nil]; omega)
  have hlen : ps.length = 3 := by simpa using congrArg List.length hsp.lengths
  obtain ⟨tr, va, te, rfl⟩ : ∃ a b c, ps = [a, b, c] := List.length_eq_three.mp hlen
  obtain ⟨r1, s1, p1, hr1, hs1, ht1, hp1⟩ := partAt_ok data labels hl tr (hsp.inside tr (by simp))
  obtain ⟨r2, s2, p2, hr2, hs2, ht2, hp2⟩ := partAt_ok data labels hl va (hsp.inside va (by simp))
  obtain ⟨r3, s3, p3, hr3, hs3, ht3, hp3⟩ := partAt_ok data labels hl te (hsp.inside te (by simp))
  refine ⟨⟨p1, p2, p3⟩, tr, va, te, ?_, hsp, hp1, hp2, hp3⟩
  have hps' : indices sh (.list [(ntr : Int), (nva : Int), (nte : Int)]) (some (data.length : Int)) = .ok [tr, va, te] := hps
  unfold learningSetTrain
  simp only [hgen, hps']
  show initDatasets data labels data labels tr va te = _
  unfold initDatasets
  rw [hr1, hs1, hr2, hs2, hr3, hs3]
  show (do
    let a ← tensorDataset r1 s1
    let b ← tensorDataset r2 s2
    let c ← tensorDataset r3 s3
    return (⟨a, b, c⟩ : Sets α β)) = _
  rw [ht1, ht2, ht3]
  rfl

theorem classSize_ceil (n : Nat) : classSize n = ((n + 1) / 2 : Nat) := by
  unfold classSize
  rw [Int.fdiv_eq_ediv]
  split
  · next h =>
    rcases h with h | h
    · exact absurd h (by decide)
    · rw [Int.neg_dvd] at h
      rw [Int.ediv_neg]
      omega
  · next h =>
    have h2 : ¬ (2 : Int) ∣ n := fun h' => h (Or.inr (Int.neg_dvd.mpr h'))
    rw [Int.ediv_neg]
    omega

theorem twoMoons_lengths (n : Int) : (twoMoons n).1.length = (twoMoons n).2.length := by
  simp [twoMoons, twoMoonsSizes]

theorem twoClasses_lengths (n : Int) : (twoClasses n).1.length = (twoClasses n).2.length := by
  simp [twoClasses]

theorem twoMoons_total (n : Nat) : (twoMoons n).1.length = n := by
  simp only [twoMoons, twoMoonsSizes, List.length_append, List.length_map, List.length_range]
  omega

theorem twoClasses_total (n : Nat) : (twoClasses n).1.length = 2 * ((n + 1) / 2) := by
  simp only [twoClasses, List.length_append, List.length_map, List.length_range, classSize_ceil]
  omega

/-- `TwoMoons` provides exactly the points requested: the split exhausts them. -/
theorem C58_twoMoons (sh : List Nat → List Nat) (hsh : ∀ l, (sh l).Perm l) (ntr nva nte : Nat) :
    ∃ S tr va te, learningSetTrain sh twoMoons ntr nva nte = .ok S ∧ IsSplit (ntr + nva + nte) [ntr, nva, nte] [tr, va, te]
      ∧ S.training.length = ntr ∧ S.validation.length = nva ∧ S.test.length = nte
      ∧ (∀ i, i < ntr + nva + nte → i ∈ tr ∨ i ∈ va ∨ i ∈ te) := by
  obtain ⟨S, tr, va, te, h, hs, h1, h2, h3⟩ := C58_train sh hsh twoMoons ntr nva nte (fun n => twoMoons_lengths n)
    (by rw [twoMoons_total])
  rw [twoMoons_total] at hs
  have hlen := hs.lengths
  simp only [List.map_cons, List.map_nil, List.cons.injEq, and_true] at hlen
  have lenOf : ∀ {p : List ((Bool × Nat) × Int)} {i : List Nat},
      PartAt (twoMoons ((ntr + nva + nte : Nat) : Int)).1 (twoMoons ((ntr + nva + nte : Nat) : Int)).2 p i → p.length = i.length := by
    intro p i hp
    simpa using congrArg List.length hp
  refine ⟨S, tr, va, te, h, hs, by rw [lenOf h1, hlen.1], by rw [lenOf h2, hlen.2.1], by rw [lenOf h3, hlen.2.2], ?_⟩
  intro i hi
  obtain ⟨p, hp, hip⟩ := hs.exhausts (by simp only [List.sum_cons, List.sum_nil]; omega) i hi
  simp only [List.mem_cons, List.not_mem_nil, or_false] at hp
  rcases hp with rfl | rfl | rfl
  · exact Or.inl hip
  · exact Or.inr (Or.inl hip)
  · exact Or.inr (Or.inr hip)

/-- `Spiral` and `Gaussians` round the number of points up to an even number: sizes and disjointness hold for all requests. -/
theorem C58_twoClasses (sh : List Nat → List Nat) (hsh : ∀ l, (sh l).Perm l) (ntr nva nte : Nat) :
    ∃ S tr va te, learningSetTrain sh twoClasses ntr nva nte = .ok S
      ∧ IsSplit (2 * ((ntr + nva + nte + 1) / 2)) [ntr, nva, nte] [tr, va, te]
      ∧ S.training.length = ntr ∧ S.validation.length = nva ∧ S.test.length = nte := by
  obtain ⟨S, tr, va, te, h, hs, h1, h2, h3⟩ := C58_train sh hsh twoClasses ntr nva nte (fun n => twoClasses_lengths n)
    (by rw [twoClasses_total]; omega)
  rw [twoClasses_total] at hs
  have hlen := hs.lengths
  simp only [List.map_cons, List.map_nil, List.cons.injEq, and_true] at hlen
  have lenOf : ∀ {p : List ((Bool × Nat) × Int)} {i : List Nat},
      PartAt (twoClasses ((ntr + nva + nte : Nat) : Int)).1 (twoClasses ((ntr + nva + nte : Nat) : Int)).2 p i → p.length = i.length := by
    intro p i hp
    simpa using congrArg List.length hp
  exact ⟨S, tr, va, te, h, hs, by rw [lenOf h1, hlen.1], by rw [lenOf h2, hlen.2.1], by rw [lenOf h3, hlen.2.2]⟩

/-- C58 fails for the sets read from a file: when more points are requested than the file has, the parts are silently smaller than requested. For every
file and every request exceeding it. -/
theorem C58_file_violated {α β : Type} (sh : List Nat → List Nat) (hsh : ∀ l, (sh l).Perm l) (data : List α) (labels : List β)
    (hl : data.length = labels.length) (ntr nva nte : Nat) (h : data.length < ntr + nva + nte) :
    ∃ S, learningSetTrain sh (fromFile data labels) ntr nva nte = .ok S
      ∧ S.training.length + S.validation.length + S.test.length = data.length
      ∧ [S.training.length, S.validation.length, S.test.length] ≠ [ntr, nva, nte] := by
  obtain ⟨idx, hidx⟩ : ∃ idx, idx = sh (rangeOf (data.length : Int)) := ⟨_, rfl⟩
  have hperm : idx.Perm (List.range data.length) := by
    rw [hidx]; simpa [rangeOf] using hsh (rangeOf (data.length : Int))
  have hfl := pieces_flatten idx [ntr, nva, nte] 0
  have hps : indices sh (.list [(ntr : Int), (nva : Int), (nte : Int)]) (some (data.length : Int)) =
      .ok (pieces idx ((0 : Nat) : Int) ([ntr, nva, nte].map Int.ofNat)) := by rw [hidx]; rfl
  have h3 : (pieces idx ((0 : Nat) : Int) ([ntr, nva, nte].map Int.ofNat)).length = 3 := by
    simp only [List.map_cons, List.map_nil]
    rw [show Int.ofNat ntr = (ntr : Int) from rfl, pieces_nat, show Int.ofNat nva = (nva : Int) from rfl, pieces_nat,
      show Int.ofNat nte = (nte : Int) from rfl, pieces_nat]
    rfl
  obtain ⟨tr, va, te, hp3⟩ := List.length_eq_three.mp h3
  rw [hp3] at hps hfl
  have hin : ∀ p ∈ [tr, va, te], ∀ i ∈ p, i < data.length := by
    intro p hp i hi
    have : i ∈ [tr, va, te].flatten := List.mem_flatten.mpr ⟨p, hp, hi⟩
    rw [hfl] at this
    have := List.mem_of_mem_take this
    rw [List.drop_zero, hperm.mem_iff, List.mem_range] at this
    exact this
  obtain ⟨r1, s1, p1, hr1, hs1, ht1, hp1⟩ := partAt_ok data labels hl tr (hin tr (by simp))
  obtain ⟨r2, s2, p2, hr2, hs2, ht2, hp2⟩ := partAt_ok data labels hl va (hin va (by simp))
  obtain ⟨r3, s3, p3, hr3, hs3, ht3, hp3'⟩ := partAt_ok data labels hl te (hin te (by simp))
  have l1 : p1.length = tr.length := by simpa using congrArg List.length hp1
  have l2 : p2.length = va.length := by simpa using congrArg List.length hp2
  have l3 : p3.length = te.length := by simpa using congrArg List.length hp3'
  have htot : tr.length + va.length + te.length = data.length := by
    have := congrArg List.length hfl
    simp only [List.flatten_cons, List.flatten_nil, List.length_append, List.length_nil, List.length_take, List.length_drop,
      hperm.length_eq, List.length_range, List.sum_cons, List.sum_nil] at this
    omega
  refine ⟨⟨p1, p2, p3⟩, ?_, by simp only; omega, ?_⟩
  · unfold learningSetTrain
    simp only [fromFile, hps]
    show initDatasets data labels data labels tr va te = _
    unfold initDatasets
    rw [hr1, hs1, hr2, hs2, hr3, hs3]
    show (do
      let a ← tensorDataset r1 s1
      let b ← tensorDataset r2 s2
      let c ← tensorDataset r3 s3
      return (⟨a, b, c⟩ : Sets α β)) = _
    rw [ht1, ht2, ht3]
    rfl
  · intro he
    simp only [List.cons.injEq, and_true] at he
    omega

/-- C58 fails for learning sets with a separate test source (`_LearningSetTrainTest`): no such set can be constructed. -/
theorem C58_trainTest_violated {α β : Type} (sh : List Nat → List Nat) (gen genTest : Int → List α × List β) (ntr nva nte : Int) :
    learningSetTrainTest sh gen genTest ntr nva nte = .error .typeError := rfl

/-- C58 fails for a negative size, which is not refused: the parts then share points. -/
theorem C58_negative_violated : indices id (.list [2, -1, 1]) (some 2) = .ok [[0, 1], [], [1]] := by decide

/-! ## non-vacuity -/

example : indices List.reverse (.list [2, 0, 1]) (some 4) = .ok [[3, 2], [], [1]] := by decide
example : ∀ l : List Nat, (List.reverse l).Perm l := fun l => List.reverse_perm l
example : (learningSetTrain List.reverse twoMoons 2 1 1) =
    .ok ⟨[((false, 1), 0), ((false, 0), 0)], [((true, 1), 1)], [((true, 0), 1)]⟩ := by rfl
example : (learningSetTrain id (fromFile ['a', 'b'] [0, 1]) 1 1 1) = .ok ⟨[('a', 0)], [('b', 1)], []⟩ := by rfl

end Kerch
