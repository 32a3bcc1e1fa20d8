import Verif.Model.Holder
import Verif.Props.Data
import Mathlib.Tactic.Linarith
import Mathlib.Tactic.NormNum
set_option linter.unusedSectionVars false
set_option linter.unusedSimpArgs false
/-!
# C139: splits by proportions
-/
namespace Kerch
namespace Holder
open Data

variable {α β : Type}

/-! ## Helpers -/

theorem pyRound_le (x : ℝ) : (pyRound x : ℝ) ≤ x + 1 / 2 := by
  have h := Int.floor_add_fract x
  unfold pyRound
  split
  · have := Int.fract_nonneg x; linarith
  · split
    · push_cast; linarith
    · split
      · have := Int.fract_nonneg x; linarith
      · push_cast; linarith

theorem le_pyRound (x : ℝ) : x - 1 / 2 ≤ (pyRound x : ℝ) := by
  have h := Int.floor_add_fract x
  have h1 := Int.fract_lt_one x
  unfold pyRound
  split
  · linarith
  · split
    · push_cast; linarith
    · split
      · linarith
      · push_cast; linarith

theorem pyRound_int (z : ℤ) : pyRound (z : ℝ) = z := by
  unfold pyRound
  rw [Int.fract_intCast, if_pos (by norm_num), Int.floor_intCast]

theorem pyRound_mono {x y : ℝ} (h : x ≤ y) : pyRound x ≤ pyRound y := by
  rcases (Int.floor_mono h).lt_or_eq with hf | hf
  · -- the floors differ
    have a1 : pyRound x ≤ ⌊x⌋ + 1 := by unfold pyRound; split_ifs <;> omega
    have a2 : ⌊y⌋ ≤ pyRound y := by unfold pyRound; split_ifs <;> omega
    omega
  · have e1 := Int.floor_add_fract x
    have e2 := Int.floor_add_fract y
    have hfr : Int.fract x ≤ Int.fract y := by
      have : ((⌊x⌋ : ℤ) : ℝ) = (⌊y⌋ : ℤ) := by rw [hf]
      linarith
    unfold pyRound
    rw [hf]
    split_ifs <;> first | omega | (exfalso; linarith)

theorem pyRound_nonneg {x : ℝ} (h : 0 ≤ x) : 0 ≤ pyRound x := by
  have h1 := pyRound_mono h
  have h2 := pyRound_int 0
  simp only [Int.cast_zero] at h2
  omega

theorem slice_take (l : List α) (z : ℤ) (hz : 0 ≤ z) : pySlice l 0 (0 + z) = l.take z.toNat := by
  obtain ⟨k, rfl⟩ := Int.eq_ofNat_of_zero_le hz
  have := pySlice_nat l 0 k
  simpa using this

theorem loop_length (rows : List α) (n : Nat) (z : Int) (ps : List ℝ) : (loop rows n z ps).length = ps.length := by
  induction ps with
  | nil => rfl
  | cons p ps ih => simp [loop, ih]

theorem loop_get (rows : List α) (n : Nat) (z : Int) (ps : List ℝ) (k : Nat) (hk : k < ps.length) (hk' : k < (loop rows n z ps).length) :
    (loop rows n z ps)[k] = if ps[k] = 0 then none else some (pySlice rows z (z + pyRound (ps[k] * n))) := by
  induction ps generalizing k with
  | nil => simp at hk
  | cons p ps ih =>
    cases k with
    | zero => rfl
    | succ k => exact ih k (by simpa using hk) _

theorem index_ok (l : List α) (idx : List Nat) (r : List α) (h : index l idx = .ok r) : r.length = idx.length ∧ ∀ (i : Nat) (hi : i < idx.length), r[i]? = l[idx[i]]? := by
  induction idx generalizing r with
  | nil =>
    simp only [index, List.mapM_nil, pure, Except.pure, Except.ok.injEq] at h
    subst h; simp
  | cons a idx ih =>
    unfold index at h ih
    rw [List.mapM_cons] at h
    cases hl : l[a]? with
    | none => simp [hl, bind, Except.bind] at h
    | some x =>
      simp only [hl, bind, Except.bind] at h
      split at h
      · exact absurd h (by simp)
      · rename_i r' hr'
        simp only [pure, Except.pure, Except.ok.injEq] at h
        subst h
        obtain ⟨h1, h2⟩ := ih r' hr'
        refine ⟨by simp [h1], fun i hi => ?_⟩
        cases i with
        | zero => simp [hl]
        | succ i => simpa using h2 i (by simpa using hi)

theorem index_exists (l : List α) (idx : List Nat) (h : ∀ i ∈ idx, i < l.length) : ∃ r, index l idx = .ok r := by
  induction idx with
  | nil => exact ⟨[], rfl⟩
  | cons a idx ih =>
    obtain ⟨r, hr⟩ := ih fun i hi => h i (List.mem_cons_of_mem _ hi)
    refine ⟨l[a]'(h a List.mem_cons_self) :: r, ?_⟩
    unfold index at hr ⊢
    rw [List.mapM_cons, hr]
    simp [List.getElem?_eq_getElem (h a List.mem_cons_self), bind, Except.bind, pure, Except.pure]

theorem index_short (l : List α) (idx : List Nat) (h : ∃ i ∈ idx, l.length ≤ i) : index l idx = .error .indexError := by
  induction idx with
  | nil => simp at h
  | cons a idx ih =>
    unfold index at ih ⊢
    rw [List.mapM_cons]
    cases hl : l[a]? with
    | none => rfl
    | some x =>
      have ha : a < l.length := by
        by_contra hc
        rw [List.getElem?_eq_none (by omega)] at hl
        exact absurd hl (by simp)
      obtain ⟨i, hi, hil⟩ := h
      rcases List.mem_cons.1 hi with rfl | hi
      · omega
      · simp [ih ⟨i, hi, hil⟩, bind, Except.bind]

theorem index_filterMap (l : List α) (idx : List Nat) (r : List α) (h : index l idx = .ok r) : r = idx.filterMap fun i => l[i]? := by
  induction idx generalizing r with
  | nil =>
    simp only [index, List.mapM_nil, pure, Except.pure, Except.ok.injEq] at h
    subst h; rfl
  | cons a idx ih =>
    unfold index at h ih
    rw [List.mapM_cons] at h
    cases hl : l[a]? with
    | none => simp [hl, bind, Except.bind] at h
    | some x =>
      simp only [hl, bind, Except.bind] at h
      split at h
      · exact absurd h (by simp)
      · rename_i r' hr'
        simp only [pure, Except.pure, Except.ok.injEq] at h
        subst h
        rw [List.filterMap_cons, hl, ← ih r' hr']

theorem filterMap_range (l : List α) : ((List.range l.length).filterMap fun i => l[i]?) = l := by
  induction l with
  | nil => rfl
  | cons a l ih =>
    rw [List.length_cons, List.range_succ_eq_map, List.filterMap_cons]
    simp only [List.getElem?_cons_zero, List.filterMap_map]
    congr 1

theorem index_perm (l : List α) (perm : List Nat) (hp : perm.Perm (List.range l.length)) (r : List α) (h : index l perm = .ok r) : r.Perm l := by
  rw [index_filterMap l perm r h]
  have := hp.filterMap fun i => l[i]?
  rwa [filterMap_range] at this

theorem split_ok (data : List α) (labels : Option (List β)) (hl : ∀ l, labels = some l → data.length ≤ l.length) (props : List ℝ) (perm : List Nat) (hp : perm.Perm (List.range data.length)) :
    ∃ d, index data perm = .ok d ∧ ∃ L, splitData (some data) labels props perm = .ok (loop d data.length 0 props, L) ∧ L.length = props.length ∧
      (labels = none → L = props.map fun _ => none) ∧ ∀ l, labels = some l → ∃ r, index l perm = .ok r ∧ L = loop r data.length 0 props := by
  have hm : ∀ i ∈ perm, i < data.length := fun i hi => by simpa using hp.mem_iff.1 hi
  obtain ⟨d, hd⟩ := index_exists data perm hm
  refine ⟨d, hd, ?_⟩
  unfold splitData
  simp only [hd]
  cases labels with
  | none => exact ⟨_, rfl, by simp, fun _ => rfl, fun l h => absurd h (by simp)⟩
  | some l =>
    obtain ⟨r, hr⟩ := index_exists l perm fun i hi => lt_of_lt_of_le (hm i hi) (hl l rfl)
    simp only [hr]
    exact ⟨_, rfl, by rw [loop_length], fun h => absurd h (by simp), fun l' h => by cases h; exact ⟨r, hr, rfl⟩⟩

/-! ## Properties -/

/-- **C139** (partial) Whatever the data, the labels, the proportions and the permutation: a set of proportion zero is not made; one of another proportion has the announced number of rows, all of them rows of the data
at distinct places, and its labels are those of the same places. What is missing: that different sets have no rows in common, and that no row is lost. -/
theorem C139_rows_partial (data : List α) (labels : List β) (hl : data.length ≤ labels.length) (props : List ℝ) (hn : ∀ p ∈ props, 0 ≤ p) (perm : List Nat)
    (hp : perm.Perm (List.range data.length)) :
    ∃ D L, splitData (some data) (some labels) props perm = .ok (D, L) ∧ D.length = props.length ∧ L.length = props.length ∧
      ∀ (k : Nat) (hk : k < props.length) (hD : k < D.length) (hL : k < L.length),
        (props[k] = 0 → D[k] = none ∧ L[k] = none) ∧
        (props[k] ≠ 0 → ∃ (rows : List α) (labs : List β) (places : List Nat), D[k] = some rows ∧ L[k] = some labs ∧ places.Nodup ∧ (∀ i ∈ places, i < data.length) ∧
          places.length = min (pyRound (props[k] * data.length)).toNat data.length ∧ rows.length = places.length ∧ labs.length = places.length ∧
          ∀ (i : Nat) (hi : i < places.length), rows[i]? = data[places[i]]? ∧ labs[i]? = labels[places[i]]?) := by
  obtain ⟨d, hd, L, hs, hLl, _, h2⟩ := split_ok data (some labels) (fun l h => by cases h; exact hl) props perm hp
  obtain ⟨r, hr, rfl⟩ := h2 labels rfl
  refine ⟨_, _, hs, loop_length .., loop_length .., fun k hk hD hL => ?_⟩
  rw [loop_get _ _ _ _ k hk, loop_get _ _ _ _ k hk]
  refine ⟨fun h0 => by simp [h0], fun h0 => ?_⟩
  rw [if_neg h0, if_neg h0]
  have hz : 0 ≤ pyRound (props[k] * data.length) := pyRound_nonneg (mul_nonneg (hn _ (List.getElem_mem hk)) (by positivity))
  generalize pyRound (props[k] * data.length) = z at hz ⊢
  rw [slice_take _ _ hz, slice_take _ _ hz]
  obtain ⟨d1, d2⟩ := index_ok _ _ _ hd
  obtain ⟨r1, r2⟩ := index_ok _ _ _ hr
  have hpl : perm.length = data.length := by simpa using hp.length_eq
  refine ⟨_, _, perm.take z.toNat, rfl, rfl, ((hp.nodup_iff.2 List.nodup_range).sublist (List.take_sublist _ _)), fun i hi => by simpa using hp.mem_iff.1 (List.mem_of_mem_take hi), by simp [hpl],
    by simp [d1], by simp [r1], fun i hi => ?_⟩
  have hi' : i < z.toNat ∧ i < perm.length := by simpa using hi
  simp only [List.getElem_take]
  rw [List.getElem?_take_of_lt hi'.1, List.getElem?_take_of_lt hi'.1]
  exact ⟨d2 i hi'.2, r2 i hi'.2⟩

/-- **C139** violated: of any two sets made by a split, the one of the smaller proportion is the beginning of the other, whatever the data and the permutation: they have in common all the rows they could. -/
theorem C139_nested_violated (data : List α) (labels : Option (List β)) (hl : ∀ l, labels = some l → data.length ≤ l.length) (props : List ℝ) (perm : List Nat) (hp : perm.Perm (List.range data.length))
    (k k' : Nat) (hk : k < props.length) (hk' : k' < props.length) (h0 : 0 < props[k]) (hle : props[k] ≤ props[k']) :
    ∃ D L, splitData (some data) labels props perm = .ok (D, L) ∧ ∃ a b, D[k]? = some (some a) ∧ D[k']? = some (some b) ∧ a <+: b := by
  obtain ⟨d, hd, L, hs, -⟩ := split_ok data labels hl props perm hp
  have hkl : k < (loop d data.length 0 props).length := by rw [loop_length]; exact hk
  have hkl' : k' < (loop d data.length 0 props).length := by rw [loop_length]; exact hk'
  have hz : 0 ≤ pyRound (props[k] * data.length) := pyRound_nonneg (by positivity)
  have hzz : pyRound (props[k] * data.length) ≤ pyRound (props[k'] * data.length) := pyRound_mono (by gcongr)
  refine ⟨_, _, hs, d.take (pyRound (props[k] * data.length)).toNat, d.take (pyRound (props[k'] * data.length)).toNat, ?_, ?_, ?_⟩
  · rw [List.getElem?_eq_getElem hkl, loop_get _ _ _ _ k hk, if_neg h0.ne', slice_take _ _ hz]
  · rw [List.getElem?_eq_getElem hkl', loop_get _ _ _ _ k' hk', if_neg (by linarith), slice_take _ _ (by omega)]
  · exact List.take_prefix_take_left (by omega)

/-- **C139** violated, the default proportions: the validation set and the test set are the same, they are part of the training set, and of two rows or more one at least is in no set. -/
theorem C139_default_violated (s : St α β) (data : List α) (labels : Option (List β)) (hl : ∀ l, labels = some l → data.length ≤ l.length) (perm : List Nat) (hp : perm.Perm (List.range data.length)) :
    ∃ s', setProp s (some data) labels none perm = (.ok (), s') ∧ s'.validation = s'.testing ∧
      ∃ t v, s'.training.1 = some t ∧ s'.validation.1 = some v ∧ v <+: t ∧ (2 ≤ data.length → t.length < data.length) := by
  obtain ⟨d, hd, L, hs, hL, h1, h2⟩ := split_ok data labels hl [7 / 10, 15 / 100, 15 / 100] perm hp
  have hn : (7 / 10 : ℝ) ≠ 0 := by norm_num
  have hn' : (15 / 100 : ℝ) ≠ 0 := by norm_num
  obtain ⟨a', b', hLe⟩ : ∃ a' b', L = [a', b', b'] := by
    cases labels with
    | none => exact ⟨none, none, by rw [h1 rfl]; rfl⟩
    | some l =>
      obtain ⟨r, hr, rfl⟩ := h2 l rfl
      exact ⟨_, _, rfl⟩
  subst hLe
  unfold setProp
  simp only [Option.getD_none, List.length_cons, List.length_nil, hs]
  simp only [loop, if_neg hn, if_neg hn']
  have z1 : 0 ≤ pyRound (7 / 10 * (data.length : ℝ)) := pyRound_nonneg (by positivity)
  have z2 : 0 ≤ pyRound (15 / 100 * (data.length : ℝ)) := pyRound_nonneg (by positivity)
  have zz : pyRound (15 / 100 * (data.length : ℝ)) ≤ pyRound (7 / 10 * (data.length : ℝ)) := pyRound_mono (mul_le_mul_of_nonneg_right (by norm_num) (by positivity))
  refine ⟨_, rfl, rfl, d.take (pyRound (7 / 10 * (data.length : ℝ))).toNat, d.take (pyRound (15 / 100 * (data.length : ℝ))).toNat, ?_, ?_, ?_, fun h => ?_⟩
  · simp only [slice_take _ _ z1]
  · simp only [slice_take _ _ z2]
  · exact List.take_prefix_take_left (by omega)
  · have hr := pyRound_le (7 / 10 * (data.length : ℝ))
    have h' : (2 : ℝ) ≤ data.length := by exact_mod_cast h
    have hlt : (pyRound (7 / 10 * (data.length : ℝ)) : ℝ) < ((data.length : ℤ) : ℝ) := by push_cast; linarith
    have hlt' : pyRound (7 / 10 * (data.length : ℝ)) < (data.length : ℤ) := by exact_mod_cast hlt
    rw [List.length_take]
    omega

/-- **C139** A training set and a test set without validation: all training rows are kept, each once, in the order of the permutation, and the test set is the one given. -/
theorem C139_whole (s : St α β) (data : List α) (labels : Option (List β)) (hl : ∀ l, labels = some l → data.length ≤ l.length) (test : Option (List α) × Option (List β)) (perm : List Nat)
    (hp : perm.Perm (List.range data.length)) :
    ∃ s' t, setTrainingTest s (some data) labels test 0 perm = (.ok (), s') ∧ s'.training.1 = some t ∧ t.Perm data ∧ s'.validation = (none, none) ∧ s'.testing = test := by
  obtain ⟨d, hd, L, hs, hL, h1, h2⟩ := split_ok data labels hl [1 - 0, 0] perm hp
  have hdl : d.length = data.length := by rw [(index_ok _ _ _ hd).1]; simpa using hp.length_eq
  have hpr : pyRound ((1 - 0) * (data.length : ℝ)) = data.length := by
    rw [sub_zero, one_mul]
    exact_mod_cast pyRound_int data.length
  obtain ⟨a', hLe⟩ : ∃ a', L = [a', none] := by
    cases labels with
    | none => exact ⟨none, by rw [h1 rfl]; rfl⟩
    | some l =>
      obtain ⟨r, hr, rfl⟩ := h2 l rfl
      exact ⟨some (pySlice r 0 (0 + pyRound ((1 - 0) * (data.length : ℝ)))), by simp only [loop, if_true]; rw [if_neg (by norm_num)]⟩
  subst hLe
  unfold setTrainingTest splitTwo
  rw [hs]
  have e : loop d data.length 0 [1 - 0, 0] = [some d, none] := by
    simp only [loop, hpr, if_true]
    rw [if_neg (by norm_num), slice_take _ _ (by omega)]
    simp [← hdl]
  rw [e]
  exact ⟨_, d, rfl, rfl, index_perm data perm hp d hd, rfl, rfl⟩

/-- **C139** violated: with a validation set, its rows stay in the training set (or the converse if it is the greater part). -/
theorem C139_fold_violated (s : St α β) (data : List α) (hs : s.training.1 = some data) (hl : ∀ l, s.training.2 = some l → data.length ≤ l.length) (prop : ℝ) (h0 : 0 < prop) (h1 : prop ≤ 1 / 2)
    (perm : List Nat) (hp : perm.Perm (List.range data.length)) :
    ∃ D L t v, getFold s prop perm = .ok (D, L) ∧ D = [some t, some v] ∧ v <+: t ∧ v.length = min (pyRound (prop * data.length)).toNat data.length := by
  obtain ⟨d, hd, L, hss, -⟩ := split_ok data s.training.2 hl [1 - prop, prop] perm hp
  have hdl : d.length = data.length := by rw [(index_ok _ _ _ hd).1]; simpa using hp.length_eq
  have z1 : 0 ≤ pyRound ((1 - prop) * (data.length : ℝ)) := pyRound_nonneg (mul_nonneg (by linarith) (by positivity))
  have z2 : 0 ≤ pyRound (prop * (data.length : ℝ)) := pyRound_nonneg (by positivity)
  have zz : pyRound (prop * (data.length : ℝ)) ≤ pyRound ((1 - prop) * (data.length : ℝ)) := pyRound_mono (by gcongr; linarith)
  unfold getFold splitTwo
  rw [hs]
  refine ⟨_, L, d.take (pyRound ((1 - prop) * (data.length : ℝ))).toNat, d.take (pyRound (prop * (data.length : ℝ))).toNat, hss, ?_, List.take_prefix_take_left (by omega), by simp [hdl]⟩
  simp only [loop]
  rw [if_neg (by linarith), if_neg h0.ne', slice_take _ _ z1, slice_take _ _ z2]

/-- The rows of a set of proportion `p` made of `n` rows in the order `order`: none for a proportion of zero. -/
noncomputable def Part {γ : Type} (n : Nat) (order : List γ) (p : ℝ) : Option (List γ) := if p = 0 then none else some (order.take (pyRound (p * n)).toNat)

/-- **C139** (partial) The set kept for training is the one of the first proportion, the one for validation of the second and the one for tests of the third, data and labels; with one proportion they are those of the
rest and of the proportion, and the test set is the one given. What is missing is again that they are disjoint. -/
theorem C139_stored_partial (s : St α β) (data d : List α) (labels l : List β) (perm : List Nat) (hd : index data perm = .ok d) (hr : index labels perm = .ok l) :
    (∀ p q r : ℝ, 0 ≤ p → 0 ≤ q → 0 ≤ r → setProp s (some data) (some labels) (some [p, q, r]) perm =
      (.ok (), ⟨(Part data.length d p, Part data.length l p), (Part data.length d q, Part data.length l q), (Part data.length d r, Part data.length l r)⟩)) ∧
    (∀ (test : Option (List α) × Option (List β)) (p : ℝ), 0 ≤ p → p ≤ 1 → setTrainingTest s (some data) (some labels) test p perm =
      (.ok (), ⟨(Part data.length d (1 - p), Part data.length l (1 - p)), (Part data.length d p, Part data.length l p), test⟩)) := by
  have hs : ∀ props, splitData (some data) (some labels) props perm = .ok (loop d data.length 0 props, loop l data.length 0 props) := fun props => by simp only [splitData, hd, hr]
  have hpart : ∀ {γ : Type} (o : List γ) (p : ℝ), 0 ≤ p → (if p = 0 then none else some (pySlice o 0 (0 + pyRound (p * data.length)))) = Part data.length o p := by
    intro γ o p h
    unfold Part
    rw [slice_take _ _ (pyRound_nonneg (mul_nonneg h (by positivity)))]
  constructor
  · intro p q r h1 h2 h3
    simp only [setProp, hs, Option.getD_some, List.length_cons, List.length_nil, loop, hpart _ _ h1, hpart _ _ h2, hpart _ _ h3]
    simp
  · intro test p h1 h2
    have h3 : 0 ≤ 1 - p := by linarith
    simp only [setTrainingTest, splitTwo, hs, loop, hpart _ _ h1, hpart _ _ h3]

/-- **C139** Without data, what is worked on is the training set of the last split; data with labels is taken as given, data without labels is refused. -/
theorem C139_given (s : St α β) (data d : List α) (labels l : List β) (perm : List Nat) (hd : index data perm = .ok d) (hr : index labels perm = .ok l) (p q r : ℝ) (hp : 0 ≤ p) (hq : 0 ≤ q) (hr' : 0 ≤ r) :
    getDefault (setProp s (some data) (some labels) (some [p, q, r]) perm).2 none none = .ok (Part data.length d p, Part data.length l p) ∧
    (∀ x y, getDefault s (some x) (some y) = .ok (some x, some y)) ∧ (∀ x, getDefault s (some x) none = .error .notImplemented) := by
  rw [(C139_stored_partial s data d labels l perm hd hr).1 p q r hp hq hr']
  exact ⟨rfl, fun _ _ => rfl, fun _ => rfl⟩

/-- **C139** violated: labels given without data are replaced by those of the training set. -/
theorem C139_labels_violated (s : St α β) (y : List β) : getDefault s none (some y) = .ok s.training := rfl

/-- **C139** What cannot be split is refused and nothing changes: no data, another number of proportions than three, labels missing for some rows. -/
theorem C139_refused (s : St α β) (labels : Option (List β)) (perm : List Nat) :
    (setProp s none labels none perm = (.error .attributeError, s)) ∧
      (∀ data ps, ps.length ≠ 3 → setProp s data labels (some ps) perm = (.error .assertionError, s)) ∧
      (∀ (data : List α) (l : List β), perm.Perm (List.range data.length) → l.length < data.length → setProp s (some data) (some l) none perm = (.error .indexError, s) ∧
        ∀ test prop, setTrainingTest s (some data) (some l) test prop perm = (.error .indexError, s)) := by
  refine ⟨by simp [setProp, splitData], fun data ps h => by simp [setProp, h], fun data l hp hlt => ?_⟩
  obtain ⟨d, hd⟩ := index_exists data perm fun i hi => by simpa using hp.mem_iff.1 hi
  have hsh := index_short l perm ⟨l.length, hp.mem_iff.2 (by simpa using hlt), le_refl _⟩
  have : ∀ props, splitData (some data) (some l) props perm = .error .indexError := fun props => by simp only [splitData, hd, hsh]
  exact ⟨by simp [setProp, this], fun test prop => by simp [setTrainingTest, splitTwo, this]⟩

/-! ## Examples -/

/-- `C139_stored_partial`: the data in the order of a permutation. -/
example : index [5, 6, 7] [2, 0, 1] = .ok [7, 5, 6] := rfl
/-- Ten rows, in the order of a permutation: the default split has 7, 2 and 2 rows, the two last sets equal (`C139_default_violated`). -/
example : ∃ s' : St Nat Nat, setProp {} (some (List.range 10)) none none (List.range 10).reverse = (.ok (), s') ∧ s'.validation = s'.testing := by
  obtain ⟨s', h, h', _⟩ := C139_default_violated ({} : St Nat Nat) (List.range 10) none (by simp) (List.range 10).reverse (List.reverse_perm _)
  exact ⟨s', h, h'⟩
/-- `C139_nested_violated`, `C139_rows_partial`, `C139_fold_violated`, `C139_whole`: their hypotheses on three rows. -/
example : [2, 0, 1].Perm (List.range [5, 6, 7].length) := by decide
example : (0 : ℝ) < ([7 / 10, 3 / 10] : List ℝ)[1] ∧ ([7 / 10, 3 / 10] : List ℝ)[1] ≤ ([7 / 10, 3 / 10] : List ℝ)[0] := by norm_num
example : ∃ D L t v, getFold (⟨(some [5, 6, 7], some [1, 2, 3]), (none, none), (none, none)⟩ : St Nat Nat) (2 / 5) [2, 0, 1] = .ok (D, L) ∧ D = [some t, some v] ∧ v <+: t ∧ v.length = 1 := by
  obtain ⟨D, L, t, v, h1, h2, h3, h4⟩ := C139_fold_violated (⟨(some [5, 6, 7], some [1, 2, 3]), (none, none), (none, none)⟩ : St Nat Nat) [5, 6, 7] rfl (by simp) (2 / 5) (by norm_num) (by norm_num)
    [2, 0, 1] (by decide)
  have hr : pyRound (2 / 5 * (([5, 6, 7] : List Nat).length : ℝ)) = 1 := by
    have : (2 / 5 * (([5, 6, 7] : List Nat).length : ℝ)) = 6 / 5 := by norm_num
    rw [this]
    have hf : ⌊(6 / 5 : ℝ)⌋ = 1 := by rw [Int.floor_eq_iff]; norm_num
    unfold pyRound
    rw [Int.fract, hf, if_pos (by norm_num)]
  exact ⟨D, L, t, v, h1, h2, h3, by rw [h4, hr]; rfl⟩
end Holder
end Kerch
