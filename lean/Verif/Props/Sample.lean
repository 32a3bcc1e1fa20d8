import Verif.Model.Sample
import Verif.Props.Stochastic
/-!
# Properties C11-C13, C64, C65: the sample manager
-/
set_option linter.unusedSectionVars false
set_option linter.unusedSimpArgs false
namespace Kerch
variable {R α : Type}
open SampleSt

/-! ## Helper lemmas -/

theorem stochastic_frame (idx : Option (List Nat)) (prop : Option ℚ) (perm : List Nat) (s : SampleSt R α) :
    (s.stochastic idx prop perm).2.heap = s.heap ∧ (s.stochastic idx prop perm).2.ref = s.ref ∧
    (s.stochastic idx prop perm).2.dimInput = s.dimInput ∧ (s.stochastic idx prop perm).2.st.numTotal = s.st.numTotal ∧
    (s.stochastic idx prop perm).2.grad = s.grad ∧ (s.stochastic idx prop perm).2.trainable = s.trainable := by
  refine ⟨rfl, rfl, rfl, ?_, rfl, rfl⟩
  unfold SampleSt.stochastic
  cases hn : s.st.numTotal with
  | none => simp [STree.stochastic, hn, STree.st]
  | some n =>
    cases idx with
    | some i => cases prop <;> simp [STree.stochastic, hn, STree.st]
    | none => cases prop with
      | none => simp [STree.stochastic, hn, STree.st]
      | some p =>
        by_cases h1 : p ≤ 1
        · by_cases h2 : 0 < p
          · simp [STree.stochastic, hn, STree.st, h1, h2]
          · simp [STree.stochastic, hn, STree.st, h1, h2]
        · simp [STree.stochastic, hn, STree.st, h1]

theorem writeRows_shape (ws : List (ℤ × List R)) (m : Mat R) :
    (writeRows m ws).2.rows.length = m.rows.length ∧ (writeRows m ws).2.cols = m.cols := by
  induction ws generalizing m with
  | nil => exact ⟨rfl, rfl⟩
  | cons w ws ih =>
    obtain ⟨i, v⟩ := w
    rw [writeRows]
    cases normIdx m.rows.length i with
    | none => exact ⟨rfl, rfl⟩
    | some k =>
      have := ih { m with rows := m.rows.set k v }
      simpa using this

/-- A row after the assignments: unchanged if no (resolved) index addresses it, else one of the values written to it. -/
theorem writeRows_get (ws : List (ℤ × List R)) (m : Mat R) (k : Nat) :
    (writeRows m ws).2.rows[k]? = m.rows[k]? ∨
    ∃ w ∈ ws, normIdx m.rows.length w.1 = some k ∧ (writeRows m ws).2.rows[k]? = some w.2 := by
  induction ws generalizing m with
  | nil => exact .inl rfl
  | cons w ws ih =>
    obtain ⟨i, v⟩ := w
    rw [writeRows]
    cases hn : normIdx m.rows.length i with
    | none => exact .inl rfl
    | some j =>
      simp only
      have hlt : j < m.rows.length := by
        unfold normIdx at hn
        split at hn
        · cases hn; omega
        · split at hn
          · cases hn; omega
          · cases hn
      rcases ih { m with rows := m.rows.set j v } with h | ⟨w, hw, h1, h2⟩
      · by_cases hjk : j = k
        · subst hjk
          right
          exact ⟨(i, v), List.mem_cons_self, hn, by rw [h]; simp [hlt]⟩
        · left
          rw [h]
          simp [List.getElem?_set, hjk]
      · right
        exact ⟨w, List.mem_cons_of_mem _ hw, by simpa using h1, h2⟩

theorem writeRows_ok (ws : List (ℤ × List R)) (m : Mat R) (h : (writeRows m ws).1 = .ok ()) (w : ℤ × List R) (hw : w ∈ ws) :
    ∃ k, normIdx m.rows.length w.1 = some k ∧ k < m.rows.length ∧
      ∃ w' ∈ ws, normIdx m.rows.length w'.1 = some k ∧ (writeRows m ws).2.rows[k]? = some w'.2 := by
  induction ws generalizing m with
  | nil => cases hw
  | cons w0 ws ih =>
    obtain ⟨i, v⟩ := w0
    rw [writeRows] at h ⊢
    cases hn : normIdx m.rows.length i with
    | none => simp [hn] at h
    | some j =>
      simp only [hn] at h ⊢
      have hlt : j < m.rows.length := by
        unfold normIdx at hn
        split at hn
        · cases hn; omega
        · split at hn
          · cases hn; omega
          · cases hn
      rcases List.mem_cons.1 hw with rfl | hw
      · refine ⟨j, hn, hlt, ?_⟩
        rcases writeRows_get ws { m with rows := m.rows.set j v } j with h' | ⟨w', hw', h1, h2⟩
        · exact ⟨(i, v), List.mem_cons_self, hn, by rw [h']; simp [hlt]⟩
        · exact ⟨w', List.mem_cons_of_mem _ hw', by simpa using h1, h2⟩
      · obtain ⟨k, h1, h2, w', h3, h4, h5⟩ := ih _ h hw
        exact ⟨k, by simpa using h1, by simpa using h2, w', List.mem_cons_of_mem _ h3, by simpa using h4, h5⟩

theorem nodup_getElem?_inj {β : Type} {l : List β} (h : l.Nodup) {i j : Nat} {x : β} (hi : l[i]? = some x) (hj : l[j]? = some x) :
    i = j := by
  obtain ⟨hi1, hi2⟩ := List.getElem?_eq_some_iff.1 hi
  exact (List.getElem?_inj hi1 h).1 (hi.trans hj.symm)

theorem writeRows_ok_of (ws : List (ℤ × List R)) (m : Mat R) (h : ∀ w ∈ ws, normIdx m.rows.length w.1 ≠ none) :
    (writeRows m ws).1 = .ok () := by
  induction ws generalizing m with
  | nil => rfl
  | cons w ws ih =>
    obtain ⟨i, v⟩ := w
    rw [writeRows]
    cases hn : normIdx m.rows.length i with
    | none => exact absurd hn (h (i, v) List.mem_cons_self)
    | some j =>
      simp only
      exact ih _ (fun w hw => by simpa using h w (List.mem_cons_of_mem _ hw))

/-! ## C11 -/

/-- The indices an `update_sample` addresses: those given or all. -/
def addressed (s : SampleSt R α) (idx : Option (List ℤ)) : List ℤ :=
  idx.getD ((List.range s.data.rows.length).map Int.ofNat)

/-- The pair of an index and its value. -/
def Assigned (s : SampleSt R α) (idx : Option (List ℤ)) (m : Mat R) (j : Nat) (i : ℤ) (v : List R) : Prop :=
  (addressed s idx)[j]? = some i ∧ m.rows[j]? = some v

/-- The sample has rows and the attributes agree with it (established by C12 for all reachable states). -/
def Filled (s : SampleSt R α) : Prop :=
  s.data.nelem ≠ 0 ∧ s.st.numTotal = some s.data.rows.length

theorem update_unfold (s : SampleSt R α) (hs : Filled s) (m : Mat R) (idx : Option (List ℤ)) (sched : Sched (ℤ × List R)) :
    updateSample (.mat m) idx sched s =
      if (addressed s idx).length ≠ m.rows.length then (.error .assertionError, s) else
      if m.cols ≠ s.data.cols ∧ m.cols ≠ 1 then (.error .runtimeError, s) else
      let r := writeRows s.data (sched.ord ((addressed s idx).zip (m.rows.map (bcast s.data.cols))))
      let s1 := { s with heap := Function.update s.heap s.ref r.2 }
      match r.1 with
      | .error e => (.error e, s1)
      | .ok () =>
        if s.trainable && s.grad.isNone then (.error .attributeError, s1) else
        (.ok (), { s1 with st := { s1.st with cache := s1.st.cache.resetCache false } }) := by
  have he : s.empty = false := by simp [SampleSt.empty, hs.1]
  unfold updateSample
  rw [he]
  cases idx with
  | none => simp only [Bool.false_eq_true, if_false, hs.2, Option.map_some, addressed, Option.getD_none]; rfl
  | some i => simp only [Bool.false_eq_true, if_false, addressed, Option.getD_some]; rfl

/-- The sample after the call, whatever its outcome, is the former one or the one after the assignments. -/
theorem update_data (s : SampleSt R α) (hs : Filled s) (m : Mat R) (idx : Option (List ℤ)) (sched : Sched (ℤ × List R)) :
    (updateSample (.mat m) idx sched s).2.data = s.data ∨
    ((addressed s idx).length = m.rows.length ∧ (updateSample (.mat m) idx sched s).2.data =
      (writeRows s.data (sched.ord ((addressed s idx).zip (m.rows.map (bcast s.data.cols))))).2) := by
  rw [update_unfold s hs]
  by_cases h1 : (addressed s idx).length = m.rows.length
  · rw [if_neg (not_not.2 h1)]
    by_cases h2 : m.cols ≠ s.data.cols ∧ m.cols ≠ 1
    · rw [if_pos h2]; exact .inl rfl
    · rw [if_neg h2]
      right
      refine ⟨h1, ?_⟩
      simp only
      split
      · simp [SampleSt.data]
      · split <;> simp [SampleSt.data]
  · rw [if_pos h1]; exact .inl rfl

/-- **C11**, frame: whatever the outcome of `update_sample(values, idx)` (also an exception part-way), the shape is kept and each row is either
as before or one of the values given for its index; in particular a row that is not addressed is as before. -/
theorem C11_update_frame (s : SampleSt R α) (hs : Filled s) (m : Mat R) (idx : Option (List ℤ)) (sched : Sched (ℤ × List R)) :
    (updateSample (.mat m) idx sched s).2.data.rows.length = s.data.rows.length ∧
    (updateSample (.mat m) idx sched s).2.data.cols = s.data.cols ∧
    ∀ k, (updateSample (.mat m) idx sched s).2.data.rows[k]? = s.data.rows[k]? ∨
      ∃ j i v, Assigned s idx m j i v ∧ normIdx s.data.rows.length i = some k ∧
        (updateSample (.mat m) idx sched s).2.data.rows[k]? = some (bcast s.data.cols v) := by
  rcases update_data s hs m idx sched with h | ⟨hl, h⟩
  · rw [h]; exact ⟨rfl, rfl, fun k => .inl rfl⟩
  · rw [h]
    refine ⟨(writeRows_shape _ _).1, (writeRows_shape _ _).2, fun k => ?_⟩
    rcases writeRows_get (sched.ord ((addressed s idx).zip (m.rows.map (bcast s.data.cols)))) s.data k with h | ⟨w, hw, h1, h2⟩
    · exact .inl h
    · right
      have hw' := (sched.perm _).mem_iff.1 hw
      obtain ⟨j, hj⟩ := List.getElem?_of_mem hw'
      rw [List.getElem?_zip_eq_some] at hj
      obtain ⟨hj1, hj2⟩ := hj
      rw [List.getElem?_map, Option.map_eq_some_iff] at hj2
      obtain ⟨v, hv1, hv2⟩ := hj2
      exact ⟨j, w.1, v, ⟨hj1, hv1⟩, h1, by rw [h2, ← hv2]⟩

/-- **C11**, effect: if the call returns, or gets as far as the gradient, each addressed row holds one of the values given for its index.
When no row is addressed twice it is *the* value, `C11_update_sets_unique`. -/
theorem C11_update_sets (s : SampleSt R α) (hs : Filled s) (m : Mat R) (idx : Option (List ℤ)) (sched : Sched (ℤ × List R))
    (hok : (updateSample (.mat m) idx sched s).1 = .ok () ∨ (updateSample (.mat m) idx sched s).1 = .error .attributeError)
    (j : Nat) (i : ℤ) (v : List R) (ha : Assigned s idx m j i v) :
    ∃ k, normIdx s.data.rows.length i = some k ∧ k < s.data.rows.length ∧
      ∃ j' i' v', Assigned s idx m j' i' v' ∧ normIdx s.data.rows.length i' = some k ∧
        (updateSample (.mat m) idx sched s).2.data.rows[k]? = some (bcast s.data.cols v') := by
  rw [update_unfold s hs] at hok ⊢
  by_cases h1 : (addressed s idx).length = m.rows.length
  swap
  · rw [if_pos h1] at hok; simp at hok
  rw [if_neg (not_not.2 h1)] at hok ⊢
  by_cases h2 : m.cols ≠ s.data.cols ∧ m.cols ≠ 1
  · rw [if_pos h2] at hok; simp at hok
  rw [if_neg h2] at hok ⊢
  simp only at hok ⊢
  have hw : (i, bcast s.data.cols v) ∈ sched.ord ((addressed s idx).zip (m.rows.map (bcast s.data.cols))) := by
    refine (sched.perm _).mem_iff.2 (List.mem_of_getElem? (i := j) ?_)
    rw [List.getElem?_zip_eq_some]
    exact ⟨ha.1, by rw [List.getElem?_map, ha.2]; rfl⟩
  have hwok : (writeRows s.data (sched.ord ((addressed s idx).zip (m.rows.map (bcast s.data.cols))))).1 = .ok () := by
    cases hr : (writeRows s.data (sched.ord ((addressed s idx).zip (m.rows.map (bcast s.data.cols))))).1 with
    | ok u => rfl
    | error e =>
      exfalso
      have : ∀ (ws : List (ℤ × List R)) (d : Mat R) (e : Err), (writeRows d ws).1 = .error e → e = .indexError := by
        intro ws
        induction ws with
        | nil => intro d e h; cases h
        | cons w ws ih =>
          intro d e h
          obtain ⟨a, b⟩ := w
          rw [writeRows] at h
          cases hn : normIdx d.rows.length a with
          | none => simp only [hn] at h; cases h; rfl
          | some k => simp only [hn] at h; exact ih _ _ h
      have := this _ _ _ hr
      subst this
      simp [hr] at hok
  obtain ⟨k, k1, k2, w', k3, k4, k5⟩ := writeRows_ok _ _ hwok _ hw
  refine ⟨k, k1, k2, ?_⟩
  have hw' := (sched.perm _).mem_iff.1 k3
  obtain ⟨j', hj⟩ := List.getElem?_of_mem hw'
  rw [List.getElem?_zip_eq_some] at hj
  obtain ⟨hj1, hj2⟩ := hj
  rw [List.getElem?_map, Option.map_eq_some_iff] at hj2
  obtain ⟨v', hv1, hv2⟩ := hj2
  refine ⟨j', w'.1, v', ⟨hj1, hv1⟩, k4, ?_⟩
  rw [hv2, ← k5, hwok]
  simp only
  split <;> simp [SampleSt.data]

/-- **C11**, effect with pairwise distinct rows: row `idx[j]` is set to `values[j]` (as is when the value has the dimension of the sample). -/
theorem C11_update_sets_unique (s : SampleSt R α) (hs : Filled s) (m : Mat R) (hm : m.WF) (hc : m.cols = s.data.cols)
    (idx : Option (List ℤ)) (hnd : ((addressed s idx).map (normIdx s.data.rows.length)).Nodup) (sched : Sched (ℤ × List R))
    (hok : (updateSample (.mat m) idx sched s).1 = .ok ()) (j : Nat) (i : ℤ) (v : List R) (ha : Assigned s idx m j i v) :
    ∃ k, normIdx s.data.rows.length i = some k ∧ (updateSample (.mat m) idx sched s).2.data.rows[k]? = some v := by
  obtain ⟨k, k1, _, j', i', v', ha', k2, k3⟩ := C11_update_sets s hs m idx sched (.inl hok) j i v ha
  refine ⟨k, k1, ?_⟩
  have hjj : j = j' := by
    have e1 : ((addressed s idx).map (normIdx s.data.rows.length))[j]? = some (some k) := by rw [List.getElem?_map, ha.1]; simp [k1]
    have e2 : ((addressed s idx).map (normIdx s.data.rows.length))[j']? = some (some k) := by rw [List.getElem?_map, ha'.1]; simp [k2]
    exact nodup_getElem?_inj hnd e1 e2
  subst hjj
  have : v = v' := by have := ha.2.symm.trans ha'.2; simpa using this
  subst this
  rw [k3]
  have : v.length = s.data.cols := by rw [← hc]; exact hm v (List.mem_of_getElem? ha.2)
  simp [bcast, this]

/-- **C11**, refusals before any effect: different numbers of indices and values, values that cannot be broadcast, too many axes. -/
theorem C11_refused (s : SampleSt R α) (hs : Filled s) (idx : Option (List ℤ)) (sched : Sched (ℤ × List R)) :
    (∀ m : Mat R, (addressed s idx).length ≠ m.rows.length →
      updateSample (.mat m) idx sched s = (.error .assertionError, s)) ∧
    (∀ m : Mat R, (addressed s idx).length = m.rows.length → m.cols ≠ s.data.cols → m.cols ≠ 1 →
      updateSample (.mat m) idx sched s = (.error .runtimeError, s)) ∧
    updateSample .bad idx sched s = (.error .nameError, s) := by
  refine ⟨fun m h => ?_, fun m h h1 h2 => ?_, ?_⟩
  · rw [update_unfold s hs, if_pos h]
  · rw [update_unfold s hs, if_neg (not_not.2 h), if_pos ⟨h1, h2⟩]
  · have he : s.empty = false := by simp [SampleSt.empty, hs.1]
    simp [updateSample, he]

/-- **C11**, without sample it is a no-op. -/
theorem C11_empty (s : SampleSt R α) (h : s.data.nelem = 0) (vals : UArg R) (idx : Option (List ℤ)) (sched : Sched (ℤ × List R)) :
    updateSample vals idx sched s = (.ok (), s) := by
  simp [updateSample, SampleSt.empty, h]

/-- **C11**, later reads: after a call that returned, nothing that was computed from the former sample (a non-persisting element) is in the
cache, and the attributes other than the sample and the cache are as before. -/
theorem C11_reads_new_partial (s : SampleSt R α) (hs : Filled s) (w : s.st.cache.dict.WF) (m : Mat R) (idx : Option (List ℤ))
    (sched : Sched (ℤ × List R)) (hok : (updateSample (.mat m) idx sched s).1 = .ok ()) :
    (∀ k e, (updateSample (.mat m) idx sched s).2.st.cache.dict.find k = some e → e.persisting = true) ∧
    (updateSample (.mat m) idx sched s).2.st.idx = s.st.idx ∧ (updateSample (.mat m) idx sched s).2.st.numTotal = s.st.numTotal ∧
    (updateSample (.mat m) idx sched s).2.dimInput = s.dimInput := by
  rw [update_unfold s hs] at hok ⊢
  by_cases h1 : (addressed s idx).length = m.rows.length
  swap
  · rw [if_pos h1] at hok; simp at hok
  rw [if_neg (not_not.2 h1)] at hok ⊢
  by_cases h2 : m.cols ≠ s.data.cols ∧ m.cols ≠ 1
  · rw [if_pos h2] at hok; simp at hok
  rw [if_neg h2] at hok ⊢
  simp only at hok ⊢
  cases hr : (writeRows s.data (sched.ord ((addressed s idx).zip (m.rows.map (bcast s.data.cols))))).1 with
  | error e => simp [hr] at hok
  | ok u =>
    simp only [hr] at hok ⊢
    by_cases hg : (s.trainable && s.grad.isNone) = true
    · rw [if_pos hg] at hok; cases hok
    · rw [if_neg hg]
      refine ⟨fun k e he => ?_, rfl, rfl, rfl⟩
      exact ((C03_reset_exact s.st.cache w false k e).1 he).2.2

/-- Updating all the rows with a matrix of the same shape makes the sample equal to it. -/
theorem update_all (s : SampleSt R α) (hs : Filled s) (m : Mat R)
    (hl : m.rows.length = s.data.rows.length) (hc : m.cols = s.data.cols) (hm : m.WF) (sched : Sched (ℤ × List R)) :
    (updateSample (.mat m) none sched s).1 = (if s.trainable && s.grad.isNone then .error .attributeError else .ok ()) ∧
    (updateSample (.mat m) none sched s).2.data = m ∧
    ((s.trainable && s.grad.isNone) = true → (updateSample (.mat m) none sched s).2.st = s.st) := by
  have hlen : (addressed s none).length = m.rows.length := by simp [addressed, hl]
  have hout : (updateSample (.mat m) none sched s).1 = (if s.trainable && s.grad.isNone then .error .attributeError else .ok ()) ∧
      ((s.trainable && s.grad.isNone) = true → (updateSample (.mat m) none sched s).2.st = s.st) := by
    rw [update_unfold s hs, if_neg (not_not.2 hlen), if_neg (by simp [hc])]
    have hw := writeRows_ok_of (sched.ord ((addressed s none).zip (m.rows.map (bcast s.data.cols)))) s.data (by
      intro w hw
      have := List.of_mem_zip ((sched.perm _).mem_iff.1 hw)
      obtain ⟨a, ha, hb⟩ := List.mem_map.1 this.1
      rw [List.mem_range] at ha
      rw [← hb, normIdx, if_pos ⟨by simp, by simpa using ha⟩]
      simp)
    simp only [hw]
    by_cases hg : (s.trainable && s.grad.isNone) = true
    · simp only [hg, if_true]; exact ⟨trivial, fun _ => trivial⟩
    · simp only [hg]; exact ⟨rfl, fun h => (by cases h)⟩
  have hout' : (updateSample (.mat m) none sched s).1 = .ok () ∨ (updateSample (.mat m) none sched s).1 = .error .attributeError := by
    rw [hout.1]; split
    · exact .inr rfl
    · exact .inl rfl
  refine ⟨hout.1, ?_, hout.2⟩
  obtain ⟨f1, f2, _⟩ := C11_update_frame s hs m none sched
  have hrows : (updateSample (.mat m) none sched s).2.data.rows = m.rows := by
    apply List.ext_getElem?
    intro k
    by_cases hk : k < m.rows.length
    · have hnd : ∀ (i : ℤ) (j : Nat), (addressed s none)[j]? = some i → i = (j : ℤ) := by
        intro i j h
        simp only [addressed, Option.getD_none, List.getElem?_map, Option.map_eq_some_iff] at h
        obtain ⟨a, ha, hb⟩ := h
        have := List.getElem?_eq_some_iff.1 ha
        obtain ⟨h1, h2⟩ := this
        rw [List.getElem_range] at h2
        rw [← hb, ← h2]; rfl
      have ha : Assigned s none m k k m.rows[k] := by
        refine ⟨?_, List.getElem?_eq_getElem hk⟩
        simp [addressed, ← hl, hk]
      have hnorm : ∀ j : Nat, ∀ k', normIdx s.data.rows.length (j : ℤ) = some k' → k' = j := by
        intro j k' h
        unfold normIdx at h
        split at h
        · cases h; simp
        · split at h
          · omega
          · cases h
      obtain ⟨k1, h1, _, j', i', v', ha', h2, h3⟩ := C11_update_sets s hs m none sched hout' k k _ ha
      have e1 := hnorm _ _ h1
      have e2 := hnd _ _ ha'.1
      rw [e2] at h2
      have e3 := hnorm _ _ h2
      have e4 : j' = k := by omega
      rw [e4] at ha'
      have hv : v' = m.rows[k] := by
        have := ha'.2; rw [List.getElem?_eq_getElem hk] at this; simpa using this.symm
      rw [e1, hv] at h3
      rw [h3, List.getElem?_eq_getElem hk]
      have : (m.rows[k]).length = s.data.cols := by rw [← hc]; exact hm _ (List.getElem_mem hk)
      simp [bcast, this]
    · rw [List.getElem?_eq_none (by omega), List.getElem?_eq_none (by omega)]
  have : ∀ a b : Mat R, a.cols = b.cols → a.rows = b.rows → a = b := by
    rintro ⟨_, _⟩ ⟨_, _⟩ h1 h2; simp_all
  exact this _ _ (by rw [f2, hc]) hrows

/-- **C11 is violated** for a trainable sample without gradient (before the first backward pass): the rows are written, then the call raises,
and what was computed from the former sample stays in the cache. -/
theorem C11_trainable_violated (s : SampleSt R α) (hs : Filled s) (ht : s.trainable = true) (hg : s.grad = none) (m : Mat R)
    (hl : m.rows.length = s.data.rows.length) (hc : m.cols = s.data.cols) (hm : m.WF) (sched : Sched (ℤ × List R)) :
    (updateSample (.mat m) none sched s).1 = .error .attributeError ∧
    (updateSample (.mat m) none sched s).2.data = m ∧
    (updateSample (.mat m) none sched s).2.st = s.st := by
  have hb : (s.trainable && s.grad.isNone) = true := by simp [ht, hg]
  obtain ⟨h1, h2, h3⟩ := update_all s hs m hl hc hm sched
  rw [hb] at h1
  exact ⟨h1, h2, h3 hb⟩

/-- **C11**, all rows: `update_sample(values)` with values of the shape of the sample makes the sample equal to them, in any state. -/
theorem C11_update_all (s : SampleSt R α) (hs : Filled s) (m : Mat R) (hl : m.rows.length = s.data.rows.length)
    (hc : m.cols = s.data.cols) (hm : m.WF) (sched : Sched (ℤ × List R)) : (updateSample (.mat m) none sched s).2.data = m :=
  (update_all s hs m hl hc hm sched).2.1

/-- A call meeting the hypotheses: two rows, one addressed from the end. -/
example : ∃ s : SampleSt Nat Nat, Filled s ∧
    (updateSample (.mat ⟨2, [[7, 8]]⟩) (some [-1]) ⟨id, fun _ => List.Perm.refl _⟩ s).1 = .ok () ∧
    (updateSample (.mat ⟨2, [[7, 8]]⟩) (some [-1]) ⟨id, fun _ => List.Perm.refl _⟩ s).2.data = ⟨2, [[1, 2], [7, 8]]⟩ :=
  ⟨⟨fun _ => ⟨2, [[1, 2], [3, 4]]⟩, 1, ⟨some 2, some [0, 1], CacheSt.init⟩, some 2, 0, false, none⟩,
    ⟨by simp [SampleSt.data, Mat.nelem], rfl⟩, by decide, by decide⟩

/-! ## C12 -/

/-- Number of rows and columns of the sample and the attributes agree. -/
def DimsAgree (s : SampleSt R α) : Prop :=
  (∀ n d, s.st.numTotal = some n → s.dimInput = some d → s.data.rows.length = n ∧ s.data.cols = d) ∧
  (s.data.nelem ≠ 0 → s.st.numTotal = some s.data.rows.length ∧ s.dimInput = some s.data.cols)

theorem dims_of_eq {s : SampleSt R α} (h1 : s.st.numTotal = some s.data.rows.length) (h2 : s.dimInput = some s.data.cols) :
    DimsAgree s := by
  refine ⟨fun n d hn hd => ?_, fun _ => ⟨h1, h2⟩⟩
  rw [h1] at hn; rw [h2] at hd
  cases hn; cases hd; exact ⟨rfl, rfl⟩

theorem dims_stochastic {s : SampleSt R α} (h : DimsAgree s) (idx : Option (List Nat)) (prop : Option ℚ) (perm : List Nat) :
    DimsAgree (s.stochastic idx prop perm).2 := by
  obtain ⟨f1, f2, f3, f4, _, _⟩ := stochastic_frame idx prop perm s
  unfold DimsAgree SampleSt.data at *
  rw [f1, f2, f3, f4]
  exact h

theorem dims_init {s : SampleSt R α} (h : DimsAgree s) (arg : DArg R) (idx : Option (List Nat)) (prop : Option ℚ) (perm : List Nat)
    (rand : RandInit R) : DimsAgree (initSample arg idx prop perm rand s).2 := by
  cases arg with
  | bad => exact h
  | none =>
    rw [initSample]
    cases hn : s.st.numTotal with
    | none => exact h
    | some n =>
      cases hd : s.dimInput with
      | none => exact h
      | some d =>
        refine dims_stochastic (dims_of_eq ?_ ?_) _ _ _
        · simp [SampleSt.data, rand.rows, hn]
        · simp [SampleSt.data, rand.cols]
  | param r rg g => exact dims_stochastic (dims_of_eq rfl rfl) _ _ _
  | tensor r => exact dims_stochastic (dims_of_eq rfl rfl) _ _ _
  | value m =>
    refine dims_stochastic (dims_of_eq ?_ ?_) _ _ _ <;> simp [SampleSt.data]

/-- In a state where the number of points is known, dropping the requirement on the sample: what `init_sample()` repairs. -/
theorem dims_init_none {s : SampleSt R α} {n d : Nat} (hn : s.st.numTotal = some n) (hd : s.dimInput = some d) (perm : List Nat)
    (rand : RandInit R) (idx : Option (List Nat)) (prop : Option ℚ) :
    DimsAgree (initSample .none idx prop perm rand s).2 ∧
    (initSample .none idx prop perm rand s).2.data.rows.length = n ∧ (initSample .none idx prop perm rand s).2.data.cols = d ∧
    (initSample .none idx prop perm rand s).2.data.WF := by
  have e : initSample .none idx prop perm rand s = SampleSt.stochastic idx prop perm
      { s with heap := Function.update s.heap s.next (rand.val n d), next := s.next + 1, ref := s.next, grad := none } := by
    rw [initSample, hn]; simp only [hd]
  rw [e]
  refine ⟨dims_stochastic (dims_of_eq ?_ ?_) _ _ _, ?_, ?_, ?_⟩
  · simp [SampleSt.data, rand.rows, hn]
  · simp [SampleSt.data, rand.cols, hd]
  all_goals
    rw [SampleSt.data, (stochastic_frame _ _ _ _).1, (stochastic_frame _ _ _ _).2.1]
    simp [rand.rows, rand.cols, rand.wf]

theorem dims_setDim {s : SampleSt R α} (h : DimsAgree s) (d : Nat) (perm : List Nat) (rand : RandInit R) :
    DimsAgree (setDim d perm rand s).2 := by
  unfold setDim
  by_cases h1 : s.dimInput = none
  · rw [if_neg (not_not.2 h1)]
    simp only
    cases hn : s.st.numTotal with
    | none =>
      rw [if_neg (by simp)]
      refine ⟨fun n d' hn' => ?_, fun hne => ?_⟩
      · simp only [hn] at hn'; cases hn'
      · have := (h.2 hne).1; rw [hn] at this; cases this
    | some n =>
      rw [if_pos (by simp)]
      exact (dims_init_none (s := { s with dimInput := some d }) hn rfl perm rand none none).1
  · rw [if_pos h1]; exact h

theorem dims_setNum {s : SampleSt R α} (h : DimsAgree s) (n : Nat) (perm : List Nat) (rand : RandInit R) :
    DimsAgree (setNum n perm rand s).2 := by
  unfold setNum
  by_cases h1 : s.st.numTotal = none
  · rw [if_neg (not_not.2 h1)]
    simp only
    cases hd : s.dimInput with
    | none =>
      rw [if_neg (by simp)]
      refine ⟨fun n d' _ hd' => ?_, fun hne => ?_⟩
      · simp only [hd] at hd'; cases hd'
      · have := (h.2 hne).1; rw [h1] at this; cases this
    | some d =>
      rw [if_pos (by simp)]
      exact (dims_init_none (s := { s with st := { s.st with numTotal := some n }, dimInput := some d }) rfl rfl perm rand none none).1
  · rw [if_pos h1]; exact h

/-- The sample keeps its shape and the attributes their value. -/
theorem dims_update {s : SampleSt R α} (h : DimsAgree s) (vals : UArg R) (idx : Option (List ℤ)) (sched : Sched (ℤ × List R)) :
    DimsAgree (updateSample vals idx sched s).2 := by
  by_cases he : s.data.nelem = 0
  · rw [C11_empty s he]; exact h
  · have hs : Filled s := ⟨he, (h.2 he).1⟩
    have hd := (h.2 he).2
    have he' : s.empty = false := by simp [SampleSt.empty, hs.1]
    cases vals with
    | bad => simpa [updateSample, he'] using h
    | none =>
      unfold updateSample
      rw [he']
      simp only [Bool.false_eq_true, if_false]
      split <;> exact h
    | mat m =>
      obtain ⟨f1, f2, _⟩ := C11_update_frame s hs m idx sched
      have : (updateSample (.mat m) idx sched s).2.st.numTotal = s.st.numTotal ∧
          (updateSample (.mat m) idx sched s).2.dimInput = s.dimInput := by
        rw [update_unfold s hs]
        split
        · exact ⟨rfl, rfl⟩
        · split
          · exact ⟨rfl, rfl⟩
          · simp only
            split
            · exact ⟨rfl, rfl⟩
            · split <;> exact ⟨rfl, rfl⟩
      exact dims_of_eq (by rw [this.1, f1, hs.2]) (by rw [this.2, f2, hd])

theorem dims_step {s : SampleSt R α} (h : DimsAgree s) (o : Op R) : DimsAgree (step s o).2 := by
  cases o with
  | init arg idx prop perm rand => exact dims_init h arg idx prop perm rand
  | update vals idx sched => exact dims_update h vals idx sched
  | setDim d perm rand => exact dims_setDim h d perm rand
  | setNum n perm rand => exact dims_setNum h n perm rand
  | setSample arg perm rand =>
    cases arg with
    | none => exact h
    | _ => exact dims_init h _ none none perm rand
  | setTrainable b => exact h
  | stochastic idx prop perm => exact dims_stochastic h idx prop perm
  | backward g => exact h
  | userWrite r rows =>
    simp only [step]
    split
    · rename_i hl
      by_cases hr : s.ref = r
      · subst hr
        unfold DimsAgree SampleSt.data Mat.nelem at *
        simpa [hl] using h
      · unfold DimsAgree SampleSt.data Mat.nelem at *
        simpa [Function.update_of_ne hr] using h
    · exact h

theorem dims_construct (heap : Nat → Mat R) (next : Nat) (arg : DArg R) (dim num : Option Nat) (trainable : Bool)
    (idx : Option (List Nat)) (prop : Option ℚ) (perm : List Nat) (rand : RandInit R) (s : SampleSt R α)
    (h : construct heap next arg dim num trainable idx prop perm rand = .ok s) : DimsAgree s := by
  unfold construct at h
  simp only at h
  split at h
  · cases h
  · rename_i hok
    have hs := Except.ok.inj h
    rw [← hs]
    cases arg with
    | bad => cases hok
    | none =>
      simp only at hok ⊢
      cases num with
      | none =>
        have : ∀ s0 : SampleSt R α, s0.st.numTotal = none → initSample .none idx prop perm rand s0 = (.ok (), s0) := by
          intro s0 h0; simp [initSample, h0]
        rw [this _ rfl]
        exact ⟨fun n d hn => (by cases hn), fun hne => absurd (by simp [SampleSt.data, Mat.nelem]) hne⟩
      | some n =>
        cases dim with
        | none => simp [initSample] at hok
        | some d => exact (dims_init_none rfl rfl perm rand idx prop).1
    | value m =>
      exact dims_stochastic (dims_of_eq (by simp [SampleSt.data]) (by simp [SampleSt.data])) _ _ _
    | tensor r => exact dims_stochastic (dims_of_eq rfl rfl) _ _ _
    | param r rg g => exact dims_stochastic (dims_of_eq rfl rfl) _ _ _

/-- **C12**, dimensions: for every constructor call that succeeds and every further history of initialisations, updates, assignments of
dimensions, selections and in-place changes of tensors of the caller, failing calls included, a non-empty sample has `num_sample` rows and
`dim_input` columns (and when both are known the sample has these dimensions). -/
theorem C12_dims (heap : Nat → Mat R) (next : Nat) (arg : DArg R) (dim num : Option Nat) (trainable : Bool)
    (idx : Option (List Nat)) (prop : Option ℚ) (perm : List Nat) (rand : RandInit R) (s : SampleSt R α)
    (h : construct heap next arg dim num trainable idx prop perm rand = .ok s) (ops : List (Op R)) : DimsAgree (run s ops) := by
  have h0 := dims_construct heap next arg dim num trainable idx prop perm rand s h
  clear h
  unfold run
  induction ops generalizing s with
  | nil => exact h0
  | cons o ops ih => exact ih _ (dims_step h0 o)

theorem mapM_getElem? {β : Type} (l : List β) (i : List Nat) (h : ∀ j ∈ i, j < l.length) :
    ∃ r, i.mapM (fun j => l[j]?) = some r ∧ r.length = i.length ∧ ∀ (a : Nat) (ha : a < i.length), r[a]? = l[i[a]]? := by
  induction i with
  | nil => exact ⟨[], rfl, rfl, fun a ha => by cases ha⟩
  | cons j i ih =>
    obtain ⟨r, h1, h2, h3⟩ := ih (fun j hj => h j (List.mem_cons_of_mem _ hj))
    have hj := h j List.mem_cons_self
    refine ⟨l[j] :: r, ?_, by simp [h2], ?_⟩
    · simp [List.mapM_cons, h1, List.getElem?_eq_getElem hj]
    · intro a ha
      cases a with
      | zero => simp [hj]
      | succ a => simpa using h3 a (by simpa using ha)

/-- **C12**, current sample: with a selection within the sample, as many rows as selected indices, each the selected one. -/
theorem C12_current (s : SampleSt R α) (i : List Nat) (hi : s.st.idx = some i) (hr : ∀ j ∈ i, j < s.data.rows.length) :
    ∃ l, s.currentSample = .ok (.rows l) ∧ l.length = i.length ∧ ∀ (a : Nat) (ha : a < i.length), l[a]? = s.data.rows[i[a]]? := by
  obtain ⟨l, h1, h2, h3⟩ := mapM_getElem? s.data.rows i hr
  exact ⟨l, by simp [currentSample, hi, h1], h2, h3⟩

/-- **C12**, re-initialising: with a sample (not `None`) and no selection given, `init_sample` selects all the points of the new sample,
whatever was selected before; the current sample is the whole new sample. -/
theorem C12_reinit (s : SampleSt R α) (arg : DArg R) (ha : arg ≠ .none) (hb : arg ≠ .bad) (perm : List Nat) (rand : RandInit R) :
    (initSample arg none none perm rand s).1 = .ok () ∧
    (initSample arg none none perm rand s).2.st.idx = some (List.range (initSample arg none none perm rand s).2.data.rows.length) ∧
    (initSample arg none none perm rand s).2.currentSample = .ok (.rows (initSample arg none none perm rand s).2.data.rows) := by
  have key : ∀ s0 : SampleSt R α, s0.st.numTotal = some s0.data.rows.length →
      (SampleSt.stochastic none none perm s0).1 = .ok () ∧
      (SampleSt.stochastic none none perm s0).2.st.idx = some (List.range (SampleSt.stochastic none none perm s0).2.data.rows.length) ∧
      (SampleSt.stochastic none none perm s0).2.currentSample = .ok (.rows (SampleSt.stochastic none none perm s0).2.data.rows) := by
    intro s0 h0
    have e1 : (SampleSt.stochastic none none perm s0).2.st.idx = some (List.range s0.data.rows.length) := by
      simp [SampleSt.stochastic, STree.stochastic, h0, STree.st]
    have e2 : (SampleSt.stochastic none none perm s0).2.data = s0.data := rfl
    refine ⟨by simp [SampleSt.stochastic, STree.stochastic, h0], by rw [e1, e2], ?_⟩
    obtain ⟨l, h1, h2, h3⟩ := C12_current _ _ e1 (by rw [e2]; simp)
    rw [h1, e2]
    congr 2
    apply List.ext_getElem?
    intro a
    by_cases hlt : a < s0.data.rows.length
    · have := h3 a (by simpa using hlt)
      rw [this, e2]; simp
    · rw [List.getElem?_eq_none (by simp at h2; omega), List.getElem?_eq_none (by omega)]
  cases arg with
  | none => exact absurd rfl ha
  | bad => exact absurd rfl hb
  | value m => exact key _ (by simp [SampleSt.data])
  | tensor r => exact key _ rfl
  | param r rg g => exact key _ rfl

/-- **C12**, selections made by proportion or not given are within the sample after any successful call. -/
theorem C12_selection_in_range (s : SampleSt R α) (h : DimsAgree s) (he : s.data.nelem ≠ 0) (prop : Option ℚ) (perm : List Nat)
    (hperm : perm.Perm (List.range s.data.rows.length)) (hok : (s.stochastic none prop perm).1 = .ok ()) :
    ∃ i, (s.stochastic none prop perm).2.st.idx = some i ∧ ∀ j ∈ i, j < (s.stochastic none prop perm).2.data.rows.length := by
  have hn := (h.2 he).1
  have e2 : (s.stochastic none prop perm).2.data = s.data := rfl
  rw [e2]
  cases prop with
  | none =>
    exact ⟨List.range s.data.rows.length, by simp [SampleSt.stochastic, STree.stochastic, hn, STree.st], by simp⟩
  | some p =>
    by_cases hp : p ≤ 0 ∨ 1 < p
    · have := (C08_refused (.node true s.st []) _ hn p hp perm).1
      simp only [SampleSt.stochastic] at hok
      rw [this] at hok; cases hok
    · push Not at hp
      obtain ⟨i, _, h2, _, h4, _, _⟩ := C08_proportion (.node true s.st []) _ hn p hp.1 hp.2 perm hperm
      exact ⟨i, h2, h4⟩

/-- **C12 is violated** after a refused re-initialisation: the new sample is in place with the selection of the former one, here out of range,
so that the current sample cannot be read. -/
theorem C12_failed_init_violated : ∃ (s : SampleSt Nat Nat) (perm : List Nat) (rand : RandInit Nat),
    s.currentSample = .ok (.rows [[1], [3]]) ∧
    let r := initSample (.value ⟨1, [[9]]⟩) (some [0]) (some 1) perm rand s
    r.1 = .error .assertionError ∧ r.2.data = ⟨1, [[9]]⟩ ∧ r.2.st.idx = some [0, 2] ∧ r.2.currentSample = .error .indexError :=
  ⟨⟨fun _ => ⟨1, [[1], [2], [3]]⟩, 1, ⟨some 3, some [0, 2], CacheSt.init⟩, some 1, 0, false, none⟩, [],
    ⟨fun n d => ⟨d, List.replicate n (List.replicate d 0)⟩, by simp, by simp, by
      intro n d r hr; simp only [List.mem_replicate] at hr; simp [hr.2]⟩,
    by decide, by decide⟩

/-- **C12 is violated** by given indices: they are not checked. -/
theorem C12_given_idx_violated (s : SampleSt R α) (n : Nat) (hn : s.st.numTotal = some n) (i : List Nat)
    (hi : ∃ j ∈ i, s.data.rows.length ≤ j) (perm : List Nat) :
    (s.stochastic (some i) none perm).1 = .ok () ∧ (s.stochastic (some i) none perm).2.currentSample = .error .indexError := by
  have e1 : (s.stochastic (some i) none perm).2.st.idx = some i := by
    simp [SampleSt.stochastic, STree.stochastic, hn, STree.st]
  refine ⟨by simp [SampleSt.stochastic, STree.stochastic, hn], ?_⟩
  have : i.mapM (fun j => (s.stochastic (some i) none perm).2.data.rows[j]?) = none := by
    have e2 : (s.stochastic (some i) none perm).2.data = s.data := rfl
    rw [e2]
    clear e1 e2
    induction i with
    | nil => obtain ⟨j, hj, _⟩ := hi; cases hj
    | cons a i ih =>
      rw [List.mapM_cons]
      cases ha : s.data.rows[a]? with
      | none => rfl
      | some r =>
        obtain ⟨j, hj, hle⟩ := hi
        rcases List.mem_cons.1 hj with rfl | hj
        · rw [List.getElem?_eq_none hle] at ha; cases ha
        · rw [ih ⟨j, hj, hle⟩]; rfl
  simp only [currentSample, e1, this]

/-! ## C13 -/

/-- **C13**, constructor with no dimension, or with only `dim_input`: succeeds, without sample. -/
theorem C13_construct_partial (heap : Nat → Mat R) (next : Nat) (dim : Option Nat) (trainable : Bool) (idx : Option (List Nat))
    (prop : Option ℚ) (perm : List Nat) (rand : RandInit R) :
    ∃ s : SampleSt R α, construct heap next .none dim none trainable idx prop perm rand = .ok s ∧
      s.data.nelem = 0 ∧ s.st.numTotal = none ∧ s.dimInput = dim := by
  refine ⟨_, rfl, ?_, rfl, rfl⟩
  simp [initSample, SampleSt.data, Mat.nelem]

/-- **C13**, completion: assigning `dim_input` and `num_sample` in either order to an object without either yields a sample of these
dimensions, all points selected. -/
theorem C13_complete_partial (s : SampleSt R α) (hn : s.st.numTotal = none) (hd : s.dimInput = none) (n d : Nat) (perm perm' : List Nat)
    (rand rand' : RandInit R) :
    (let s1 := (setDim d perm rand s).2
     let r := setNum n perm' rand' s1
     r.1 = .ok () ∧ r.2.data.rows.length = n ∧ r.2.data.cols = d ∧ r.2.data.WF ∧ r.2.st.idx = some (List.range n)) ∧
    (let s1 := (setNum n perm rand s).2
     let r := setDim d perm' rand' s1
     r.1 = .ok () ∧ r.2.data.rows.length = n ∧ r.2.data.cols = d ∧ r.2.data.WF ∧ r.2.st.idx = some (List.range n)) := by
  have key : ∀ s0 : SampleSt R α, s0.st.numTotal = some n → s0.dimInput = some d → ∀ perm rand,
      (initSample .none none none perm rand s0).1 = .ok () ∧
      (initSample .none none none perm rand s0).2.data.rows.length = n ∧ (initSample .none none none perm rand s0).2.data.cols = d ∧
      (initSample .none none none perm rand s0).2.data.WF ∧
      (initSample .none none none perm rand s0).2.st.idx = some (List.range n) := by
    intro s0 h1 h2 perm rand
    obtain ⟨_, a, b, c⟩ := dims_init_none h1 h2 perm rand none none
    refine ⟨?_, a, b, c, ?_⟩ <;> simp [initSample, h1, h2, SampleSt.stochastic, STree.stochastic, STree.st]
  constructor
  · have e1 : (setDim d perm rand s).2 = { s with dimInput := some d } := by simp [setDim, hn, hd]
    have e2 : setNum n perm' rand' { s with dimInput := some d } =
        initSample .none none none perm' rand' { s with dimInput := some d, st := { s.st with numTotal := some n } } := by
      simp [setNum, hn]
    rw [e1]
    simp only
    rw [e2]
    exact key _ rfl rfl _ _
  · have e1 : (setNum n perm rand s).2 = { s with st := { s.st with numTotal := some n } } := by simp [setNum, hn, hd]
    have e2 : setDim d perm' rand' { s with st := { s.st with numTotal := some n } } =
        initSample .none none none perm' rand' { s with dimInput := some d, st := { s.st with numTotal := some n } } := by
      simp [setDim, hd]
    rw [e1]
    simp only
    rw [e2]
    exact key _ rfl rfl _ _

/-- **C13**, constructor with both dimensions. -/
theorem C13_construct_both_partial (heap : Nat → Mat R) (next : Nat) (n d : Nat) (trainable : Bool) (perm : List Nat)
    (rand : RandInit R) :
    ∃ s : SampleSt R α, construct heap next .none (some d) (some n) trainable none none perm rand = .ok s ∧
      s.data.rows.length = n ∧ s.data.cols = d := by
  refine ⟨_, rfl, ?_, ?_⟩ <;> simp [initSample, SampleSt.stochastic, SampleSt.data, rand.rows, rand.cols]

/-- **C13 is violated** by the constructor with only `num_sample`: it raises. -/
theorem C13_only_num_violated (heap : Nat → Mat R) (next n : Nat) (trainable : Bool) (idx : Option (List Nat)) (prop : Option ℚ)
    (perm : List Nat) (rand : RandInit R) :
    (construct heap next .none none (some n) trainable idx prop perm rand : Except Err (SampleSt R α)) = .error .notInitialized := by
  rfl

/-! ## C64: gradient of the updated rows -/

/-- **C64 is violated**: `update_sample` never changes the gradient, whatever rows it updates. -/
theorem C64_grad_kept_violated (s : SampleSt R α) (vals : UArg R) (idx : Option (List ℤ)) (sched : Sched (ℤ × List R)) :
    (updateSample vals idx sched s).2.grad = s.grad := by
  unfold updateSample
  split
  · rfl
  · split
    · rfl
    · split <;> rfl
    · split
      · rfl
      · split
        · rfl
        · split
          · rfl
          · simp only
            split
            · rfl
            · split <;> rfl

/-- Concrete case: the updated row had a non-zero gradient, and has it still. -/
example : ∃ s : SampleSt Int Nat, Filled s ∧ s.trainable = true ∧
    (updateSample (.mat ⟨1, [[5]]⟩) (some [0]) ⟨id, fun _ => List.Perm.refl _⟩ s).1 = .ok () ∧
    (updateSample (.mat ⟨1, [[5]]⟩) (some [0]) ⟨id, fun _ => List.Perm.refl _⟩ s).2.grad = some ⟨1, [[3], [4]]⟩ :=
  ⟨⟨fun _ => ⟨1, [[1], [2]]⟩, 1, ⟨some 2, some [0, 1], CacheSt.init⟩, some 1, 0, true, some ⟨1, [[3], [4]]⟩⟩,
    ⟨by simp [SampleSt.data, Mat.nelem], rfl⟩, rfl, by decide, by decide⟩

/-! ## C65: independence of the caller's tensor -/

/-- **C65**, what holds: given as a list, an array or a tensor of another type, the values are copied: no later in-place change of
a tensor the caller holds (an address in use at that time) affects the sample. -/
theorem C65_copied_partial (s : SampleSt R α) (m : Mat R) (perm : List Nat) (rand : RandInit R) (r : Nat) (hr : r < s.next)
    (rows : List (List R)) :
    (step (setSample (.value m) perm rand s).2 (.userWrite r rows)).2.data = m ∧
    (setSample (.value m) perm rand s).2.heap r = s.heap r := by
  have h1 : (setSample (.value m) perm rand s).2.heap = Function.update s.heap s.next m := rfl
  have h2 : (setSample (.value m) perm rand s).2.ref = s.next := rfl
  have hne : s.next ≠ r := by omega
  constructor
  · simp only [step]
    split
    · rw [SampleSt.data]
      simp only [h1, h2]
      rw [Function.update_of_ne hne]; simp
    · rw [SampleSt.data, h1, h2]; simp
  · rw [h1, Function.update_of_ne hne.symm]

/-- **C65 is violated** for a float tensor: an in-place change by the caller changes the sample, without resetting the cache. -/
theorem C65_aliased_violated (s : SampleSt R α) (r : Nat) (perm : List Nat) (rand : RandInit R) (rows : List (List R))
    (hl : rows.length = (s.heap r).rows.length) :
    let s1 := (setSample (.tensor r) perm rand s).2
    (step s1 (.userWrite r rows)).2.data.rows = rows ∧ (step s1 (.userWrite r rows)).2.st = s1.st := by
  have h1 : (setSample (.tensor r) perm rand s).2.heap = s.heap := rfl
  have h2 : (setSample (.tensor r) perm rand s).2.ref = r := rfl
  simp only [step, h1, hl, if_true, and_true]
  simp [SampleSt.data, h1, h2]

/-- **C65 is violated** for a float tensor: `update_sample` writes into the tensor of the caller. -/
theorem C65_update_writes_caller_violated (s : SampleSt R α) (r : Nat) (perm : List Nat) (rand : RandInit R) (m : Mat R) (hm : m.WF)
    (hne : (s.heap r).nelem ≠ 0) (hl : m.rows.length = (s.heap r).rows.length) (hc : m.cols = (s.heap r).cols)
    (sched : Sched (ℤ × List R)) :
    let s1 := (setSample (.tensor r) perm rand s).2
    (updateSample (.mat m) none sched s1).2.heap r = m := by
  intro s1
  have h1 : s1.heap = s.heap := rfl
  have h2 : s1.ref = r := rfl
  have hf : Filled s1 := by
    constructor
    · rw [SampleSt.data, h1, h2]; exact hne
    · exact (stochastic_frame none none perm _).2.2.2.1
  have := C11_update_all s1 hf m (by rw [SampleSt.data, h1, h2]; exact hl)
    (by rw [SampleSt.data, h1, h2]; exact hc) hm sched
  have hr : (updateSample (.mat m) none sched s1).2.ref = s1.ref := by
    rw [update_unfold s1 hf]
    split
    · rfl
    · split
      · rfl
      · simp only
        split
        · rfl
        · split <;> rfl
  rw [SampleSt.data, hr, h2] at this
  exact this

end Kerch

/-! ## Concrete cases meeting the hypotheses of the theorems above -/

namespace Kerch
open SampleSt
namespace SampleCase

/-- Two rows of two columns, nothing selected out. -/
def s0 : SampleSt Nat Nat := ⟨fun _ => ⟨2, [[1, 2], [3, 4]]⟩, 1, ⟨some 2, some [0, 1], CacheSt.init⟩, some 2, 0, false, none⟩

/-- The same sample, trainable and without gradient. -/
def s1 : SampleSt Nat Nat := { s0 with trainable := true }

/-- The second point is selected. -/
def s2 : SampleSt Nat Nat := { s0 with st := ⟨some 2, some [1], CacheSt.init⟩ }

/-- An object nobody gave a number of points or a dimension. -/
def sE : SampleSt Nat Nat := ⟨fun _ => ⟨0, []⟩, 1, ⟨none, none, CacheSt.init⟩, none, 0, false, none⟩

def seq : Sched (ℤ × List Nat) := ⟨List.reverse, fun l => List.reverse_perm l⟩

def rand : RandInit Nat where
  val n d := ⟨d, List.replicate n (List.replicate d 5)⟩
  rows n d := by simp
  cols n d := rfl
  wf n d := by intro r hr; rw [List.eq_of_mem_replicate hr]; simp

theorem s0_filled : Filled s0 := ⟨by decide, rfl⟩
theorem s1_filled : Filled s1 := ⟨by decide, rfl⟩

example := C11_update_frame s0 s0_filled ⟨2, [[7, 8]]⟩ (some [-1]) seq
example := C11_update_sets s0 s0_filled ⟨2, [[7, 8]]⟩ (some [-1]) seq (Or.inl (by decide)) 0 (-1) [7, 8] ⟨rfl, rfl⟩
example := C11_update_sets s1 s1_filled ⟨2, [[7, 8]]⟩ (some [-1]) seq (Or.inr (by decide)) 0 (-1) [7, 8] ⟨rfl, rfl⟩
example := C11_update_sets_unique s0 s0_filled ⟨2, [[7, 8], [9, 6]]⟩ (by simp [Mat.WF]) rfl (some [-1, 0]) (by decide) seq (by decide)
  1 0 [9, 6] ⟨rfl, rfl⟩
example := (C11_refused s0 s0_filled (some [0]) seq).1 ⟨2, [[7, 8], [9, 6]]⟩ (by decide)
example := (C11_refused s0 s0_filled (some [0]) seq).2.1 ⟨3, [[7, 8, 9]]⟩ (by decide) (by decide) (by decide)
example := C11_empty sE rfl (.mat ⟨2, [[7, 8]]⟩) (some [0]) seq
example := C11_reads_new_partial s0 s0_filled List.nodup_nil ⟨2, [[7, 8]]⟩ (some [-1]) seq (by decide)
example := C11_trainable_violated s1 s1_filled rfl rfl ⟨2, [[7, 8], [9, 6]]⟩ rfl rfl (by simp [Mat.WF]) seq
example := C11_update_all s0 s0_filled ⟨2, [[7, 8], [9, 6]]⟩ rfl rfl (by simp [Mat.WF]) seq
example := C12_dims (fun _ => ⟨2, [[1, 2], [3, 4]]⟩) 1 (.tensor 0) none none false none none [0, 1] rand
  (⟨Function.update (fun _ => ⟨2, [[1, 2], [3, 4]]⟩) 1 ⟨0, []⟩, 2, ⟨some 2, some [0, 1], CacheSt.init⟩, some 2, 0, false, none⟩ :
    SampleSt Nat Nat) (by rfl) [.setSample (.value ⟨1, [[3]]⟩) [0] rand, .userWrite 0 [[5, 6], [7, 8]]]
example := C12_current s2 [1] rfl (by decide)
example := C12_reinit s0 (.value ⟨1, [[3]]⟩) (by simp) (by simp) [] rand
example := C12_selection_in_range s0 (dims_of_eq rfl rfl) (by decide) (some (1 / 2)) [1, 0] (by decide) (by decide +kernel)
example := C12_given_idx_violated s0 2 rfl [0, 5] ⟨5, by decide, by decide⟩ []
example := C13_complete_partial sE rfl rfl 3 2 [] [] rand rand
example := C65_copied_partial s0 ⟨1, [[3]]⟩ [] rand 0 (by decide) [[5, 6], [7, 8]]
example := C65_aliased_violated s0 0 [] rand [[5, 6], [7, 8]] rfl
example := C65_update_writes_caller_violated s0 0 [] rand ⟨2, [[7, 8], [9, 6]]⟩ (by simp [Mat.WF]) (by decide) rfl rfl seq

end SampleCase
end Kerch
