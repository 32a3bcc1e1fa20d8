import Verif.Model.Selection
import Mathlib.Data.List.Basic
import Mathlib.Data.List.Nodup
import Mathlib.Data.List.Forall2
import Mathlib.Tactic.Ring
import Mathlib.Tactic.Linarith
/-!
# C163: what a selection selects
-/
set_option linter.unusedSectionVars false
set_option linter.unusedSimpArgs false
namespace Kerch
namespace Selection
variable {V : Type}

/-! ## Specification -/

/-- The integers that can be used with `n` rows. -/
def InRange (n : Nat) (l : List Int) : Prop := ∀ i ∈ l, -(n : Int) ≤ i ∧ i < n

/-- The row meant by an integer: counted from the beginning, or from the end if it is negative. -/
def meant (n : Nat) (i : Int) : Nat := if 0 ≤ i then i.toNat else ((n : Int) + i).toNat

/-- The user changes no object while it is in use as a selection. -/
def Undisturbed (w : World V) (ops : List (Op V)) : Prop :=
  ∀ pre a s post, ops = pre ++ .change a s :: post → ∀ o ∈ (w.run pre).objs, ∀ b, o.held = .user b → b ≠ a

/-- What is kept comes from the selected rows. -/
def Coherent (w : World V) : Prop := ∀ o ∈ w.objs, ∀ r, o.kept = some r → w.current o = .ok r

/-! ## Lemmas -/

theorem place_inRange {n : Nat} {i : Int} (h : -(n : Int) ≤ i ∧ i < n) : place n i = some (meant n i) ∧ meant n i < n := by
  unfold place meant
  by_cases h0 : 0 ≤ i
  · rw [if_pos ⟨h0, h.2⟩, if_pos h0]; exact ⟨rfl, by omega⟩
  · rw [if_neg (by omega), if_pos (by omega), if_neg h0]; exact ⟨rfl, by omega⟩

theorem place_none {n : Nat} {i : Int} (h : ¬ (-(n : Int) ≤ i ∧ i < n)) : place n i = none := by
  unfold place
  rw [if_neg (by omega), if_neg (by omega)]

theorem places_inRange {n : Nat} : ∀ {l : List Int}, InRange n l → places n l = .ok (l.map (meant n))
  | [], _ => rfl
  | i :: l, h => by
    simp only [places, (place_inRange (h i (by simp))).1, places_inRange (l := l) (fun j hj => h j (by simp [hj])), List.map_cons]

theorem places_error {n : Nat} : ∀ {l : List Int}, ¬ InRange n l → places n l = .error .indexError
  | [], h => absurd (fun i hi => by simp at hi) h
  | i :: l, h => by
    by_cases hi : -(n : Int) ≤ i ∧ i < n
    · have : ¬ InRange n l := fun hl => h fun j hj => by
        rcases List.mem_cons.1 hj with rfl | hj
        · exact hi
        · exact hl j hj
      simp only [places, (place_inRange hi).1, places_error this]
    · simp only [places, place_none hi]

theorem filterMap_get {rows : List V} : ∀ {ps : List Nat}, (∀ p ∈ ps, p < rows.length) → ∀ j : Nat, (ps.filterMap fun p => rows[p]?)[j]? = (ps[j]?).bind fun p => rows[p]?
  | [], _, j => by simp
  | p :: ps, h, j => by
    have hp : p < rows.length := h p (by simp)
    rw [List.filterMap_cons, List.getElem?_eq_getElem hp]
    cases j with
    | zero => simp [List.getElem?_eq_getElem hp]
    | succ j => simpa using filterMap_get (fun q hq => h q (by simp [hq])) j

theorem filterMap_length {rows : List V} : ∀ {ps : List Nat}, (∀ p ∈ ps, p < rows.length) → (ps.filterMap fun p => rows[p]?).length = ps.length
  | [], _ => rfl
  | p :: ps, h => by
    rw [List.filterMap_cons, List.getElem?_eq_getElem (h p (by simp))]
    simpa using filterMap_length fun q hq => h q (by simp [hq])

theorem marked_lt (k : Nat) : ∀ (m : List Bool), ∀ p ∈ marked k m, k ≤ p ∧ p < k + m.length
  | [], p, hp => by simp [marked] at hp
  | b :: m, p, hp => by
    have hm := marked_lt (k + 1) m p
    simp only [marked] at hp
    simp only [List.length_cons]
    cases b with
    | true =>
      simp only [if_true, List.mem_cons] at hp
      rcases hp with rfl | hp
      · omega
      · have := hm hp; omega
    | false => simp at hp; have := hm hp; omega

theorem marked_length (k : Nat) : ∀ (m : List Bool), (marked k m).length = m.count true
  | [] => rfl
  | b :: m => by cases b <;> simp [marked, marked_length (k + 1) m]

theorem rows_lt {n : Nat} {s : Sel} {ps : List Nat} (h : s.rows n = .ok ps) : ∀ p ∈ ps, p < n := by
  cases s with
  | ints l =>
    by_cases hl : InRange n l
    · simp only [Sel.rows, places_inRange hl, Except.ok.injEq] at h
      subst h
      intro p hp
      obtain ⟨i, hi, rfl⟩ := List.mem_map.1 hp
      exact (place_inRange (hl i hi)).2
    · simp only [Sel.rows, places_error hl] at h; cases h
  | mask m =>
    simp only [Sel.rows] at h
    by_cases hm : m.length = n
    · rw [if_pos hm] at h
      cases h
      intro p hp
      have := marked_lt 0 m p hp
      omega
    · rw [if_neg hm] at h; cases h
  | slice lo hi =>
    simp only [Sel.rows, Except.ok.injEq] at h
    subst h
    intro p hp
    simpa using (List.mem_filter.1 hp).1

theorem take_ok {rows : List V} {s : Sel} {r : List V} (h : take rows s = .ok r) : ∃ ps, s.rows rows.length = .ok ps ∧ r = ps.filterMap fun p => rows[p]? := by
  unfold take at h
  cases hs : s.rows rows.length with
  | error e => rw [hs] at h; cases h
  | ok ps => rw [hs] at h; cases h; exact ⟨ps, rfl, rfl⟩

theorem zip_filterMap {W : Type} {a : List V} {b : List W} (hab : a.length = b.length) : ∀ {ps : List Nat}, (∀ p ∈ ps, p < a.length) →
    (ps.filterMap fun p => (a.zip b)[p]?) = (ps.filterMap fun p => a[p]?).zip (ps.filterMap fun p => b[p]?)
  | [], _ => rfl
  | p :: ps, h => by
    have hp : p < a.length := h p (by simp)
    have hq : p < b.length := hab ▸ hp
    have hz : p < (a.zip b).length := by simp [hab]; omega
    rw [List.filterMap_cons, List.filterMap_cons, List.filterMap_cons, List.getElem?_eq_getElem hp, List.getElem?_eq_getElem hq, List.getElem?_eq_getElem hz]
    have ih := zip_filterMap hab (ps := ps) fun q hq => h q (by simp [hq])
    simp [ih]

theorem put_length : ∀ (l : List (Nat × V)) (rows : List V), (put rows l).length = rows.length
  | [], _ => rfl
  | (p, v) :: l, rows => by simp [put, put_length l]

theorem put_other (q : Nat) : ∀ (l : List (Nat × V)) (rows : List V), (∀ x ∈ l, x.1 ≠ q) → (put rows l)[q]? = rows[q]?
  | [], _, _ => rfl
  | (p, v) :: l, rows, h => by
    rw [put, put_other q l _ fun x hx => h x (by simp [hx]), List.getElem?_set_ne (h (p, v) (by simp))]

theorem put_read : ∀ (ps : List Nat) (vs rows : List V), ps.Nodup → (∀ p ∈ ps, p < rows.length) → ps.length = vs.length →
    (ps.filterMap fun p => (put rows (ps.zip vs))[p]?) = vs
  | [], [], _, _, _, _ => rfl
  | [], _ :: _, _, _, _, h => by simp at h
  | _ :: _, [], _, _, _, h => by simp at h
  | p :: ps, v :: vs, rows, hn, hl, h => by
    obtain ⟨hp, hn⟩ := List.nodup_cons.1 hn
    have hlp : p < rows.length := hl p (by simp)
    have e : (put (rows.set p v) (ps.zip vs))[p]? = some v := by
      rw [put_other p _ _ fun x hx hxp => hp (hxp ▸ (List.of_mem_zip hx).1)]
      simp [hlp]
    rw [List.filterMap_cons]
    simp only [List.zip_cons_cons, put, e]
    rw [put_read ps vs (rows.set p v) hn (fun q hq => by simpa using hl q (by simp [hq])) (by simpa using h)]

theorem take_ints {rows : List V} {l : List Int} (h : InRange rows.length l) : take rows (.ints l) = .ok ((l.map (meant rows.length)).filterMap fun p => rows[p]?) := by
  simp only [take, Sel.rows, places_inRange h]

theorem meant_lt {n : Nat} {l : List Int} (h : InRange n l) : ∀ p ∈ l.map (meant n), p < n := by
  intro p hp
  obtain ⟨i, hi, rfl⟩ := List.mem_map.1 hp
  exact (place_inRange (h i hi)).2

theorem take_all (rows : List V) : take rows (.ints ((List.range rows.length).map Int.ofNat)) = .ok rows := by
  have hr : InRange rows.length ((List.range rows.length).map Int.ofNat) := by
    intro i hi
    obtain ⟨p, hp, rfl⟩ := List.mem_map.1 hi
    have := List.mem_range.1 hp
    simp only [Int.ofNat_eq_natCast]
    omega
  rw [take_ints hr, List.map_map]
  have : (List.range rows.length).map (meant rows.length ∘ Int.ofNat) = List.range rows.length := by
    conv => rhs; rw [← List.map_id (List.range rows.length)]
    refine List.map_congr_left fun p _ => ?_
    simp [meant]
  rw [this]
  congr 1
  refine List.ext_getElem? fun j => ?_
  rw [filterMap_get (by simp)]
  by_cases hj : j < rows.length
  · simp [List.getElem?_range, hj]
  · simp [hj]

theorem mem_hold {w : World V} {h : Held} {o : Obj V} (ho : o ∈ (w.hold h).objs) : o.held = h ∧ o.kept = none ∧ ∃ o' ∈ w.objs, o'.rows = o.rows := by
  simp only [World.hold, List.mem_map] at ho
  obtain ⟨o', ho', rfl⟩ := ho
  exact ⟨rfl, rfl, o', ho', rfl⟩

theorem compute_none {w : World V} {o : Obj V} (h : o.kept = none) : (w.compute o).1 = w.current o := by
  unfold World.compute
  rw [h]
  cases w.current o <;> rfl

theorem compute_held (w : World V) (o : Obj V) : (w.compute o).2.held = o.held := by
  unfold World.compute
  cases o.kept with
  | some r => rfl
  | none => cases hcur : w.current o <;> rfl

theorem mem_modify {α : Type} {f : α → α} : ∀ {i : Nat} {l : List α} {x : α}, x ∈ l.modify i f → x ∈ l ∨ ∃ y ∈ l, x = f y
  | _, [], x, h => by simp at h
  | 0, y :: l, x, h => by
    simp only [List.modify_zero_cons, List.mem_cons] at h
    rcases h with rfl | h
    · exact Or.inr ⟨y, by simp, rfl⟩
    · exact Or.inl (by simp [h])
  | i + 1, y :: l, x, h => by
    simp only [List.modify_succ_cons, List.mem_cons] at h
    rcases h with rfl | h
    · exact Or.inl (by simp)
    · rcases mem_modify h with h | ⟨z, hz, rfl⟩
      · exact Or.inl (by simp [h])
      · exact Or.inr ⟨z, by simp [hz], rfl⟩

theorem update_refused {o : Obj V} {v : List V} {s : Sel} {e : Err} (h : (o.update v s).1 = .error e) : (o.update v s).2 = o := by
  unfold Obj.update at h ⊢
  cases hs : s.len with
  | error e => rfl
  | ok k =>
    rw [hs] at h
    simp only at h ⊢
    by_cases hk : k = v.length
    · rw [if_pos hk] at h ⊢
      cases hs : s.rows o.rows.length with
      | error e => rfl
      | ok ps =>
        rw [hs] at h
        simp only at h ⊢
        by_cases hp : ps.length = v.length ∨ v.length = 1
        · rw [if_pos hp] at h; cases h
        · rw [if_neg hp]
    · rw [if_neg hk]

theorem update_ok {o : Obj V} {v : List V} {s : Sel} (h : (o.update v s).1 = .ok ()) : (o.update v s).2.kept = none := by
  unfold Obj.update at h ⊢
  cases hs : s.len with
  | error e => rw [hs] at h; cases h
  | ok k =>
    rw [hs] at h
    simp only at h ⊢
    by_cases hk : k = v.length
    · rw [if_pos hk] at h ⊢
      cases hs : s.rows o.rows.length with
      | error e => rw [hs] at h; cases h
      | ok ps =>
        rw [hs] at h
        simp only at h ⊢
        by_cases hp : ps.length = v.length ∨ v.length = 1
        · rw [if_pos hp]
        · rw [if_neg hp] at h; cases h
    · rw [if_neg hk] at h; cases h

theorem coherent_step {w : World V} (hc : Coherent w) (x : Op V) (hx : ∀ a s, x = .change a s → ∀ o ∈ w.objs, ∀ b, o.held = .user b → b ≠ a) : Coherent (w.step x) := by
  cases x with
  | select a => intro o ho r hr; rw [(mem_hold ho).2.1] at hr; cases hr
  | random l => intro o ho r hr; rw [(mem_hold ho).2.1] at hr; cases hr
  | all => intro o ho r hr; rw [(mem_hold ho).2.1] at hr; cases hr
  | change a s =>
    intro o ho r hr
    have := hc o ho r hr
    have hh := hx a s rfl o ho
    simp only [World.current, World.step, World.sel] at this ⊢
    cases ho' : o.held with
    | own t => rw [ho'] at this; exact this
    | user b =>
      rw [ho'] at this
      simp only [Function.update_of_ne (hh b ho')]
      exact this
  | compute i =>
    intro o ho r hr
    rcases mem_modify ho with ho | ⟨o', ho', rfl⟩
    · exact hc o ho r hr
    · have key : w.current (w.compute o').2 = w.current o' := by
        unfold World.compute
        cases o'.kept with
        | some r => rfl
        | none => cases hcur : w.current o' <;> exact hcur
      have : (w.step (.compute i)).current (w.compute o').2 = w.current (w.compute o').2 := rfl
      rw [this, key]
      cases hk : o'.kept with
      | some r' =>
        have : (w.compute o').2 = o' := by unfold World.compute; rw [hk]
        rw [this] at hr
        exact hc o' ho' r hr
      | none =>
        unfold World.compute at hr
        rw [hk] at hr
        simp only at hr
        cases hcur : w.current o' with
        | error e => rw [hcur] at hr; simp only at hr; rw [hk] at hr; cases hr
        | ok r' => rw [hcur] at hr; simp only [Option.some.injEq] at hr; rw [hr]
  | update i v s =>
    intro o ho r hr
    rcases mem_modify ho with ho | ⟨o', ho', rfl⟩
    · exact hc o ho r hr
    · cases hu : (o'.update v s).1 with
      | error e => rw [update_refused hu] at hr ⊢; exact hc o' ho' r hr
      | ok u => rw [update_ok hu] at hr; cases hr

theorem coherent_run : ∀ (ops : List (Op V)) (w : World V), Coherent w → Undisturbed w ops → Coherent (w.run ops)
  | [], _, hc, _ => hc
  | x :: ops, w, hc, hu => by
    refine coherent_run ops (w.step x) (coherent_step hc x fun a s e o ho b hb => ?_) fun pre a s post e o ho b hb => ?_
    · exact hu [] a s ops (by rw [e]; rfl) o ho b hb
    · exact hu (x :: pre) a s post (by rw [e]; rfl) o ho b hb

/-! ## Properties -/

/-- **C163** A list of integers, repeated or negative ones included, selects in every part of the module, in the order of the list, the rows it means; `num_idx` is their number. -/
theorem C163_ints (w : World V) (a : Nat) (l : List Int) (ha : w.user a = .ints l) (o : Obj V) (ho : o ∈ (w.step (.select a)).objs) (hl : InRange o.rows.length l) :
    ∃ r, (w.step (.select a)).current o = .ok r ∧ ((w.step (.select a)).compute o).1 = .ok r ∧ (w.step (.select a)).numIdx o = .ok r.length ∧ r.length = l.length ∧
      ∀ (j : Nat) (i : Int), l[j]? = some i → r[j]? = o.rows[meant o.rows.length i]? ∧ meant o.rows.length i < o.rows.length := by
  obtain ⟨hh, hk, -⟩ := mem_hold ho
  have hs : (w.step (.select a)).sel o = .ints l := by simp only [World.sel, hh]; exact ha
  have hcur := take_ints hl
  have hlen := filterMap_length (meant_lt hl)
  refine ⟨(l.map (meant o.rows.length)).filterMap fun p => o.rows[p]?, ?_, ?_, ?_, ?_, fun j i hj => ⟨?_, (place_inRange (hl i (List.mem_of_getElem? hj))).2⟩⟩
  · rw [World.current, hs, hcur]
  · rw [compute_none hk, World.current, hs, hcur]
  · rw [World.numIdx, hs, Sel.len, hlen, List.length_map]
  · rw [hlen, List.length_map]
  · rw [filterMap_get (meant_lt hl), List.getElem?_map, hj]
    rfl

/-- **C163 is violated**: a list with an integer that no row corresponds to is not refused. The number of selected indices is reported, but every evaluation on the sample raises, until something else is selected. -/
theorem C163_late_violated (w : World V) (a : Nat) (l : List Int) (ha : w.user a = .ints l) (o : Obj V) (ho : o ∈ (w.step (.select a)).objs) (hl : ¬ InRange o.rows.length l) :
    (w.step (.select a)).numIdx o = .ok l.length ∧ (w.step (.select a)).current o = .error .indexError ∧
      (w.step (.select a)).compute o = (.error .indexError, o) := by
  obtain ⟨hh, hk, -⟩ := mem_hold ho
  have hs : (w.step (.select a)).sel o = .ints l := by simp only [World.sel, hh]; exact ha
  have hcur : (w.step (.select a)).current o = .error .indexError := by rw [World.current, hs, take, Sel.rows, places_error hl]
  refine ⟨by rw [World.numIdx, hs, Sel.len], hcur, ?_⟩
  unfold World.compute
  rw [hk, hcur]

/-- **C163** Selecting everything, as `eval()` does, always restores the whole sample of the module and of its parts of the same size, whatever was selected, changed and raised before. -/
theorem C163_all (w : World V) (o₀ o : Obj V) (h0 : (w.step .all).objs.head? = some o₀) (ho : o ∈ (w.step .all).objs) (hn : o.rows.length = o₀.rows.length) :
    (w.step .all).current o = .ok o.rows ∧ ((w.step .all).compute o).1 = .ok o.rows ∧ (w.step .all).numIdx o = .ok o.rows.length := by
  obtain ⟨hh, hk, -⟩ := mem_hold ho
  have he : w.everything = .ints ((List.range o.rows.length).map Int.ofNat) := by
    unfold World.everything
    have : ((w.objs.map fun o : Obj V => o.rows.length).head?.getD 0) = o.rows.length := by
      simp only [World.step, World.hold, List.head?_map] at h0
      rw [List.head?_map]
      cases hw : w.objs.head? with
      | none => rw [hw] at h0; cases h0
      | some x => rw [hw] at h0; cases h0; simpa using hn.symm
    rw [this]
  have hs : (w.step .all).sel o = .ints ((List.range o.rows.length).map Int.ofNat) := by simp only [World.sel, hh]; exact he
  have hcur : (w.step .all).current o = .ok o.rows := by rw [World.current, hs, take_all]
  exact ⟨hcur, by rw [compute_none hk, hcur], by rw [World.numIdx, hs, Sel.len]; simp⟩

/-- **C163** Rows that belong together stay together: whatever the selection, the same rows of a sample, of its targets and of the dual variables are used, if there are as many of each. -/
theorem C163_aligned {W : Type} (a : List V) (b : List W) (hab : a.length = b.length) (s : Sel) :
    (∀ r, take a s = .ok r → ∃ r', take b s = .ok r' ∧ r'.length = r.length ∧ take (a.zip b) s = .ok (r.zip r')) ∧
    (∀ e, take a s = .error e → take b s = .error e) := by
  refine ⟨fun r hr => ?_, fun e he => ?_⟩
  · obtain ⟨ps, hps, rfl⟩ := take_ok hr
    have hlt := rows_lt hps
    refine ⟨ps.filterMap fun p => b[p]?, ?_, ?_, ?_⟩
    · rw [take, ← hab, hps]
    · rw [filterMap_length hlt, filterMap_length (hab ▸ hlt)]
    · rw [take, List.length_zip, ← hab, Nat.min_self, hps]
      simp only [zip_filterMap hab hlt]
  · unfold take at he ⊢
    rw [← hab]
    cases hs : s.rows a.length with
    | error e' => rw [hs] at he; cases he; rfl
    | ok ps => rw [hs] at he; cases he

/-- **C163 is violated**: a mask selects the marked rows, but the number of selected indices, by which variances and covariances are divided, is that of all rows. It is right only if all are marked. -/
theorem C163_mask_violated (w : World V) (a : Nat) (m : List Bool) (ha : w.user a = .mask m) (o : Obj V) (ho : o ∈ (w.step (.select a)).objs) (hm : m.length = o.rows.length) :
    ∃ r, (w.step (.select a)).current o = .ok r ∧ r.length = m.count true ∧ (w.step (.select a)).numIdx o = .ok o.rows.length ∧
      ((w.step (.select a)).numIdx o = .ok r.length ↔ ∀ b ∈ m, b = true) := by
  obtain ⟨hh, hk, -⟩ := mem_hold ho
  have hs : (w.step (.select a)).sel o = .mask m := by simp only [World.sel, hh]; exact ha
  have hlt : ∀ p ∈ marked 0 m, p < o.rows.length := fun p hp => by have := marked_lt 0 m p hp; omega
  have hn : (w.step (.select a)).numIdx o = .ok o.rows.length := by rw [World.numIdx, hs, Sel.len, hm]
  have hlen : ((marked 0 m).filterMap fun p => o.rows[p]?).length = m.count true := by rw [filterMap_length hlt, marked_length]
  refine ⟨_, by rw [World.current, hs, take, Sel.rows, if_pos hm], hlen, hn, ?_⟩
  rw [hn, Except.ok.injEq, hlen, ← hm]
  exact ⟨fun h b hb => ((List.count_eq_length).1 h.symm b hb).symm, fun h => ((List.count_eq_length).2 fun b hb => (h b hb).symm).symm⟩

/-- **C163** A mask made for another number of rows is not refused when selected, and raises in every part with another number of rows. -/
theorem C163_mask_size (w : World V) (a : Nat) (m : List Bool) (ha : w.user a = .mask m) (o : Obj V) (ho : o ∈ (w.step (.select a)).objs) :
    (w.step (.select a)).current o = .error .indexError ↔ m.length ≠ o.rows.length := by
  obtain ⟨hh, hk, -⟩ := mem_hold ho
  have hs : (w.step (.select a)).sel o = .mask m := by simp only [World.sel, hh]; exact ha
  rw [World.current, hs, take, Sel.rows]
  by_cases hm : m.length = o.rows.length
  · rw [if_pos hm]; simp [hm]
  · rw [if_neg hm]; simp [hm]

/-- **C163 is violated**: a slice selects rows, but what needs their number raises. -/
theorem C163_slice_violated (w : World V) (a lo hi : Nat) (ha : w.user a = .slice lo hi) (o : Obj V) (ho : o ∈ (w.step (.select a)).objs) :
    (∃ r, (w.step (.select a)).current o = .ok r) ∧ (w.step (.select a)).numIdx o = .error .typeError := by
  obtain ⟨hh, hk, -⟩ := mem_hold ho
  have hs : (w.step (.select a)).sel o = .slice lo hi := by simp only [World.sel, hh]; exact ha
  exact ⟨⟨_, by rw [World.current, hs, take, Sel.rows]⟩, by rw [World.numIdx, hs, Sel.len]⟩

/-- **C163**, partial: after any history every evaluation on the sample is that of the rows selected now, if the user changes no object while it is used as a selection.
Missing (`_partial`): otherwise, `C163_held_violated`. -/
theorem C163_history_partial (w : World V) (hw : Coherent w) (ops : List (Op V)) (hu : Undisturbed w ops) (o : Obj V) (ho : o ∈ (w.run ops).objs) :
    ((w.run ops).compute o).1 = (w.run ops).current o := by
  have hc := coherent_run ops w hw hu o ho
  cases hk : o.kept with
  | none => exact compute_none hk
  | some r => rw [hc r hk]; unfold World.compute; rw [hk]

/-- **C163 is violated**: the object given is kept, not its content. If the user changes it, what is selected changes, while what has been computed stays, so that the same module works with two selections. -/
theorem C163_held_violated (w : World V) (a i : Nat) (s : Sel) (o : Obj V) (ho : w.objs[i]? = some o) (r r' : List V) (h1 : take o.rows (w.user a) = .ok r) (h2 : take o.rows s = .ok r') :
    ∃ o', (w.run [.select a, .compute i, .change a s]).objs[i]? = some o' ∧ (w.run [.select a, .compute i, .change a s]).current o' = .ok r' ∧
      ((w.run [.select a, .compute i, .change a s]).compute o').1 = .ok r := by
  have hcur : (w.step (.select a)).current { o with held := .user a, kept := none } = .ok r := h1
  have hcomp : ((w.step (.select a)).compute { o with held := .user a, kept := none }).2 = { o with held := .user a, kept := some r } := by
    unfold World.compute
    rw [hcur]
  refine ⟨{ o with held := .user a, kept := some r }, ?_, ?_, ?_⟩
  · show ((w.step (.select a)).objs.modify i fun o => ((w.step (.select a)).compute o).2)[i]? = _
    rw [List.getElem?_modify_eq]
    have : (w.step (.select a)).objs[i]? = some { o with held := .user a, kept := none } := by
      simp [World.step, World.hold, ho]
    rw [this]
    exact congrArg some hcomp
  · show take o.rows (Function.update w.user a s a) = _
    rw [Function.update_self]
    exact h2
  · rfl

/-- **C163** An update that is refused has no effect. -/
theorem C163_update_refused (o : Obj V) (values : List V) (s : Sel) (e : Err) (h : (o.update values s).1 = .error e) : (o.update values s).2 = o := update_refused h

/-- **C163** Rows updated through a list of integers that mean different rows are read back as given, and no other row changes. -/
theorem C163_update (o : Obj V) (values : List V) (l : List Int) (hl : InRange o.rows.length l) (hn : l.length = values.length) (hd : (l.map (meant o.rows.length)).Nodup) :
    (o.update values (.ints l)).1 = .ok () ∧ take (o.update values (.ints l)).2.rows (.ints l) = .ok values ∧ (o.update values (.ints l)).2.rows.length = o.rows.length ∧
      ∀ q, (∀ i ∈ l, meant o.rows.length i ≠ q) → (o.update values (.ints l)).2.rows[q]? = o.rows[q]? := by
  have e : o.update values (.ints l) = (.ok (), { o with rows := put o.rows ((l.map (meant o.rows.length)).zip values), kept := none }) := by
    unfold Obj.update
    simp only [Sel.len, Sel.rows, places_inRange hl]
    rw [if_pos hn, if_pos (Or.inl (by simpa using hn))]
  rw [e]
  refine ⟨rfl, ?_, put_length _ _, fun q hq => ?_⟩
  · have hl' : InRange (put o.rows ((l.map (meant o.rows.length)).zip values)).length l := by rw [put_length]; exact hl
    rw [take_ints hl', put_length, put_read _ _ _ hd (meant_lt hl) (by simpa using hn)]
  · refine put_other q _ _ fun x hx => ?_
    obtain ⟨i, hi, e⟩ := List.mem_map.1 (List.of_mem_zip hx).1
    rw [← e]
    exact hq i hi

/-- **C163 is violated** for integers that mean the same row, such as `0` and `-n`: two values are accepted and one is lost. -/
theorem C163_same_row_violated (o : Obj V) (i : Int) (h0 : 0 ≤ i) (hi : i < o.rows.length) (v v' : V) (hv : v ≠ v') :
    (o.update [v, v'] (.ints [i, i - o.rows.length])).1 = .ok () ∧
      take (o.update [v, v'] (.ints [i, i - o.rows.length])).2.rows (.ints [i, i - o.rows.length]) = .ok [v', v'] ∧ ([v', v'] : List V) ≠ [v, v'] := by
  have hl : InRange o.rows.length [i, i - o.rows.length] := by
    intro j hj
    simp only [List.mem_cons, List.not_mem_nil, or_false] at hj
    rcases hj with rfl | rfl <;> omega
  have hm : [i, i - o.rows.length].map (meant o.rows.length) = [i.toNat, i.toNat] := by
    simp only [List.map_cons, List.map_nil, meant, if_pos h0]
    rw [if_neg (by omega)]
    congr 2
    omega
  have e : o.update [v, v'] (.ints [i, i - o.rows.length]) = (.ok (), { o with rows := (o.rows.set i.toNat v).set i.toNat v', kept := none }) := by
    unfold Obj.update
    simp only [Sel.len, Sel.rows, places_inRange hl, hm]
    simp [put]
  rw [e]
  refine ⟨rfl, ?_, by simpa using fun h => hv h.symm⟩
  have hl' : InRange ((o.rows.set i.toNat v).set i.toNat v').length [i, i - o.rows.length] := by simpa using hl
  rw [take_ints hl']
  simp only [List.length_set]
  rw [hm]
  have : ((o.rows.set i.toNat v).set i.toNat v')[i.toNat]? = some v' := by
    rw [List.getElem?_set_self (by simp; omega)]
  rw [List.filterMap_cons, this]
  simp only [List.filterMap_cons, this, List.filterMap_nil]

/-- **C163 is violated** for masks: as many values as marked rows are refused (unless all are marked), and as many values as there are rows as well; an update through a mask that leaves out a row never succeeds. -/
theorem C163_update_mask_violated (o : Obj V) (values : List V) (m : List Bool) (hm : m.length = o.rows.length) (h1 : o.rows.length ≠ 1) (b : Bool) (hb : b ∈ m) (hf : b = false) :
    (o.update values (.mask m)).1 = .error (if values.length = o.rows.length then .runtimeError else .assertionError) := by
  have hc : m.count true < m.length := by
    refine lt_of_le_of_ne List.count_le_length fun h => ?_
    have := List.count_eq_length.1 h b hb
    rw [hf] at this
    cases this
  unfold Obj.update
  simp only [Sel.len, Sel.rows, if_pos hm]
  by_cases hv : values.length = o.rows.length
  · rw [if_pos (by rw [hm, hv]), if_pos hv, if_neg (by rw [marked_length]; omega)]
  · rw [if_neg (by rw [hm]; exact fun h => hv h.symm), if_neg hv]

/-! ## Cases -/

/-- A module of three points with a part of two; objects of the user: a list, a mask and a slice. -/
def caseW : World Nat where
  user a := if a = 0 then .ints [2, -3, 2] else if a = 1 then .mask [true, false, true] else if a = 2 then .slice 1 9 else .ints [5]
  objs := [⟨[10, 11, 12], .own (.ints [0, 1, 2]), none⟩, ⟨[20, 21], .own (.ints [0, 1]), none⟩]

example : (caseW.step (.select 0)).current ⟨[10, 11, 12], .user 0, none⟩ = .ok [12, 10, 12] := by decide
example := C163_ints caseW 0 [2, -3, 2] rfl ⟨[10, 11, 12], .user 0, none⟩ (by simp [World.step, World.hold, caseW]) (by simp [InRange])
/-- The part has no third point. -/
example := C163_late_violated caseW 0 [2, -3, 2] rfl ⟨[20, 21], .user 0, none⟩ (by simp [World.step, World.hold, caseW]) (by simp [InRange])
example := C163_all (caseW.step (.select 3)) ⟨[10, 11, 12], .own (.ints [0, 1, 2]), none⟩ ⟨[10, 11, 12], .own (.ints [0, 1, 2]), none⟩ (by decide) (by decide) rfl
example := C163_aligned ([10, 11, 12] : List Nat) ["a", "b", "c"] rfl (.mask [true, false, true])
example := C163_mask_violated caseW 1 [true, false, true] rfl ⟨[10, 11, 12], .user 1, none⟩ (by simp [World.step, World.hold, caseW]) rfl
example := C163_mask_size caseW 1 [true, false, true] rfl ⟨[20, 21], .user 1, none⟩ (by simp [World.step, World.hold, caseW])
example := C163_slice_violated caseW 2 1 9 rfl ⟨[20, 21], .user 2, none⟩ (by simp [World.step, World.hold, caseW])
/-- The user changes the first list while the second one is selected. -/
example (o : Obj Nat) := C163_history_partial caseW (by intro o ho r hr; simp [caseW] at ho; rcases ho with rfl | rfl <;> simp at hr) [.select 1, .compute 0, .change 0 (.ints [1])] (by
  intro pre a s post e o ho b hb
  match pre with
  | [] => cases e
  | [_] => simp at e
  | [x, y] =>
    simp only [List.cons_append, List.nil_append, List.cons.injEq] at e
    obtain ⟨rfl, rfl, e, -⟩ := e
    cases e
    have : b = 1 := by
      simp only [World.run, List.foldl, World.step, World.hold, caseW, List.map] at ho
      rcases mem_modify ho with ho | ⟨y, hy, rfl⟩
      · simp at ho; rcases ho with rfl | rfl <;> (cases hb; rfl)
      · simp at hy
        rw [compute_held] at hb
        rcases hy with rfl | rfl <;> (cases hb; rfl)
    omega
  | x :: y :: z :: pre => simp at e) o
example := C163_held_violated caseW 0 0 (.ints [1]) ⟨[10, 11, 12], .own (.ints [0, 1, 2]), none⟩ rfl [12, 10, 12] [11] (by decide) (by decide)
example := C163_update_refused (⟨[10, 11, 12], .user 0, none⟩ : Obj Nat) [7, 8] (.ints [5, 0]) .indexError (by decide)
example := C163_update (⟨[10, 11, 12], .user 0, none⟩ : Obj Nat) [7, 8] [-1, 0] (by simp [InRange]) rfl (by decide)
example := C163_same_row_violated (⟨[10, 11, 12], .user 0, none⟩ : Obj Nat) 1 (by decide) (by decide) 7 8 (by decide)
example := C163_update_mask_violated (⟨[10, 11, 12], .user 0, none⟩ : Obj Nat) [7, 8] [true, false, true] rfl (by decide) false (by decide) rfl

end Selection
end Kerch
