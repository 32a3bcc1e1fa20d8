import Verif.Model.Monitor
import Verif.Lemmas.Dict
import Mathlib.Data.Nat.Digits.Lemmas
import Mathlib.Tactic.Linarith
/-!
# C59 (finishing a monitored run)
-/
set_option linter.unusedSectionVars false
set_option linter.unusedSimpArgs false
namespace Kerch
open Monitor

/-! ## helper lemmas -/

theorem chrDigit_digitChr (d : Nat) (h : d < 10) : chrDigit (digitChr d) = some d := by
  have : ∀ d : Fin 10, chrDigit (digitChr d.val) = some d.val := by decide
  exact this ⟨d, h⟩

theorem parseDigits_append (l m : List Char) (acc : Nat) :
    parseDigits acc (l ++ m) = (parseDigits acc l).bind fun a => parseDigits a m := by
  induction l generalizing acc with
  | nil => rfl
  | cons c t ih =>
    rw [List.cons_append, parseDigits, parseDigits]
    cases chrDigit c with
    | none => rfl
    | some d => exact ih _

theorem parseDigits_digits (ds : List Nat) (h : ∀ d ∈ ds, d < 10) : parseDigits 0 (ds.reverse.map digitChr) = some (Nat.ofDigits 10 ds) := by
  induction ds with
  | nil => rfl
  | cons d t ih =>
    rw [List.reverse_cons, List.map_append, parseDigits_append, ih fun x hx => h x (List.mem_cons_of_mem _ hx)]
    simp only [Option.bind_some, List.map_cons, List.map_nil, parseDigits]
    rw [chrDigit_digitChr d (h d (List.mem_cons_self ..)), Nat.ofDigits_cons]
    show some _ = some _
    congr 1
    exact Nat.add_comm _ _

theorem natStr_ne_nil (n : Nat) : natStr n ≠ [] := by
  unfold natStr
  split
  · simp
  · next h =>
    intro hh
    have : (Nat.digits 10 n) = [] := by simpa using hh
    exact h (Nat.digits_eq_nil_iff_eq_zero.mp this)

theorem parseNat_natStr (n : Nat) : parseNat (natStr n) = some n := by
  unfold parseNat
  rw [if_neg (natStr_ne_nil n)]
  unfold natStr
  split
  · next h => subst h; rfl
  · rw [parseDigits_digits _ fun d hd => Nat.digits_lt_base (by norm_num) hd, Nat.ofDigits_digits]

theorem natStr_head (n : Nat) : ∃ c t, natStr n = c :: t ∧ c ≠ '-' ∧ c ≠ '+' := by
  cases h : natStr n with
  | nil => exact absurd h (natStr_ne_nil n)
  | cons c t =>
    refine ⟨c, t, rfl, ?_⟩
    have hp := parseNat_natStr n
    rw [h] at hp
    constructor
    · rintro rfl
      rw [parseNat, if_neg (by simp)] at hp
      exact absurd hp (by simp [parseDigits, chrDigit])
    · rintro rfl
      rw [parseNat, if_neg (by simp)] at hp
      exact absurd hp (by simp [parseDigits, chrDigit])

theorem parseInt_intStr (z : Int) : parseInt (intStr z) = some z := by
  unfold intStr
  split
  · next h =>
    rw [parseInt, parseNat_natStr]
    show some _ = some _
    congr 1
    show _ = z
    dsimp only
    omega
  · next h =>
    obtain ⟨c, t, hc, h1, h2⟩ := natStr_head z.natAbs
    have : parseInt (natStr z.natAbs) = (parseNat (natStr z.natAbs)).map fun n => (n : Int) := by
      rw [hc]
      unfold parseInt
      split
      · next he => cases he; exact absurd rfl h1
      · next he => cases he; exact absurd rfl h2
      · rfl
    rw [this, parseNat_natStr]
    show some _ = some _
    congr 1
    show _ = z
    dsimp only
    omega

theorem pySlice_name (m : List Char) : Data.pySlice (pre ++ m ++ suf) 6 (-4) = m := by
  unfold Data.pySlice Data.clampIdx
  have hl : (pre ++ m ++ suf).length = m.length + 10 := by simp [pre, suf]
  rw [hl, if_neg (show ¬ ((6 : Int) < 0) by decide), if_pos (show ((-4 : Int) < 0) by decide)]
  have h1 : ((-4 : Int) + ((m.length + 10 : Nat) : Int)).toNat = (pre ++ m).length := by
    simp [pre]; omega
  have h2 : min ((6 : Int).toNat) (m.length + 10) = pre.length := by
    simp [pre]
  rw [h1, h2, List.take_left, List.drop_left]

theorem fileEpoch_fileName (z : Int) : fileEpoch (fileName (.int z)) = some z := by
  unfold fileEpoch fileName epochStr
  rw [pySlice_name, parseInt_intStr]

theorem fileName_inj {a b : Int} (h : fileName (.int a) = fileName (.int b)) : a = b := by
  have := congrArg fileEpoch h
  rwa [fileEpoch_fileName, fileEpoch_fileName, Option.some.injEq] at this

theorem maxEpoch_spec (l : List Int) (hl : l ≠ []) :
    ∃ m, maxEpoch (l.map fun e => fileName (.int e)) = some m ∧ m ∈ l ∧ ∀ e ∈ l, e ≤ m := by
  induction l with
  | nil => exact absurd rfl hl
  | cons a t ih =>
    cases t with
    | nil => exact ⟨a, by simp [maxEpoch, fileEpoch_fileName], by simp, by simp⟩
    | cons b t =>
      obtain ⟨m, h1, h2, h3⟩ := ih (by simp)
      refine ⟨max a m, ?_, ?_, ?_⟩
      · simp only [List.map_cons] at h1 ⊢
        rw [maxEpoch, fileEpoch_fileName, h1]
        simp
      · rcases le_total a m with h | h
        · rw [max_eq_right h]; exact List.mem_cons_of_mem _ h2
        · rw [max_eq_left h]; exact List.mem_cons_self ..
      · intro e he
        rcases List.mem_cons.mp he with rfl | he
        · exact le_max_left _ _
        · exact le_trans (h3 e he) (le_max_right _ _)

theorem find_foldl_pop {κ ν : Type} [DecidableEq κ] (ks : List κ) (d : Dict κ ν) (w : d.WF) (k : κ) :
    Dict.find (ks.foldl Dict.pop d) k = if k ∈ ks then none else Dict.find d k := by
  induction ks generalizing d with
  | nil => rfl
  | cons a t ih =>
    rw [List.foldl_cons, ih _ (w.pop a), Dict.find_pop w]
    by_cases h1 : k ∈ t
    · rw [if_pos h1, if_pos (List.mem_cons_of_mem _ h1)]
    · rw [if_neg h1]
      by_cases h2 : k = a
      · rw [if_pos (by simp [h2])]
        subst h2
        simp
      · have : ¬ k ∈ a :: t := by simp [h1, h2]
        rw [if_neg this]
        first
          | rw [if_neg h2]
          | rw [if_neg (Ne.symm h2)]

/-- The directory after saving a list of checkpoints, oldest first. -/
def saved {σ : Type} (saves : List (Int × σ)) : Dir σ := saves.foldl (fun d s => (saveModel d (.int s.1) s.2).2) none

theorem saved_foldl {σ : Type} (saves : List (Int × σ)) (fs : Dict (List Char) σ) (es : List Int) (w : fs.WF)
    (hk : fs.keys = es.map fun e => fileName (.int e)) :
    ∃ (fs' : Dict (List Char) σ) (es' : List Int), saves.foldl (fun d s => (saveModel d (.int s.1) s.2).2) (some fs) = some fs' ∧ fs'.WF
      ∧ fs'.keys = es'.map (fun e => fileName (.int e)) ∧ (∀ e, e ∈ es' ↔ e ∈ es ∨ e ∈ saves.map Prod.fst)
      ∧ ∀ e, fs'.find (fileName (.int e)) = (((saves.filter (fun s => s.1 = e)).getLast?).map Prod.snd).or (fs.find (fileName (.int e))) := by
  induction saves generalizing fs es with
  | nil => exact ⟨fs, es, rfl, w, hk, fun e => by simp, fun e => by simp⟩
  | cons s t ih =>
    rw [List.foldl_cons]
    have hset : (saveModel (some fs) (.int s.1) s.2).2 = some (fs.set (fileName (.int s.1)) s.2) := rfl
    rw [hset]
    by_cases hin : s.1 ∈ es
    · have hk1 : (fs.set (fileName (.int s.1)) s.2).keys = es.map fun e => fileName (.int e) := by
        rw [Dict.keys_set, if_pos (by rw [hk]; exact List.mem_map.mpr ⟨s.1, hin, rfl⟩), hk]
      obtain ⟨fs', es', h1, h2, h3, h4, h5⟩ := ih _ es (w.set _ _) hk1
      refine ⟨fs', es', h1, h2, h3, ?_, ?_⟩
      · intro e
        rw [h4, List.map_cons, List.mem_cons]
        constructor
        · rintro (h | h)
          · exact Or.inl h
          · exact Or.inr (Or.inr h)
        · rintro (h | h | h)
          · exact Or.inl h
          · exact Or.inl (h ▸ hin)
          · exact Or.inr h
      · intro e
        rw [h5, Dict.find_set]
        exact find_case s t fs e
    · have hk1 : (fs.set (fileName (.int s.1)) s.2).keys = (es ++ [s.1]).map fun e => fileName (.int e) := by
        rw [Dict.keys_set, if_neg (by
          rw [hk]
          intro hm
          obtain ⟨e, he, hf⟩ := List.mem_map.mp hm
          exact hin (fileName_inj hf ▸ he)), hk, List.map_append]
        rfl
      obtain ⟨fs', es', h1, h2, h3, h4, h5⟩ := ih _ _ (w.set _ _) hk1
      refine ⟨fs', es', h1, h2, h3, ?_, ?_⟩
      · intro e
        rw [h4, List.map_cons, List.mem_cons, List.mem_append, List.mem_singleton]
        tauto
      · intro e
        rw [h5, Dict.find_set]
        exact find_case s t fs e
where
  find_case (s : Int × σ) (t : List (Int × σ)) (fs : Dict (List Char) σ) (e : Int) :
      (((t.filter (fun s => s.1 = e)).getLast?).map Prod.snd).or
        (if fileName (.int s.1) = fileName (.int e) then some s.2 else Dict.find fs (fileName (.int e))) =
      ((((s :: t).filter (fun s => s.1 = e)).getLast?).map Prod.snd).or (fs.find (fileName (.int e))) := by
    by_cases h : s.1 = e
    · rw [if_pos (by rw [h]), List.filter_cons_of_pos (by simp [h]), List.getLast?_cons]
      cases (t.filter (fun s => s.1 = e)).getLast? <;> rfl
    · rw [if_neg (fun hh => h (fileName_inj hh)), List.filter_cons_of_neg (by simp [h])]

/-! ## C59 -/

/-- **C59**: after every non-empty history of checkpoints (any integer epochs, in any order, some possibly saved several times), `finish` returns the file of the
largest epoch, this file still holds what was last saved for that epoch, and there is no other file. -/
theorem C59 {σ : Type} (saves : List (Int × σ)) (hne : saves ≠ []) :
    ∃ m fs, m ∈ saves.map Prod.fst ∧ (∀ e ∈ saves.map Prod.fst, e ≤ m)
      ∧ finish (saved saves) = (.ok (fileName (.int m)), some fs)
      ∧ fs.find (fileName (.int m)) = ((saves.filter (fun s => s.1 = m)).getLast?).map Prod.snd
      ∧ ∀ f, f ∈ fs.keys ↔ f = fileName (.int m) := by
  obtain ⟨s, t, rfl⟩ := List.exists_cons_of_ne_nil hne
  have hs : saved (s :: t) = (s :: t).foldl (fun d s => (saveModel d (.int s.1) s.2).2) (some ([] : Dict (List Char) σ)) := rfl
  obtain ⟨fs, es, h1, h2, h3, h4, h5⟩ := saved_foldl (s :: t) ([] : Dict (List Char) σ) [] Dict.WF.nil rfl
  have hes : es ≠ [] := by
    intro h
    have := (h4 s.1).mpr (Or.inr (by simp))
    rw [h] at this
    exact absurd this (by simp)
  obtain ⟨m, hm1, hm2, hm3⟩ := maxEpoch_spec es hes
  have hin : ∀ e, e ∈ es ↔ e ∈ (s :: t).map Prod.fst := fun e => by rw [h4]; simp
  refine ⟨m, (fs.keys.filter (· ≠ fileName (.int m))).foldl Dict.pop fs, (hin m).mp hm2, fun e he => hm3 e ((hin e).mpr he), ?_, ?_, ?_⟩
  · rw [hs, h1]
    unfold finish
    simp only [h3, hm1]
  · rw [find_foldl_pop _ _ h2, if_neg (by simp), h5]
    simp
  · intro f
    rw [Dict.mem_keys_iff, find_foldl_pop _ _ h2]
    constructor
    · intro hf
      by_contra hne
      by_cases hk : f ∈ fs.keys
      · rw [if_pos (List.mem_filter.mpr ⟨hk, by simpa using hne⟩)] at hf
        simp at hf
      · rw [if_neg (fun h => hk (List.mem_filter.mp h).1), (Dict.find_eq_none_iff fs f).mpr hk] at hf
        simp at hf
    · rintro rfl
      rw [if_neg (by simp), ← Dict.mem_keys_iff, h3]
      exact List.mem_map.mpr ⟨m, hm2, rfl⟩

/-- A file that is not a checkpoint makes `finish` raise and nothing is removed. -/
theorem C59_foreign_partial {σ : Type} (fs : Dict (List Char) σ) (h : ∃ f ∈ fs.keys, fileEpoch f = none) :
    finish (some fs) = (.error .valueError, some fs) := by
  have : maxEpoch fs.keys = none := by
    obtain ⟨f, hf, he⟩ := h
    generalize fs.keys = l at hf
    induction l with
    | nil => exact absurd hf (by simp)
    | cons a t ih =>
      cases t with
      | nil =>
        rw [List.mem_singleton] at hf
        rw [maxEpoch, ← hf, he]
      | cons b t =>
        rw [maxEpoch]
        · rcases List.mem_cons.mp hf with rfl | hf
          · rw [he]
          · rw [ih hf]
            cases fileEpoch a <;> rfl
        · simp
  unfold finish
  simp only [this]

/-- C59 fails for the checkpoint of the final state as documented in `save_model` (epoch `None`): `finish` raises whatever else has been saved. -/
theorem C59_none_violated {σ : Type} (saves : List (Int × σ)) (c : σ) :
    ∃ fs, (saveModel (saved saves) .none c).2 = some fs ∧ finish (some fs) = (.error .valueError, some fs) := by
  refine ⟨_, rfl, C59_foreign_partial _ ⟨fileName .none, ?_, by decide⟩⟩
  rw [Dict.mem_keys_iff, Dict.find_set, if_pos rfl]
  rfl

/-- Without any checkpoint `finish` raises. -/
theorem C59_empty_violated {σ : Type} : finish (saved ([] : List (Int × σ))) = (.error .osError, none) := rfl

/-- A run of `n > 0` epochs saving every `m` of them ends with the checkpoint of the last multiple of `m` below `n`, and with its content; this is the final
state of the model exactly when `m` divides `n - 1`. -/
theorem C59_run {σ : Type} (m n : Nat) (hm : 0 < m) (hn : 0 < n) (content : Nat → σ) :
    ∃ d fs, runUpdates m content n = .ok d ∧ finish d = (.ok (fileName (.int ((n - 1) / m * m : Nat))), some fs)
      ∧ fs.find (fileName (.int ((n - 1) / m * m : Nat))) = some (content ((n - 1) / m * m))
      ∧ (∀ f, f ∈ fs.keys ↔ f = fileName (.int ((n - 1) / m * m : Nat)))
      ∧ ((n - 1) / m * m = n - 1 ↔ m ∣ n - 1) := by
  have hrun : ∀ n, runUpdates m content n = .ok (saved (((List.range n).filter (fun k : Nat => k % m = 0)).map fun k : Nat => ((k : Int), content k))) := by
    intro n
    induction n with
    | zero => rfl
    | succ n ih =>
      rw [runUpdates, ih]
      simp only [update, if_neg (Nat.ne_of_gt hm)]
      rw [List.range_succ, List.filter_append, List.map_append]
      by_cases h : n % m = 0
      · rw [if_pos h, List.filter_cons_of_pos (by simp [h])]
        simp only [List.filter_nil, List.map_cons, List.map_nil, saved, List.foldl_append, List.foldl_cons, List.foldl_nil]
      · rw [if_neg h, List.filter_cons_of_neg (by simp [h])]
        simp only [List.filter_nil, List.map_nil, List.append_nil]
  obtain ⟨L, hL⟩ : ∃ L, L = ((List.range n).filter (fun k : Nat => k % m = 0)).map fun k : Nat => ((k : Int), content k) := ⟨_, rfl⟩
  have hmem : ∀ e, e ∈ L.map Prod.fst ↔ ∃ k : Nat, k < n ∧ k % m = 0 ∧ e = (k : Int) := by
    intro e
    rw [hL]
    simp only [List.map_map, List.mem_map, List.mem_filter, List.mem_range, decide_eq_true_eq, Function.comp_apply]
    constructor
    · rintro ⟨k, ⟨h1, h2⟩, rfl⟩; exact ⟨k, h1, h2, rfl⟩
    · rintro ⟨k, h1, h2, rfl⟩; exact ⟨k, ⟨h1, h2⟩, rfl⟩
  have hLne : L ≠ [] := by
    intro h
    have := (hmem 0).mpr ⟨0, hn, Nat.zero_mod m, rfl⟩
    rw [h] at this
    exact absurd this (by simp)
  obtain ⟨e, fs, h1, h2, h3, h4, h5⟩ := C59 L hLne
  have he : e = (((n - 1) / m * m : Nat) : Int) := by
    obtain ⟨k, hk1, hk2, rfl⟩ := (hmem e).mp h1
    have hle : (n - 1) / m * m ≤ n - 1 := Nat.div_mul_le_self _ _
    have hq := h2 (((n - 1) / m * m : Nat) : Int) ((hmem _).mpr ⟨_, by omega, Nat.mul_mod_left _ _, rfl⟩)
    have hkd : k / m * m = k := Nat.div_mul_cancel (Nat.dvd_of_mod_eq_zero hk2)
    have : k / m * m ≤ (n - 1) / m * m := Nat.mul_le_mul_right _ (Nat.div_le_div_right (by omega))
    rw [hkd] at this
    omega
  refine ⟨saved L, fs, by rw [hrun n, hL], ?_, ?_, ?_, ?_⟩
  · rw [h3, he]
  · rw [← he, h4]
    have : ∀ x ∈ L.filter (fun s => s.1 = e), x.2 = content ((n - 1) / m * m) := by
      intro x hx
      obtain ⟨hx1, hx2⟩ := List.mem_filter.mp hx
      rw [hL] at hx1
      obtain ⟨k, _, rfl⟩ := List.mem_map.mp hx1
      simp only [decide_eq_true_eq] at hx2
      rw [he] at hx2
      simp only
      rw [Int.ofNat.inj hx2]
    cases hg : (L.filter (fun s => s.1 = e)).getLast? with
    | none =>
      rw [List.getLast?_eq_none_iff] at hg
      obtain ⟨x, hx, hxe⟩ := List.mem_map.mp h1
      have : x ∈ L.filter (fun s => s.1 = e) := List.mem_filter.mpr ⟨hx, by simpa using hxe⟩
      rw [hg] at this
      exact absurd this (by simp)
    | some x =>
      rw [Option.map_some, this x (List.mem_of_getLast? hg)]
  · rw [← he]; exact h5
  · constructor
    · intro h; exact ⟨(n - 1) / m, by rw [Nat.mul_comm]; exact h.symm⟩
    · intro h; exact Nat.div_mul_cancel h

/-- The saving period cannot be chosen: every keyword argument is refused, whatever its value. -/
theorem C59_period_violated (k : String) (v : Nat) (rest : List (String × Nat)) : watcherInit ((k, v) :: rest) = .error .typeError := rfl

/-! ## non-vacuity -/

example : (finish (saved [(9, 'a'), (10, 'b'), (-3, 'c'), (10, 'd')])) =
    (.ok ['e', 'p', 'o', 'c', 'h', '-', '1', '0', '.', 'p', 't', 'h'], some [(['e', 'p', 'o', 'c', 'h', '-', '1', '0', '.', 'p', 't', 'h'], 'd')]) := by
  decide
example : natStr 120 = ['1', '2', '0'] := by decide

end Kerch
