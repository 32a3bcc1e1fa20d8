import Verif.Model.Cast
import Verif.Lemmas.Dict
/-!
# C41, C42: casting of inputs, keyword defaults
-/
set_option linter.unusedSectionVars false
set_option linter.unusedSimpArgs false
namespace Kerch
open Cast
variable {α : Type}

/-! ## helper lemmas -/

/-- The shape a matrix is expected to have, from the shape of the argument. -/
def matShape : List Nat → Option (List Nat)
  | [] => some [1, 1]
  | [n] => some [n, 1]
  | [n, m] => some [n, m]
  | _ :: _ :: _ :: _ => none

theorem toMatrix_eq (t : Tensor α) : toMatrix t =
    match matShape t.shape with
    | some s => .ok ⟨s, t.data⟩
    | none => .error .nameError := by
  obtain ⟨s, d⟩ := t
  match s with
  | [] => rfl
  | [n] => rfl
  | [n, m] => rfl
  | a :: b :: c :: r => simp [toMatrix, matShape]

mutual
/-- The number of leaves is the product of the shape. -/
theorem flat_length (v : Nest α) (s : List Nat) (h : v.shape = .ok s) : v.flat.length = s.foldr (· * ·) 1 := by
  match v with
  | .leaf a => simp [Nest.shape] at h; subst h; rfl
  | .node l => simp only [Nest.shape] at h; simpa [Nest.flat] using flats_length l s h
theorem flats_length (l : List (Nest α)) (s : List Nat) (h : Nest.shapes l = .ok s) :
    (Nest.flats l).length = s.foldr (· * ·) 1 := by
  match l with
  | [] => simp [Nest.shapes] at h; subst h; simp [Nest.flats]
  | [x] =>
    simp only [Nest.shapes] at h
    match hx : x.shape with
    | .error e => rw [hx] at h; simp at h
    | .ok s' =>
      rw [hx] at h; simp at h; subst h
      simp [Nest.flats, flat_length x s' hx]
  | x :: y :: r =>
    simp only [Nest.shapes] at h
    match hx : x.shape, hy : Nest.shapes (y :: r) with
    | .error e, _ => rw [hx] at h; simp at h
    | .ok s1, .error e => rw [hx, hy] at h; simp at h
    | .ok s1, .ok [] => rw [hx, hy] at h; simp at h
    | .ok s1, .ok (n :: s2) =>
      rw [hx, hy] at h
      simp only at h
      by_cases e : s1 = s2
      · rw [if_pos e] at h
        simp at h; subst h; subst e
        have h1 := flat_length x s1 hx
        have h2 := flats_length (y :: r) (n :: s1) hy
        simp only [Nest.flats, List.length_append, List.foldr_cons] at h1 h2 ⊢
        rw [h1, h2, Nat.add_mul, Nat.one_mul, Nat.add_comm]
      · rw [if_neg e] at h; simp at h
end

/-! ## properties -/

/-- Specification of the shape and the values an argument stands for (`none` for a ragged list). -/
def argValue : Arg α → Option (List Nat × List α)
  | .none => none
  | .tensor t => some (t.shape, t.data)
  | .other v => match v.shape with
    | .ok s => some (s, v.flat)
    | .error _ => none

/-- **C41**: `None` is passed through. -/
theorem C41_none (conv : α → α) (b : Bool) : castf conv .none b = .ok none := rfl

/-- **C41**: scalars become 1 x 1, vectors n x 1, matrices keep their shape, more dimensions are refused; the values are those
of the argument, converted, in the same order.  For tensors, scalars and nested lists alike. -/
theorem C41_castf (conv : α → α) (x : Arg α) {s : List Nat} {d : List α} (h : argValue x = some (s, d)) :
    castf conv x = match s with
      | [] => .ok (some ⟨[1, 1], d.map conv⟩)
      | [n] => .ok (some ⟨[n, 1], d.map conv⟩)
      | [n, m] => .ok (some ⟨[n, m], d.map conv⟩)
      | _ => .error .nameError := by
  have ht : toTensor conv x = .ok (some ⟨s, d.map conv⟩) := by
    cases x with
    | none => simp [argValue] at h
    | tensor t => simp [argValue] at h; obtain ⟨rfl, rfl⟩ := h; rfl
    | other v =>
      simp only [argValue] at h
      match hv : v.shape with
      | .error e => rw [hv] at h; simp at h
      | .ok s' => rw [hv] at h; simp at h; obtain ⟨rfl, rfl⟩ := h; simp [toTensor, ofNest, hv]
  unfold castf
  rw [ht]
  simp only [if_true, toMatrix_eq]
  match s with
  | [] => rfl
  | [n] => rfl
  | [n, m] => rfl
  | a :: b :: c :: r => rfl

/-- **C41**: ragged nested lists are refused. -/
theorem C41_ragged (conv : α → α) (v : Nest α) (h : argValue (.other v) = none) (b : Bool) :
    ∃ e, castf conv (.other v) b = .error e := by
  simp only [argValue] at h
  match hv : v.shape with
  | .ok s => rw [hv] at h; simp at h
  | .error e => exact ⟨e, by simp [castf, toTensor, ofNest, hv]⟩

/-- **C41**: casting keeps the number of values consistent with the shape (no value lost or invented). -/
theorem C41_wf (conv : α → α) (x : Arg α) (hx : ∀ t, x = .tensor t → t.WF) {t : Tensor α} {b : Bool}
    (h : castf conv x b = .ok (some t)) : t.WF := by
  have key : ∀ s d, argValue x = some (s, d) → d.length = s.foldr (· * ·) 1 := by
    intro s d hv
    cases x with
    | none => simp [argValue] at hv
    | tensor t => simp [argValue] at hv; obtain ⟨rfl, rfl⟩ := hv; exact hx t rfl
    | other v =>
      simp only [argValue] at hv
      match hs : v.shape with
      | .error e => rw [hs] at hv; simp at hv
      | .ok s' => rw [hs] at hv; simp at hv; obtain ⟨rfl, rfl⟩ := hv; exact flat_length v _ hs
  cases hv : argValue x with
  | none =>
    cases x with
    | none => simp [castf, toTensor] at h
    | tensor t => simp [argValue] at hv
    | other v => obtain ⟨e, he⟩ := C41_ragged conv v hv b; rw [he] at h; simp at h
  | some p =>
    obtain ⟨s, d⟩ := p
    have hl := key s d hv
    cases b with
    | true =>
      rw [C41_castf conv x hv] at h
      match s with
      | [] => simp at h; subst h; simpa [Tensor.WF] using hl
      | [n] => simp at h; subst h; simpa [Tensor.WF] using hl
      | [n, m] => simp at h; subst h; simpa [Tensor.WF] using hl
      | a :: b :: c :: r => simp at h
    | false =>
      cases x with
      | none => simp [argValue] at hv
      | tensor t0 =>
        simp [castf, toTensor] at h; subst h
        simp [argValue] at hv; obtain ⟨rfl, rfl⟩ := hv
        simpa [Tensor.WF] using hl
      | other v =>
        simp only [argValue] at hv
        match hs : v.shape with
        | .error e => rw [hs] at hv; simp at hv
        | .ok s' =>
          rw [hs] at hv; simp at hv; obtain ⟨rfl, rfl⟩ := hv
          simp [castf, toTensor, ofNest, hs] at h; subst h
          simpa [Tensor.WF] using hl

/-- **C41**: `castf` is idempotent (if the conversion to the floating type is). -/
theorem C41_idempotent {conv : α → α} (hc : ∀ a, conv (conv a) = conv a) (x : Arg α) {t : Tensor α}
    (h : castf conv x = .ok (some t)) : castf conv (.tensor t) = .ok (some t) := by
  have hd : ∀ d : List α, (d.map conv).map conv = d.map conv := by intro d; simp [List.map_map, Function.comp_def, hc]
  cases hv : argValue x with
  | none =>
    cases x with
    | none => simp [castf, toTensor] at h
    | tensor t => simp [argValue] at hv
    | other v => obtain ⟨e, he⟩ := C41_ragged conv v hv true; rw [he] at h; simp at h
  | some p =>
    obtain ⟨s, d⟩ := p
    rw [C41_castf conv x hv] at h
    match s with
    | [] => simp at h; subst h; rw [C41_castf conv _ (s := [1, 1]) (d := d.map conv) rfl]; simp [hc]
    | [n] => simp at h; subst h; rw [C41_castf conv _ (s := [n, 1]) (d := d.map conv) rfl]; simp [hc]
    | [n, m] => simp at h; subst h; rw [C41_castf conv _ (s := [n, m]) (d := d.map conv) rfl]; simp [hc]
    | a :: b :: c :: r => simp at h

/-- **C41**: integer casting (default arguments) never refuses a tensor, removes all dimensions of size one, keeps all values
in order, and is idempotent. -/
theorem C41_casti {conv : α → α} (hc : ∀ a, conv (conv a) = conv a) (t : Tensor α) :
    ∃ u, casti conv (.tensor t) = .ok (some u) ∧ u.data = t.data.map conv ∧ u.shape = t.shape.filter (· ≠ 1) ∧
      casti conv (.tensor u) = .ok (some u) := by
  refine ⟨⟨t.shape.filter (· != 1), t.data.map conv⟩, rfl, rfl, ?_, ?_⟩
  · show t.shape.filter (· != 1) = _
    congr 1
    funext a
    by_cases h : a = 1 <;> simp [h, bne]
  · simp [casti, castf, toTensor, squeeze, List.map_map, Function.comp_def, hc, List.filter_filter]

/-- **C41**: a representation is only ever one of the two valid ones, and the default is used exactly when none is given. -/
theorem C41_representation (r d : Option String) :
    (∀ s, checkRepresentation r d = .ok s ↔ (s = "primal" ∨ s = "dual") ∧ (r = some s ∨ (r = none ∧ d = some s))) ∧
    (∀ e, checkRepresentation r d = .error e → e = .representationError) := by
  constructor
  · intro s
    cases r with
    | some v =>
      simp only [checkRepresentation, Option.isNone_some, Bool.false_and, Bool.false_eq_true, if_false]
      by_cases hv : ["primal", "dual"].contains v
      · rw [if_pos hv]
        simp only [List.contains_iff_mem, List.mem_cons, List.not_mem_nil, or_false] at hv
        constructor
        · intro h; simp at h; subst h; exact ⟨hv, Or.inl rfl⟩
        · rintro ⟨_, h | h⟩
          · simp at h; rw [h]
          · simp at h
      · rw [if_neg hv]
        simp only [List.contains_iff_mem, List.mem_cons, List.not_mem_nil, or_false] at hv
        constructor
        · intro h; simp at h
        · rintro ⟨h1, h | h⟩
          · simp at h; subst h; exact absurd h1 hv
          · simp at h
    | none =>
      cases d with
      | none => simp [checkRepresentation]
      | some v =>
        simp only [checkRepresentation, Option.isNone_none, Option.isSome_some, Bool.and_self, if_true]
        by_cases hv : ["primal", "dual"].contains v
        · rw [if_pos hv]
          simp only [List.contains_iff_mem, List.mem_cons, List.not_mem_nil, or_false] at hv
          constructor
          · intro h; simp at h; subst h; exact ⟨hv, Or.inr (by simp)⟩
          · rintro ⟨_, h | h⟩
            · simp at h
            · simp at h; rw [h]
        · rw [if_neg hv]
          simp only [List.contains_iff_mem, List.mem_cons, List.not_mem_nil, or_false] at hv
          constructor
          · intro h; simp at h
          · rintro ⟨h1, h | h⟩
            · simp at h
            · simp at h; subst h; exact absurd h1 hv
  · intro e h
    unfold checkRepresentation at h
    simp only at h
    split at h
    · split at h <;> simp at h; exact h.symm
    · simp at h; exact h.symm

/-- **C42**: each keyword given by the user reaches the function unchanged, each missing one gets the default, and there are
no others.  (Keyword dictionaries have each key once.) -/
theorem C42_keywords {ν : Type} (dflt kwargs : Dict String ν) (hk : kwargs.WF) (key : String) :
    (withDefaults dflt kwargs).find key = match kwargs.find key with
      | some v => some v
      | none => dflt.find key := by
  unfold withDefaults
  rw [Dict.find_merge _ _ hk]
  cases kwargs.find key <;> rfl

/-- **C42**: along a chain of decorated constructors, the user's values win at every level, and among the defaults those of
the most derived class win. -/
theorem C42_chain {ν : Type} (kwargs : Dict String ν) (hk : kwargs.WF) (ds : List (Dict String ν)) (hd : ∀ d ∈ ds, d.WF)
    (key : String) (i : Nat) (hi : i < (received kwargs ds).length) :
    ((received kwargs ds)[i]).find key =
      ((kwargs :: ds.take (i + 1)).findSome? (fun d => d.find key)) := by
  induction ds generalizing kwargs i with
  | nil => simp [received] at hi
  | cons d ds ih =>
    have hw : (withDefaults d kwargs).WF := Dict.WF.merge (hd d (by simp)) kwargs
    cases i with
    | zero =>
      simp only [received, List.getElem_cons_zero]
      rw [C42_keywords d kwargs hk]
      cases h : kwargs.find key <;> cases h' : d.find key <;> simp [h, h', List.findSome?]
    | succ i =>
      have hi' : i < (received (withDefaults d kwargs) ds).length := by simpa [received] using hi
      have := ih (withDefaults d kwargs) hw (fun e he => hd e (by simp [he])) i hi'
      simp only [received, List.getElem_cons_succ, this]
      rw [List.findSome?_cons, C42_keywords d kwargs hk, List.take_succ_cons, List.findSome?_cons, List.findSome?_cons]
      cases kwargs.find key <;> rfl

/-! ## non-vacuity -/

/-- A 2 x 2 nested list, and a ragged one. -/
example : argValue (.other (.node [.node [.leaf 1, .leaf 2], .node [.leaf 3, .leaf 4]]) : Arg Nat) = some ([2, 2], [1, 2, 3, 4]) := by
  simp [argValue, Nest.shape, Nest.shapes, Nest.flat, Nest.flats]
example : argValue (.other (.node [.node [.leaf 1, .leaf 2], .node [.leaf 3]]) : Arg Nat) = none := by
  simp [argValue, Nest.shape, Nest.shapes]
example : castf id (.tensor ⟨[3], [5, 6, 7]⟩ : Arg Nat) = .ok (some ⟨[3, 1], [5, 6, 7]⟩) := by decide
example : ((received [("sigma", 2)] [[("sigma", 1), ("a", 3)], [("a", 4), ("b", 5)]] : List (Dict String Nat))).length = 2 := rfl
example : Dict.WF ([("sigma", 2), ("gamma", 1)] : Dict String Nat) := by unfold Dict.WF; decide

end Kerch
