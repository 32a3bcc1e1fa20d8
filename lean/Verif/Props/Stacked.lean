import Verif.Model.Stacked
import Mathlib.Data.Real.Basic
import Mathlib.Tactic.NormNum
/-!
# C98: stacked random features
-/
set_option linter.unusedSectionVars false
set_option linter.unusedSimpArgs false
namespace Kerch
namespace Stacked
variable {X S : Type}

/-! ## Specification -/

/-- `Composed Ls s x y`: `y` are the features of `x` in the layers `Ls`, each relative to the features of the sample `s` in the layers before it. -/
inductive Composed : List (Layer X S) → List X → X → X → Prop
  | nil (s x) : Composed [] s x x
  | cons (l t s s' x y) (hs : s' = s.map (l.map (l.stat s))) (h : Composed t s' (l.map (l.stat s) x) y) : Composed (l :: t) s x y

/-- A layer whose inverse inverts it, whatever its sample. -/
def Bijective (l : Layer X S) : Prop := ∀ s x, l.inv (l.stat s) (l.map (l.stat s) x) = x

/-- The current sample: the selected rows of the data. -/
def Rows (data : List X) (sel : Option (List Nat)) (cur : List X) : Prop :=
  (sel = none ∧ cur = data) ∨ ∃ idx, sel = some idx ∧ cur = idx.filterMap fun i => data[i]?

/-! ## Helpers -/

theorem composed_explicit (Ls : List (Layer X S)) (s : List X) (x : X) : Composed Ls s x (explicit Ls (innerSamples Ls s) x) := by
  induction Ls generalizing s x with
  | nil => exact .nil _ _
  | cons l t ih => exact .cons _ _ _ _ _ _ rfl (ih _ _)

theorem composed_det {Ls : List (Layer X S)} {s : List X} {x y y' : X} (h : Composed Ls s x y) (h' : Composed Ls s x y') : y = y' := by
  induction h generalizing y' with
  | nil => cases h'; rfl
  | cons l t s s' x y hs _ ih =>
    cases h' with
    | cons _ _ _ s'' _ _ hs' h' => subst hs hs'; exact ih h'

theorem rows_current (s : St X) : Rows s.data s.sel s.current := by
  unfold St.current
  cases h : s.sel with
  | none => exact .inl ⟨rfl, rfl⟩
  | some idx => exact .inr ⟨idx, rfl, rfl⟩

/-! ## C98 -/

/-- **C98**, just after the sample has been given: the features of any point are those of the layers one after the other, each one relative to the features of
the selected sample in the layers before it. For all numbers of layers, samples and earlier histories. -/
theorem C98_composed_partial (C : Cfg X S) (s0 : St X) (ops : List (Op X)) (data : List X) (sel : Option (List Nat)) (cur : List X)
    (hcur : Rows data sel cur) (x : X) : Composed C.layers (cur.map (C.base cur)) (C.base cur x) (phi C (run C s0 (ops ++ [.init data sel])) x) := by
  have hc : (initSample C data sel).current = cur := by
    rcases hcur with ⟨h1, h2⟩ | ⟨idx, h1, h2⟩ <;> subst h1 h2 <;> rfl
  have hi : (initSample C data sel).inner = innerSamples C.layers (cur.map (C.base cur)) := by
    unfold initSample projected
    have : St.current { data := data, sel := sel, inner := [] } = cur := by
      rcases hcur with ⟨h1, h2⟩ | ⟨idx, h1, h2⟩ <;> subst h1 h2 <;> rfl
    simp only [this]
  have hr : run C s0 (ops ++ [.init data sel]) = initSample C data sel := by simp [run, step]
  rw [hr, phi, hc, hi]
  exact composed_explicit _ _ _

/-- **C98**: the pre-image of the features of a point is the point, after any history, provided the layers and the transform are bijective. -/
theorem C98_preimage (C : Cfg X S) (hl : ∀ l ∈ C.layers, Bijective l) (hb : ∀ cur x, C.unbase cur (C.base cur x) = x) (s0 : St X) (ops : List (Op X)) (x : X) :
    preimage C (run C s0 ops) (phi C (run C s0 ops) x) = x := by
  have key : ∀ (Ls : List (Layer X S)) (r : List (List X)) (x : X), (∀ l ∈ Ls, Bijective l) → explicitPreimage Ls r (explicit Ls r x) = x := by
    intro Ls
    induction Ls with
    | nil => intro r x _; cases r <;> rfl
    | cons l t ih =>
      intro r x h
      cases r with
      | nil => rfl
      | cons s r =>
        simp only [explicit, explicitPreimage]
        rw [ih r _ fun l' hl' => h l' (List.mem_cons_of_mem _ hl')]
        exact h l (List.mem_cons_self ..) s x
  rw [preimage, phi, key _ _ _ hl, hb]

/-- Violation of **C98**: changing rows of the sample, or selecting some, does not reach the layers: as long as no new sample is given, they keep the statistics
of the sample given last. -/
theorem C98_stale_violated (C : Cfg X S) (data : List X) (sel : Option (List Nat)) (ops : List (Op X)) (hops : ∀ o ∈ ops, ∀ D e, o ≠ .init D e) (s0 : St X)
    (cur : List X) (hcur : Rows data sel cur) (x y : X) (hy : Composed C.layers (cur.map (C.base cur)) (C.base (run C s0 (.init data sel :: ops)).current x) y) :
    phi C (run C s0 (.init data sel :: ops)) x = y := by
  have hin : ∀ (ops : List (Op X)) (s : St X), (∀ o ∈ ops, ∀ D e, o ≠ .init D e) → (run C s ops).inner = s.inner := by
    intro ops
    induction ops with
    | nil => intro s _; rfl
    | cons o t ih =>
      intro s h
      have h1 : (step C s o).inner = s.inner := by
        cases o with
        | init D e => exact absurd rfl (h _ (List.mem_cons_self ..) D e)
        | update i v => rfl
        | select idx => rfl
      rw [show run C s (o :: t) = run C (step C s o) t from rfl, ih _ fun o ho => h o (List.mem_cons_of_mem _ ho), h1]
  have hi : (initSample C data sel).inner = innerSamples C.layers (cur.map (C.base cur)) := by
    unfold initSample projected
    have : St.current { data := data, sel := sel, inner := [] } = cur := by
      rcases hcur with ⟨h1, h2⟩ | ⟨idx, h1, h2⟩ <;> subst h1 h2 <;> rfl
    simp only [this]
  have hinner : (run C s0 (.init data sel :: ops)).inner = innerSamples C.layers (cur.map (C.base cur)) := by
    rw [show run C s0 (.init data sel :: ops) = run C (initSample C data sel) ops from rfl, hin ops _ hops, hi]
  unfold phi
  rw [hinner]
  exact composed_det (composed_explicit _ _ _) hy

/-! ## A concrete stack -/

/-- One layer which subtracts the first point of its sample. -/
def exC : Cfg Int Int := { layers := [{ stat := fun s => s.headD 0, map := fun m x => x - m, inv := fun m y => y + m }], base := fun _ x => x, unbase := fun _ x => x }

/-- Violation of **C98** on a concrete stack: after the update of a row, and after a selection, the features are not those relative to the current sample. -/
theorem C98_witness_violated :
    (∀ y, Composed exC.layers [7, 5] 10 y → phi exC (run exC (initSample exC [3, 5] none) [.update 0 7]) 10 ≠ y) ∧
    ∀ y, Composed exC.layers [5] 10 y → phi exC (run exC (initSample exC [3, 5] none) [.select (some [1])]) 10 ≠ y := by
  constructor
  · intro y h
    cases h with
    | cons _ _ _ s' _ _ hs h => cases h; decide
  · intro y h
    cases h with
    | cons _ _ _ s' _ _ hs h => cases h; decide

example : Rows [3, 5] (some [1]) [5] := .inr ⟨[1], rfl, rfl⟩
example : ∀ l ∈ exC.layers, Bijective l := by
  intro l hl s x
  simp only [exC, List.mem_singleton] at hl
  subst hl
  simp
example : ∀ o ∈ [Op.update 0 (7 : Int), .select none], ∀ D e, o ≠ .init D e := by simp

end Stacked
end Kerch
