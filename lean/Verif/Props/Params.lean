import Verif.Model.Params
import Mathlib.Data.List.Nodup
/-!
# Property C14: parameters by manifold
-/
set_option linter.unusedSectionVars false
set_option linter.unusedSimpArgs false
namespace Kerch
open PTree

/-! ## Specification -/

/-- `p` is a parameter of kind `k` held by some class part of the module itself. -/
def HeldBy (k : PKind) (t : PTree) (p : Nat) : Prop := ∃ l ∈ t.layers k, some p ∈ l.own

/-- `u` is the module itself or a kerch module below it. -/
inductive Below : PTree → PTree → Prop
  | refl (t) : Below t t
  | child (t c u) : c ∈ t.children → c.isModule = true → Below c u → Below t u

/-- Every override in the tree passes on what its base class yields and reads existing attributes only. -/
def Proper (k : PKind) (t : PTree) : Prop :=
  ∀ u, Below t u → ∀ l ∈ u.layers k, l.yieldsSuper = true ∧ none ∉ l.own

/-- The levels of models are kerch modules. -/
def LevelsAreModules : PTree → Prop := fun t => ∀ u, Below t u → ∀ l b ch, u = .node b l true ch → ∀ c ∈ ch, c.isModule = true

/-! ## Lemmas -/

theorem collect_spec (memo : List Nat) (ps : List (Option Nat)) :
    (collect memo ps).1.Nodup ∧ (∀ p ∈ (collect memo ps).1, p ∉ memo ∧ some p ∈ ps) ∧ ((collect memo ps).1.map some).Sublist ps ∧
    (none ∉ ps → (collect memo ps).2 = .ok () ∧ ∀ p, some p ∈ ps → p ∉ memo → p ∈ (collect memo ps).1) ∧
    (none ∈ ps → (collect memo ps).2 = .error .attributeError) := by
  induction ps generalizing memo with
  | nil => simp [collect]
  | cons q ps ih =>
    cases q with
    | none => simp [collect]
    | some q =>
      rw [collect]
      by_cases hq : q ∈ memo
      · rw [if_pos hq]
        obtain ⟨h1, h2, h3, h4, h5⟩ := ih memo
        refine ⟨h1, fun p hp => ⟨(h2 p hp).1, List.mem_cons_of_mem _ (h2 p hp).2⟩, h3.cons _, ?_, ?_⟩
        · intro hn
          obtain ⟨h6, h7⟩ := h4 (fun h => hn (List.mem_cons_of_mem _ h))
          refine ⟨h6, fun p hp hm => h7 p ?_ hm⟩
          rcases List.mem_cons.1 hp with h | h
          · cases h; exact absurd hq hm
          · exact h
        · intro hn
          exact h5 (by simpa using hn)
      · rw [if_neg hq]
        obtain ⟨h1, h2, h3, h4, h5⟩ := ih (q :: memo)
        simp only
        refine ⟨List.nodup_cons.2 ⟨fun h => (h2 q h).1 List.mem_cons_self, h1⟩, ?_, ?_, ?_, ?_⟩
        · intro p hp
          rcases List.mem_cons.1 hp with rfl | hp
          · exact ⟨hq, List.mem_cons_self⟩
          · exact ⟨fun h => (h2 p hp).1 (List.mem_cons_of_mem _ h), List.mem_cons_of_mem _ (h2 p hp).2⟩
        · simpa using h3
        · intro hn
          obtain ⟨h6, h7⟩ := h4 (fun h => hn (List.mem_cons_of_mem _ h))
          refine ⟨h6, fun p hp hm => ?_⟩
          by_cases hpq : p = q
          · rw [hpq]; exact List.mem_cons_self
          · refine List.mem_cons_of_mem _ (h7 p ?_ ?_)
            · rcases List.mem_cons.1 hp with h | h
              · cases h; exact absurd rfl hpq
              · exact h
            · simp [hpq, hm]
        · intro hn
          exact h5 (by simpa using hn)

theorem genLayers_mem (base : List (Option Nat)) (ls : List PLayer) (h : ∀ l ∈ ls, l.yieldsSuper = true) (x : Option Nat) :
    x ∈ genLayers base ls ↔ x ∈ base ∨ ∃ l ∈ ls, x ∈ l.own := by
  induction ls with
  | nil => simp [genLayers]
  | cons l ls ih =>
    have ih := ih (fun l hl => h l (List.mem_cons_of_mem _ hl))
    have hl := h l List.mem_cons_self
    rw [genLayers]
    simp only [hl, if_true]
    split
    · simp only [List.mem_append, ih, List.mem_cons, exists_eq_or_imp, or_assoc, or_comm, or_left_comm]
    · simp only [List.mem_append, ih, List.mem_cons, exists_eq_or_imp, or_assoc, or_comm, or_left_comm]

theorem genLayers_sub (base : List (Option Nat)) (ls : List PLayer) (x : Option Nat) (hx : x ∈ genLayers base ls) :
    x ∈ base ∨ ∃ l ∈ ls, x ∈ l.own := by
  induction ls with
  | nil => exact .inl hx
  | cons l ls ih =>
    rw [genLayers] at hx
    have key : x ∈ l.own ∨ x ∈ genLayers base ls := by
      revert hx
      by_cases h1 : l.superFirst = true <;> by_cases h2 : l.yieldsSuper = true <;> simp [h1, h2] <;> tauto
    rcases key with h | h
    · exact .inr ⟨l, List.mem_cons_self, h⟩
    · rcases ih h with h | ⟨l', hl', h⟩
      · exact .inl h
      · exact .inr ⟨l', List.mem_cons_of_mem _ hl', h⟩

theorem genChildren_mem (k : PKind) (r : Bool) (ts : List PTree) (x : Option Nat) :
    x ∈ genChildren k r ts ↔ ∃ t ∈ ts, t.isModule = true ∧ x ∈ gen k r t := by
  induction ts with
  | nil => simp [genChildren]
  | cons t ts ih =>
    rw [genChildren, List.mem_append, ih]
    by_cases h : t.isModule = true <;> simp [h]

theorem genLevels_mem (k : PKind) (r : Bool) (ts : List PTree) (x : Option Nat) :
    x ∈ genLevels k r ts ↔ ∃ t ∈ ts, x ∈ gen k r t := by
  induction ts with
  | nil => simp [genLevels]
  | cons t ts ih => rw [genLevels, List.mem_append, ih]; simp

theorem gen_mem (k : PKind) : ∀ (t : PTree), Proper k t → LevelsAreModules t → ∀ x,
    x ∈ gen k true t ↔ ∃ u, Below t u ∧ ∃ l ∈ u.layers k, x ∈ l.own
  | .node b l isModel ch, hP, hL, x => by
    have hch : ∀ c ∈ ch, c.isModule = true → (x ∈ gen k true c ↔ ∃ u, Below c u ∧ ∃ l ∈ u.layers k, x ∈ l.own) := by
      intro c hc hm
      exact gen_mem k c (fun u hu => hP u (.child _ c u hc hm hu)) (fun u hu => hL u (.child _ c u hc hm hu)) x
    rw [gen, genLayers_mem _ (l k) (fun l' hl' => (hP _ (.refl _) l' hl').1)]
    have hbase : x ∈ (if isModel then genLevels k true ch else if true = true then genChildren k true ch else []) ↔
        ∃ c ∈ ch, c.isModule = true ∧ x ∈ gen k true c := by
      cases isModel with
      | true =>
        simp only [if_true, genLevels_mem]
        exact ⟨fun ⟨c, hc, h⟩ => ⟨c, hc, hL _ (.refl _) l b ch rfl c hc, h⟩, fun ⟨c, hc, _, h⟩ => ⟨c, hc, h⟩⟩
      | false => simp only [Bool.false_eq_true, if_false, if_true, genChildren_mem]
    rw [hbase]
    constructor
    · rintro (⟨c, hc, hm, h⟩ | ⟨l', hl', h⟩)
      · obtain ⟨u, hu, h⟩ := (hch c hc hm).1 h
        exact ⟨u, .child _ c u hc hm hu, h⟩
      · exact ⟨_, .refl _, l', hl', h⟩
    · rintro ⟨u, hu, h⟩
      cases hu with
      | refl => exact .inr h
      | child _ c _ hc hm hu => exact .inl ⟨c, hc, hm, (hch c hc hm).2 ⟨u, hu, h⟩⟩
  termination_by t => sizeOf t
  decreasing_by
    have := List.sizeOf_lt_of_mem hc
    simp_wf; omega

theorem gen_sub (k : PKind) (r : Bool) : ∀ (t : PTree), LevelsAreModules t → ∀ x,
    x ∈ gen k r t → ∃ u, Below t u ∧ ∃ l ∈ u.layers k, x ∈ l.own
  | .node b l isModel ch, hL, x => by
    intro hx
    rw [gen] at hx
    rcases genLayers_sub _ _ x hx with h | ⟨l', hl', h⟩
    · have : ∃ c ∈ ch, c.isModule = true ∧ x ∈ gen k r c := by
        cases isModel with
        | true =>
          simp only [if_true, genLevels_mem] at h
          obtain ⟨c, hc, h⟩ := h
          exact ⟨c, hc, hL _ (.refl _) l b ch rfl c hc, h⟩
        | false =>
          cases r with
          | true => simpa only [Bool.false_eq_true, if_false, if_true, genChildren_mem] using h
          | false => simp at h
      obtain ⟨c, hc, hm, h⟩ := this
      obtain ⟨u, hu, h⟩ := gen_sub k r c (fun u hu => hL u (.child _ c u hc hm hu)) x h
      exact ⟨u, .child _ c u hc hm hu, h⟩
    · exact ⟨_, .refl _, l', hl', h⟩
  termination_by t => sizeOf t
  decreasing_by
    have := List.sizeOf_lt_of_mem hc
    simp_wf; omega

/-! ## C14 -/

/-- **C14**, once and nothing else: for every tree, kind and sharing, each yielded parameter is yielded once and is one held, for this kind,
by the module or a kerch module below it; the order is that of the traversal. -/
theorem C14_once (t : PTree) (hL : LevelsAreModules t) (k : PKind) (s : String) (hk : kindOf s = some k) (recurse : Bool) :
    (manifoldParameters t recurse s).1.Nodup ∧ (∀ p ∈ (manifoldParameters t recurse s).1, ∃ u, Below t u ∧ HeldBy k u p) ∧
    ((manifoldParameters t recurse s).1.map some).Sublist (gen k recurse t) := by
  unfold manifoldParameters
  rw [hk]
  obtain ⟨h1, h2, h3, _, _⟩ := collect_spec [] (gen k recurse t)
  exact ⟨h1, fun p hp => gen_sub k recurse t hL _ (h2 p hp).2, h3⟩

/-- **C14**, all: in a tree whose overrides pass on what their base classes yield, exactly the parameters held are yielded. -/
theorem C14_exact_partial (t : PTree) (k : PKind) (hP : Proper k t) (hL : LevelsAreModules t) (s : String) (hk : kindOf s = some k) :
    (manifoldParameters t true s).2 = .ok () ∧ (manifoldParameters t true s).1.Nodup ∧
    ∀ p, p ∈ (manifoldParameters t true s).1 ↔ ∃ u, Below t u ∧ HeldBy k u p := by
  unfold manifoldParameters
  rw [hk]
  obtain ⟨h1, h2, _, h4, _⟩ := collect_spec [] (gen k true t)
  have hn : none ∉ gen k true t := by
    intro h
    obtain ⟨u, hu, l, hl, h⟩ := (gen_mem k t hP hL none).1 h
    exact (hP u hu l hl).2 h
  obtain ⟨h5, h6⟩ := h4 hn
  refine ⟨h5, h1, fun p => ⟨fun hp => (gen_mem k t hP hL _).1 (h2 p hp).2, fun hp => h6 p ((gen_mem k t hP hL _).2 hp) (by simp)⟩⟩

/-- **C14**, without recursion: exactly those of the module itself (not for a `Model`, see below). -/
theorem C14_local_partial (b : Bool) (l : PKind → List PLayer) (ch : List PTree) (k : PKind) (s : String) (hk : kindOf s = some k)
    (hP : ∀ x ∈ l k, x.yieldsSuper = true ∧ none ∉ x.own) (p : Nat) :
    p ∈ (manifoldParameters (.node b l false ch) false s).1 ↔ HeldBy k (.node b l false ch) p := by
  unfold manifoldParameters
  rw [hk]
  obtain ⟨h1, h2, _, h4, _⟩ := collect_spec [] (gen k false (.node b l false ch))
  have hg : ∀ x, x ∈ gen k false (.node b l false ch) ↔ ∃ y ∈ l k, x ∈ y.own := by
    intro x
    rw [gen, genLayers_mem _ _ (fun l' hl' => (hP l' hl').1)]
    simp
  have hn : none ∉ gen k false (.node b l false ch) := by
    rw [hg]; rintro ⟨y, hy, h⟩; exact (hP y hy).2 h
  refine ⟨fun hp => (hg _).1 (h2 p hp).2, fun hp => (h4 hn).2 p ((hg _).2 hp) (by simp)⟩

/-- **C14**, an unknown kind is an error and yields nothing. -/
theorem C14_unknown (t : PTree) (recurse : Bool) (s : String) (h : s ≠ "euclidean" ∧ s ≠ "stiefel" ∧ s ≠ "slow") :
    manifoldParameters t recurse s = ([], .error .typeError) := by
  simp [manifoldParameters, kindOf, h.1, h.2.1, h.2.2]

/-- **C14 is violated** by an `ExplicitNN` kernel: its own sample parameter is not among its Euclidean parameters, whatever the network. -/
theorem C14_explicit_nn_violated (trainable : Bool) (network : List Nat) (sample : Nat) (hs : sample ∉ network) (l : PKind → List PLayer)
    (hl : l .euclidean = [explicitNNLayer trainable network, sampleLayer (some sample)]) (ch : List PTree) :
    HeldBy .euclidean (.node true l false ch) sample ∧
    sample ∉ (manifoldParameters (.node true l false ch) true "euclidean").1 := by
  constructor
  · exact ⟨sampleLayer (some sample), by simp [layers, hl], by simp [sampleLayer]⟩
  · intro h
    have := ((collect_spec [] (gen .euclidean true (.node true l false ch))).2.1 sample h).2
    rw [gen, hl] at this
    simp only [genLayers, explicitNNLayer] at this
    cases trainable <;> simp [hs] at this

/-- **C14 is violated** by a probabilistic PCA level: the Stiefel parameters of its children are dropped. -/
theorem C14_ppca_violated (param : Option Nat) (p : Nat) (hp : param ≠ some p) (l : PKind → List PLayer)
    (hl : l .stiefel = [ppcaLayer param]) (l' : PKind → List PLayer) (hl' : l' .stiefel = [kpcaLayer (some p)]) :
    (∃ u, Below (.node true l false [.node true l' false []]) u ∧ HeldBy .stiefel u p) ∧
    p ∉ (manifoldParameters (.node true l false [.node true l' false []]) true "stiefel").1 := by
  constructor
  · exact ⟨.node true l' false [], .child _ (.node true l' false []) _ (by simp [children]) rfl (.refl _),
      kpcaLayer (some p), by simp [layers, hl'], by simp [kpcaLayer]⟩
  · intro h
    have := ((collect_spec [] _).2.1 p h).2
    rw [gen, hl] at this
    simp [genLayers, ppcaLayer, hp] at this

/-- **C14 is violated** by an LS-SVM in primal whose weights exist: iterating raises, unless its primal part has been reset before. -/
theorem C14_lssvm_violated (dual bias : Nat) (ls : List PLayer) (l : PKind → List PLayer)
    (hl : l .euclidean = lssvmLayer true true none dual bias :: ls) (ch : List PTree) :
    (manifoldParameters (.node true l false ch) true "euclidean").2 = .error .attributeError := by
  refine (collect_spec [] _).2.2.2.2 ?_
  rw [gen, hl]
  simp [genLayers, lssvmLayer]

/-- **C14 is violated** by a `Model` without recursion: it yields the parameters of its levels. -/
theorem C14_model_local_violated (l l' : PKind → List PLayer) (p : Nat) (hl : l .euclidean = [])
    (hl' : l' .euclidean = [sampleLayer (some p)]) :
    (manifoldParameters (.node true l true [.node true l' false []]) false "euclidean").1 = [p] ∧
    ¬ HeldBy .euclidean (.node true l true [.node true l' false []]) p := by
  constructor
  · simp [manifoldParameters, kindOf, gen, hl, genLayers, genLevels, hl', sampleLayer, collect]
  · rintro ⟨x, hx, _⟩
    simp [layers, hl] at hx

/-- A proper tree with a shared parameter: two distance kernels sharing parameter 7, each with its own sample. -/
example : ∃ t : PTree, Proper .slow t ∧ LevelsAreModules t ∧ (manifoldParameters t true "slow").1 = [7] ∧
    (manifoldParameters t true "euclidean").1 = [1, 2] := by
  let lk (s : Nat) : PKind → List PLayer := fun
    | .slow => [distanceLayer 7]
    | .euclidean => [sampleLayer (some s)]
    | .stiefel => []
  refine ⟨.node true (fun _ => []) false [.node true (lk 1) false [], .node true (lk 2) false []], ?_, ?_, by decide, by decide⟩
  · intro u hu l hl
    cases hu with
    | refl => simp [layers] at hl
    | child _ c _ hc hm hu =>
      simp only [children, List.mem_cons, List.not_mem_nil, or_false] at hc
      rcases hc with rfl | rfl <;> cases hu <;> simp_all [layers, lk, distanceLayer, children]
  · intro u hu l b ch h
    cases hu with
    | refl => simp at h
    | child _ c _ hc hm hu =>
      simp only [children, List.mem_cons, List.not_mem_nil, or_false] at hc
      rcases hc with rfl | rfl <;> cases hu <;> simp_all [children]

end Kerch

/-! ## Concrete cases meeting the hypotheses of the theorems above -/

namespace Kerch
namespace ParamsCase
open PTree

/-- A kernel on a distance, its sample being the parameter `s`. -/
def lk (s : Nat) : PKind → List PLayer
  | .slow => [distanceLayer 7]
  | .euclidean => [sampleLayer (some s)]
  | .stiefel => []

/-- Two kernels sharing their distance. -/
def t : PTree := .node true (fun _ => []) false [.node true (lk 1) false [], .node true (lk 2) false []]

theorem below {u : PTree} (h : Below t u) : u = t ∨ u = .node true (lk 1) false [] ∨ u = .node true (lk 2) false [] := by
  cases h with
  | refl => exact Or.inl rfl
  | child _ c _ hc hm hu =>
    simp only [t, children, List.mem_cons, List.not_mem_nil, or_false] at hc
    rcases hc with rfl | rfl <;> cases hu <;> simp_all [children]

theorem proper : Proper .slow t := by
  intro u hu l hl
  rcases below hu with rfl | rfl | rfl <;> simp_all [layers, lk, distanceLayer, t]

theorem levels : LevelsAreModules t := by
  intro u hu l b ch h
  rcases below hu with rfl | rfl | rfl <;> simp [t] at h

def layersOf (e st : List PLayer) : PKind → List PLayer
  | .slow => []
  | .euclidean => e
  | .stiefel => st

example := C14_once t levels .euclidean "euclidean" rfl true
example := C14_exact_partial t .slow proper levels "slow" rfl
example (p : Nat) := C14_local_partial true (lk 3) [t] .slow "slow" rfl (by intro x hx; simp_all [lk, distanceLayer]) p
example := C14_unknown t true "Euclidean" (by decide)
example := C14_explicit_nn_violated true [4, 5] 9 (by decide) (layersOf [explicitNNLayer true [4, 5], sampleLayer (some 9)] []) rfl []
example := C14_ppca_violated (some 3) 4 (by decide) (layersOf [] [ppcaLayer (some 3)]) rfl (layersOf [] [kpcaLayer (some 4)]) rfl
example := C14_lssvm_violated 5 6 [sampleLayer (some 9)] (layersOf [lssvmLayer true true none 5 6, sampleLayer (some 9)] []) rfl []
example := C14_model_local_violated (layersOf [] []) (layersOf [sampleLayer (some 9)] []) 9 rfl rfl

end ParamsCase
end Kerch
