import Verif.Props.Refinements
import Verif.Props.Factory
import Verif.Props.Monitor
import Verif.Props.Net
import Verif.Props.Sample
import Verif.Props.MultiView
import Verif.Props.Data
import Verif.Props.Params
import Verif.Props.RandomFeatures
import Verif.Props.Names
import Verif.Props.Cache
import Mathlib.Tactic.Ring
set_option linter.unusedSectionVars false
set_option linter.unusedSimpArgs false
/-!
# Exact outcomes

Further theorems on properties stated elsewhere: which exception is raised, which order is followed, which names are used. Each one was added because a wrong program
left the theorems of the other files provable (see seeded/LOG.jsonl).
-/
namespace Kerch

/-! ## C02 -/
section
open CacheSt
variable {κ α : Type} [DecidableEq κ] [CacheKey κ]

/-- **C02**, an element requested at the level of the cache itself (`default_level=None`, no name in the table) is kept whatever this level is. -/
theorem C02_own_level (c : CacheSt κ α) (key : κ) (v : α) (table : Dict String String) (persisting : Bool) :
    (save table key { defaultLevel := .none, persisting := persisting } (fun c => (.ok v, c)) c).1 = .ok v ∧
    (save table key { defaultLevel := .none, persisting := persisting } (fun c => (.ok v, c)) c).2.dict.find key = some ⟨c.level, persisting, v⟩ := by
  have hle : c.level.le c.level = .ok true := by cases c.level <;> simp [Lvl.le]
  simp [save, resolveLevel, getLevel, hle, Dict.find_set]

/-- **C02**, an object built without a level: it says `normal`, keeps what is asked at an unnamed level, and does not keep what is heavy. -/
theorem C02_default (key : κ) (v : α) (table : Dict String String) :
    (init : CacheSt κ α).levelName = .ok "normal" ∧
    (save table key {} (fun c => (.ok v, c)) (init : CacheSt κ α)).2.dict.find key = some ⟨.num 2, false, v⟩ ∧
    (save table key { defaultLevel := .str "heavy" } (fun c => (.ok v, c)) (init : CacheSt κ α)) = (.ok v, init) := by
  have h1 : levelSwitcher.find "normal" = some 2 := by decide +kernel
  have h2 : levelSwitcher.find "heavy" = some 3 := by decide +kernel
  refine ⟨?_, ?_, ?_⟩
  · unfold levelName init setLevel getLevel
    simp only [h1]
    decide +kernel
  · simp [save, resolveLevel, getLevel, init, setLevel, h1, Lvl.le, Dict.find_set]
  · simp [save, resolveLevel, getLevel, init, setLevel, h1, h2, Lvl.le]

theorem cleanLoop_own (l : Lvl) (c : CacheSt κ α) (h : ∀ k e, c.dict.find k = some e → e.level = l) (ks : List κ) : cleanLoop l ks c = (.ok (), c) := by
  induction ks with
  | nil => rfl
  | cons k ks ih =>
    unfold cleanLoop
    cases hf : c.dict.find k with
    | none => exact ih
    | some e =>
      have hg : e.level.gt l = .ok false := by rw [h k e hf]; cases l <;> simp [Lvl.gt]
      simp only [hg]
      exact ih

/-- Cleaning down to the level of the cache, whichever it is but that of no cache, removes nothing of what was saved at this level. -/
theorem C02_clean_own (c : CacheSt κ α) (h0 : c.level ≠ .num 0) (h : ∀ k e, c.dict.find k = some e → e.level = c.level) : clean .none c = (.ok (), c) := by
  have hg : c.getLevel .none = c.level := rfl
  have h0' : c.getLevel .none ≠ .num 0 := by rw [hg]; exact h0
  unfold clean
  simp only [if_neg h0']
  exact cleanLoop_own c.level c h c.dict.keys

/-- **C02**, a level that is not in the table: the level of the cache is then a message, and cleaning it raises `TypeError` and removes nothing as soon as the first element it holds was saved
at a proper level; likewise cleaning down to such a level. -/
theorem C02_clean_raises (c : CacheSt κ α) (k : κ) (e : Entry α) (rest : Dict κ (Entry α)) (a : LvlArg) (hd : c.dict = (k, e) :: rest) (ha : c.getLevel a = .msg) (n : Int) (hn : e.level = .num n) :
    clean a c = (.error .typeError, c) := by
  have hf : c.dict.find k = some e := by rw [hd]; simp [Dict.find]
  unfold clean
  simp only [ha]
  rw [if_neg (by simp), hd]
  simp only [Dict.keys, List.map_cons]
  unfold cleanLoop
  simp only [hf, hn, Lvl.gt]

/-- A level misspelt after a value was kept. -/
example (v : α) (k : κ) : clean .none (⟨.msg, [(k, ⟨.num 2, false, v⟩)]⟩ : CacheSt κ α) = (.error .typeError, ⟨.msg, [(k, ⟨.num 2, false, v⟩)]⟩) :=
  C02_clean_raises _ k _ [] .none rfl rfl 2 rfl

end

/-! ## C11, C12, C13 -/
section
open SampleSt
variable {R α : Type}

/-- **C12**: there is no sample exactly when it has no row or no column. -/
theorem C12_empty (s : SampleSt R α) : s.empty = true ↔ s.data.rows = [] ∨ s.data.cols = 0 := by
  simp [SampleSt.empty, Mat.nelem]

/-- **C11**: the rows are addressed as in Python, from the end for negative positions. -/
theorem C11_addressed (n : Nat) (i : ℤ) (k : Nat) : normIdx n i = some k ↔ k < n ∧ (i = k ∨ i = k - n) := by
  unfold normIdx
  by_cases h1 : 0 ≤ i ∧ i < n
  · rw [if_pos h1]
    simp only [Option.some.injEq]
    omega
  · rw [if_neg h1]
    by_cases h2 : -(n : ℤ) ≤ i ∧ i < 0
    · rw [if_pos h2]
      simp only [Option.some.injEq]
      omega
    · rw [if_neg h2]
      simp only [reduceCtorEq, false_iff]
      omega

example : normIdx 3 (-3) = some 0 ∧ normIdx 3 (-4) = none := by decide

/-- **C13**: a dimension is given once; a second time, or an absent sample, is refused by an `AssertionError` and without effect. -/
theorem C13_once (s : SampleSt R α) (d n : Nat) (perm : List Nat) (rand : RandInit R) :
    (s.dimInput ≠ none → s.setDim d perm rand = (.error .assertionError, s)) ∧
    (s.st.numTotal ≠ none → s.setNum n perm rand = (.error .assertionError, s)) ∧
    s.setSample .none perm rand = (.error .assertionError, s) :=
  ⟨fun h => if_pos h, fun h => if_pos h, rfl⟩

end

/-! ## C14 -/
section
open PTree

/-- The overrides of the code that go on with those of the classes they derive from and whose parameters exist. -/
inductive Regular : PLayer → Prop
  | sample (s : Option Nat) : Regular (sampleLayer s)
  | kpca (p : Option Nat) : Regular (kpcaLayer p)
  | implicitNN (network : List Nat) : Regular (implicitNNLayer network)
  | lssvm (primal e : Bool) (w dual bias : Nat) : Regular (lssvmLayer primal e (some w) dual bias)
  | lssvmDual (e : Bool) (w : Option Nat) (dual bias : Nat) : Regular (lssvmLayer false e w dual bias)
  | distance (s : Nat) : Regular (distanceLayer s)
  | hyper (ps : List Nat) : Regular (hyperLayer ps)

/-- **C14** for the classes of the code, neither `ExplicitNN` nor a probabilistic PCA nor a LS-SVM without weights: exactly the parameters held by the modules below,
each once. -/
theorem C14_classes_partial (t : PTree) (k : PKind) (h : ∀ u, Below t u → ∀ l ∈ u.layers k, Regular l) (hL : LevelsAreModules t) (s : String)
    (hk : kindOf s = some k) :
    (manifoldParameters t true s).2 = .ok () ∧ (manifoldParameters t true s).1.Nodup ∧
    ∀ p, p ∈ (manifoldParameters t true s).1 ↔ ∃ u, Below t u ∧ HeldBy k u p := by
  refine C14_exact_partial t k ?_ hL s hk
  intro u hu l hl
  have := h u hu l hl
  cases this with
  | sample s => cases s <;> simp [sampleLayer]
  | kpca p => cases p <;> simp [kpcaLayer]
  | implicitNN n => simp [implicitNNLayer]
  | lssvm primal e w dual bias => cases primal <;> cases e <;> simp [lssvmLayer]
  | lssvmDual e w dual bias => cases e <;> simp [lssvmLayer]
  | distance s => simp [distanceLayer]
  | hyper ps => simp [hyperLayer]

/-- A level with a kernel below it, with parameters of both kinds. -/
example : ∃ (l l' : PKind → List PLayer), (∀ u, Below (.node true l false [.node true l' false []]) u → ∀ x ∈ u.layers .euclidean, Regular x) ∧
    l .euclidean = [sampleLayer (some 1)] ∧ l' .euclidean = [hyperLayer [2], sampleLayer none] := by
  refine ⟨fun _ => [sampleLayer (some 1)], fun _ => [hyperLayer [2], sampleLayer none], ?_, rfl, rfl⟩
  intro u hu x hx
  cases hu with
  | refl =>
    simp only [layers, List.mem_singleton] at hx
    rw [hx]; exact .sample _
  | child _ c _ hc _ hu =>
    simp only [children, List.mem_singleton] at hc
    subst hc
    cases hu with
    | refl =>
      simp only [layers, List.mem_cons, List.not_mem_nil, or_false] at hx
      rcases hx with rfl | rfl
      · exact .hyper _
      · exact .sample _
    | child _ c _ hc _ _ => simp [children] at hc

/-- **C14**, order: a sample, hyper-parameters and implicit networks come before what the children hold, the parameters of KPCA, of LS-SVM and a bandwidth after. -/
theorem C14_order (k : PKind) (s : String) (hk : kindOf s = some k) (top : PLayer) (p q : Nat) (hpq : p ≠ q) (l l' : PKind → List PLayer) (hl : l k = [top])
    (hl' : l' k = [hyperLayer [q]]) :
    ((top = sampleLayer (some p) ∨ top = hyperLayer [p] ∨ top = implicitNNLayer [p]) →
      (manifoldParameters (.node true l false [.node true l' false []]) true s).1 = [p, q]) ∧
    ((top = kpcaLayer (some p) ∨ top = distanceLayer p) →
      (manifoldParameters (.node true l false [.node true l' false []]) true s).1 = [q, p]) ∧
    (∀ b, b ≠ p → b ≠ q → top = lssvmLayer false true none p b →
      (manifoldParameters (.node true l false [.node true l' false []]) true s).1 = [q, p, b]) := by
  refine ⟨?_, ?_, ?_⟩
  · rintro (rfl | rfl | rfl) <;>
    simp [manifoldParameters, hk, gen, hl, hl', genLayers, genChildren, isModule, hyperLayer, sampleLayer, implicitNNLayer, collect, hpq, hpq.symm]
  · rintro (rfl | rfl) <;>
    simp [manifoldParameters, hk, gen, hl, hl', genLayers, genChildren, isModule, hyperLayer, kpcaLayer, distanceLayer, collect, hpq, hpq.symm]
  · rintro b hb hb' rfl
    simp [manifoldParameters, hk, gen, hl, hl', genLayers, genChildren, isModule, hyperLayer, lssvmLayer, collect, hpq, hb, hb']

end

/-! ## C15 -/

/-- **C15** for the list of names given by a user: a list of transforms without neighbouring duplicates is taken as it is, and one pair of duplicates is merged. -/
theorem C15_beautify_partial (ts : List TrArg) (l₁ l₂ : List Kind) (a : Kind) (h : (l₁ ++ a :: l₂).IsChain (· ≠ ·)) :
    (expand ts = .ok (l₁ ++ a :: l₂) → beautify ts = .ok (l₁ ++ a :: l₂)) ∧
    (expand ts = .ok (l₁ ++ a :: a :: l₂) → l₂[1]? ≠ some a → beautify ts = .ok (l₁ ++ a :: l₂)) := by
  constructor
  · intro he
    rw [beautify, he, Except.map, (C15_no_repetition_partial _ h).1]
  · intro he h2
    rw [beautify, he, Except.map, (C15_single_pair_partial _ _ _ h h2).1]

example : expand [.name "center", .name "standard"] = .ok ([] ++ .mean :: .mean :: [.variance]) := by
  simp [expand, allTransform, Dict.find, Except.map]

/-! ## C28, C85 -/
section
variable {X n d : Type} [Fintype n] [Nonempty n] [Fintype d]

open Classical in
/-- **C85** is violated by the choice of the route of the polynomial kernel, which ignores the transforms: with a variance, minimum or min-max transform last, the same
call is answered or raises according to the number of points, `k(x)` being refused as long as there are not more points than twice the number of features. -/
theorem C85_polynomial_route_violated (φ : X → d → ℝ) (κ : X → X → ℝ) (pts : n → X) (k : Kind) (hk : k = .variance ∨ k = .minimum ∨ k = .minmax) (p : List Kind)
    (dim : ℕ) (ι : Type) [Fintype ι] (x : ι → X) (b : Arg X) :
    (polyK φ κ pts (k :: p) dim none (.batch ι x) b = .error .bijectionError ↔ Fintype.card ι = 0 ∨ Fintype.card ι ≤ 2 * dim) ∧
    ((∃ v, polyK φ κ pts (k :: p) dim none (.batch ι x) b = .ok v) ↔ 0 < Fintype.card ι ∧ 2 * dim < Fintype.card ι) := by
  have hdec : decide (dim * (Fintype.card ι + Fintype.card ι) < Fintype.card ι * Fintype.card ι) = decide (0 < Fintype.card ι ∧ 2 * dim < Fintype.card ι) := by
    rw [decide_eq_decide]
    have : dim * (Fintype.card ι + Fintype.card ι) = (2 * dim) * Fintype.card ι := by ring
    rw [this]
    constructor
    · intro h
      rcases Nat.eq_zero_or_pos (Fintype.card ι) with h0 | h0
      · rw [h0] at h; simp at h
      · exact ⟨h0, Nat.lt_of_mul_lt_mul_right h⟩
    · rintro ⟨h0, h⟩
      exact Nat.mul_lt_mul_of_pos_right h h0
  have hp : polyK φ κ pts (k :: p) dim none (.batch ι x) b =
      kernelK φ κ pts (k :: p) (decide (0 < Fintype.card ι ∧ 2 * dim < Fintype.card ι)) (.batch ι x) (.batch ι x) := by
    rw [← hdec]; rfl
  rw [hp]
  by_cases h : 0 < Fintype.card ι ∧ 2 * dim < Fintype.card ι
  · rw [decide_eq_true h, kernelK_explicit]
    refine ⟨⟨fun hh => (by cases hh), fun hh => (by omega)⟩, ⟨fun _ => h, fun _ => ⟨_, rfl⟩⟩⟩
  · rw [decide_eq_false h, kernelK_implicit]
    have he : ioos κ pts (k :: p) (.batch ι x) (.batch ι x) = .error .bijectionError := by
      rcases hk with rfl | rfl | rfl <;> simp [ioos, istep]
    rw [he]
    refine ⟨⟨fun _ => by omega, fun _ => rfl⟩, ⟨fun ⟨v, hv⟩ => (by cases hv), fun hh => absurd hh h⟩⟩

/-- Degree 2 in dimension 1 has 3 features: refused for 6 points, answered for 7. -/
example : Fintype.card (Fin 6) ≤ 2 * polyDimFeature 1 2 ∧ 2 * polyDimFeature 1 2 < Fintype.card (Fin 7) := by decide

end

/-! ## C35 -/
section
variable {r d : ℕ}

/-- **C35**: the number of weights of a kernel is the one it was given; 0 as long as there are none. -/
theorem C35_num_weights (s : RFSt r d) (k : ℕ) (hk : s.num = some k) : s.numWeights = .ok (if r = 0 ∨ d = 0 then 0 else k) := by
  unfold RFSt.numWeights
  by_cases h : r = 0 ∨ d = 0
  · rw [if_pos (by simpa using h), if_pos h]
  · rw [if_neg (by simpa using h), if_neg h, hk]

end

/-! ## C40 -/
section
open Factory

/-- **C40**: the kernels a user can ask for by name. -/
theorem C40_names : ((kernelDir.filter (fun a => a.2 = Attr.cls)).map fun a => String.ofList a.1) =
    ["AdditiveChi2", "Cosine", "Distance", "DistanceSquared", "Epanechnikov", "Explicit", "ExplicitNN", "Exponential", "Hat", "Implicit", "ImplicitNN", "Indicator",
     "Kernel", "Laplacian", "Linear", "Logistic", "Nystrom", "Polynomial", "Quartic", "RBF", "RFArcsinh", "RFF", "RFHyperbola", "RFLReLU", "RFStacked",
     "RandomFeatures", "SelectDistance", "Sigmoid", "Silverman", "SkewedChi2", "Triangular", "Tricube", "Triweight", "Uniform", "_BaseKernel"] := by
  decide +kernel

end

/-! ## C43, C44, C45 -/
section
open Methods CacheSt
variable {n m d : ℕ}

/-- **C43**, **C44**: with a kernel, as many observations as points are needed, and the kernel matrix gives the coefficients (its opposite the distances). -/
theorem C44_kernel (sel : Sel n n) (K : Methods.Mat n n) (obs : Methods.Mat n d) (obs' : Methods.Mat m d) (num : PyNum) (hm : n ≠ m) :
    kernelSmoother sel K obs num = smoother sel K obs num ∧ kernelSmoother sel K obs' num = .error .assertionError ∧
    kernelKnn sel K obs num = knn sel (fun i j => -K i j) obs num ∧ kernelKnn sel K obs' num = .error .assertionError :=
  ⟨if_pos rfl, if_neg hm, if_pos rfl, if_neg hm⟩

variable {κ α σ : Type} [DecidableEq κ] [CacheKey κ]

/-- **C45**: when the image has as many columns as the sample has points and as the feature map has components, the primal method is the dual one; when the feature
map has another dimension, it raises before any iteration. -/
theorem C45_phi (start : M κ α σ) (stp : σ → M κ α (σ × Bool)) (ni dim : ℕ) (numIter : ℤ) (hi : 0 < numIter) (light : Bool) (c : CacheSt κ α)
    (hc : c.level = .num 2) :
    iterativePhi start stp ni ni (.ok ni) numIter light c = iterativeK start stp ni (.ok ni) numIter light c ∧
    (ni ≠ dim → (iterativePhi start stp ni dim (.ok ni) numIter light c).1 = .error .runtimeError) := by
  constructor
  · simp [iterativePhi]
  · intro h
    have hn : c.levelName = .ok "normal" := by
      simp [levelName, hc, levelSwitcher, List.find?]
    have hf : levelSwitcher.find "normal" = some 2 := rfl
    unfold iterativePhi iterativeK
    simp only [hn, hf]
    simp [h, not_le.mpr hi]

end

/-! ## C53, C54 -/
section
open MView
variable {X R : Type}

/-- **C53**: arguments of another type are refused by a `NotImplementedError`, a model without views by the exceptions of the operations on nothing. -/
theorem C53_refused [Add R] (V : Dict String (View X R)) :
    phis V .other = .error .notImplemented ∧ ks V .other = .error .notImplemented ∧
    phi ([] : Dict String (View X R)) .none = .error .runtimeError ∧
    (∀ xs, phi ([] : Dict String (View X R)) (.tensor xs) = .error .runtimeError) ∧
    (∀ xs, k ([] : Dict String (View X R)) (.tensor xs) = .error .typeError) ∧
    K ([] : Dict String (View X R)) = .error .typeError := ⟨rfl, rfl, rfl, fun _ => rfl, fun _ => rfl, rfl⟩

/-- **C53** is violated: which exception a view to attach meets. -/
theorem C53_attach_violated (V : Dict String (View X R)) (v : View X R) (m : Except Err (View X R)) (n : Nat) :
    attach none V (.view v) = (.error .typeError, V) ∧ attach (some n) V (.view v) = (.error .attributeError, V) ∧
    attach none V (.dict m) = (.error .attributeError, V) ∧ attach (some n) V (.dict m) = (.error .attributeError, V) := ⟨rfl, rfl, rfl, rfl⟩

/-- **C54**: a prediction without a single known view is refused by an `AssertionError`. -/
theorem C54_nothing_known (known : String → Option (Option Nat)) (names p : List String) (h : ∀ s ∈ names, ∀ c, known s ≠ some (some c)) :
    checkKnown known names none p = .error .assertionError := by
  induction names generalizing p with
  | nil => rfl
  | cons a t ih =>
    rw [checkKnown]
    have ha := h a (by simp)
    cases hk : known a with
    | none => exact ih _ fun s hs => h s (by simp [hs])
    | some o =>
      cases o with
      | none => exact ih _ fun s hs => h s (by simp [hs])
      | some c => exact absurd hk (ha c)

/-- **C54** is violated: which exception each method meets; `d` is the number of features of the view. -/
theorem C54_methods_violated (knn d : Nat) (pre : List (List R) → Except Err (List X)) (viewPhi prod transform : List (List R)) :
    ((∀ r ∈ viewPhi, r.length = d) → predictPrimal1 .smoother knn pre d viewPhi prod = .error .attributeError) ∧
    ((∃ r ∈ viewPhi, r.length ≠ d) → predictPrimal1 .smoother knn pre d viewPhi prod = .error .runtimeError) ∧
    predictPrimal1 .other knn pre d viewPhi prod = .error .notImplemented ∧
    predictDual1 .smoother knn transform = (.error .attributeError : Except Err (List X)) ∧
    predictDual1 .pinv knn transform = (.error .notImplemented : Except Err (List X)) ∧
    predictDual1 .other knn transform = (.error .notImplemented : Except Err (List X)) := by
  refine ⟨fun h => ?_, fun h => ?_, rfl, rfl, rfl, rfl⟩
  · have : viewPhi.any (fun r => r.length ≠ d) = false := by simpa using h
    simp only [predictPrimal1, this, Bool.false_eq_true, if_false, implicitPreimage]
  · have : viewPhi.any (fun r => r.length ≠ d) = true := by simpa using h
    simp only [predictPrimal1, this, if_true]

end

/-! ## C55 -/
section
open Net
variable {X : Type}

/-- **C55**: the exceptions of a refused level: of its construction, `AssertionError` without output dimension, `NameError` for an unknown constraint, `AttributeError`
for a level without weights (see C68), `AssertionError` if the dimensions differ. -/
theorem C55_refused (levels : List (Lev X)) (hr : Ready levels) (l : Lev X) (c : String) (e : Err) :
    (append levels (.error e) c).1 = .error e ∧
    (l.dimOut = none → (append levels (.ok l) c).1 = .error .assertionError) ∧
    (l.dimOut ≠ none → c ≠ "soft" → c ≠ "hard" → (append levels (.ok l) c).1 = .error .nameError) ∧
    (l.dimOut ≠ none → (c = "soft" ∨ c = "hard") → l.hasWeight = false → (append levels (.ok l) c).1 = .error .attributeError) ∧
    (l.dimOut ≠ none → (c = "soft" ∨ c = "hard") → l.hasWeight = true → ∀ last, levels.getLast? = some last → l.dimIn ≠ none → l.dimIn ≠ last.dimOut →
      (append levels (.ok l) c).1 = .error .assertionError) := by
  have had : ∃ d, adaptDim levels l = .ok { l with dimIn := d } ∧ (l.dimIn ≠ none → d = l.dimIn) := by
    unfold adaptDim
    cases hd : l.dimIn with
    | some d => exact ⟨some d, by simp only [Except.ok.injEq]; rw [← hd], fun _ => rfl⟩
    | none =>
      cases hg : levels.getLast? with
      | none => exact ⟨none, by simp only [Except.ok.injEq]; rw [← hd], fun h => absurd rfl h⟩
      | some last =>
        obtain ⟨o, ho⟩ := Option.isSome_iff_exists.mp (hr last (List.mem_of_getLast? hg)).1
        simp only [ho]
        exact ⟨some o, rfl, fun h => absurd rfl h⟩
  obtain ⟨d, hd, hd'⟩ := had
  refine ⟨rfl, fun h => ?_, fun h h1 h2 => ?_, fun h h1 h2 => ?_, fun h h1 h2 last hlast h3 h4 => ?_⟩
  · simp [append, h]
  · simp only [append, if_neg h, hd, applyConstraint, if_neg h1, if_neg h2]
  · rcases h1 with rfl | rfl <;> simp [append, h, hd, applyConstraint, Lev.setTrainable, h2]
  · obtain ⟨o, ho⟩ := Option.isSome_iff_exists.mp (hr last (List.mem_of_getLast? hlast)).1
    obtain ⟨i, hi⟩ := Option.ne_none_iff_exists'.mp h3
    have hdi : d = some i := (hd' h3).trans hi
    have hne : o ≠ i := fun hh => h4 (by rw [hi, ho, hh])
    rcases h1 with rfl | rfl <;> simp [append, h, hd, applyConstraint, Lev.setTrainable, h2, hlast, ho, hdi, hne]

end

/-! ## C58 -/
section
open Data

/-- **C58**: in the artificial sets the label tells the class of its point, and both classes are numbered without gap. -/
theorem C58_labels (num : Int) :
    (∀ p ∈ (twoMoons num).1.zip (twoMoons num).2, p.2 = if p.1.1 then 1 else 0) ∧
    (∀ p ∈ (twoClasses num).1.zip (twoClasses num).2, p.2 = if p.1.1 then 1 else -1) := by
  constructor
  · intro p hp
    simp only [twoMoons, twoMoonsSizes] at hp
    rw [List.zip_append (by simp)] at hp
    rcases List.mem_append.mp hp with h | h
    all_goals
      obtain ⟨a, b⟩ := p
      have h1 := List.of_mem_zip h
      obtain ⟨k, _, hk⟩ := List.mem_map.mp h1.1
      have h2 := List.eq_of_mem_replicate h1.2
      simp only [← hk, h2]
      rfl
  · intro p hp
    simp only [twoClasses] at hp
    rw [List.zip_append (by simp)] at hp
    rcases List.mem_append.mp hp with h | h
    all_goals
      obtain ⟨a, b⟩ := p
      have h1 := List.of_mem_zip h
      obtain ⟨k, _, hk⟩ := List.mem_map.mp h1.1
      have h2 := List.eq_of_mem_replicate h1.2
      simp only [← hk, h2]
      rfl

/-- **C58**: a row that does not exist raises an `IndexError`. -/
theorem C58_missing_row {α : Type} (data : List α) (idx : List Nat) (h : ∃ i ∈ idx, data.length ≤ i) : rows data idx = .error .indexError := by
  obtain ⟨i, hi, hl⟩ := h
  unfold rows
  induction idx with
  | nil => simp at hi
  | cons j t ih =>
    rw [List.mapM_cons]
    cases hj : data[j]? with
    | none => rfl
    | some x =>
      have : i ∈ t := by
        rcases List.mem_cons.mp hi with rfl | h
        · rw [List.getElem?_eq_none hl] at hj; cases hj
        · exact h
      simp only [ih this]
      rfl

example : rows ['a', 'b'] [0, 5] = .error .indexError := rfl

end

/-! ## C59 -/
section
open Monitor

/-- **C59**: the checkpoint of an epoch is named after it in decimal, without sign. -/
theorem C59_name (n : Nat) : ∃ ds : List Nat, (∀ d ∈ ds, d < 10) ∧ ds ≠ [] ∧ (Nat.ofDigits 10 ds.reverse = n) ∧
    fileName (.int n) = "epoch-".toList ++ ds.map digitChr ++ ".pth".toList := by
  have hp : pre = "epoch-".toList := by decide +kernel
  have hs : suf = ".pth".toList := by decide +kernel
  have hz : intStr (n : Int) = natStr n := by simp [intStr]
  unfold fileName epochStr
  rw [hp, hs]
  simp only [hz]
  by_cases h : n = 0
  · subst h
    exact ⟨[0], by simp, by simp, by simp, rfl⟩
  · refine ⟨(Nat.digits 10 n).reverse, fun d hd => Nat.digits_lt_base (by norm_num) (List.mem_reverse.mp hd), ?_, ?_, ?_⟩
    · simpa [Nat.digits_eq_nil_iff_eq_zero] using h
    · rw [List.reverse_reverse, Nat.ofDigits_digits]
    · simp [natStr, h]

/-- **C59**: without keyword arguments a checkpoint is written at the end of each epoch, so that the last one holds the final state. -/
theorem C59_default {σ : Type} (n : Nat) (hn : 0 < n) (content : Nat → σ) :
    ∃ m d fs, watcherInit [] = .ok m ∧ runUpdates m content n = .ok d ∧ finish d = (.ok (fileName (.int (n - 1 : Nat))), some fs) ∧
      fs.find (fileName (.int (n - 1 : Nat))) = some (content (n - 1)) := by
  obtain ⟨d, fs, h1, h2, h3, _, _⟩ := C59_run 1 n one_pos hn content
  refine ⟨1, d, fs, rfl, h1, ?_, ?_⟩
  · simpa using h2
  · simpa using h3

end

/-! ## C68, C69 -/
section
open Trainable

/-- **C68**: the attribute cannot be read before it was set, not even on a level constructed with the keyword. -/
theorem C68_unset_violated (lt : Bool) (hidden : Option (Nat × Nat)) : (St.construct lt none hidden).getTrainable = .error .attributeError := by
  cases hidden <;> rfl

/-- **C68**: an assignment of values of the shape stored keeps the parameters, only their values change; another shape makes new parameters, trainable as the level was
constructed; `None` empties them but keeps this. The view of the weights follows the primal parameters. -/
theorem C68_assign (s : Trainable.St) (r c : Nat) :
    (s.dual.shape = some (c, r) → (s.setDual (some (r, c))).dual = s.dual) ∧
    (s.dual.shape ≠ some (c, r) → (s.setDual (some (r, c))).dual = ⟨some (c, r), s.levelTrainable⟩) ∧
    (s.setDual none).dual = ⟨none, s.dual.rg⟩ ∧
    (∀ v, (s.setDual v).weight = some s.primal.rg ∧ (s.setDual v).primal = s.primal) := by
  refine ⟨fun h => ?_, fun h => ?_, rfl, fun v => ?_⟩
  · simp [St.setDual, h, St.resetPrimal]
  · simp [St.setDual, h, St.resetPrimal]
  · rcases v with _ | ⟨r, c⟩
    · exact ⟨rfl, rfl⟩
    · simp only [St.setDual]
      split <;> exact ⟨rfl, rfl⟩

/-- **C69**: a view that is not attached and has no parameters raises `NotInitializedError`, also when detached. -/
theorem C69_nothing {P : Type} (m : P) : (⟨false, none, m⟩ : Attach.St P).read = .error .notInitialized ∧
    (⟨false, none, m⟩ : Attach.St P).detach = (.error .notInitialized, ⟨false, none, m⟩) := ⟨rfl, rfl⟩

end

/-! ## C79 -/
section
open Subloss CacheSt

/-- **C79**: the names under which the constituents of the losses are reported. -/
theorem C79_names {P : Type} (p : P) (rep : String) (n γ : ℝ) (f g : P → ℝ) (c c' : CacheSt String ℝ) (d : List (String × ℝ)) :
    (losses p (lssvmParts rep n γ f g) (lssvmParts rep n γ f g) c = (.ok d, c') → d.map Prod.fst = ["Regularization", "MSE", "Level loss"]) ∧
    (losses p (kpcaParts rep f g) (kpcaParts rep f g) c = (.ok d, c') → d.map Prod.fst = ["Original", "Projected", "Level loss"]) := by
  have key : ∀ (all l : List (Subloss.Part P)) (c : CacheSt String ℝ) (d : List (String × ℝ)), losses p all l c = (.ok d, c') →
      d.map Prod.fst = l.map Subloss.Part.name ++ ["Level loss"] := by
    intro all l
    induction l with
    | nil =>
      intro c d h
      rw [losses] at h
      split at h
      · cases h
      · cases h; rfl
    | cons q t ih =>
      intro c d h
      rw [losses] at h
      split at h
      · cases h
      · split at h
        · cases h
        · next hd => cases h; simp [ih _ _ hd]
  exact ⟨fun h => key _ _ _ _ h, fun h => key _ _ _ _ h⟩

end

/-! ## C86 -/
section
open Settings

/-- **C86**: at the beginning the global logger is at `WARNING` (30) and the others have no level; the logger of an object is named after its class, after its own name
and its class if it has one. -/
theorem C86_names (cls l : String) (hc : cls ≠ "Logger") :
    LogSt.init.lev "global" = 30 ∧ (cls ≠ "global" → LogSt.init.lev cls = 0) ∧ logName none cls = cls ∧ logName (some l) cls = l ++ " " ++ cls ∧
    logName (some l) "Logger" = l := by
  exact ⟨by simp [LogSt.init], fun h => by simp [LogSt.init, h], rfl, if_pos hc, by simp [logName]⟩

end

end Kerch
