import Verif.Model.Deep
import Verif.Model.Bias
import Verif.Model.Solve
import Verif.Model.ViewScale
import Verif.Model.Monitor
import Verif.Model.Net
import Verif.Model.NN
import Verif.Model.Eigs
import Verif.Model.MultiView
import Verif.Model.Preimage
import Verif.Model.KernelFun
import Verif.Model.RFLimit
/-!
# C112: what cannot be served is refused, with which exception and without effect
-/
set_option linter.unusedSectionVars false
set_option linter.unusedSimpArgs false
namespace Kerch
namespace Errors

/-! ### Models of several levels -/

section
open Deep
variable {X P : Type}

/-- A level that cannot be called, with the exception: no sample; a selection beyond the sample; no parameter. -/
inductive Unready (l : Lev X P) : Err → Prop
  | sample : l.sample = [] → Unready l .notInitialized
  | index (i : Nat) : l.sample ≠ [] → i ∈ l.idx → l.sample.length ≤ i → Unready l .indexError
  | parameter : l.sample ≠ [] → (∀ i ∈ l.idx, i < l.sample.length) → l.par = none → Unready l .notInitialized

theorem select_none (s : List X) (idx : List Nat) (i : Nat) (hi : i ∈ idx) (h : s.length ≤ i) : select s idx = .error .indexError := by
  have : idx.mapM (fun i => s[i]?) = none := by
    induction idx with
    | nil => cases hi
    | cons a t ih =>
      rw [List.mapM_cons]
      rcases List.mem_cons.1 hi with rfl | hi
      · rw [List.getElem?_eq_none h]; rfl
      · rw [ih hi]
        cases s[a]? <;> rfl
  rw [select, this]

theorem select_some (s : List X) (idx : List Nat) (h : ∀ i ∈ idx, i < s.length) : ∃ l, select s idx = .ok l := by
  have : ∃ l, idx.mapM (fun i => s[i]?) = some l := by
    induction idx with
    | nil => exact ⟨[], rfl⟩
    | cons a t ih =>
      obtain ⟨l, hl⟩ := ih fun i hi => h i (List.mem_cons_of_mem _ hi)
      refine ⟨s[a]'(h a List.mem_cons_self) :: l, ?_⟩
      rw [List.mapM_cons, List.getElem?_eq_getElem (h a List.mem_cons_self), hl]; rfl
  obtain ⟨l, hl⟩ := this
  exact ⟨l, by rw [select, hl]⟩

theorem cur_of_ne {l : Lev X P} (h : l.sample ≠ []) : l.cur = select l.sample l.idx := by
  rw [Lev.cur, if_neg]
  simpa using h

theorem call_unready {l : Lev X P} {e : Err} (h : Unready l e) (x : Option (List X)) : l.call x = .error e := by
  cases h with
  | sample h => rw [Lev.call, Lev.cur, h]; rfl
  | index i hs hi hl => rw [Lev.call, cur_of_ne hs, select_none _ _ i hi hl]; rfl
  | parameter hs hi hp =>
    obtain ⟨c, hc⟩ := select_some _ _ hi
    rw [Lev.call, cur_of_ne hs, hc, hp]; rfl

/-- In evaluation mode, whatever levels come before and after, the first level that is not ready makes the call fail with its exception. -/
theorem C112_evaluation (pre : List (Lev X P)) (l : Lev X P) (t : List (Lev X P)) (e : Err) (h : Unready l e) (x y : Option (List X)) (hp : forwardEval pre x = .ok y) :
    forwardEval (pre ++ l :: t) x = .error e := by
  induction pre generalizing x with
  | nil => rw [List.nil_append, forwardEval, call_unready h]
  | cons a pre ih =>
    rw [List.cons_append, forwardEval]
    rw [forwardEval] at hp
    cases ha : a.call x with
    | error e' => rw [ha] at hp; cases hp
    | ok z => rw [ha] at hp; exact ih _ hp

/-- In training mode the first level is refused in the same way, whether its constraint is hard or soft, and nothing but its selection has changed. -/
theorem C112_training (idx : List Nat) (l : Lev X P) (t : List (Lev X P)) (e : Err) (h : Unready (l.setIdx idx) e) :
    forwardTrain idx (l :: t) none = (.error e, l.setIdx idx :: t) := by
  have hc := call_unready h none
  have : (l.train idx none) = (.error e, l.setIdx idx) := by
    rw [Lev.train]
    by_cases ht : (l.setIdx idx).trainable = true
    · rw [Lev.solveIfHard, if_pos ht]
      simp only
      rw [hc]
    · rw [Lev.solveIfHard, if_neg ht]
      cases h with
      | sample h => rw [Lev.cur, h]; rfl
      | index i hs hi hl => rw [cur_of_ne hs, select_none _ _ i hi hl]
      | parameter hs hi hp =>
        obtain ⟨c, hc⟩ := select_some _ _ hi
        rw [cur_of_ne hs, hc, hp]
  rw [forwardTrain, this]

/-- A model without level cannot be given a sample nor initialised; a first level without sample cannot be initialised (its number of points is not known), and one that already has its
parameters but no sample cannot initialise those after it. -/
theorem C112_initialisation (x : List X) (rand : Nat → List X) (full : Bool) :
    initSample x ([] : List (Lev X P)) = (.error .notInitialized, []) ∧ initLevels rand full ([] : List (Lev X P)) = (.error .notInitialized, []) ∧
    ∀ (l : Lev X P) (t : List (Lev X P)),
      (l.par = none → l.numTotal = none → initLevels rand full (l :: t) = (.error .assertionError, l :: t)) ∧
      (∀ p, l.par = some p → l.sample = [] → t ≠ [] → initLevels rand full (l :: t) = (.error .notInitialized, l :: t)) := by
  refine ⟨rfl, rfl, fun l t => ⟨fun hp hn => ?_, fun p hp hs ht => ?_⟩⟩
  · rw [initLevels, Lev.initPar, hp, hn]
  · rw [initLevels, Lev.initPar, hp]
    simp only
    cases full with
    | true => simp only [if_true, call_unready (.sample hs)]
    | false =>
      simp only [Bool.false_eq_true, if_false]
      cases t with
      | nil => exact absurd rfl ht
      | cons b t => simp only [hs, List.isEmpty_nil]

end

/-! ### Targets and representations -/

section
open Solve

/-- Exactly when a target is refused, and with which exception; nothing changes then. -/
theorem C112_target (s : Solve.St) (t : Solve.Data) :
    (setTarget s (some t) = (.error .notInitialized, s) ↔ s.sample = none) ∧
    (setTarget s (some t) = (.error .assertionError, s) ↔ ∃ x, s.sample = some x ∧ (s.dimOutput ≠ t.cols ∨ x.rows ≠ t.rows)) ∧
    (setTarget s (some t) = (.ok (), { s with target := some t }) ↔ ∃ x, s.sample = some x ∧ s.dimOutput = t.cols ∧ x.rows = t.rows) := by
  cases hs : s.sample with
  | none => simp [setTarget, hs]
  | some x =>
    by_cases h1 : s.dimOutput = t.cols
    · by_cases h2 : x.rows = t.rows
      · simp [setTarget, hs, h1, h2]
      · simp [setTarget, hs, h1, h2]
    · simp [setTarget, hs, h1]

/-- A level with a sample refuses a representation that is neither primal nor dual, and is not fitted; without sample nothing is raised. -/
theorem C112_representation (default : Bool) (s : Solve.St) (x : Option Solve.Data) :
    (solve default s x none .other).1 = (if (withSample s x).sample = none then .ok () else .error .representationError) ∧ (solve default s x none .other).2.fitted = s.fitted := by
  cases x with
  | none =>
    cases hs : s.sample <;> simp [solve, solveBase, withSample, setTarget, hs]
  | some x => simp [solve, solveBase, withSample, initSample, setTarget]

end

/-! ### Bias, weight of a view -/

section
variable {α : Type}

/-- A single number cannot be assigned to the bias of a view without output dimension, nor can the bias be initialised: nothing changes. -/
theorem C112_bias (conv : α → α) (zero : α) (s : Bias.St α) (v : Cast.Arg α) (t : Cast.Tensor α) (hd : s.dimOutput = none) (hv : Cast.castf conv v = .ok (some t)) (ht : (Cast.squeeze t).shape = []) :
    s.set conv v = (.error .typeError, s) ∧ s.initBias conv zero = (.error .assertionError, s) := by
  constructor
  · rw [Bias.St.set, hv]
    simp only [Bias.shaped, ht, List.length_nil, if_true, hd]
  · rw [Bias.St.initBias, hd]

/-- A gradient, once there, stays, and arrives exactly if the bias requires one. -/
theorem C112_bias_gradient (conv : α → α) (s : Bias.St α) : (s.step conv .backward).bias.grad = true ↔ s.bias.grad = true ∨ s.bias.rg = true := by
  simp [Bias.St.step]

/-- A weight of a view is refused exactly if it is negative. -/
theorem C112_kappa (kappa : ℝ) : ViewScale.construct kappa = .error .valueError ↔ kappa < 0 := by
  rw [ViewScale.construct]
  split <;> simp_all

end

/-! ### Saving during training -/

/-- Saving every 0 epochs raises `ZeroDivisionError` from the first epoch on; any other number never raises. -/
theorem C112_saving {σ : Type} (m : Nat) (content : Nat → σ) (n : Nat) :
    (m = 0 → Monitor.runUpdates m content (n + 1) = .error .zeroDivision) ∧ (m ≠ 0 → ∃ d, Monitor.runUpdates m content n = .ok d) := by
  constructor
  · rintro rfl
    induction n with
    | zero => rfl
    | succ n ih => rw [Monitor.runUpdates, ih]
  · intro hm
    induction n with
    | zero => exact ⟨_, rfl⟩
    | succ n ih =>
      obtain ⟨d, hd⟩ := ih
      rw [Monitor.runUpdates, hd]
      simp only [Monitor.update, if_neg hm]
      split <;> exact ⟨_, rfl⟩

/-! ### Building models -/

section
variable {X : Type}

/-- A level of unknown input dimension after a level of unknown output dimension is refused; a model needs a level. -/
theorem C112_append (levels : List (Net.Lev X)) (last l : Net.Lev X) (constraint : String) (hl : l.dimIn = none) (ho : l.dimOut ≠ none) (hlast : levels.getLast? = some last)
    (hd : last.dimOut = none) : Net.append levels (.ok l) constraint = (.error .notInitialized, levels) := by
  rw [Net.append]
  simp only [if_neg ho, Net.adaptDim, hl, hlast, hd]

theorem C112_empty_model : Net.rkm ([] : List (Except Err (Net.Lev X) × String)) = .error .kerchError := rfl

end

/-! ### Networks, eigenvalues, several views, preimages, distances -/

/-- The explicit preimage of a neural network: refused in a level, refused without decoder, the decoder otherwise. -/
theorem C112_network {e d : ℕ} (dec : Option (NN.Net e d)) (level : Bool) :
    (NN.preimage (.ok level) dec = .error .kerchError ↔ level = true) ∧ (NN.preimage (.ok level) dec = .error .notInitialized ↔ level = false ∧ dec = none) ∧
    ∀ g, NN.preimage (.ok level) dec = .ok g ↔ level = false ∧ dec = some g := by
  cases level <;> cases dec <;> simp [NN.preimage]

/-- A generalised eigenvalue problem whose second matrix is singular fails as torch does, if the iterative method is not available; a matrix that is not square or a number of pairs larger
than its size is refused before. -/
theorem C112_eigs {a b : ℕ} (T : Eigs.Torch a) (A : Matrix (Fin a) (Fin b) ℝ) (k : Option ℤ) (B : Matrix (Fin a) (Fin a) ℝ) (psd sym : Bool) :
    (a ≠ b → Eigs.eigs T A k (some B) psd sym = .error .assertionError) ∧
    ∀ h : a = b, ((a : ℤ) < k.getD a → Eigs.eigs T A k (some B) psd sym = .error .assertionError) ∧
      (k.getD a ≤ a → T.lobpcg (fun i j => A i (Fin.cast h j)) (k.getD a) (some B) = none → T.inv B = none → Eigs.eigs T A k (some B) psd sym = .error .runtimeError) := by
  refine ⟨fun h => ?_, fun h => ⟨fun hk => ?_, fun hk hl hi => ?_⟩⟩
  · rw [Eigs.eigs, dif_neg h]
  · rw [Eigs.eigs, dif_pos h]
    simp only
    rw [if_neg (not_le.2 hk)]
  · rw [Eigs.eigs, dif_pos h]
    simp only
    rw [if_pos hk, hl]
    simp only [Eigs.target, hi]
    rfl

/-- Two matrices are added exactly if they have the same number of rows or one of them a single row. -/
theorem C112_add_views {R : Type} [Add R] (a b : List (List R)) :
    MView.addB a b = .error .runtimeError ↔ a.length ≠ b.length ∧ a.length ≠ 1 ∧ b.length ≠ 1 := by
  unfold MView.addB
  rcases a with _ | ⟨a1, _ | ⟨a2, a⟩⟩ <;> rcases b with _ | ⟨b1, _ | ⟨b2, b⟩⟩ <;> simp

/-- The known views of a prediction: accepted exactly if at least one is known and all known ones have the same number of points. The views without value are to be predicted. -/
theorem checkKnown_spec (known : String → Option (Option Nat)) (keys : List String) (n : Option Nat) (p : List String) :
    (∀ m q, MView.checkKnown known keys n p = .ok (m, q) ↔
      (∀ key ∈ keys, ∀ c, known key = some (some c) → c = m) ∧ (n = some m ∨ n = none ∧ ∃ key ∈ keys, known key = some (some m)) ∧ q = p ++ keys.filter fun key => (known key).isNone) ∧
    ((∃ r, MView.checkKnown known keys n p = .ok r) ∨ MView.checkKnown known keys n p = .error .assertionError) := by
  induction keys generalizing n p with
  | nil =>
    cases n with
    | none =>
      refine ⟨fun m q => ?_, .inr rfl⟩
      simp [MView.checkKnown]
    | some n =>
      refine ⟨fun m q => ?_, .inl ⟨_, rfl⟩⟩
      simp only [MView.checkKnown, Except.ok.injEq, Prod.mk.injEq, List.filter_nil, List.append_nil, List.not_mem_nil, false_imp_iff, implies_true, Option.some.injEq, reduceCtorEq,
        false_and, or_false, true_and]
      constructor
      · rintro ⟨h1, h2⟩; exact ⟨h1, h2.symm⟩
      · rintro ⟨h1, h2⟩; exact ⟨h1, h2.symm⟩
  | cons key t ih =>
    cases hk : known key with
    | none =>
      have e : MView.checkKnown known (key :: t) n p = MView.checkKnown known t n (p ++ [key]) := by
        rw [MView.checkKnown, hk]
      rw [e]
      refine ⟨fun m q => ?_, (ih n (p ++ [key])).2⟩
      rw [(ih n (p ++ [key])).1 m q]
      simp [hk]
    | some v =>
      cases v with
      | none =>
        have e : MView.checkKnown known (key :: t) n p = MView.checkKnown known t n p := by
          rw [MView.checkKnown, hk]
        rw [e]
        refine ⟨fun m q => ?_, (ih n p).2⟩
        rw [(ih n p).1 m q]
        simp [hk]
      | some c =>
        cases n with
        | none =>
          have e : MView.checkKnown known (key :: t) none p = MView.checkKnown known t (some c) p := by
            rw [MView.checkKnown, hk]
          rw [e]
          refine ⟨fun m q => ?_, (ih (some c) p).2⟩
          rw [(ih (some c) p).1 m q]
          simp only [List.mem_cons, forall_eq_or_imp, hk, Option.some.injEq, forall_eq', exists_eq_or_imp, true_and, reduceCtorEq, false_or, false_and, or_false, List.filter_cons,
            Option.isNone_some, Bool.false_eq_true, if_false]
          constructor
          · rintro ⟨h1, rfl, h3⟩; exact ⟨⟨rfl, h1⟩, .inl rfl, h3⟩
          · rintro ⟨⟨h0, h1⟩, _, h3⟩; exact ⟨h1, h0, h3⟩
        | some n =>
          by_cases hc : n = c
          · subst hc
            have e : MView.checkKnown known (key :: t) (some n) p = MView.checkKnown known t (some n) p := by
              rw [MView.checkKnown, hk]; simp only [if_true]
            rw [e]
            refine ⟨fun m q => ?_, (ih (some n) p).2⟩
            rw [(ih (some n) p).1 m q]
            simp only [List.mem_cons, forall_eq_or_imp, hk, Option.some.injEq, forall_eq', exists_eq_or_imp, true_and, reduceCtorEq, false_or, false_and, or_false, List.filter_cons,
              Option.isNone_some, Bool.false_eq_true, if_false]
            constructor
            · rintro ⟨h1, rfl, h3⟩; exact ⟨⟨rfl, h1⟩, rfl, h3⟩
            · rintro ⟨⟨h0, h1⟩, h2, h3⟩; exact ⟨h1, h2, h3⟩
          · have e : MView.checkKnown known (key :: t) (some n) p = .error .assertionError := by
              rw [MView.checkKnown, hk]; simp only [if_neg hc]
            rw [e]
            refine ⟨fun m q => ?_, .inr rfl⟩
            simp only [List.mem_cons, forall_eq_or_imp, hk, Option.some.injEq, forall_eq', reduceCtorEq, false_and, or_false, false_iff]
            rintro ⟨⟨rfl, _⟩, h2, _⟩
            exact hc h2

/-- The views given to a prediction are accepted exactly if at least one has points and all that have have as many; the answer is this number with the views that are not given, in order.
Everything else fails an assertion. -/
theorem C112_known_views (known : String → Option (Option Nat)) (keys : List String) :
    (∀ m q, MView.checkKnown known keys none [] = .ok (m, q) ↔
      (∃ key ∈ keys, known key = some (some m)) ∧ (∀ key ∈ keys, ∀ c, known key = some (some c) → c = m) ∧ q = keys.filter fun key => (known key).isNone) ∧
    ((¬ ∃ m, (∃ key ∈ keys, known key = some (some m)) ∧ ∀ key ∈ keys, ∀ c, known key = some (some c) → c = m) ↔ MView.checkKnown known keys none [] = .error .assertionError) := by
  have h := checkKnown_spec known keys none []
  have h1 : ∀ m q, MView.checkKnown known keys none [] = .ok (m, q) ↔
      (∃ key ∈ keys, known key = some (some m)) ∧ (∀ key ∈ keys, ∀ c, known key = some (some c) → c = m) ∧ q = keys.filter fun key => (known key).isNone := by
    intro m q
    rw [h.1 m q]
    simp only [reduceCtorEq, true_and, false_or, List.nil_append]
    constructor
    · rintro ⟨a, b, c⟩; exact ⟨b, a, c⟩
    · rintro ⟨b, a, c⟩; exact ⟨a, b, c⟩
  refine ⟨h1, ?_, ?_⟩
  · intro hn
    rcases h.2 with ⟨⟨m, q⟩, hr⟩ | hr
    · exact absurd ⟨m, ((h1 m q).1 hr).1, ((h1 m q).1 hr).2.1⟩ hn
    · exact hr
  · rintro he ⟨m, a, b⟩
    have := (h1 m _).2 ⟨a, b, rfl⟩
    rw [he] at this
    cases this

/-- Distances of order `p`: the distance cannot be evaluated, an attribute is missing. -/
theorem C112_minkowski {d : Type} [Fintype d] [Nonempty d] (p σ : ℝ) (x y : d → ℝ) :
    dist (.minkowski p) x y = .error .attributeError ∧ distSigma (.minkowski p) σ x y = .error .attributeError ∧ sqDistSigma (.minkowski p) σ x y = .error .attributeError ∧
    ∀ D, (∀ q, D ≠ .minkowski q) → ∃ u, dist D x y = .ok u ∧ 0 ≤ u := by
  refine ⟨rfl, rfl, rfl, fun D hD => ?_⟩
  cases D with
  | euclidean => exact ⟨_, rfl, Real.sqrt_nonneg _⟩
  | manhattan => exact ⟨_, rfl, Finset.sum_nonneg fun i _ => abs_nonneg _⟩
  | chebyshev =>
    refine ⟨_, rfl, ?_⟩
    obtain ⟨i⟩ := ‹Nonempty d›
    exact le_trans (abs_nonneg (x i - y i)) (Finset.le_sup' (fun i => |x i - y i|) (Finset.mem_univ i))
  | minkowski q => exact absurd rfl (hD q)

/-- Reverting the features of a sample that is not a number: refused exactly if the features are normalised. -/
theorem C112_revert {n d m ι : Type} [Fintype n] [Nonempty n] [Fintype d] [Fintype m] (q : List Kind) (ψ : (d → ℝ) → m → ℝ) (F : Option (ι → m → ℝ)) :
    (Preimage.revertFeatures (n := n) q ψ none F = .error .bijectionError ↔ Kind.sphere ∈ q) ∧ (q = [] → Preimage.revertFeatures (n := n) q ψ none F = .ok F) := by
  rw [Preimage.revertFeatures]
  constructor
  · split <;> simp_all
  · rintro rfl; simp

/-! ### Cases -/

/-- One level of each kind. -/
example : Unready (⟨[], none, [], some (), true, fun _ _ _ x => x, fun _ _ p => p, fun _ => ()⟩ : Deep.Lev ℕ Unit) .notInitialized ∧
    Unready (⟨[5, 6], some 2, [0, 7], some (), true, fun _ _ _ x => x, fun _ _ p => p, fun _ => ()⟩ : Deep.Lev ℕ Unit) .indexError ∧
    Unready (⟨[5, 6], some 2, [0, 1], none, false, fun _ _ _ x => x, fun _ _ p => p, fun _ => ()⟩ : Deep.Lev ℕ Unit) .notInitialized :=
  ⟨.sample rfl, .index 7 (by simp) (by simp) (by simp), .parameter (by simp) (by simp) rfl⟩

example : MView.checkKnown (fun s => if s = "a" then some (some 3) else if s = "b" then some none else none) ["a", "b", "c"] none [] = .ok (3, ["c"]) := by decide +kernel
example : MView.checkKnown (fun s => if s = "a" then some (some 3) else some (some 4)) ["a", "b"] none [] = .error .assertionError := by decide +kernel

end Errors
end Kerch
