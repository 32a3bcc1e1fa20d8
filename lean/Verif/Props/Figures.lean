import Verif.Model.Figures
import Mathlib.Tactic.Linarith
import Mathlib.Data.List.Perm.Basic
set_option linter.unusedSectionVars false
set_option linter.unusedSimpArgs false
/-!
# C138: what figures show
-/
namespace Kerch
namespace Figures

/-- **C138** (partial) Whatever the function, the matrix and the axes: the figure shows the matrix given (for `plot_hidden_correlation`, the inner products of its columns) over what was there, keeps everything
else that was there, and has the title of the function exactly if labels were asked for. What is missing: the labels of the axes, see below. -/
theorem C138_matrix_partial (p : Plot) (r c : Nat) (m : Matrix (Fin r) (Fin c) ℝ) (labels : Bool) (ax : AxArg) (a : Axes) (h : ax = .given a ∨ ax = .fresh ∧ a = {}) :
    ∃ b, plot p ⟨r, c, m⟩ labels ax = .ok b ∧ b.bars = a.bars ∧ b.points = a.points ∧ b.logY = a.logY ∧ b.contours = a.contours ∧
      (b.title = if labels then (texts p).1 else a.title) ∧
      (p ≠ .hiddenCorrelation → b.images = a.images ++ [⟨r, c, m⟩]) ∧
      (p = .hiddenCorrelation → b.images = a.images ++ [⟨c, c, fun i j => ∑ k, m k i * m k j⟩]) := by
  have hg : getFigAx ax = .ok a := by rcases h with rfl | ⟨rfl, rfl⟩ <;> rfl
  unfold plot plotMatrix
  rw [hg]
  cases labels <;> refine ⟨_, rfl, ?_⟩ <;> simp <;> refine ⟨fun hp => ?_, fun hp => ?_⟩
  all_goals first
    | (subst hp; rfl)
    | (cases p <;> first | rfl | exact absurd rfl hp)

/-- **C138** violated: no label is ever displayed, though each function passes two and `labels` is documented to display them; the axes keep the labels they had. -/
theorem C138_labels_violated (p : Plot) (m : Mat) (labels : Bool) (ax : AxArg) (b : Axes) (hb : plot p m labels ax = .ok b) :
    (∀ a, ax = .given a → b.xlabel = a.xlabel ∧ b.ylabel = a.ylabel) ∧ (ax = .fresh → b.xlabel = "" ∧ b.ylabel = "" ∧ (texts p).2.1 ≠ "" ∧ (texts p).2.2 ≠ "") := by
  unfold plot plotMatrix at hb
  constructor
  · rintro a rfl
    simp only [getFigAx] at hb
    cases labels <;> (simp at hb; subst hb; exact ⟨rfl, rfl⟩)
  · rintro rfl
    simp only [getFigAx] at hb
    cases labels <;> (simp at hb; subst hb; refine ⟨rfl, rfl, ?_, ?_⟩ <;> cases p <;> decide)

/-- **C138** Objects that are not axes are refused by all functions. -/
theorem C138_refused (p : Plot) (m : Mat) (shape : List Nat) (vals : List ℝ) (labels log : Bool) :
    plot p m labels .other = .error .assertionError ∧ plotEigenvalues shape vals labels log .other = .error .assertionError := ⟨rfl, rfl⟩

/-- **C138** (partial) Eigenvalues, two or more: there is a bar of the height of each, in order, over what was there, and the texts are those of the documentation. -/
theorem C138_heights_partial (vals : List ℝ) (hv : vals.length ≠ 1) (labels log : Bool) (a : Axes) :
    ∃ b, plotEigenvalues [vals.length] vals labels log (.given a) = .ok b ∧ b.images = a.images ∧ b.points = a.points ∧ b.logY = (a.logY || log) ∧
      (b.bars.drop a.bars.length).map Prod.snd = vals ∧ b.bars.take a.bars.length = a.bars ∧
      (labels = true → b.title = "Eigenvalues" ∧ b.xlabel = "dim_output" ∧ b.ylabel = "Magnitude") ∧ (labels = false → b.title = a.title ∧ b.xlabel = a.xlabel ∧ b.ylabel = a.ylabel) := by
  have h1 : ([vals.length].filter (· ≠ 1)).length = 1 := by simp [hv]
  unfold plotEigenvalues
  simp only [getFigAx, h1, ne_eq, not_true_eq_false, if_false]
  cases labels <;> cases log <;> refine ⟨_, rfl, ?_⟩ <;> simp [List.map_map, Function.comp_def]

/-- **C138** violated: all bars are at the same place, whatever the number of eigenvalues: the figure of the same values in any other order has the same bars. -/
theorem C138_bars_violated (vals vals' : List ℝ) (hp : vals.Perm vals') (labels log : Bool) (b : Axes)
    (hb : plotEigenvalues [vals.length] vals labels log .fresh = .ok b) :
    (∀ x ∈ b.bars, x.1 = vals.length) ∧ ∃ b', plotEigenvalues [vals'.length] vals' labels log .fresh = .ok b' ∧ b.bars.Perm b'.bars ∧
      b'.title = b.title ∧ b'.xlabel = b.xlabel ∧ b'.ylabel = b.ylabel ∧ b'.logY = b.logY := by
  unfold plotEigenvalues at hb ⊢
  rw [← hp.length_eq]
  simp only [getFigAx] at hb ⊢
  split at hb
  · exact absurd hb (by simp)
  · rename_i h
    rw [if_neg h]
    cases labels <;> cases log <;> (simp at hb; subst hb; refine ⟨by simp, _, rfl, ?_⟩; exact ⟨by simpa using hp.map _, rfl, rfl, rfl, rfl⟩)

/-- **C138** violated: the eigenvalue of a level with a single component cannot be drawn. -/
theorem C138_single_violated (v : ℝ) (labels log : Bool) (a : Axes) : plotEigenvalues [1] [v] labels log (.given a) = .error .assertionError := rfl

/-- **C138** (partial) Scattered points, for views with targets for all points in use: one point per point in use at its two features, in one colour if its target is one and in the other if not. -/
theorem C138_scatter_partial (v : View) (i j k w : Nat) (ts : List (Nat → ℝ)) (hi : i < v.dimInput) (hj : j < v.dimInput) (hk : k < w) (ht : v.target = some (w, ts))
    (hl : ts.length = v.current.length) (labels : Bool) :
    ∃ b, scatter v (some (i, j)) k false labels = .ok b ∧ b.points.length = v.current.length ∧
      ∀ (n : Nat) (hn : n < v.current.length) (hn' : n < ts.length) (hb : n < b.points.length),
        (b.points[n]).1 = (v.current[n]) i ∧ (b.points[n]).2.1 = (v.current[n]) j ∧ ((b.points[n]).2.2 = some true ↔ (ts[n]) k = 1) ∧ (b.points[n]).2.2.isSome := by
  have e : ∀ (a b : Nat), a < b → pyIndex b (a : Int) = .ok a := fun a b h => by
    unfold pyIndex
    rw [if_pos ⟨by omega, by omega⟩]; rfl
  unfold scatter
  simp only [Option.getD_some, e i _ hi, e j _ hj, ht, e k _ hk, hl, ne_eq, not_true_eq_false, false_and, if_false, Bool.false_eq_true]
  have key : ∀ n, n < v.current.length → (if v.current.length = 1 then 0 else n) = n := by
    intro n hn
    split
    · omega
    · rfl
  cases labels <;> refine ⟨_, rfl, by simp, fun n hn hn' hb => ?_⟩ <;>
    simp [List.getElem_mapIdx, key n hn, List.getElem?_eq_getElem (show n < ts.length by omega)]

/-- **C138** The features of the abscissa and the ordinate are the first two if none are given; negative ones count from the last; those that do not exist are refused. -/
theorem C138_features (v : View) (dt : Int) (heat labels : Bool) :
    scatter v none dt heat labels = scatter v (some (0, 1)) dt heat labels ∧
    (∀ i j : Nat, i < v.dimInput → j < v.dimInput →
      (scatter v (some ((i : Int) - v.dimInput, (j : Int) - v.dimInput)) dt false false) = scatter v (some (i, j)) dt false false) ∧
    (∀ i j : Int, i < -(v.dimInput : Int) ∨ v.dimInput ≤ i ∨ j < -(v.dimInput : Int) ∨ v.dimInput ≤ j → scatter v (some (i, j)) dt heat labels = .error .indexError) := by
  have bad : ∀ (w : Nat) (i : Int), i < -(w : Int) ∨ w ≤ i → pyIndex w i = .error .indexError := by
    intro w i h
    unfold pyIndex
    rw [if_neg (by omega), if_neg (by omega)]
  have some1 : ∀ (w : Nat) (i : Int) e, pyIndex w i = .error e → e = .indexError := by
    intro w i e h
    unfold pyIndex at h
    split at h
    · cases h
    · split at h
      · cases h
      · injection h with h; exact h.symm
  have pos : ∀ (w i : Nat), i < w → pyIndex w (i : Int) = .ok i := by
    intro w i h
    unfold pyIndex
    rw [if_pos ⟨by omega, by omega⟩]; rfl
  have neg : ∀ (w i : Nat), i < w → pyIndex w ((i : Int) - w) = .ok i := by
    intro w i h
    unfold pyIndex
    rw [if_neg (by omega), if_pos ⟨by omega, by omega⟩]
    congr 1
    omega
  refine ⟨rfl, fun i j hi hj => ?_, fun i j h => ?_⟩
  · unfold scatter
    simp only [Option.getD_some, neg _ i hi, neg _ j hj, pos _ i hi, pos _ j hj, Bool.false_eq_true, if_false]
  · unfold scatter
    simp only [Option.getD_some]
    rcases (by omega : (i < -(v.dimInput : Int) ∨ v.dimInput ≤ i) ∨ (j < -(v.dimInput : Int) ∨ v.dimInput ≤ j)) with h | h
    · rw [bad _ _ h]
    · rw [bad _ j h]
      cases hi : pyIndex v.dimInput i with
      | error e => simp only; rw [some1 _ _ _ hi]
      | ok a => rfl

/-- **C138** violated: a view without targets (any KPCA) cannot be scattered, although the code provides for it: the error is not the one that is caught. -/
theorem C138_untargeted_violated (v : View) (i j : Nat) (hi : i < v.dimInput) (hj : j < v.dimInput) (ht : v.target = none) (dt : Int) (heat labels : Bool) :
    scatter v (some (i, j)) dt heat labels = .error .notInitialized := by
  have e : ∀ (a b : Nat), a < b → pyIndex b (a : Int) = .ok a := fun a b h => by
    unfold pyIndex
    rw [if_pos ⟨by omega, by omega⟩]; rfl
  unfold scatter
  simp only [Option.getD_some, e i _ hi, e j _ hj, ht]

/-- **C138** violated: neither can a view that uses only some of its points, since the colours are those of all. -/
theorem C138_subset_violated (v : View) (dims : Option (Int × Int)) (w : Nat) (ts : List (Nat → ℝ)) (ht : v.target = some (w, ts)) (h : v.current.length < ts.length) (h1 : 1 < ts.length)
    (dt : Int) (heat labels : Bool) : ∀ a, scatter v dims dt heat labels ≠ .ok a := by
  intro a
  unfold scatter
  simp only [ht]
  split <;> try simp
  split <;> try simp
  rw [if_pos ⟨by omega, by omega⟩]
  simp

/-- **C138** violated: a heat map is never drawn. Whatever the view and its `forward` (that gives one row per point): with two features the call raises, with another number of features it is the call without. -/
theorem C138_heat_violated (v : View) (hf : ∀ r c r' c', v.forward r c = .ok (r', c') → r' = r) (dims : Option (Int × Int)) (dt : Int) (labels : Bool) :
    (v.dimInput = 2 → ∀ a, scatter v dims dt true labels ≠ .ok a) ∧ (v.dimInput ≠ 2 → scatter v dims dt true labels = scatter v dims dt false labels) := by
  have hh : v.dimInput = 2 → ∀ a b, heatMap v dt a ≠ .ok b := by
    intro h2 a b
    unfold heatMap
    rw [if_neg (by simp [h2])]
    cases hv : v.forward 50 100 with
    | error e => simp
    | ok rc =>
      obtain ⟨r, c⟩ := rc
      simp only
      have := hf _ _ _ _ hv
      subst this
      cases pyIndex c dt with
      | error e => simp
      | ok _ => simp
  refine ⟨fun h2 a => ?_, fun h2 => ?_⟩
  · unfold scatter
    simp only
    split <;> try simp
    split <;> try simp
    split <;> try simp
    split
    · simp
    · exact hh h2 _ _
  · unfold scatter
    simp only [heatMap, if_pos h2, if_true, Bool.false_eq_true, if_false]

/-! ## Examples -/

/-- `C138_labels_violated` on the identity. -/
example : ∃ b, plot .K ⟨2, 2, 1⟩ true .fresh = .ok b ∧ b.title = "Kernel Matrix" ∧ b.xlabel = "" := by
  obtain ⟨b, h, _, _, _, _, ht, _⟩ := C138_matrix_partial .K 2 2 1 true .fresh {} (Or.inr ⟨rfl, rfl⟩)
  exact ⟨b, h, by simpa [texts] using ht, ((C138_labels_violated _ _ _ _ b h).2 rfl).1⟩
/-- `C138_bars_violated`: the spectra 3, 1 and 1, 3. -/
example : ∃ b b', plotEigenvalues [2] [3, 1] true true .fresh = .ok b ∧ plotEigenvalues [2] [1, 3] true true .fresh = .ok b' ∧ b.bars.Perm b'.bars := by
  obtain ⟨b, hb, _⟩ := C138_heights_partial [3, 1] (by decide) true true {}
  obtain ⟨_, b', hb', hp, _⟩ := C138_bars_violated [3, 1] [1, 3] (List.Perm.swap _ _ _) true true b hb
  exact ⟨b, b', hb, hb', hp⟩
/-- A view on two points of the plane, with targets, all in use. -/
noncomputable def exView : View := ⟨2, [fun _ => 0, fun n => n], some (1, [fun _ => 1, fun _ => -1]), fun r _ => .ok (r, 1)⟩
/-- `C138_scatter_partial`, `C138_heat_violated` on it. -/
example : ∃ b, scatter exView (some (0, 1)) 0 false true = .ok b ∧ b.points.length = 2 := by
  obtain ⟨b, h, hl, _⟩ := C138_scatter_partial exView 0 1 0 1 _ (by decide) (by decide) (by decide) rfl rfl true
  exact ⟨b, h, hl⟩
example (a : Axes) : scatter exView none 0 true true ≠ .ok a :=
  (C138_heat_violated exView (fun r c r' c' h => by simp [exView] at h; exact h.1.symm) none 0 true).1 rfl a
/-- `C138_untargeted_violated`, `C138_subset_violated`: the same without targets, and with the first point in use only. -/
example : scatter { exView with target := none } (some (0, 1)) 0 false true = .error .notInitialized :=
  C138_untargeted_violated _ 0 1 (by decide) (by decide) rfl 0 false true
example (a : Axes) : scatter { exView with current := [fun _ => 0] } none 0 false true ≠ .ok a :=
  C138_subset_violated _ none 1 _ rfl (by decide) (by decide) 0 false true a
end Figures
end Kerch
