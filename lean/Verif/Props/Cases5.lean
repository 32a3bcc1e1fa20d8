import Verif.Props.MultiView
import Verif.Props.RFLimit
import Verif.Props.Transforms
import Verif.Props.NN
/-!
# Further cases, by name (continued)
-/
set_option linter.unusedSimpArgs false
set_option linter.unusedVariables false
namespace Kerch

/-! ## C53, C54 -/
section
open MView

theorem exViews_sizes : ∀ e ∈ exViews, e.2.sample.length = 2 := by decide

theorem exViews_explicit : ∀ e ∈ exViews, ExplicitView e.2 := by
  intro e he
  simp only [exViews, List.mem_cons, List.not_mem_nil, or_false] at he
  rcases he with rfl | rfl
  · exact ⟨fun _ => rfl, fun x y => by simp [rowDot]⟩
  · exact ⟨fun _ => rfl, fun x y => by simp [rowDot]⟩

theorem exViews_picks : Picks exViews (.list [.int (-1), .str "0"]) [(exViews[1].2, [3, 4]), (exViews[0].2, [1, 2])] := by
  apply Picks.list
  exact .cons ⟨⟨1, "1", rfl, Or.inr rfl⟩, rfl⟩ (.cons ⟨rfl, rfl⟩ .nil)

example : ∃ M, MView.phi exViews (.list [.int (-1), .str "0"]) = .ok M ∧ M.length = 2 :=
  let ⟨M, h1, h2, _⟩ := C53_phi exViews _ _ exViews_picks (by simp) 2 (by simp)
  ⟨M, h1, h2⟩

example : ∃ M, MView.k exViews (.list [.int (-1), .str "0"]) = .ok M ∧ M.length = 2 :=
  let ⟨M, h1, h2, _⟩ := C53_k_partial exViews _ (by simp) _ exViews_picks (by simp) 2 2 (by simp) (by simp [exViews])
  ⟨M, h1, h2⟩

/-- The entry of the two first points is the sum over the views of the kernel between them: 1 · 2 and 3 · 4 + 9 · 16. -/
example : ∃ M r, MView.K exViews = .ok M ∧ M[0]? = some r ∧ r[1]? = some 158 := by
  obtain ⟨M, h1, -, h3⟩ := C53_K exViews (by simp [exViews]) 2 exViews_sizes
  obtain ⟨r, hr, -, h⟩ := h3 0 (by decide) 1 (by decide)
  exact ⟨M, r, h1, hr, h.trans (by rfl)⟩

example : ∃ M P, MView.K exViews = .ok M ∧ MView.phi exViews .none = .ok P ∧ M.length = 2 ∧ P.length = 2 :=
  let ⟨M, P, h1, h2, h3, h4, _⟩ := C53_consistent exViews (by simp [exViews]) exViews_explicit 2 exViews_sizes
  ⟨M, P, h1, h2, h3, h4⟩

example : MView.k exViews .none = .error .notImplemented := (C53_none_violated exViews (by simp [exViews]) 2 exViews_sizes).2

/-- One point for the first view, two for the second: the kernel adds the one row to both. -/
example : MView.phi exViews (.dict [(.str "0", some [5]), (.str "1", some [6, 7])]) = .error .runtimeError ∧
    MView.k exViews (.dict [(.str "0", some [5]), (.str "1", some [6, 7])]) = .ok [[5 + 18 + 36 * 9, 10 + 24 + 36 * 16], [5 + 21 + 49 * 9, 10 + 28 + 49 * 16]] :=
  ⟨(C53_sizes_violated exViews "0" "1" _ _ rfl rfl 5 [6, 7] (by decide)).1, (C53_sizes_violated exViews "0" "1" _ _ rfl rfl 5 [6, 7] (by decide)).2.trans (by rfl)⟩

example : ∃ blocks : List (List String), blocks.map List.length = [1, 2] ∧ blocks.flatten = ["a", "b", "c"] ∧ weightFromView exViews ["a", "b", "c"] 2 = .error .indexError := by
  obtain ⟨b, h1, h2, -, h4⟩ := C53_weights exViews ["a", "b", "c"] rfl
  exact ⟨b, h1, h2, h4 2 (by decide)⟩

example : ∃ blocks : List (List (Unit → Int)), rowMul (exViews.flatMap fun e => e.2.phi 5) [fun _ => 1, fun _ => 10, fun _ => 100] =
    (List.zipWith (fun e B => rowMul (e.2.phi 5) B) exViews blocks).sum := by
  obtain ⟨b, -, h⟩ := C53_forward (m := Unit) exViews (fun e he x => (exViews_explicit e he).1 x) 5 [fun _ => 1, fun _ => 10, fun _ => 100] rfl
  exact ⟨b, h⟩

example : ["b", "c"] = ["b", "a", "c"].filter (fun k => (if k = "a" then some (some 3) else none : Option (Option Nat)) = none) :=
  (C54_requested (fun k => if k = "a" then some (some 3) else none) ["b", "a", "c"] 3 ["b", "c"] rfl).1

example : ∃ b own, (slices [1, 2, 3, 4, 5] 0 [2, 3])[1]? = some b ∧ ([2, 3].splitLengths [1, 2, 3, 4, 5])[1]? = some own ∧ b ≠ own := by
  obtain ⟨b, own, h1, h2, -, -, h⟩ := C54_block_violated [1, 2, 3, 4, 5] [2, 3] rfl 0 (by decide) (by decide) (by decide)
  exact ⟨b, own, h1, h2, h⟩
end

/-! ## C18 -/
section

example : ∃ Y, esample id three [.mean] = some Y ∧ ∀ j, ∑ i, Y i j = 0 := by
  obtain ⟨Y, h⟩ := eoos_isSome id three [.mean] .sample (by simp)
  exact ⟨Y, h, C18_mean id three [] Y h⟩

example : ∃ Y, esample id three [.minimum] = some Y ∧ ∀ j, (∀ i, 0 ≤ Y i j) ∧ ∃ i, Y i j = 0 := by
  obtain ⟨Y, h⟩ := eoos_isSome id three [.minimum] .sample (by simp)
  exact ⟨Y, h, C18_minimum id three [] Y h⟩

example : ∃ Y, esample id three [.variance, .mean] = some Y ∧ ∀ j, ∑ i, Y i j = 0 := by
  obtain ⟨Y, h⟩ := eoos_isSome id three [.variance, .mean] .sample (by simp)
  exact ⟨Y, h, C18_standard id three [] Y h⟩

/-- The varying feature ends with variance 1, the constant one does not. -/
example : ∃ Y, esample id three [.variance] = some Y ∧ colVar (fun i => Y i 0) = 1 ∧ colVar (fun i => Y i 1) < 1 := by
  obtain ⟨S, hS⟩ := eoos_isSome id three [] .sample (by simp)
  obtain ⟨Y, h⟩ := eoos_isSome id three [.variance] .sample (by simp)
  cases hS
  refine ⟨Y, h, (C18_variance id three [] _ Y rfl h 0).2.1 ?_, (C18_variance id three [] _ Y rfl h 1).2.2 ?_⟩ <;>
    norm_num [colVar, EPS, Fin.sum_univ_three, three]

example : ∃ Y, esample id three [.minmax, .minimum] = some Y ∧ ∀ i, 0 ≤ Y i 0 ∧ Y i 0 ≤ 1 := by
  obtain ⟨S, hS⟩ := eoos_isSome id three [.minimum] .sample (by simp)
  obtain ⟨Y, h⟩ := eoos_isSome id three [.minmax, .minimum] .sample (by simp)
  obtain ⟨r, hr⟩ : ∃ r, IsRange (fun i => S i 0) r := by
    obtain ⟨i, hi⟩ := Finite.exists_max fun i => S i 0
    obtain ⟨l, hl⟩ := Finite.exists_min fun i => S i 0
    exact ⟨S i 0 - S l 0, ⟨fun a b => sub_le_sub (hi a) (hl b), i, l, rfl⟩⟩
  exact ⟨Y, h, (C18_minmax id three [.minimum] S Y hS h 0 r hr).2.2 rfl⟩

example : ∃ Y, esample id three [.sphere] = some Y ∧ ∀ i, ∑ j, Y i j ^ 2 = 1 := by
  obtain ⟨S, hS⟩ := eoos_isSome id three [] .sample (by simp)
  obtain ⟨Y, h⟩ := eoos_isSome id three [.sphere] .sample (by simp)
  cases hS
  refine ⟨Y, h, fun i => (C18_sphere id three [] .sample _ Y rfl h i).1 ?_⟩
  simp only [Fin.sum_univ_two]
  have : (three i 1) = 3 := by simp [three]
  have h0 : (0 : ℝ) ≤ three i 0 ^ 2 := sq_nonneg _
  show EPS ^ 2 ≤ three i 0 ^ 2 + three i 1 ^ 2
  rw [this]
  have : EPS ^ 2 ≤ 9 := by norm_num [EPS]
  linarith
end

/-! ## C101 -/
namespace NN

/-- A decoder halving what an encoder doubles: no loss. -/
example : loss (some fun (y : Fin 2 → ℝ) j => y j / 2) (fun (i : Fin 3) (j : Fin 2) => (i : ℝ) * j)
    (decodeOf [.mean] (fun (i : Fin 3) (j : Fin 2) => (i : ℝ) * j) (some fun y j => y j / 2)
      ((eoos id (fun (i : Fin 3) (j : Fin 2) => (i : ℝ) * j) [.mean] .sample).map fun Y i j => 2 * Y i j)) = .ok (some 0) :=
  C101_level_loss_partial (by decide) [.mean] (by decide) (by simp) _ (fun y j => 2 * y j) (fun y j => y j / 2) (fun z => by funext j; simp)

example : loss (some (id : Net 2 2)) (fun (i : Fin 3) (j : Fin 2) => (i : ℝ) * j) (decode [] [] (id : Net 2 2) (some id) (fun (i : Fin 3) (j : Fin 2) => (i : ℝ) * j) .sample) = .error .runtimeError :=
  C101_loss_violated [] [] id id _ (by decide)

example : decodeOf [.sphere] (fun (i : Fin 3) (j : Fin 2) => (i : ℝ) * j) (some (id : Net 2 2)) (some fun (_ : Unit) (_ : Fin 2) => (1 : ℝ)) = .error .bijectionError :=
  C101_sphere [.sphere] (by decide) _ id _

example : ∃ l, loss (some (id : Net 2 2)) (fun (i : Fin 3) (j : Fin 2) => (i : ℝ) * j) (.ok (some fun _ _ => 1)) = .ok (some l) ∧ 0 ≤ l :=
  let ⟨l, h1, h2, _⟩ := C101_loss (by decide) (id : Net 2 2) (fun (i : Fin 3) (j : Fin 2) => (i : ℝ) * j) fun _ _ => 1
  ⟨l, h1, h2⟩

end NN

/-! ## C104 -/
namespace RFLimit
open MeasureTheory ProbabilityTheory Filter Topology

theorem drawn_exists : Drawn (Measure.infinitePi fun _ : ℕ => weightLaw (Fin 2)) (fun i (ω : ℕ → Fin 2 → ℝ) => ω i) := by
  refine ⟨fun i => measurable_pi_apply i, fun i => ?_, ?_⟩
  · exact (measurePreserving_eval_infinitePi (fun _ : ℕ => weightLaw (Fin 2)) i).map_eq
  · intro i j hij
    exact (iIndepFun_infinitePi (P := fun _ : ℕ => weightLaw (Fin 2)) (X := fun _ v => v) fun _ => measurable_id).indepFun hij

example : ∀ᵐ ω ∂(Measure.infinitePi fun _ : ℕ => weightLaw (Fin 2)),
    Tendsto (fun n : ℕ => rffKernel n 2 (first (fun i (ω : ℕ → Fin 2 → ℝ) => ω i) n ω) ![1, 0] ![0, 1]) atTop (𝓝 (rffClosed 2 ![1, 0] ![0, 1])) :=
  C104_rff 2 _ _ _ _ drawn_exists

example : ∃ k, lreluInf 0 1 ![1, 0] ![0, 1] = some k ∧ ∀ᵐ ω ∂(Measure.infinitePi fun _ : ℕ => weightLaw (Fin 2)),
    Tendsto (fun n : ℕ => rfKernel (lrelu 0) n 1 (first (fun i (ω : ℕ → Fin 2 → ℝ) => ω i) n ω) ![1, 0] ![0, 1]) atTop (𝓝 k) :=
  C104_lrelu_partial 0 1 one_ne_zero _ _ (fun h => by simpa using congrFun h 0) (fun h => by simpa using congrFun h 1) _ _ drawn_exists

example : lreluInf 1 2 ![4, 0] ![6, 8] = some 6 := by
  rw [C104_identity 2 (by norm_num) _ _ (fun h => by simpa using congrFun h 0) (fun h => by simpa using congrFun h 1)]
  simp [Fin.sum_univ_two]; norm_num

example : lreluFormSame 0 ![(1 / 2 : ℝ), 0] = none :=
  (C104_same_violated 0 _ (fun h => by simpa using congrFun h 0) (by simp [vnorm, Fin.sum_univ_two]; norm_num)).1

example : lreluFormSame 0 ![(2 : ℝ), 0] = some (vnorm ![(2 : ℝ), 0] ^ 2 * lreluK 0 (1 / vnorm ![(2 : ℝ), 0] ^ 2) / 2) :=
  (C104_same_value 0 _ (by simp [vnorm, Fin.sum_univ_two])).1

end RFLimit
end Kerch
