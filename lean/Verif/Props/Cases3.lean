import Verif.Props.Deep
import Verif.Props.Cast
import Verif.Props.Bias
import Verif.Props.Assign
import Verif.Props.Level
import Verif.Props.Exact
import Verif.Props.Refinements
import Verif.Props.Metrics
/-!
# Further cases, by name (continued)
-/
set_option linter.unusedSimpArgs false
set_option linter.unusedVariables false
namespace Kerch

/-! ## C102 -/

namespace Deep

/-- A level adding `p` to its points. -/
def adds (p : Int) (s : List Int) : Lev Int Int :=
  ⟨s, some s.length, List.range s.length, some p, true, fun p _ _ x => x.map (p + ·), fun _ _ p => p, fun _ => 0⟩

/-- Two levels adding 1 and 10, over two points. -/
theorem two_good : ∀ l ∈ two 1 10 [5, 6] [0, 0], Good (· + ·) 2 l := by
  intro l hl
  simp only [two, List.mem_cons, List.not_mem_nil, or_false] at hl
  rcases hl with rfl | rfl <;> exact ⟨⟨by decide, rfl, rfl, ⟨_, rfl⟩, by simp⟩, fun _ _ _ _ => rfl, rfl⟩

/-- An epoch of batches of one point, in reverse order. -/
example : Chain (· + ·) (· < 2) ([[1], [0]].foldl (fun ls b => batch b ls) (two 1 10 [5, 6] [0, 0])) :=
  (C102_epoch_partial (· + ·) 2 [[1], [0]] (by intro b hb; simp only [List.mem_cons, List.not_mem_nil, or_false] at hb; rcases hb with rfl | rfl <;> exact ⟨by simp, by simp⟩)
    (by intro j hj; rcases (show j = 0 ∨ j = 1 by omega) with rfl | rfl <;> simp) _ two_good).1

example : ∃ x ls' y, select [5, 6] [0, 1] = .ok x ∧ forwardTrain [0, 1] (two 1 10 [5, 6] [0, 0]) none = (.ok (some y), ls') ∧ Ran [0, 1] (two 1 10 [5, 6] [0, 0]) x ls' y := by
  obtain ⟨x, ls', y, h1, h2, h3, -⟩ := C102_forward 2 [0, 1] ⟨by simp, by simp⟩ (adds 1 [5, 6]) [adds 10 [0, 0]]
    (fun a ha => ⟨(two_good a ha).1, by simp only [List.mem_cons, List.not_mem_nil, or_false] at ha; rcases ha with rfl | rfl <;> rfl⟩)
  exact ⟨x, ls', y, h1, h2, h3⟩

/-- The points given as argument are written into the sample of the first level. -/
example : ∃ l' t' y, forwardTrain [0, 1] (two 1 10 [5, 6] [0, 0]) (some [7, 8]) = (.ok (some y), l' :: t') ∧ ∀ a i : Nat, [0, 1][a]? = some i → l'.sample[i]? = [7, 8][a]? :=
  C102_argument_violated 2 [0, 1] ⟨by simp, by simp⟩ (adds 1 [5, 6]) [adds 10 [0, 0]]
    (fun a ha => ⟨(two_good a ha).1, by simp only [List.mem_cons, List.not_mem_nil, or_false] at ha; rcases ha with rfl | rfl <;> rfl⟩) [7, 8] rfl

example : forwardTrain [0, 1] (two 1 10 [5, 6] [0, 0]) (some [7, 8, 9]) = (.error .assertionError, two 1 10 [5, 6] [0, 0]) :=
  C102_length 2 [0, 1] (adds 1 [5, 6]) [adds 10 [0, 0]] (two_good _ (by simp [two, adds])).1 [7, 8, 9] (by decide)

example : (initFit (fun n => List.replicate n 0) [5, 6] (two 1 10 [5, 6] [0, 0])).1 = .error .assertionError :=
  C102_refit_violated _ _ (by simp) (adds 1 [5, 6]) (adds 10 [0, 0]) [] (by simp [adds])

/-- The sample of the deeper level had three points. -/
example : (initLevels (fun _ => []) true (two 1 10 [5, 6] [0, 0, 0])).1 = .ok () ∧ Chain (· + ·) (fun _ => True) (initLevels (fun _ => []) true (two 1 10 [5, 6] [0, 0, 0])).2 := by
  obtain ⟨h1, -, -, h2, -⟩ := C102_full (· + ·) (fun _ => []) (adds 1 [5, 6]) [adds 10 [0, 0, 0]] 2 (by decide) rfl rfl rfl
    (by intro a ha; simp only [List.mem_cons, List.not_mem_nil, or_false] at ha; rcases ha with rfl | rfl <;> exact fun _ _ _ _ => rfl)
  exact ⟨h1, h2⟩

end Deep

/-! ## C41, C42 -/

section
open Cast

example : castf id (.other (.node [.leaf 5, .leaf 6, .leaf 7]) : Cast.Arg Nat) = .ok (some ⟨[3, 1], [5, 6, 7]⟩) := by
  simpa using C41_castf id (.other (.node [.leaf 5, .leaf 6, .leaf 7]) : Cast.Arg Nat) (s := [3]) (d := [5, 6, 7]) (by simp [argValue, Nest.shape, Nest.shapes, Nest.flat, Nest.flats])

example : ∃ e, castf id (.other (.node [.node [.leaf 1, .leaf 2], .node [.leaf 3]]) : Cast.Arg Nat) true = .error e :=
  C41_ragged id _ (by simp [argValue, Nest.shape, Nest.shapes]) true

/-- With a conversion that rounds to even numbers. -/
example : castf (fun n => n / 2 * 2) (.tensor ⟨[3, 1], [4, 6, 6]⟩ : Cast.Arg Nat) = .ok (some ⟨[3, 1], [4, 6, 6]⟩) :=
  C41_idempotent (conv := fun n => n / 2 * 2) (fun a => by simp) (.tensor ⟨[3], [5, 6, 7]⟩) (by decide)

example : ∃ u, casti (fun n => n / 2 * 2) (.tensor ⟨[1, 3, 1], [5, 6, 7]⟩ : Cast.Arg Nat) = .ok (some u) ∧ u.data = [4, 6, 6] ∧ u.shape = [3] := by
  obtain ⟨u, h1, h2, h3, -⟩ := C41_casti (conv := fun n => n / 2 * 2) (fun a => by simp) (⟨[1, 3, 1], [5, 6, 7]⟩ : Tensor Nat)
  exact ⟨u, h1, h2, h3⟩

example : (withDefaults [("sigma", 1), ("a", 3)] [("sigma", 2)] : Dict String Nat).find "sigma" = some 2 :=
  C42_keywords _ _ (by unfold Dict.WF; decide) "sigma"

/-- The second class of the chain gets the default of the first for `a`. -/
example : ((received [("sigma", 2)] [[("sigma", 1), ("a", 3)], [("a", 4), ("b", 5)]] : List (Dict String Nat))[1]'(by decide)).find "a" = some 3 :=
  C42_chain _ (by unfold Dict.WF; decide) _ (by unfold Dict.WF; decide) "a" 1 (by decide)

end

/-! ## C100 -/

namespace Bias

example : ((fresh 3).set id (.other (.leaf 5))).2.get = some ⟨[3], [5, 5, 5]⟩ :=
  (C100_assign_partial id (fresh 3) 3 (by decide) rfl (by simp [fresh]) (by simp [fresh]) (.other (.leaf 5)) [5, 5, 5] (.scalar 5)).2.1

example : ∃ s, construct id (some 2) false false .none = (.ok (), some s) ∧
    (((s.run id [.set (.other (.leaf 5)), .setTrainable true, .backward]).set id (.tensor ⟨[2], [7, 8]⟩)).1 = .ok () ∧
      ((s.run id [.set (.other (.leaf 5)), .setTrainable true, .backward]).set id (.tensor ⟨[2], [7, 8]⟩)).2.get = some ⟨[2], [7, 8]⟩) :=
  C100_history_partial id 2 (by decide) .none _ (by simp [NeverRequired]) _ _ (.vector [7, 8] rfl)

/-- A bias of two rows for an output of dimension 2. -/
example : ((fresh 2).set id (.tensor ⟨[2, 2], [1, 2, 3, 4]⟩)).1 = .ok () :=
  (C100_misfit_violated id (fresh 2) 2 rfl (by simp [fresh]) (by simp [fresh]) ⟨[2, 2], [1, 2, 3, 4]⟩ (by simp) (by simp) (by simp) (by simp)).1

example : ∃ s, construct id (some 2) false true .none = (.ok (), some s) ∧ (s.run id [.backward]).bias.rg = false ∧
    ((((s.run id [.backward]).set id (.other (.leaf 5))).2.set id (.other (.leaf 6))).1 = .error .attributeError) :=
  C100_trainable_violated id 2 (by decide) .none [.backward] (by simp [NeverRequired]) _ _ [5, 5] [6, 6] (.scalar 5) (.scalar 6)

example : ((fresh 2).initBias id 0).1 = .error .attributeError ∧ ((fresh 2).initBias id 0).2.get = some ⟨[2], [0, 0]⟩ :=
  C100_init_violated id 0 (fresh 2) 2 (by decide) rfl (by simp [fresh]) (by simp [fresh])

end Bias

/-! ## C108 -/

namespace Assign

example : (⟨1, 2, 1, 1⟩ : Hyp).run [.alpha (1 / 4), .gamma 1, .delta 1, .beta 1] = ⟨1 / 4, 1, 1, 1⟩ :=
  C108_hyperbola_reach ⟨1, 2, 1, 1⟩ ⟨1 / 4, 1, 1, 1⟩ (by norm_num [Hyp.Good, Activation.Admissible])

example : ((⟨1, 2, 1, 1⟩ : Hyp).run [.beta 1, .alpha (1 / 4), .gamma 1, .delta 1]).beta = 2 :=
  (C108_hyperbola_order_violated ⟨1, 2, 1, 1⟩ ⟨1 / 4, 1, 1, 1⟩ (by norm_num)).2

example : 0 < ((⟨1, 2, 1, 1⟩ : Hyp).run [.alpha (-3), .beta 7, .gamma 40]).gamma :=
  (C108_hyperbola_positive _ (by norm_num [Hyp.Good, Activation.Admissible]) _).2.2.1

end Assign

/-! ## C51, C52 -/

section
open Level

example : (((St.init (.str "normal") : St Nat Nat Nat).run ⟨fun p x => p + x, fun d x => d * x⟩
      [.setDual (some 3), .forward 5 10 .dual, .setPrimal (some 4)]).forward ⟨fun p x => p + x, fun d x => d * x⟩ 7 10 .primal).1 = .ok 14 :=
  C51_primal_partial _ _ ⟨2, rfl⟩ _ 7 10 4 rfl rfl

example : (((St.init (.str "normal") : St Nat Nat Nat).run ⟨fun p x => p + x, fun d x => d * x⟩
      [.setPrimal (some 4), .setDual (some 3)]).forward ⟨fun p x => p + x, fun d x => d * x⟩ 7 10 .dual).1 = .ok 30 :=
  C51_dual_partial _ _ ⟨2, rfl⟩ _ 7 10 rfl

example : (((St.init (.str "normal") : St Nat Nat Nat).run ⟨fun p x => p + x, fun d x => d * x⟩
      ([.setPrimal (some 4)] ++ [.setDual (some 3)])).forward ⟨fun p x => p + x, fun d x => d * x⟩ 7 10 .primal).1 = .ok 14 :=
  (C51_setDual_violated _ _ ⟨2, rfl⟩ [.setPrimal (some 4)] 4 rfl 3 7 10 rfl).1

example : (((St.init (.str "normal") : St Nat Nat Nat).run ⟨fun p x => p + x, fun d x => d * x⟩ [.setPrimal (some 4), .setPrimal none]).forward
    ⟨fun p x => p + x, fun d x => d * x⟩ 7 10 .primal).1 = .ok 14 :=
  (C51_unset_violated _ _ ⟨2, rfl⟩ 4 7 10).1

example : (((St.init (.str "light") : St Nat Nat Nat).run ⟨fun p x => p + x, fun d x => d * x⟩
      [.setPrimal (some 3), .forward 5 10 .primal, .setPrimal (some 4)]).forward ⟨fun p x => p + x, fun d x => d * x⟩ 5 10 .primal).1 = .ok 14 :=
  C52_light_partial _ _ 1 rfl (by decide) _ 5 10 .primal

example : ((((St.init (.str "normal") : St Nat Nat Nat).run ⟨fun p x => p + x, fun d x => d * x⟩
      [.setPrimal (some 3), .forward 5 10 .primal, .setPrimal (some 4)]).step ⟨fun p x => p + x, fun d x => d * x⟩ .reset).forward
      ⟨fun p x => p + x, fun d x => d * x⟩ 5 10 .primal).1 = .ok 14 :=
  C52_reset_partial _ _ ⟨2, rfl⟩ _ 5 10 .primal

end

/-! ## Others -/

example : Data.rows ['a', 'b'] [0, 5] = .error .indexError := C58_missing_row _ _ ⟨5, by simp, by simp⟩

example (a : String) : Settings.logName (some a) "KPCA" ≠ Settings.logName (some a) "LSSVM" :=
  ((Settings.C86_names_apart a a "KPCA" "LSSVM" (by decide) (by decide)).2 (by decide)).1

example : ∃ kc ke km, statKernel .triangular .chebyshev 5 (![3, 4] : Fin 2 → ℝ) 0 = .ok kc ∧ statKernel .triangular .euclidean 5 (![3, 4] : Fin 2 → ℝ) 0 = .ok ke ∧
    statKernel .triangular .manhattan 5 (![3, 4] : Fin 2 → ℝ) 0 = .ok km ∧ km ≤ ke ∧ ke ≤ kc :=
  Metrics.C152_kernels .triangular (by decide) 5 (by norm_num) _ _

example : dist .chebyshev (fun _ : Fin 1 => (3 : ℝ)) (fun _ => 5) = dist .euclidean (fun _ : Fin 1 => (3 : ℝ)) (fun _ => 5) :=
  (Metrics.C152_one_dimension (by simp) .chebyshev (by simp) _ _).1

end Kerch
