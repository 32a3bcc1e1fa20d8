import Verif.Props.Variance
import Verif.Props.ViewScale
import Verif.Props.Subloss
import Verif.Props.SampleGrad
import Verif.Props.Optimizer
import Verif.Props.TrainerSet
/-!
# Further cases, by name (continued)
-/
set_option linter.unusedSimpArgs false
set_option linter.unusedVariables false
namespace Kerch

/-! ## C46 -/
section
open Level KPCA

example : (totalVariance ⟨.primal, 5, 50, 10⟩ .primal true (vrun ⟨.primal, 5, 50, 10⟩ (CacheSt.init (.str "normal"))
    [.call .primal true, .resetDual, .call .dual true])).1 = .ok (5 / 10) := by
  simpa [VarEnv.tr] using C46_partial ⟨.primal, 5, 50, 10⟩ (.str "normal") 2 rfl [.call .primal true, .resetDual, .call .dual true] .primal rfl true

example : (totalVariance ⟨.primal, 5, 50, 10⟩ .dual true (vrun ⟨.primal, 5, 50, 10⟩ (CacheSt.init (.str "light"))
    [.call .dual true, .call .dual true])).1 = .ok (50 / 10) := by
  simpa [VarEnv.tr] using C46_light_partial ⟨.primal, 5, 50, 10⟩ (.str "light") 1 rfl (by decide) [.call .dual true, .call .dual true] .dual true

example : (totalVariance ⟨.primal, 5, 50, 10⟩ .primal true (vrun ⟨.primal, 5, 50, 10⟩ (CacheSt.init (.str "normal")) [.call .primal true])).1 ≠
    (totalVariance ⟨.primal, 5, 50, 10⟩ .primal true (vrun ⟨.primal, 5, 50, 10⟩ (CacheSt.init (.str "normal")) [])).1 :=
  C46_repeat_violated ⟨.primal, 5, 50, 10⟩ (by decide) (by norm_num [VarEnv.tr])

end

/-! ## C60 -/
section
open Optim PTree

theorem exTree_readable : Readable exTree := by intro k; cases k <;> decide

theorem exTree_disjoint : KindsDisjoint exTree fun p => p ≠ 3 := by
  intro p k k' hp h h'
  have e1 : ofKind exTree .euclidean = [1] := by decide
  have e2 : ofKind exTree .stiefel = [0] := by decide
  have e3 : ofKind exTree .slow = [2, 3] := by decide
  cases k <;> cases k' <;> simp_all

example : ∃ s, Optim.construct exTree (fun p => p ≠ 3) "adam" [] = .ok s ∧ groupsOf s 3 = [] ∧
    groupsOf s 0 = [(some (lrOf [] .stiefel), some (.bool true))] ∧ groupsOf s 2 = [(some (lrOf [] .slow), some (.bool false))] := by
  obtain ⟨s, h, h1, h2, -⟩ := C60_groups exTree (fun p => p ≠ 3) "adam" (Or.inr rfl) [] List.nodup_nil exTree_readable exTree_disjoint
  exact ⟨s, h, h2 3 (Or.inl (by decide)), h1 0 .stiefel (by decide) (by decide), h1 2 .slow (by decide) (by decide)⟩

/-- The parameter of a level returned as Stiefel and as slow parameter. -/
def twoKinds : PTree := .node true (fun | .stiefel => [kpcaLayer (some 0)] | .slow => [hyperLayer [0]] | _ => []) false []

example : Optim.construct twoKinds (fun _ => true) "sgd" [] = .error .valueError :=
  C60_two_kinds_refused twoKinds (fun _ => true) "sgd" (Or.inl rfl) [] List.nodup_nil (by intro k; cases k <;> decide) 0 rfl .stiefel .slow (by decide) (by decide) (by decide)

/-- No parameter is trained: a type nobody knows is accepted. -/
example : Optim.construct exTree (fun _ => false) "rubbish" [] = .ok ⟨none, false⟩ :=
  C60_name_violated exTree (fun _ => false) "rubbish" [] List.nodup_nil exTree_readable (by simp)

end

/-! ## C73, C74 -/
section
open ViewScale

example : ∃ s, construct 4 = .ok s ∧ s.k (fun x y : ℝ => x * y) 3 5 = 60 := by
  obtain ⟨s, hs⟩ := (C73_refused 4).mpr (by norm_num)
  refine ⟨s, hs, ?_⟩
  rw [(C73_constructed_partial (X := ℝ) (d := Unit) 4 s hs (fun x y => x * y) (fun x _ => x) (by intro x y; simp)).2]
  norm_num

/-- One point 2 and a scale of 4: the covariance is not the one of the feature maps. -/
example : ∃ s, construct 4 = .ok s ∧ s.c (fun (x : ℝ) (_ : Unit) => x) (fun _ : Unit => 2) = (4 : ℝ) • s.C (fun (x : ℝ) (_ : Unit) => x) (fun _ : Unit => 2) := by
  obtain ⟨s, hs⟩ := (C73_refused 4).mpr (by norm_num)
  exact ⟨s, hs, (C74_C_violated 4 s hs _ _).1⟩

example : ∃ s, construct 4 = .ok s ∧ s.K (fun x y : ℝ => x * y) (fun i : Bool => if i then 2 else 3) true false = s.k (fun x y : ℝ => x * y) 2 3 := by
  obtain ⟨s, hs⟩ := (C73_refused 4).mpr (by norm_num)
  exact ⟨s, hs, by simpa using (C74_K_partial (d := Unit) 4 s hs (fun x y : ℝ => x * y) (fun x _ => x) (by intro x y; simp) (fun i : Bool => if i then 2 else 3)).2 true false⟩

end

/-! ## C79 -/
namespace Subloss

theorem parts_named (o v : ℝ → ℝ) : Named (kpcaParts "dual" o v) := (kpca_named o v).1

/-- The loss after a step is the one of before the step. -/
example (o v : ℝ → ℝ) : (St.run (kpcaParts "dual" o v) ⟨0, { level := .num 2, dict := [] }⟩ [.beforeStep, .step 1, .afterStep, .beforeStep, .loss]).1.getLast?
    = some (.ok (some (lossAt (kpcaParts "dual" o v) 0))) :=
  C79_violated _ (parts_named o v) 2 (by decide) 0 1

example (o v : ℝ → ℝ) : (St.run (kpcaParts "dual" o v) ⟨0, { level := .num 1, dict := [] }⟩ [.loss, .step 1, .loss]).1 =
    freshRun (kpcaParts "dual" o v) 0 [.loss, .step 1, .loss] :=
  C79_light_partial _ 1 (by decide) 0 _

end Subloss

/-! ## C165 -/
namespace TrainerSet

example : ∃ s, construct five = .ok s ∧ Current .epochs (s.vals .epochs) hist (.int 7) := by
  obtain ⟨s, hs⟩ := five_ok
  refine ⟨s, hs, ?_⟩
  have := C165_current (fun _ => true) s hist .epochs
  cases hs
  exact this

example : ∃ s, construct five = .ok s ∧ ∀ v, Current .epochs (s.vals .epochs) hist v → v = .int 7 := by
  refine ⟨_, rfl, fun v h => C165_unique h (C165_current (fun _ => true) _ hist .epochs)⟩

example : ∃ s r, construct five = .ok s ∧ ((s.run (fun _ => true) hist).fit (fun _ => true) none).1 = .ok r ∧ 0 < r.epochs ∧ ∃ v, (Key.stiefelLr, v) ∈ r.lrs := by
  refine ⟨_, _, rfl, rfl, ?_⟩
  obtain ⟨-, h2, -, h4, -⟩ := C165_fit (fun _ => true) five _ rfl hist none _ rfl
  exact ⟨h2, (h4 .stiefelLr (by simp)).mp rfl⟩

example : ∃ s, construct five = .ok s ∧ (s.fit (fun _ => true) (some (.loop false .runtimeError))).2.training = true := by
  refine ⟨_, rfl, (C165_mode_violated (fun _ => true) _ 5 rfl _ .runtimeError (Or.inr rfl)).2.1⟩

example : ∃ s, construct five = .ok s ∧ ∃ r, ((s.set .slowLr (.int (-1))).2.fit (fun _ => true) none).1 = .ok r ∧ (Key.slowLr, PyVal.int (-1)) ∈ r.lrs := by
  refine ⟨_, rfl, (C165_lr_violated (fun _ => true) _ .slowLr (by simp) rfl (.int (-1)) 5 rfl).2⟩

end TrainerSet
end Kerch
