import Verif.Props.PreimageFun
import Verif.Props.Repeat
import Verif.Props.Report
import Verif.Props.Retract
/-!
# Further cases, by name (continued)
-/
set_option linter.unusedSimpArgs false
set_option linter.unusedVariables false
namespace Kerch

/-! ## C132 -/
namespace PreimageFun

/-- The two greatest of the coefficients 3, 1, 2. -/
example : ∃ V, smoother (someSort 3) (fun _ : Fin 1 => ![3, 1, 2]) (fun (k : Fin 3) (_ : Unit) => (k : ℝ)) (2 : ℕ) = .ok V ∧ ∃ T, Largest ![3, 1, 2] 2 T ∧
    ((∑ k ∈ T, (![3, 1, 2] : Fin 3 → ℝ) k = 0 ∧ V 0 = none) ∨ ∃ v, V 0 = some v ∧ ∑ k ∈ T, (![3, 1, 2] : Fin 3 → ℝ) k ≠ 0 ∧ WeightedMean ![3, 1, 2] (fun (k : Fin 3) (_ : Unit) => (k : ℝ)) T v) :=
  let ⟨V, h, h'⟩ := C132_smoother_partial (someSort 3) (fun _ : Fin 1 => ![3, 1, 2]) (fun (k : Fin 3) (_ : Unit) => (k : ℝ)) 2 (by norm_num) (by norm_num) Nat.one_pos
  ⟨V, h, h' 0⟩

/-- The second of two points, evaluated alone. -/
example (C : Fin 2 → Fin 3 → ℝ) (x : Fin 3 → Unit → ℝ) : ∃ V V', smoother (someSort 3) C x 2 = .ok V ∧ smoother (someSort 3) (fun _ : Fin 1 => C 1) x 2 = .ok V' ∧ V 1 = V' 0 :=
  C132_alone_partial (someSort 3) C x 2 (by norm_num) 1

/-- As many neighbours as points: the sum of the points, not their mean. -/
example : smoother (someSort 2) (fun _ : Fin 1 => ![1, 2]) (fun (k : Fin 2) (_ : Unit) => (k : ℝ) + 5) 2 = .ok fun _ => some fun _ => 11 := by
  rw [C132_sum_violated (someSort 2) ![1, 2] (by intro k; fin_cases k <;> simp) _ 2 (by norm_num)]
  simp [Fin.sum_univ_two]
  norm_num

example (C : Fin 1 → Fin 3 → ℝ) (x : Fin 2 → Unit → ℝ) : smoother (someSort 3) C x 2 = .error .assertionError := C132_refused (by decide) (someSort 3) C x 2

/-- No neighbour: zero; minus one: all but one. -/
example (C : Fin 2 → Fin 3 → ℝ) (x : Fin 3 → Unit → ℝ) : smoother (someSort 3) C x 0 = .ok (fun _ => some fun _ => 0) ∧ smoother (someSort 3) C x (-1) = smoother (someSort 3) C x 2 := by
  obtain ⟨h1, h2⟩ := C132_none (someSort 3) C x (by norm_num) (by norm_num)
  exact ⟨h1, by simpa using h2 1 le_rfl (by norm_num)⟩

end PreimageFun

/-! ## C123 -/
namespace Repeat

local instance : Nonempty (Fin 2 × Fin 2) := ⟨(0, 0)⟩

theorem twice : Times (fun i : Fin 2 × Fin 2 => i.1) 2 := fun j => by fin_cases j <;> rfl

example (s s' : ℝ) (hs : tstd (n := Fin 2) ![0, 2] = some s) (hs' : tstd (fun i : Fin 2 × Fin 2 => (![0, 2] : Fin 2 → ℝ) i.1) = some s') : s' < s := by
  refine C123_variance_violated _ 2 twice (by norm_num) ![0, 2] s s' hs hs' ?_
  have : s = Real.sqrt 2 := by
    have h : tstd (n := Fin 2) ![0, 2] = some (Real.sqrt 2) := by norm_num [tstd, tmean, Fin.sum_univ_succ]
    rw [h] at hs
    exact (Option.some.inj hs).symm
  rw [this]
  positivity

example (φ : ℝ → Fin 2 → ℝ) (pts : Fin 2 → ℝ) (x : Unit → ℝ) : eoos φ (fun i : Fin 2 × Fin 2 => pts i.1) [.minimum, .mean] (.batch Unit x) = eoos φ pts [.minimum, .mean] (.batch Unit x) :=
  C123_features_oos_partial (m := Fin 2 × Fin 2) (fun i => i.1) 2 twice (by norm_num) φ pts [.minimum, .mean] (by decide) Unit x

end Repeat

/-! ## C143 -/
namespace Report

/-- A parameter that no step changes. -/
noncomputable def still : Env ℝ := { toy with update := fun p _ => p }

example (s' : St ℝ) (l : List (Rec × ℝ)) (h : fit still toySet [[0], [1]] 3 ⟨1, true, none⟩ = (.ok (), s', l)) : s'.params = 1 :=
  (C143_frozen still (fun _ _ => rfl) toySet [[0], [1]] 3 ⟨1, true, none⟩ s' l h).1

example (s' : St ℝ) (r : Rec) (h : epoch toy toySet [[0], [1]] 0 ⟨1, true, none⟩ = (.ok r, s')) : r.objective = (((path toy 1 [[0], [1]]).zip [[0], [1]]).map fun q => q.1 ^ 2).sum :=
  C143_objective_partial toy (fun p _ => p ^ 2) (fun _ _ => rfl) toySet [[0], [1]] 0 ⟨1, true, none⟩ s' r h

/-- No test point: an error of zero is reported. -/
example (s : St ℝ) : problemLoss toy toySet.test s = (.ok (some 0), s) := C143_empty_violated toy toySet.test rfl s

/-- The prediction raises: the model is left in evaluation mode. -/
example : problemLoss { toy with predict := fun _ _ _ => .error .runtimeError } toySet.training ⟨1, true, none⟩ = (.error .runtimeError, ⟨1, false, none⟩) :=
  C143_mode_violated _ toySet.training (by simp [toySet]) ⟨1, true, none⟩ .runtimeError rfl

example (r : ℝ) (h : IsError toy 3 toySet.validation (some r)) : r = 0 :=
  (C143_zero toy 3 toySet.validation (by simp [toySet]) (by simp [toySet]) _ rfl r h).mpr (fun i _ j _ => rfl)

end Report

/-! ## C141 -/
namespace Retract
open Matrix

theorem row_on : OnStiefel (!![1, 0] : Matrix (Fin 1) (Fin 2) ℝ) := by intro i j; fin_cases i; fin_cases j; simp

example : Tangent (!![1, 0] : Matrix (Fin 1) (Fin 2) ℝ) (tanValue !![1, 0] !![3, 4]) := C141_tangent _ _ row_on

example : ∑ i, ∑ j, (!![0, 4] : Matrix (Fin 1) (Fin 2) ℝ) i j * stiefelProjNorm !![1, 0] !![3, 4] i j = 0 :=
  C141_normal _ _ _ (by intro i j; fin_cases i; fin_cases j; simp)

example : distSq (!![3, 4] : Matrix (Fin 1) (Fin 2) ℝ) (tanValue !![1, 0] !![3, 4]) ≤ distSq !![3, 4] !![0, 5] :=
  (C141_closest _ _ _ row_on (by intro i j; fin_cases i; fin_cases j; simp)).1

example (D : SVD (!![1, 0] : Matrix (Fin 1) (Fin 2) ℝ)) : polarRetraction D = !![1, 0] := C141_polar_fixed _ D row_on

end Retract
end Kerch
