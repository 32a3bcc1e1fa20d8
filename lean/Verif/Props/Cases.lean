import Verif.Props.KernelFun
import Verif.Props.KernelMat
import Verif.Props.LSSVM
import Verif.Props.PSD
import Verif.Props.PSDMore
import Verif.Props.Bandwidth
import Verif.Props.Nystrom
import Verif.Props.Time
import Verif.Props.Transforms
/-!
# Cases of theorems whose files show few

Each theorem is applied to concrete data, by name.
-/
set_option linter.unusedSimpArgs false
namespace Kerch
open Finset

/-! ## C24, C25 -/

/-- A product of two numbers, centred and normalised on three points. -/
example : ∃ K : Fin 3 → Fin 3 → ℝ, ioos (fun x y : ℝ => x * y) (fun i : Fin 3 => (i : ℝ)) [.sphere, .mean] .sample .sample = .ok K ∧ ∀ i j, K i j = K j i :=
  C24_K _ _ (fun x y => mul_comm x y) _ (by simp)

/-- The triangular kernel with bandwidth 10 on points at distance 5 and with bandwidth 4, where it is null. -/
example : (∃ v, statKernel .triangular .euclidean 10 ![0, 0] ![3, 4] = .ok v ∧ v ≠ 0) ∧ statKernel .triangular .euclidean 4 ![0, 0] ![3, (4 : ℝ)] = .ok 0 := by
  have hd : dist .euclidean ![0, 0] ![3, (4 : ℝ)] = .ok 5 := by
    simp [dist, euclidSq, Fin.sum_univ_two]
    rw [show (3 : ℝ) * 3 + 4 * 4 = 5 ^ 2 by norm_num, Real.sqrt_sq (by norm_num)]
  obtain ⟨v, h1, -, -, h2⟩ := C25_compact .triangular rfl .euclidean ![0, 0] ![3, 4] 5 10 (by norm_num) hd
  obtain ⟨w, h3, -, -, h4⟩ := C25_compact .triangular rfl .euclidean ![0, 0] ![3, 4] 5 4 (by norm_num) hd
  refine ⟨⟨v, h1, fun h => ?_⟩, ?_⟩
  · have := h2.mp h; norm_num at this
  · rw [h3, h4.mpr (by norm_num)]

/-! ## C30 -/

/-- The heuristic on the first sample stays. -/
example : (((BandSt.step (fun s : ℝ => s / 2) ⟨none, some 8⟩ .use).2.run (fun s : ℝ => s / 2) [.newSample 3, .use]).step (fun s : ℝ => s / 2) .use).1 = .ok (some 4) :=
  C30_fixed _ _ 4 (by simp [BandSt.step]; norm_num) _ (by simp)

/-- Two points. -/
example : heuristicSigma .euclidean (fun (i : Fin 2) (_ : Fin 1) => (i : ℝ)) = .ok 0 := C30_two_points_violated (by simp) _ (by simp) _

/-! ## C31, C33 -/

/-- The eigenvalue 3 of the covariance of two points, 6 for the kernel matrix. -/
example (Φ : Matrix (Fin 2) (Fin 5) ℝ) : Module.finrank ℝ (Module.End.eigenspace (Matrix.toLin' (matK Φ)) ((Fintype.card (Fin 2) : ℝ) * 3))
    = Module.finrank ℝ (Module.End.eigenspace (Matrix.toLin' (matC Φ)) 3) := C31_spectrum Φ 3 (by norm_num)

/-- A centred and then normalised chain. -/
example : covChain .cosine [.mean, .sphere] = .ok [.mean, .sphere, .mean, .sphere] := C33_cosine_chain _ (by simp) rfl

/-! ## C26, C81 -/

example : ∃ M : Fin 3 → Fin 3 → ℝ, ioos (polyKernel (d := Fin 2) 3 1) (fun i : Fin 3 => ![(i : ℝ), 1]) [.mean, .mean] .sample .sample = .ok M ∧ PSDMat M :=
  C26_centering _ _ (fun x y => by simp [polyKernel, dotProduct_comm]) (C26_polynomial 3 1 (by norm_num)) _ (by simp) .sample

example : ∃ κ : (Fin 2 → ℝ) → (Fin 2 → ℝ) → ℝ, (∀ x y, statKernel (.exponential true) .manhattan 4 x y = .ok (κ x y)) ∧ ¬ PSDOn Set.univ κ :=
  C81_squared_manhattan 4 le_rfl

/-! ## C50 -/
section
open LSSVM

/-- Two points on a line with targets 1 and 5: the dual system has a solution, which is optimal. -/
example : ∃ h b, DualSol (gramOf fun (i : Fin 2) (_ : Fin 1) => (i : ℝ)) 1 ![1, 5] h b ∧
    ∀ w' b', Ridge (fun (i : Fin 2) (_ : Fin 1) => (i : ℝ)) 1 ![1, 5] (fun _ => ∑ i : Fin 2, (i : ℝ) * h i) b ≤ Ridge (fun (i : Fin 2) (_ : Fin 1) => (i : ℝ)) 1 ![1, 5] w' b' := by
  obtain ⟨h, b, hs⟩ := C50_exists_partial (gramOf fun (i : Fin 2) (_ : Fin 1) => (i : ℝ)) (psdMat_gram _) 1 one_pos ![1, 5]
  exact ⟨h, b, hs, (C50_dual_partial _ 1 zero_le_one _ h b hs).2⟩

/-- The solution itself. -/
example : DualSol (gramOf fun (i : Fin 2) (_ : Fin 1) => (i : ℝ)) 1 ![1, 5] ![-4 / 3, 4 / 3] (7 / 3) := by
  refine ⟨fun i => ?_, by simp [Fin.sum_univ_two]; norm_num⟩
  fin_cases i <;> simp [gramOf, Fin.sum_univ_two] <;> norm_num

/-- One point, with the feature 2 and the target 6: both systems have a solution. -/
example : DualSol (gramOf fun (_ : Fin 1) (_ : Fin 1) => (2 : ℝ)) 1 (fun _ => 6) (fun _ => 0) 6 ∧ PrimalSol (fun (_ : Fin 1) (_ : Fin 1) => (2 : ℝ)) 1 (fun _ => 6) (fun _ => 0) 6 := by
  refine ⟨⟨fun i => by simp, by simp⟩, fun j => ?_, ?_⟩ <;> simp

end

/-! ## C34 -/

/-- A sample of two points after one of three. -/
example (D' : EigDecomp (n := 2) fun i j => if i = j then 1 else 0) :
    (NysSt.evalK ((NysSt.evalK ⟨.tensor 3, 3, fun i j => if i = j then 1 else 0, .num 3⟩ (eigId 3)).2.newSample 2 fun i j => if i = j then 1 else 0) D').1 = .error .assertionError :=
  C34_smaller_violated 3 2 (by norm_num) _ _ (eigId 3) (by norm_num [eigId, EPS]) 3 (by norm_num) D'

/-! ## C38 -/

example : PSDOn (Set.range fun z : ℤ => (z : ℝ)) (indicatorKernel 2 7) := C38_indicator_psd 2 7 (by norm_num) (by norm_num)

/-! ## C17 -/

/-- A chain of three reversible transforms on two points. -/
example (Z : Fin 4 → Fin 1 → ℝ) : ∃ x, erevert id (fun (i : Fin 2) (_ : Fin 1) => (i : ℝ)) [.variance, .mean, .minimum] (some Z) = .ok (some x) ∧
    eoos id (fun (i : Fin 2) (_ : Fin 1) => (i : ℝ)) [.variance, .mean, .minimum] (.batch (Fin 4) x) = some Z :=
  C17_apply_revert_partial _ _ (by decide) (fun _ => by simp) Z

end Kerch
