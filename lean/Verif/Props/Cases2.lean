import Verif.Props.KernelFun
import Verif.Props.KernelList
import Verif.Props.Polynomial
import Verif.Props.LSSVM
import Verif.Props.Preimage
import Verif.Props.Repeat
import Verif.Props.SampleGrad
import Verif.Props.Methods
import Verif.Props.RandomFeatures
import Verif.Props.KernelMat
/-!
# Further cases, by name
-/
set_option linter.unusedSimpArgs false
set_option linter.unusedVariables false
namespace Kerch
open Finset

/-! ## C22–C25 -/

/-- The product of two numbers, centred, at two further points. -/
example : ∃ M M', ioos (fun x y : ℝ => x * y) (fun i : Fin 3 => (i : ℝ)) [.sphere, .mean] (.batch (Fin 2) fun i => 5 + i) .sample = .ok M ∧
    ioos (fun x y : ℝ => x * y) (fun i : Fin 3 => (i : ℝ)) [.sphere, .mean] .sample (.batch (Fin 2) fun i => 5 + i) = .ok M' ∧ ∀ i j, M i j = M' j i :=
  C24_chains _ _ (fun x y => mul_comm x y) _ (by simp) _ _

theorem dist_345 : dist .euclidean ![0, 0] ![3, (4 : ℝ)] = .ok 5 := by
  simp [dist, euclidSq, Fin.sum_univ_two]
  rw [show (3 : ℝ) * 3 + 4 * 4 = 5 ^ 2 by norm_num, Real.sqrt_sq (by norm_num)]

theorem dist_6810 : dist .euclidean ![0, 0] ![6, (8 : ℝ)] = .ok 10 := by
  simp [dist, euclidSq, Fin.sum_univ_two]
  rw [show (6 : ℝ) * 6 + 8 * 8 = 10 ^ 2 by norm_num, Real.sqrt_sq (by norm_num)]

example : ∃ v, statKernel (.exponential true) .euclidean 2 ![0, 0] ![3, (4 : ℝ)] = .ok v ∧ 0 < v ∧ v ≤ 1 :=
  C25_positive _ (Or.inr ⟨true, rfl⟩) _ _ _ 5 2 (by norm_num) dist_345

/-- At the distances 5 and 10. -/
example : ∃ v v', statKernel .logistic .euclidean 2 ![0, 0] ![3, (4 : ℝ)] = .ok v ∧ statKernel .logistic .euclidean 2 ![0, 0] ![6, (8 : ℝ)] = .ok v' ∧ v' ≤ v :=
  C25_decreasing_partial _ (by decide) _ _ _ _ _ 5 10 2 (by norm_num) dist_345 dist_6810 (by norm_num)

example : statKernel .tricube .manhattan 2 ![1, (7 : ℝ)] ![1, 7] = .ok 1 := C25_diagonal_partial _ (by decide) _ (fun p => by simp) 2 _

example : ∃ δ, dist .chebyshev ![1, (7 : ℝ)] ![2, 3] = .ok δ := C25_dist_defined _ (fun p => by simp) _ _

example : statKernel .tricube .manhattan 2 ![1, (7 : ℝ)] ![1, 7] = .ok 1 := C22_unit_diagonal_partial _ (by decide) _ (fun p => by simp) 2 _

example := C22_silverman_violated (d := Fin 2) .euclidean (fun p => by simp) 1 ![1, 2]

/-- A kernel with ones on the diagonal. -/
example : ioos (fun x y : ℝ => if x = y then 1 else 0) (fun i : Fin 3 => (i : ℝ)) ([.mean] ++ [.sphere]) .sample .sample
    = ioos (fun x y : ℝ => if x = y then 1 else 0) (fun i : Fin 3 => (i : ℝ)) [.mean] .sample .sample := C22_first_sphere _ _ (fun x => by simp) _ _ _

example : ioos (fun x y : ℝ => if x = y then 1 else 0) (fun i : Fin 3 => (i : ℝ)) (dropFirst (.stat .uniform) [.sphere, .mean]).reverse .sample .sample
    = ioos (fun x y : ℝ => if x = y then 1 else 0) (fun i : Fin 3 => (i : ℝ)) ([Kind.sphere, .mean] : List Kind).reverse .sample .sample :=
  C22_drop_partial _ _ _ (fun _ x => by simp) _ _ _

example : (evalChain .cosine [.cls .sphere]).2 = cosineSpec [.cls .sphere] := (C23_same_chain_partial _ (Or.inr rfl)).1

example : (evalChain .cosine ([Kind.mean, .sphere, .mean].map .cls)).2 = .ok [.mean, .sphere, .mean, .sphere] := C23_actual _ (by decide)

/-! ## C27–C28 -/

example : ∃ φx φy, polyPhi 3 2 (![1, 2] : Fin 2 → ℝ) = .ok φx ∧ polyPhi 3 2 (![0, 5] : Fin 2 → ℝ) = .ok φy ∧ φx.length = (2 + 3).choose 3 ∧ φy.length = (2 + 3).choose 3 ∧
    (List.zipWith (· * ·) φx φy).sum = (∑ i, (![1, 2] : Fin 2 → ℝ) i * (![0, 5] : Fin 2 → ℝ) i + 2) ^ 3 :=
  C27_features_partial 2 3 (by norm_num) (by norm_num) 2 (by norm_num) _ _

example : polyPhi 0 2 (![1, 2] : Fin 2 → ℝ) = .error .typeError := C27_degree_zero_violated 2 2 (by norm_num) _

example : polyPhi 3 (-2) (![1, 2] : Fin 2 → ℝ) = .error .valueError := C27_negative 2 3 (-2) (by norm_num) _

example : ∃ M, kernelK (fun (x : ℝ) (_ : Fin 1) => x) (fun x y => x * y) (fun i : Fin 3 => (i : ℝ)) [.sphere, .mean] false .sample .sample = .ok (some M) ∧
    kernelK (fun (x : ℝ) (_ : Fin 1) => x) (fun x y => x * y) (fun i : Fin 3 => (i : ℝ)) [.sphere, .mean] false (single ((0 : Fin 3) : ℝ)) (single ((2 : Fin 3) : ℝ))
      = .ok (some fun _ _ => M 0 2) := by
  have := C28_entry_implicit (fun (x : ℝ) (_ : Fin 1) => x) (fun x y => x * y) (fun i : Fin 3 => (i : ℝ)) (fun x y => mul_comm x y) [.sphere, .mean] (by simp) .sample .sample 0 2
  exact this

example := (C28_values (fun (x : ℝ) (_ : Fin 1) => x) (fun x y => x * y) (fun i : Fin 3 => (i : ℝ)) (fun x y => mul_comm x y) .sample (.batch (Fin 2) fun i => 5 + i)).2

example : polyK (polyVec 2 1) (polyKernel 2 1) (fun i : Fin 3 => ![(i : ℝ), 1]) [] (polyDimFeature 2 2) (some true) .sample .sample
    = .ok (some fun i j => (![(i.val : ℝ), 1] ⬝ᵥ ![(j.val : ℝ), 1] + 1) ^ 2) :=
  (C28_polynomial_partial 2 (by norm_num) (by norm_num) 1 (by norm_num) (fun i : Fin 3 => ![(i : ℝ), 1]) (some true) .sample).2

/-! ## C50, C66 -/
section
open LSSVM

theorem one_dual : DualSol (gramOf fun (_ : Fin 1) (_ : Fin 1) => (2 : ℝ)) 1 (fun _ => 6) (fun _ => 0) 6 := ⟨fun i => by simp, by simp⟩
theorem one_primal : PrimalSol (fun (_ : Fin 1) (_ : Fin 1) => (2 : ℝ)) 1 (fun _ => 6) (fun _ => 0) 6 := by
  refine ⟨fun j => ?_, ?_⟩ <;> simp

example (φ : Fin 1 → ℝ) := C50_single_partial (fun _ (_ : Fin 1) => 2) 1 one_pos (fun _ => 6) (fun _ => 0) 6 6 (fun _ => 0) one_dual one_primal φ

example (h : Fin 1 → ℝ) (b : ℝ) (hs : DualSol (gramOf fun (_ : Fin 1) (_ : Fin 1) => (2 : ℝ)) 1 (fun _ => 6) h b) : h = (fun _ => 0) ∧ b = 6 :=
  C50_unique_partial _ (psdMat_gram _) 1 one_pos _ h _ b 6 hs one_dual
end

section
open Kappa

/-- A factor changed and changed back. -/
example (Φ : Fin 2 → Fin 3 → ℝ) (i j : Fin 2) := C66_features_partial 2 (by norm_num) [5, 2] (by simp) Φ Φ i j

example := C66_assign_violated (n := Fin 1) (d := Fin 1) 2 3 (by norm_num) (by norm_num) [5] (fun _ _ => 1) 0 ⟨0, one_ne_zero⟩

example := C66_cov_violated (n := Fin 1) (d := Fin 1) 2 (by norm_num) (by norm_num) (fun _ _ => 1) 0 ⟨0, one_ne_zero⟩
end

/-! ## C83 -/
section
open Preimage

/-- Doubled features of two points in the plane. -/
example (a : Arg (Fin 2 → ℝ)) : ∃ F, phi [.mean] [.variance, .mean] (fun (x : Fin 2 → ℝ) j => 2 * x j) (fun i : Fin 2 => ![(i : ℝ), 1]) a = some F ∧
    explicitPreimage [.mean] [.variance, .mean] (fun (x : Fin 2 → ℝ) j => 2 * x j) (.ok fun z j => z j / 2) (fun i : Fin 2 => ![(i : ℝ), 1]) (some F)
      = .ok (some fun i => a.pt (fun i : Fin 2 => ![(i : ℝ), 1]) i) :=
  C83_preimage_phi_partial _ _ _ _ (fun x => by funext j; simp) _ (by decide) (by decide) (by simp) a

example (F : Fin 4 → Fin 2 → ℝ) : ∃ x, explicitPreimage [.mean] [.variance, .mean] (fun (x : Fin 2 → ℝ) j => 2 * x j) (.ok fun z j => z j / 2) (fun i : Fin 2 => ![(i : ℝ), 1]) (some F) = .ok (some x) ∧
    phi [.mean] [.variance, .mean] (fun (x : Fin 2 → ℝ) j => 2 * x j) (fun i : Fin 2 => ![(i : ℝ), 1]) (.batch (Fin 4) x) = some F :=
  C83_phi_preimage_partial _ _ _ _ (fun x => by funext j; ring) _ (by decide) (by decide) (by simp) F

example (b : Arg (Fin 1 → ℝ)) := C83_random_features_partial [.mean] [] (.lrelu 0.1) lrelu_admissible 3 (by norm_num) _ _ pinv_col col_injective (fun i : Fin 2 => ![(i : ℝ)]) (by decide) (by decide) (by simp) b

example (F : Option (Fin 4 → Fin 2 → ℝ)) : ∃ e, explicitPreimage [.sphere] [] (fun (x : Fin 2 → ℝ) j => 2 * x j) (.ok fun z j => z j / 2) (fun i : Fin 2 => ![(i : ℝ), 1]) F = .error e :=
  C83_refused _ _ _ _ _ F (Or.inl (by decide))

open Methods in
example := C84_violated (sortSel 2 2) (sortSel_topK 2 2)
end

/-! ## C123 -/
section
open Repeat KPCA

/-- Two points, each given three times. -/
def thrice (i : Fin 6) : Fin 2 := if i.val < 3 then 0 else 1

theorem thrice_times : Times thrice 3 := by intro j; fin_cases j <;> decide

example : esample (fun (x : ℝ) (_ : Fin 1) => x) (fun i => ((thrice i : Fin 2) : ℝ)) [.sphere, .mean] = (esample (fun (x : ℝ) (_ : Fin 1) => x) (fun i : Fin 2 => (i : ℝ)) [.sphere, .mean]).map fun S i => S (thrice i) :=
  C123_features_partial thrice 3 thrice_times (by norm_num) _ (fun i : Fin 2 => (i : ℝ)) _ (by decide)

example (Φ : Fin 2 → Fin 4 → ℝ) : levelC (fun i => Φ (thrice i)) = levelC Φ := C123_primal thrice 3 thrice_times (by norm_num) Φ
end

/-! ## C113 -/
section
open SampleGrad

example (h : ℝ → ℝ) (κ : ℝ → ℝ → ℝ) (D : ℝ → ℝ) := C113_values_partial h κ D 5 true none false 2 [.read true, .step 6, .clear, .read true] (by simp [Cleared])
example (h : ℝ → ℝ) (κ : ℝ → ℝ → ℝ) (D : ℝ → ℝ) (L : ℝ → ℝ) := C113_gradients_partial h κ D 5 true 1 false 2 [.backward L, .step 6, .clear, .backward L] (by simp [Cleared]) (by simp [Fresh])
example (h : ℝ → ℝ) (κ : ℝ → ℝ → ℝ) (D : ℝ → ℝ) (L : ℝ → ℝ) := C113_heuristic_partial h κ D 5 true true 2 [.backward L, .step 6, .clear, .backward L] (by simp [Cleared]) (by simp [Fresh])
end

end Kerch
