import Mathlib.Analysis.Matrix.Order
import Mathlib.Analysis.SpecialFunctions.Exponential
import Verif.Props.Implicit
set_option linter.unusedSectionVars false
set_option linter.unusedSimpArgs false
/-!
# Positive semi-definite kernel functions: specification and closure properties
-/
namespace Kerch
open Finset

/-- A square matrix is symmetric positive semi-definite: all its quadratic forms are non-negative. -/
def PSDMat {ι : Type} [Fintype ι] (M : ι → ι → ℝ) : Prop :=
  (∀ i j, M i j = M j i) ∧ ∀ c : ι → ℝ, 0 ≤ ∑ i, ∑ j, c i * c j * M i j

/-- A function of two points is a positive semi-definite kernel on a set `Z`: so is its matrix on all finite families of points of `Z`. -/
def PSDOn {X : Type} (Z : Set X) (κ : X → X → ℝ) : Prop :=
  ∀ (ι : Type) [Fintype ι] (x : ι → X), (∀ i, x i ∈ Z) → PSDMat fun i j => κ (x i) (x j)

theorem psdMat_iff {ι : Type} [Fintype ι] (M : ι → ι → ℝ) : PSDMat M ↔ (Matrix.of M).PosSemidef := by
  rw [Matrix.posSemidef_iff_dotProduct_mulVec]
  constructor
  · rintro ⟨hs, h⟩
    refine ⟨?_, fun c => ?_⟩
    · ext i j; simp [Matrix.conjTranspose, hs j i]
    · have := h c
      simp only [dotProduct, Matrix.mulVec, Matrix.of_apply, star_trivial, mul_sum, Pi.star_apply]
      refine this.trans_eq (sum_congr rfl fun i _ => sum_congr rfl fun j _ => by ring)
  · rintro ⟨hs, h⟩
    refine ⟨fun i j => ?_, fun c => ?_⟩
    · have := congrFun (congrFun hs i) j
      simpa [Matrix.conjTranspose] using this.symm
    · have := h c
      simp only [dotProduct, Matrix.mulVec, Matrix.of_apply, star_trivial, mul_sum, Pi.star_apply] at this
      refine this.trans_eq (sum_congr rfl fun i _ => sum_congr rfl fun j _ => by ring)

section mat
variable {ι : Type} [Fintype ι]

theorem psdMat_gram {d : Type} [Fintype d] (F : ι → d → ℝ) : PSDMat fun i j => F i ⬝ᵥ F j := by
  refine ⟨fun i j => dotProduct_comm _ _, fun c => ?_⟩
  have : ∑ i, ∑ j, c i * c j * (F i ⬝ᵥ F j) = ∑ k, (∑ i, c i * F i k) ^ 2 := by
    have h : ∀ k, (∑ i, c i * F i k) ^ 2 = ∑ i, ∑ j, (c i * F i k) * (c j * F j k) := fun k => by rw [sq, sum_mul_sum]
    simp only [h]
    conv_rhs => rw [sum_comm]
    refine sum_congr rfl fun i _ => ?_
    conv_rhs => rw [sum_comm]
    refine sum_congr rfl fun j _ => ?_
    rw [dotProduct, mul_sum]
    exact sum_congr rfl fun k _ => by ring
  rw [this]
  exact sum_nonneg fun _ _ => sq_nonneg _

theorem PSDMat.mul {M N : ι → ι → ℝ} (hM : PSDMat M) (hN : PSDMat N) : PSDMat fun i j => M i j * N i j := by
  rw [psdMat_iff] at *
  exact hM.hadamard hN

theorem PSDMat.add {M N : ι → ι → ℝ} (hM : PSDMat M) (hN : PSDMat N) : PSDMat fun i j => M i j + N i j := by
  refine ⟨fun i j => by show _ + _ = _ + _; rw [hM.1 i j, hN.1 i j], fun c => ?_⟩
  simp only [mul_add, sum_add_distrib]
  exact add_nonneg (hM.2 c) (hN.2 c)

theorem PSDMat.smul {M : ι → ι → ℝ} (hM : PSDMat M) {a : ℝ} (ha : 0 ≤ a) : PSDMat fun i j => a * M i j := by
  refine ⟨fun i j => by show _ * _ = _ * _; rw [hM.1 i j], fun c => ?_⟩
  have : ∑ i, ∑ j, c i * c j * (a * M i j) = a * ∑ i, ∑ j, c i * c j * M i j := by
    simp only [mul_sum]
    exact sum_congr rfl fun i _ => sum_congr rfl fun j _ => by ring
  rw [this]
  exact mul_nonneg ha (hM.2 c)

theorem psdMat_rank_one (f : ι → ℝ) : PSDMat fun i j => f i * f j := by
  have := psdMat_gram (fun (i : ι) (_ : Unit) => f i)
  simpa [dotProduct] using this

theorem psdMat_one : PSDMat (fun _ _ : ι => (1 : ℝ)) := by
  have := psdMat_rank_one (fun _ : ι => (1 : ℝ))
  simpa using this

theorem PSDMat.pow {M : ι → ι → ℝ} (hM : PSDMat M) (k : ℕ) : PSDMat fun i j => M i j ^ k := by
  induction k with
  | zero => simpa using psdMat_one
  | succ k ih => simpa only [pow_succ] using ih.mul hM

theorem PSDMat.exp {M : ι → ι → ℝ} (hM : PSDMat M) : PSDMat fun i j => Real.exp (M i j) := by
  refine ⟨fun i j => by show Real.exp _ = Real.exp _; rw [hM.1 i j], fun c => ?_⟩
  have h1 : ∀ i j, HasSum (fun k : ℕ => c i * c j * (M i j ^ k / (k.factorial : ℝ))) (c i * c j * Real.exp (M i j)) := by
    intro i j
    refine HasSum.mul_left _ ?_
    rw [Real.exp_eq_exp_ℝ]
    exact NormedSpace.expSeries_div_hasSum_exp (M i j)
  have h2 := hasSum_sum fun i (_ : i ∈ (univ : Finset ι)) => hasSum_sum fun j (_ : j ∈ (univ : Finset ι)) => h1 i j
  refine h2.nonneg fun k => ?_
  have h3 := ((hM.pow k).smul (a := 1 / (k.factorial : ℝ)) (by positivity)).2 c
  exact h3.trans_eq (sum_congr rfl fun i _ => sum_congr rfl fun j _ => by ring)

/-- Rescaling the points. -/
theorem PSDMat.scale {M : ι → ι → ℝ} (hM : PSDMat M) (f : ι → ℝ) : PSDMat fun i j => f i * f j * M i j :=
  (psdMat_rank_one f).mul hM

theorem PSDMat.diag_nonneg {M : ι → ι → ℝ} (hM : PSDMat M) (i : ι) : 0 ≤ M i i := by
  classical
  have := hM.2 (Pi.single i 1)
  simpa [Pi.single_apply, sum_ite_eq', ite_mul] using this

theorem PSDMat.sub {κ : Type} [Fintype κ] {M : ι → ι → ℝ} (hM : PSDMat M) (f : κ → ι) : PSDMat fun i j => M (f i) (f j) := by
  rw [psdMat_iff] at *
  exact hM.submatrix f

/-- A null diagonal entry has a null row. -/
theorem PSDMat.zero_row {M : ι → ι → ℝ} (hM : PSDMat M) {i : ι} (hi : M i i = 0) (j : ι) : M i j = 0 := by
  have h := hM.sub (![i, j] : Fin 2 → ι)
  by_contra hne
  have h1 := h.2 ![-(M j j + 1) / (2 * M i j), 1]
  have hs := hM.1 i j
  simp [Fin.sum_univ_two, hi, ← hs] at h1
  have h3 : (-1 + -M j j) / (2 * M i j) * M i j = -(M j j + 1) / 2 := by field_simp; ring
  rw [h3] at h1
  linarith

end mat
end Kerch
