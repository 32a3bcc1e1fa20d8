import Mathlib.MeasureTheory.Integral.Bochner.Set
import Mathlib.MeasureTheory.Measure.Lebesgue.Basic
import Verif.Lemmas.PSD
/-!
# Kernels given by integrals of products are positive semi-definite
-/
namespace Kerch
open Finset MeasureTheory

/-- A kernel that is an integral of products of integrable functions of its two arguments. -/
theorem psdMat_integral {ι α : Type} [Fintype ι] [MeasurableSpace α] (μ : Measure α) (f : ι → α → ℝ)
    (hint : ∀ i j, Integrable (fun a => f i a * f j a) μ) : PSDMat fun i j => ∫ a, f i a * f j a ∂μ := by
  refine ⟨fun i j => by simp only [mul_comm], fun c => ?_⟩
  have h : ∑ i, ∑ j, c i * c j * ∫ a, f i a * f j a ∂μ = ∫ a, (∑ i, c i * f i a) ^ 2 ∂μ := by
    have e : (fun a => (∑ i, c i * f i a) ^ 2) = fun a => ∑ i, ∑ j, c i * c j * (f i a * f j a) := by
      funext a
      rw [sq, sum_mul_sum]
      exact sum_congr rfl fun i _ => sum_congr rfl fun j _ => by ring
    rw [e, integral_finsetSum _ fun i _ => integrable_finsetSum _ fun j _ => (hint i j).const_mul _]
    refine sum_congr rfl fun i _ => ?_
    rw [integral_finsetSum _ fun j _ => (hint i j).const_mul _]
    exact sum_congr rfl fun j _ => (integral_const_mul _ _).symm
  rw [h]
  exact integral_nonneg fun a => sq_nonneg _

/-- The length of the overlap of two intervals is a positive semi-definite function of the intervals. -/
theorem psdMat_overlap {ι : Type} [Fintype ι] (a b : ι → ℝ) : PSDMat fun i j => max (min (b i) (b j) - max (a i) (a j)) 0 := by
  have e : (fun i j => max (min (b i) (b j) - max (a i) (a j)) 0)
      = fun i j => ∫ t, (Set.Icc (a i) (b i)).indicator (fun _ => (1 : ℝ)) t * (Set.Icc (a j) (b j)).indicator (fun _ => (1 : ℝ)) t := by
    funext i j
    have h1 : (fun t => (Set.Icc (a i) (b i)).indicator (fun _ => (1 : ℝ)) t * (Set.Icc (a j) (b j)).indicator (fun _ => (1 : ℝ)) t)
        = (Set.Icc (max (a i) (a j)) (min (b i) (b j))).indicator fun _ => (1 : ℝ) := by
      funext t
      rw [← Set.Icc_inter_Icc, ← Set.inter_indicator_mul, one_mul]
    rw [h1, integral_indicator measurableSet_Icc]
    simp [Measure.real, Real.volume_Icc, ENNReal.toReal_ofReal']
  rw [e]
  refine psdMat_integral _ _ fun i j => ?_
  have h1 : (fun t => (Set.Icc (a i) (b i)).indicator (fun _ => (1 : ℝ)) t * (Set.Icc (a j) (b j)).indicator (fun _ => (1 : ℝ)) t)
      = (Set.Icc (max (a i) (a j)) (min (b i) (b j))).indicator fun _ => (1 : ℝ) := by
    funext t
    rw [← Set.Icc_inter_Icc, ← Set.inter_indicator_mul, one_mul]
  rw [h1]
  rw [integrable_indicator_iff measurableSet_Icc]
  exact integrableOn_const (by simp [Real.volume_Icc])

end Kerch
