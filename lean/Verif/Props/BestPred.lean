import Verif.Props.RidgeInf
import Mathlib.Analysis.InnerProductSpace.PiL2
/-!
# C162: the outputs of a fitted regression are the best predictions linear in the targets
-/
set_option linter.unusedSectionVars false
set_option linter.unusedSimpArgs false
namespace Kerch
namespace BestPred
open Finset LSSVM LSTrain Influence RidgeInf
open scoped InnerProductSpace

variable {V : Type} [NormedAddCommGroup V] [InnerProductSpace ℝ V] {n : Type} [Fintype n] [DecidableEq n]

/-! ## Specification -/

/-- Random quantities as elements of a space with the inner product `E[u v]`: values `f i` at the training points and `f₀` at a further one, whose second moments are given by the kernel, and
errors `e i` of the targets, with second moment `v`, uncorrelated with each other and with the values. -/
structure Noisy (K : n → n → ℝ) (kx : n → ℝ) (v : ℝ) (f e : n → V) (f₀ : V) : Prop where
  values : ∀ i j, ⟪f i, f j⟫_ℝ = K i j
  point : ∀ j, ⟪f₀, f j⟫_ℝ = kx j
  errors : ∀ i j, ⟪e i, e j⟫_ℝ = if i = j then v else 0
  apart : ∀ i j, ⟪f i, e j⟫_ℝ = 0
  apart₀ : ∀ j, ⟪f₀, e j⟫_ℝ = 0

/-! ## Lemmas -/

variable {K : n → n → ℝ} {kx : n → ℝ} {v : ℝ} {f e : n → V} {f₀ : V}

theorem Noisy.psd (h : Noisy K kx v f e f₀) : PSDMat K := by
  refine ⟨fun i j => by rw [← h.values, ← h.values, real_inner_comm], fun c => ?_⟩
  have : ∑ i, ∑ j, c i * c j * K i j = ⟪∑ i, c i • f i, ∑ j, c j • f j⟫_ℝ := by
    rw [sum_inner]
    refine sum_congr rfl fun i _ => ?_
    rw [inner_sum]
    refine sum_congr rfl fun j _ => ?_
    rw [inner_smul_left, inner_smul_right, h.values]
    simp; ring
  rw [this]
  exact real_inner_self_nonneg

theorem Noisy.targets (h : Noisy K kx v f e f₀) (i j : n) : ⟪f i + e i, f j + e j⟫_ℝ = K i j + if i = j then v else 0 := by
  rw [inner_add_left, inner_add_right, inner_add_right, h.values, h.apart, h.errors, real_inner_comm, h.apart]
  ring

theorem Noisy.target₀ (h : Noisy K kx v f e f₀) (j : n) : ⟪f₀, f j + e j⟫_ℝ = kx j := by
  rw [inner_add_right, h.point, h.apart₀, add_zero]

theorem Noisy.comb (h : Noisy K kx v f e f₀) (c : n → ℝ) (i : n) : ⟪f i + e i, ∑ j, c j • (f j + e j)⟫_ℝ = ∑ j, K i j * c j + v * c i := by
  rw [inner_sum]
  simp only [inner_smul_right, h.targets, mul_add, sum_add_distrib]
  congr 1
  · exact sum_congr rfl fun j _ => by ring
  · simp [mul_comm]

theorem Noisy.comb₀ (h : Noisy K kx v f e f₀) (c : n → ℝ) : ⟪f₀, ∑ j, c j • (f j + e j)⟫_ℝ = ∑ j, kx j * c j := by
  rw [inner_sum]
  simp only [inner_smul_right, h.target₀]
  exact sum_congr rfl fun j _ => by ring

theorem Noisy.sq (h : Noisy K kx v f e f₀) (c : n → ℝ) : v * ∑ i, c i ^ 2 ≤ ‖∑ j, c j • (f j + e j)‖ ^ 2 := by
  rw [← real_inner_self_eq_norm_sq, sum_inner]
  have : ∀ i, ⟪c i • (f i + e i), ∑ j, c j • (f j + e j)⟫_ℝ = ∑ j, c i * c j * K i j + v * c i ^ 2 := fun i => by
    rw [inner_smul_left, h.comb]
    simp only [conj_trivial, mul_add, mul_sum]
    congr 1
    · exact sum_congr rfl fun j _ => by ring
    · ring
  simp only [this, sum_add_distrib, ← mul_sum]
  have := h.psd.2 c
  linarith

/-- Pythagoras for weights whose error is orthogonal to the change of weights. -/
theorem Noisy.compare (h : Noisy K kx v f e f₀) (w a : n → ℝ) (ho : ∑ i, w i * (∑ j, K i j * (w j - a j) + v * (w i - a i)) = ∑ j, kx j * (w j - a j)) :
    ‖f₀ - ∑ i, w i • (f i + e i)‖ ^ 2 + v * ∑ i, (a i - w i) ^ 2 ≤ ‖f₀ - ∑ i, a i • (f i + e i)‖ ^ 2 := by
  have e1 : f₀ - ∑ i, a i • (f i + e i) = (f₀ - ∑ i, w i • (f i + e i)) + ∑ i, (w i - a i) • (f i + e i) := by
    simp only [sub_smul, sum_sub_distrib]
    abel
  have e2 : ⟪f₀ - ∑ i, w i • (f i + e i), ∑ i, (w i - a i) • (f i + e i)⟫_ℝ = 0 := by
    rw [inner_sub_left, h.comb₀, sum_inner]
    simp only [inner_smul_left, conj_trivial]
    have : ∀ i, ⟪f i + e i, ∑ j, (w j - a j) • (f j + e j)⟫_ℝ = ∑ j, K i j * (w j - a j) + v * (w i - a i) := fun i => h.comb (fun j => w j - a j) i
    simp only [this, ho, sub_self]
  have e3 := h.sq fun i => w i - a i
  have e4 : ∑ i, (w i - a i) ^ 2 = ∑ i, (a i - w i) ^ 2 := sum_congr rfl fun i _ => by ring
  rw [e4] at e3
  rw [e1, norm_add_sq_real, e2]
  linarith

/-! ## Properties -/

/-- **C162** If the targets are values with the kernel as second moments plus errors of variance `1/gamma`, the output of a ridge regression is the best prediction, in mean square, that is linear in the targets:
any other weights have a greater mean square error, by at least the variance of the errors times their squared distance. -/
theorem C162_ridge {m : ℕ} {K : Fin m → Fin m → ℝ} {kx : Fin m → ℝ} {f e : Fin m → V} {f₀ : V} (γ : ℝ) (hN : Noisy K kx (1 / γ) f e f₀) {H : Fin m → Fin m → ℝ}
    (hW : UnitFits K γ H) (a : Fin m → ℝ) :
    ‖f₀ - ∑ i, countsAt H kx i • (f i + e i)‖ ^ 2 + 1 / γ * ∑ i, (a i - countsAt H kx i) ^ 2 ≤ ‖f₀ - ∑ i, a i • (f i + e i)‖ ^ 2 := by
  refine hN.compare _ a ?_
  set c : Fin m → ℝ := fun j => countsAt H kx j - a j with hc
  have h1 := C160_weights K hN.psd.1 γ hW (fun i => ∑ j, K i j * c j + 1 / γ * c i) c (fun _ => rfl) kx 0
  simp only [out, Bool.false_eq_true, if_false, add_zero] at h1
  exact h1.symm

/-- **C162** With errors of variance `gamma`, the output of a LS-SVM is the best among the predictions with weights that sum up to one, that is those that are right on average whatever the common mean `u` of values and targets. -/
theorem C162_lssvm [Nonempty n] (γ : ℝ) (hγ : 0 < γ) (hN : Noisy K kx γ f e f₀) {H : n → n → ℝ} {B : n → ℝ} (hW : UnitSols K γ H B) (a : n → ℝ) (ha : ∑ i, a i = 1) (u : V) :
    ‖u + f₀ - ∑ i, weightAt H B kx i • (u + f i + e i)‖ ^ 2 + γ * ∑ i, (a i - weightAt H B kx i) ^ 2 ≤ ‖u + f₀ - ∑ i, a i • (u + f i + e i)‖ ^ 2 := by
  obtain ⟨hw, h1⟩ := C148_weights K hN.psd γ hγ hW kx
  have hu : ∀ c : n → ℝ, ∑ i, c i = 1 → u + f₀ - ∑ i, c i • (u + f i + e i) = f₀ - ∑ i, c i • (f i + e i) := by
    intro c hc
    simp only [add_assoc, smul_add, sum_add_distrib]
    rw [← sum_smul, hc, one_smul]
    abel
  rw [hu _ h1, hu a ha]
  refine hN.compare _ a ?_
  set c : n → ℝ := fun j => weightAt H B kx j - a j with hc
  have h2 := hw (fun i => ∑ j, K i j * c j + γ * c i) c 0 ⟨fun i => by simp, by simp [hc, sum_sub_distrib, h1, ha]⟩
  simp only [outDual, add_zero] at h2
  exact h2.symm

/-- **C162** Weights that do not sum up to one are not right on average: the error has the part `1 - Σ a` of the mean. In particular a ridge regression, whose weights do not, predicts too little. -/
theorem C162_mean (a : n → ℝ) (u : V) (hu : ∀ i, ⟪u, f i + e i⟫_ℝ = 0) (hu0 : ⟪u, f₀⟫_ℝ = 0) :
    ⟪u, u + f₀ - ∑ i, a i • (u + f i + e i)⟫_ℝ = (1 - ∑ i, a i) * ‖u‖ ^ 2 := by
  have e1 : ∑ i, a i • (u + f i + e i) = (∑ i, a i) • u + ∑ i, a i • (f i + e i) := by
    simp only [add_assoc, smul_add, sum_add_distrib, sum_smul]
  have e2 : ⟪u, ∑ i, a i • (f i + e i)⟫_ℝ = 0 := by
    rw [inner_sum]
    simp only [inner_smul_right, hu, mul_zero, sum_const_zero]
  rw [e1, inner_sub_right, inner_add_right, inner_add_right, inner_smul_right, e2, hu0, real_inner_self_eq_norm_sq]
  ring

/-! ## Cases: two measurements of one unknown value -/

/-- Three quantities of variance one, uncorrelated: the value, and the errors of the two measurements. -/
noncomputable def unit (i : Fin 3) : EuclideanSpace ℝ (Fin 3) := EuclideanSpace.single i 1

theorem unit_inner (i j : Fin 3) : ⟪unit i, unit j⟫_ℝ = if i = j then 1 else 0 := by
  by_cases h : i = j
  · subst h; simp [unit]
  · simp [unit, h, EuclideanSpace.inner_single_left, Ne.symm h]

theorem two_noisy : Noisy (gramOf same) (gramOf same 0) 1 (fun _ => unit 0) (fun i => unit i.succ) (unit 0) where
  values i j := by rw [unit_inner]; fin_cases i <;> fin_cases j <;> simp [gramOf, same]
  point j := by rw [unit_inner]; fin_cases j <;> simp [gramOf, same]
  errors i j := by rw [unit_inner]; simp
  apart i j := by rw [unit_inner, if_neg (Fin.succ_ne_zero j).symm]
  apart₀ j := by rw [unit_inner, if_neg (Fin.succ_ne_zero j).symm]

/-- A third of each measurement is better than half of each. -/
example : ‖unit 0 - ∑ i : Fin 2, countsAt sameFits (gramOf same 0) i • (unit 0 + unit i.succ)‖ ^ 2 + 1 / 1 * ∑ i : Fin 2, ((1 / 2 : ℝ) - countsAt sameFits (gramOf same 0) i) ^ 2 ≤
    ‖unit 0 - ∑ i : Fin 2, (1 / 2 : ℝ) • (unit 0 + unit i.succ)‖ ^ 2 :=
  C162_ridge 1 (by rw [div_one]; exact two_noisy) same_unit fun _ => 1 / 2

theorem two_sols : UnitSols (gramOf same) 1 ![![1 / 2, -1 / 2], ![-1 / 2, 1 / 2]] ![1 / 2, 1 / 2] := by
  intro i
  refine ⟨fun k => ?_, ?_⟩
  · fin_cases i <;> fin_cases k <;> simp [gramOf, same, unitTarget, Fin.sum_univ_two] <;> norm_num
  · fin_cases i <;> simp [Fin.sum_univ_two] <;> norm_num

/-- The LS-SVM takes half of each measurement, which is better than taking the first only. -/
example (u : EuclideanSpace ℝ (Fin 3)) := C162_lssvm 1 one_pos two_noisy two_sols ![1, 0] (by simp [Fin.sum_univ_two]) u
example : weightAt ![![1 / 2, -1 / 2], ![-1 / 2, 1 / 2]] ![1 / 2, 1 / 2] (gramOf same 0) 1 = 1 / 2 := by
  simp [weightAt, outDual, gramOf, same, Fin.sum_univ_two]
  norm_num
/-- With a mean along a further direction the third of each measurement misses a third of it. -/
example : ⟪unit 2, unit 2 + unit 0 - ∑ _i : Fin 2, (1 / 3 : ℝ) • (unit 2 + unit 0 + (0 : EuclideanSpace ℝ (Fin 3)))⟫_ℝ = (1 - ∑ _i : Fin 2, (1 / 3 : ℝ)) * ‖unit 2‖ ^ 2 :=
  C162_mean (f := fun _ => unit 0) (e := fun _ => 0) (fun _ => 1 / 3) (unit 2) (fun i => by rw [add_zero, unit_inner, if_neg (by decide)]) (by rw [unit_inner, if_neg (by decide)])

end BestPred
end Kerch
