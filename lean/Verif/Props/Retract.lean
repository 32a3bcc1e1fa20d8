import Verif.Model.Retract
import Mathlib.Algebra.Order.BigOperators.Ring.Finset
import Mathlib.Analysis.InnerProductSpace.Basic
import Mathlib.Data.Matrix.Diagonal
import Mathlib.LinearAlgebra.Matrix.NonsingularInverse
import Mathlib.Tactic.FinCases
import Mathlib.Tactic.NoncommRing
import Mathlib.Tactic.Module
set_option linter.unusedSectionVars false
set_option linter.unusedSimpArgs false
/-!
# C141: projections and retractions of the Stiefel manifold
-/
namespace Kerch
namespace Retract
open Matrix Finset

variable {p n : Type} [Fintype p] [Fintype n] [DecidableEq p] [DecidableEq n]

/-! ## Specification -/

/-- The matrix is a point of the manifold: orthonormal rows. -/
def OnStiefel (y : Matrix p n ℝ) : Prop := ∀ i j, ∑ k, y i k * y j k = if i = j then 1 else 0

/-- A direction tangent to the manifold at `y`: orthonormality is kept to first order. -/
def Tangent (y z : Matrix p n ℝ) : Prop := ∀ i j, ∑ k, (y i k * z j k + z i k * y j k) = 0

/-- Squared distance between matrices. -/
def distSq (a b : Matrix p n ℝ) : ℝ := ∑ i, ∑ j, (a i j - b i j) ^ 2

/-! ## Helpers -/

theorem on_iff (y : Matrix p n ℝ) : OnStiefel y ↔ y * yᵀ = 1 := by
  constructor
  · intro h; ext i j
    simpa [mul_apply, one_apply] using h i j
  · intro h i j
    have := congrFun (congrFun h i) j
    simpa [mul_apply, one_apply] using this

theorem tangent_iff (y z : Matrix p n ℝ) : Tangent y z ↔ y * zᵀ + z * yᵀ = 0 := by
  constructor
  · intro h; ext i j
    simpa [mul_apply, sum_add_distrib] using h i j
  · intro h i j
    have := congrFun (congrFun h i) j
    simpa [mul_apply, sum_add_distrib] using this

/-- Inner product of matrices. -/
noncomputable def frob (a b : Matrix p n ℝ) : ℝ := trace (a * bᵀ)

theorem frob_sum (a b : Matrix p n ℝ) : frob a b = ∑ i, ∑ j, a i j * b i j := by
  simp [frob, trace, mul_apply]

theorem distSq_frob (a b : Matrix p n ℝ) : distSq a b = frob (a - b) (a - b) := by
  simp [frob_sum, distSq, sq]

theorem frob_self_nonneg (a : Matrix p n ℝ) : 0 ≤ frob a a := by
  rw [frob_sum]
  exact sum_nonneg fun i _ => sum_nonneg fun j _ => mul_self_nonneg _

theorem tan_eq (y g : Matrix p n ℝ) : tanValue y g = g - stiefelProjNorm y g := by
  unfold tanValue stiefelProjNorm skewMatrix symMatrix
  simp only [transpose_add, transpose_mul, transpose_sub, transpose_smul, transpose_transpose, transpose_one]
  simp only [smul_mul, Matrix.sub_mul, Matrix.add_mul, Matrix.mul_sub, Matrix.mul_one, Matrix.mul_assoc]
  module

theorem norm_eq (y g : Matrix p n ℝ) : stiefelProjNorm y g = symMatrix (y * gᵀ) * y := by
  unfold stiefelProjNorm symMatrix
  simp only [transpose_add, transpose_mul, transpose_smul, transpose_transpose]
  rw [add_comm]

/-- A symmetric combination of the rows of `y` is orthogonal to all tangent directions. -/
theorem frob_tangent (y z : Matrix p n ℝ) (S : Matrix p p ℝ) (hS : Sᵀ = S) (hz : Tangent y z) : frob z (S * y) = 0 := by
  rw [tangent_iff] at hz
  have h1 : z * yᵀ = -(y * zᵀ) := by rw [eq_neg_iff_add_eq_zero, add_comm]; exact hz
  have h2 : frob z (S * y) = trace (z * yᵀ * S) := by
    unfold frob
    rw [transpose_mul, hS, Matrix.mul_assoc]
  have h3 : trace (z * yᵀ * S) = trace (y * zᵀ * S) := by
    rw [← trace_transpose (z * yᵀ * S), transpose_mul, transpose_mul, transpose_transpose, hS, trace_mul_comm]
  rw [h1, Matrix.neg_mul, trace_neg] at h3
  rw [h2, h1, Matrix.neg_mul, trace_neg]
  linarith

theorem sym_symm (y : Matrix p p ℝ) : (symMatrix y)ᵀ = symMatrix y := by
  unfold symMatrix
  simp only [transpose_smul, transpose_add, transpose_transpose]
  rw [add_comm]

/-! ## Properties -/

/-- **C141** A direction is the sum of its tangent and its normal parts, at any matrix. -/
theorem C141_parts (y g : Matrix p n ℝ) (gpu : Bool) (t : Matrix p n ℝ) (h : stiefelProjTan gpu .cuda y g = .ok t) : t + stiefelProjNorm y g = g := by
  unfold stiefelProjTan at h
  split at h
  · simp at h
  · simp only [reduceCtorEq, if_false, Except.ok.injEq] at h
    rw [← h, tan_eq]; abel

/-- **C141** At a point of the manifold the tangent part is tangent, -/
theorem C141_tangent (y g : Matrix p n ℝ) (hy : OnStiefel y) : Tangent y (tanValue y g) := by
  rw [tangent_iff, tan_eq, norm_eq]
  rw [on_iff] at hy
  rw [transpose_sub, transpose_mul, sym_symm, Matrix.mul_sub, Matrix.sub_mul, ← Matrix.mul_assoc, hy, Matrix.mul_assoc (symMatrix _), hy, Matrix.one_mul, Matrix.mul_one]
  unfold symMatrix
  simp only [transpose_mul, transpose_transpose]
  module

/-- the normal part is orthogonal to all tangent directions, -/
theorem C141_normal (y g z : Matrix p n ℝ) (hz : Tangent y z) : ∑ i, ∑ j, z i j * stiefelProjNorm y g i j = 0 := by
  have := frob_tangent y z (symMatrix (y * gᵀ)) (sym_symm _) hz
  rwa [← norm_eq, frob_sum] at this

/-- and the tangent part is the tangent direction closest to the one given; in particular tangent directions stay as they are. -/
theorem C141_closest (y g z : Matrix p n ℝ) (hy : OnStiefel y) (hz : Tangent y z) :
    distSq g (tanValue y g) ≤ distSq g z ∧ (distSq g z = distSq g (tanValue y g) → z = tanValue y g) := by
  have ht := C141_tangent y g hy
  have hd : Tangent y (tanValue y g - z) := by
    rw [tangent_iff] at *
    rw [transpose_sub, Matrix.mul_sub, Matrix.sub_mul]
    rw [show y * (tanValue y g)ᵀ - y * zᵀ + (tanValue y g * yᵀ - z * yᵀ) = (y * (tanValue y g)ᵀ + tanValue y g * yᵀ) - (y * zᵀ + z * yᵀ) by abel, ht, hz, sub_zero]
  have h0 := C141_normal y g _ hd
  have key : distSq g z = distSq g (tanValue y g) + distSq (tanValue y g) z := by
    have e : ∀ i j, (g i j - z i j) ^ 2 = (g i j - tanValue y g i j) ^ 2 + (tanValue y g i j - z i j) ^ 2 + 2 * ((tanValue y g - z) i j * stiefelProjNorm y g i j) := by
      intro i j
      have : stiefelProjNorm y g i j = g i j - tanValue y g i j := by rw [tan_eq]; simp
      rw [this, Matrix.sub_apply]; ring
    unfold distSq
    simp only [e, sum_add_distrib, ← mul_sum, h0, mul_zero, add_zero]
  have hnn : 0 ≤ distSq (tanValue y g) z := sum_nonneg fun i _ => sum_nonneg fun j _ => sq_nonneg _
  refine ⟨by linarith, fun he => ?_⟩
  have hz0 : distSq (tanValue y g) z = 0 := by linarith
  unfold distSq at hz0
  rw [sum_eq_zero_iff_of_nonneg fun i _ => sum_nonneg fun j _ => sq_nonneg _] at hz0
  ext i j
  have h1 := hz0 i (mem_univ i)
  rw [sum_eq_zero_iff_of_nonneg fun j _ => sq_nonneg _] at h1
  have h2 := h1 j (mem_univ j)
  have := pow_eq_zero_iff (two_ne_zero) |>.1 h2
  linarith

theorem C141_fixed (y z : Matrix p n ℝ) (hy : OnStiefel y) (hz : Tangent y z) : tanValue y z = z := by
  refine ((C141_closest y z z hy hz).2 ?_).symm
  have h := (C141_closest y z z hy hz).1
  have h0 : distSq z z = 0 := by simp [distSq]
  have hnn : 0 ≤ distSq z (tanValue y z) := sum_nonneg fun i _ => sum_nonneg fun j _ => sq_nonneg _
  rw [h0] at h ⊢
  linarith

/-- **C141** violated: the tangent part is not to be had of tensors that are on the processor, whether there is a GPU or not; the function that is to transport directions always raises. -/
theorem C141_cpu_violated (gpu : Bool) (y g : Matrix p n ℝ) :
    (∀ t, stiefelProjTan gpu .cpu y g ≠ .ok t) ∧ (stiefelProjTan false .cuda y g = .error .assertionError) ∧ stiefelTransport y g = .error .nameError := by
  refine ⟨fun t => ?_, rfl, rfl⟩
  unfold stiefelProjTan
  cases gpu <;> simp

/-- **C141** The polar retraction is a point of the manifold, whatever the matrix and its decomposition, -/
theorem C141_polar (x : Matrix p n ℝ) (D : SVD x) : OnStiefel (polarRetraction D) := by
  rw [on_iff]
  unfold polarRetraction
  have hU : D.U * D.Uᵀ = 1 := mul_eq_one_comm.1 D.orthU
  rw [transpose_mul, transpose_transpose, Matrix.mul_assoc, ← Matrix.mul_assoc D.Vᵀ, D.orthV, Matrix.one_mul, hU]

theorem frob_svd (x q : Matrix p n ℝ) (D : SVD x) : frob x q = ∑ i, D.s i * (D.Uᵀ * q * D.V) i i := by
  unfold frob
  conv_lhs => rw [D.eq]
  rw [Matrix.mul_assoc, Matrix.mul_assoc, trace_mul_comm, Matrix.mul_assoc]
  have : D.Vᵀ * qᵀ * D.U = (D.Uᵀ * q * D.V)ᵀ := by
    simp only [transpose_mul, transpose_transpose, Matrix.mul_assoc]
  rw [this]
  simp only [trace, Matrix.diag, diagonal_mul, transpose_apply]

/-- the closest one of all, -/
theorem C141_polar_closest (x : Matrix p n ℝ) (D : SVD x) (q : Matrix p n ℝ) (hq : OnStiefel q) : distSq x (polarRetraction D) ≤ distSq x q := by
  have hr := C141_polar x D
  rw [on_iff] at hq hr
  have hexp : ∀ r : Matrix p n ℝ, r * rᵀ = 1 → distSq x r = frob x x - 2 * frob x r + trace (1 : Matrix p p ℝ) := by
    intro r h
    have h1 : frob r r = trace (1 : Matrix p p ℝ) := by unfold frob; rw [h]
    rw [← h1]
    simp only [distSq, frob_sum, mul_sum, ← sum_sub_distrib, ← sum_add_distrib]
    exact sum_congr rfl fun i _ => sum_congr rfl fun j _ => by ring
  rw [hexp _ hq, hexp _ hr]
  have hle : frob x q ≤ frob x (polarRetraction D) := by
    rw [frob_svd x q D, frob_svd x _ D]
    refine sum_le_sum fun i _ => mul_le_mul_of_nonneg_left ?_ (D.nonneg i)
    have h1 : (D.Uᵀ * polarRetraction D * D.V) i i = 1 := by
      unfold polarRetraction
      rw [← Matrix.mul_assoc, D.orthU, Matrix.one_mul, D.orthV, one_apply_eq]
    rw [h1]
    -- row `i` of `Uᵀ q` and column `i` of `V` have norm one
    have ha : ∑ k, (D.Uᵀ * q) i k ^ 2 = 1 := by
      have : (D.Uᵀ * q) * (D.Uᵀ * q)ᵀ = 1 := by
        rw [transpose_mul, transpose_transpose, Matrix.mul_assoc, ← Matrix.mul_assoc q, hq, Matrix.one_mul, D.orthU]
      have := congrFun (congrFun this i) i
      rw [mul_apply, one_apply_eq] at this
      simpa only [transpose_apply, ← sq] using this
    have hb : ∑ k, D.V k i ^ 2 = 1 := by
      have := congrFun (congrFun D.orthV i) i
      simpa [mul_apply, sq] using this
    have hc : (D.Uᵀ * q * D.V) i i = ∑ k, (D.Uᵀ * q) i k * D.V k i := by rw [mul_apply]
    rw [hc]
    have hs : ∑ k, ((D.Uᵀ * q) i k - D.V k i) ^ 2 = 2 - 2 * ∑ k, (D.Uᵀ * q) i k * D.V k i := by
      have e : ∀ k, ((D.Uᵀ * q) i k - D.V k i) ^ 2 = (D.Uᵀ * q) i k ^ 2 + D.V k i ^ 2 - 2 * ((D.Uᵀ * q) i k * D.V k i) := fun k => by ring
      simp only [e, sum_sub_distrib, sum_add_distrib, ha, hb, ← mul_sum]
      ring
    have hnn : 0 ≤ ∑ k, ((D.Uᵀ * q) i k - D.V k i) ^ 2 := sum_nonneg fun k _ => sq_nonneg _
    linarith
  linarith

/-- and points of the manifold stay where they are. -/
theorem C141_polar_fixed (x : Matrix p n ℝ) (D : SVD x) (hx : OnStiefel x) : polarRetraction D = x := by
  have h := C141_polar_closest x D x hx
  have h0 : distSq x x = 0 := by simp [distSq]
  rw [h0] at h
  have hnn : 0 ≤ distSq x (polarRetraction D) := sum_nonneg fun i _ => sum_nonneg fun j _ => sq_nonneg _
  have hz : distSq x (polarRetraction D) = 0 := le_antisymm h hnn
  unfold distSq at hz
  rw [sum_eq_zero_iff_of_nonneg fun i _ => sum_nonneg fun j _ => sq_nonneg _] at hz
  ext i j
  have h1 := hz i (mem_univ i)
  rw [sum_eq_zero_iff_of_nonneg fun j _ => sq_nonneg _] at h1
  have := pow_eq_zero_iff (two_ne_zero) |>.1 (h1 j (mem_univ j))
  linarith

/-! ## Examples -/

/-- The first row of the identity of size two, and the direction (3, 4): its tangent part is (0, 4). -/
example : OnStiefel (!![1, 0] : Matrix (Fin 1) (Fin 2) ℝ) := by
  intro i j; fin_cases i; fin_cases j; simp
example : Tangent (!![1, 0] : Matrix (Fin 1) (Fin 2) ℝ) !![0, 4] := by
  intro i j; fin_cases i; fin_cases j; simp
example : tanValue (!![1, 0] : Matrix (Fin 1) (Fin 2) ℝ) !![0, 4] = !![0, 4] :=
  C141_fixed _ _ (by intro i j; fin_cases i; fin_cases j; simp) (by intro i j; fin_cases i; fin_cases j; simp)
/-- A decomposition of (3, 4); the retraction is (3/5, 4/5). -/
noncomputable def exSVD : SVD (!![3, 4] : Matrix (Fin 1) (Fin 2) ℝ) where
  U := 1
  s _ := 5
  V := !![3 / 5; 4 / 5]
  orthU := by simp
  orthV := by ext i j; fin_cases i; fin_cases j; simp [mul_apply, Fin.sum_univ_two]; norm_num
  nonneg _ := by norm_num
  eq := by ext i j; fin_cases i; fin_cases j <;> (simp [mul_apply]; norm_num)
example : OnStiefel (polarRetraction exSVD) := C141_polar _ exSVD
example (q : Matrix (Fin 1) (Fin 2) ℝ) (hq : OnStiefel q) : distSq !![3, 4] (polarRetraction exSVD) ≤ distSq !![3, 4] q := C141_polar_closest _ exSVD q hq
end Retract
end Kerch
