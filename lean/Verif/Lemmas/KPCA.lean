import Mathlib.Algebra.BigOperators.Field
import Mathlib.Algebra.Order.BigOperators.Group.Finset
import Mathlib.Tactic.Ring
import Mathlib.Tactic.FieldSimp
import Mathlib.Tactic.Linarith
import Verif.Model.KPCA
import Verif.Lemmas.PSD
import Verif.Props.Nystrom
/-!
# Lemmas on eigendecompositions and projections
-/
set_option linter.unusedSectionVars false
set_option linter.unusedSimpArgs false
namespace Kerch
open Finset KPCA

namespace EigDecomp
variable {n : ℕ} {M : Fin n → Fin n → ℝ} (D : EigDecomp M)

theorem trace_eq : ∑ i, M i i = ∑ l, D.lam l := by
  calc ∑ i, M i i = ∑ i, ∑ l, D.lam l * D.V i l * D.V i l := sum_congr rfl fun i _ => D.spectral i i
    _ = ∑ l, ∑ i, D.lam l * D.V i l * D.V i l := sum_comm
    _ = ∑ l, D.lam l := by
      refine sum_congr rfl fun l _ => ?_
      simp_rw [mul_assoc]
      rw [← mul_sum, D.orth l l, if_pos rfl, mul_one]

theorem lam_nonneg (hM : PSDMat M) (l : Fin n) : 0 ≤ D.lam l := by
  have h := hM.2 fun i => D.V i l
  have : ∑ i, ∑ j, D.V i l * D.V j l * M i j = D.lam l := by
    calc ∑ i, ∑ j, D.V i l * D.V j l * M i j = ∑ i, D.V i l * ∑ j, M i j * D.V j l := by
          refine sum_congr rfl fun i _ => ?_
          rw [mul_sum]
          exact sum_congr rfl fun j _ => by ring
      _ = ∑ i, D.lam l * (D.V i l * D.V i l) := sum_congr rfl fun i _ => by rw [D.eig i l]; ring
      _ = D.lam l := by rw [← mul_sum, D.orth l l, if_pos rfl, mul_one]
  rwa [this] at h

include D in
theorem symm (i j : Fin n) : M i j = M j i := by
  rw [D.spectral i j, D.spectral j i]
  exact sum_congr rfl fun l _ => by ring

/-- A vector is the sum of its components along the eigenvectors. -/
theorem expand (w : Fin n → ℝ) (i : Fin n) : w i = ∑ l, (∑ j, w j * D.V j l) * D.V i l := by
  calc w i = ∑ j, w j * (if j = i then 1 else 0) := by simp
    _ = ∑ j, ∑ l, w j * (D.V j l * D.V i l) := by
      refine sum_congr rfl fun j _ => ?_
      rw [← D.orth' j i, mul_sum]
    _ = ∑ l, ∑ j, w j * (D.V j l * D.V i l) := sum_comm
    _ = ∑ l, (∑ j, w j * D.V j l) * D.V i l := by
      refine sum_congr rfl fun l _ => ?_
      rw [sum_mul]
      exact sum_congr rfl fun j _ => by ring

/-- An eigenvector is orthogonal to the eigenvectors of other eigenvalues. -/
theorem eig_orth (w : Fin n → ℝ) (c : ℝ) (hw : ∀ i, ∑ j, M i j * w j = c * w i) (l : Fin n) (hl : D.lam l ≠ c) : ∑ j, w j * D.V j l = 0 := by
  have h1 : ∑ i, (∑ j, M i j * w j) * D.V i l = c * ∑ i, w i * D.V i l := by
    rw [mul_sum]
    exact sum_congr rfl fun i _ => by rw [hw i]; ring
  have h2 : ∑ i, (∑ j, M i j * w j) * D.V i l = D.lam l * ∑ i, w i * D.V i l := by
    calc ∑ i, (∑ j, M i j * w j) * D.V i l = ∑ j, w j * ∑ i, M j i * D.V i l := by
          simp_rw [sum_mul, mul_sum]
          rw [sum_comm]
          exact sum_congr rfl fun j _ => sum_congr rfl fun i _ => by rw [D.symm i j]; ring
      _ = D.lam l * ∑ i, w i * D.V i l := by
          rw [mul_sum]
          exact sum_congr rfl fun j _ => by rw [D.eig j l]; ring
  have h3 : (D.lam l - c) * ∑ i, w i * D.V i l = 0 := by linarith
  exact (mul_eq_zero.1 h3).resolve_left (sub_ne_zero.2 hl)

/-- An eigenvector is the sum of its components along the eigenvectors of its eigenvalue. -/
theorem eig_expand (w : Fin n → ℝ) (c : ℝ) (hw : ∀ i, ∑ j, M i j * w j = c * w i) (i : Fin n) :
    w i = ∑ l, if D.lam l = c then (∑ j, w j * D.V j l) * D.V i l else 0 := by
  rw [D.expand w i]
  refine sum_congr rfl fun l _ => ?_
  by_cases h : D.lam l = c
  · rw [if_pos h]
  · rw [if_neg h, D.eig_orth w c hw l h, zero_mul]

end EigDecomp

/-- Bessel's inequality for orthonormal rows. -/
theorem bessel {m : ℕ} {A : Type} [Fintype A] [DecidableEq A] (U : A → Fin m → ℝ) (hU : ∀ a b, ∑ i, U a i * U b i = if a = b then 1 else 0)
    (v : Fin m → ℝ) : ∑ a, (∑ i, U a i * v i) ^ 2 ≤ ∑ i, v i ^ 2 := by
  obtain ⟨c, hc⟩ : ∃ c : A → ℝ, c = fun a => ∑ i, U a i * v i := ⟨_, rfl⟩
  have h0 : 0 ≤ ∑ i, (v i - ∑ a, c a * U a i) ^ 2 := sum_nonneg fun i _ => sq_nonneg _
  have h1 : ∑ i, v i * ∑ a, c a * U a i = ∑ a, c a ^ 2 := by
    simp_rw [mul_sum]
    rw [sum_comm]
    refine sum_congr rfl fun a _ => ?_
    have : c a = ∑ i, U a i * v i := by rw [hc]
    calc ∑ i, v i * (c a * U a i) = c a * ∑ i, U a i * v i := by rw [mul_sum]; exact sum_congr rfl fun i _ => by ring
      _ = c a ^ 2 := by rw [← this, sq]
  have h2 : ∑ i, (∑ a, c a * U a i) ^ 2 = ∑ a, c a ^ 2 := by
    calc ∑ i, (∑ a, c a * U a i) ^ 2 = ∑ i, ∑ a, ∑ b, (c a * U a i) * (c b * U b i) := by
          refine sum_congr rfl fun i _ => ?_
          rw [sq, sum_mul_sum]
      _ = ∑ a, ∑ b, c a * c b * ∑ i, U a i * U b i := by
          rw [sum_comm]
          refine sum_congr rfl fun a _ => ?_
          rw [sum_comm]
          refine sum_congr rfl fun b _ => ?_
          rw [mul_sum]
          exact sum_congr rfl fun i _ => by ring
      _ = ∑ a, c a ^ 2 := by
          refine sum_congr rfl fun a _ => ?_
          simp [hU, sq]
  have h3 : ∑ i, (v i - ∑ a, c a * U a i) ^ 2 = ∑ i, v i ^ 2 - 2 * ∑ i, v i * ∑ a, c a * U a i + ∑ i, (∑ a, c a * U a i) ^ 2 := by
    rw [mul_sum, ← sum_sub_distrib, ← sum_add_distrib]
    exact sum_congr rfl fun i _ => by ring
  have h4 : ∑ a, (∑ i, U a i * v i) ^ 2 = ∑ a, c a ^ 2 := by rw [hc]
  rw [h4]
  linarith

section
variable {m : ℕ} {M : Fin m → Fin m → ℝ} (D : EigDecomp M) {A : Type} [Fintype A] [DecidableEq A]

/-- The captured variance of orthonormal parameters: `Σ_l λ_l Σ_a (u_a·v_l)²`. -/
theorem captured (U : A → Fin m → ℝ) :
    ∑ i, ∑ j, (∑ a, U a i * U a j) * M j i = ∑ l, D.lam l * ∑ a, (∑ i, U a i * D.V i l) ^ 2 := by
  have h : ∀ l, ∑ a, (∑ i, U a i * D.V i l) ^ 2 = ∑ i, ∑ j, (∑ a, U a i * U a j) * (D.V i l * D.V j l) := by
    intro l
    calc ∑ a, (∑ i, U a i * D.V i l) ^ 2 = ∑ a, ∑ i, ∑ j, (U a i * D.V i l) * (U a j * D.V j l) :=
          sum_congr rfl fun a _ => by rw [sq, sum_mul_sum]
      _ = ∑ i, ∑ j, ∑ a, (U a i * D.V i l) * (U a j * D.V j l) := by
          rw [sum_comm]
          exact sum_congr rfl fun i _ => sum_comm
      _ = ∑ i, ∑ j, (∑ a, U a i * U a j) * (D.V i l * D.V j l) :=
          sum_congr rfl fun i _ => sum_congr rfl fun j _ => by rw [sum_mul]; exact sum_congr rfl fun a _ => by ring
  calc ∑ i, ∑ j, (∑ a, U a i * U a j) * M j i
      = ∑ i, ∑ j, ∑ l, D.lam l * ((∑ a, U a i * U a j) * (D.V i l * D.V j l)) := by
        refine sum_congr rfl fun i _ => sum_congr rfl fun j _ => ?_
        rw [D.spectral j i, mul_sum]
        exact sum_congr rfl fun l _ => by ring
    _ = ∑ l, ∑ i, ∑ j, D.lam l * ((∑ a, U a i * U a j) * (D.V i l * D.V j l)) := by
        rw [sum_comm]
        refine (sum_congr rfl fun j _ => sum_comm).trans ?_
        rw [sum_comm]
        refine sum_congr rfl fun l _ => ?_
        rw [sum_comm]
    _ = ∑ l, D.lam l * ∑ a, (∑ i, U a i * D.V i l) ^ 2 := by
        refine sum_congr rfl fun l _ => ?_
        rw [h l, mul_sum]
        exact sum_congr rfl fun i _ => by rw [mul_sum]

theorem captured_le_one (U : A → Fin m → ℝ) (hU : ∀ a b, ∑ i, U a i * U b i = if a = b then 1 else 0) (l : Fin m) :
    ∑ a, (∑ i, U a i * D.V i l) ^ 2 ≤ 1 := by
  refine (bessel U hU fun i => D.V i l).trans ?_
  have := D.orth l l
  rw [if_pos rfl] at this
  rw [← this]
  exact le_of_eq (sum_congr rfl fun i _ => by ring)

theorem captured_sum (U : A → Fin m → ℝ) (hU : ∀ a b, ∑ i, U a i * U b i = if a = b then 1 else 0) :
    ∑ l, ∑ a, (∑ i, U a i * D.V i l) ^ 2 = Fintype.card A := by
  rw [sum_comm]
  have : ∀ a, ∑ l, (∑ i, U a i * D.V i l) ^ 2 = 1 := by
    intro a
    have h1 := hU a a
    rw [if_pos rfl] at h1
    rw [← h1]
    calc ∑ l, (∑ i, U a i * D.V i l) ^ 2 = ∑ l, ∑ i, U a i * ((∑ j, U a j * D.V j l) * D.V i l) := by
          refine sum_congr rfl fun l _ => ?_
          rw [sq, sum_mul]
          exact sum_congr rfl fun i _ => by ring
      _ = ∑ i, U a i * ∑ l, (∑ j, U a j * D.V j l) * D.V i l := by
          rw [sum_comm]
          exact sum_congr rfl fun i _ => by rw [mul_sum]
      _ = ∑ i, U a i * U a i := sum_congr rfl fun i _ => by rw [← D.expand (U a) i]
  simp [this]

end
end Kerch
