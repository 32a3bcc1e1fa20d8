import Mathlib.Analysis.Calculus.Deriv.Add
import Mathlib.Analysis.Calculus.Deriv.Mul
import Mathlib.Analysis.Calculus.Deriv.Pow
import Mathlib.Analysis.SpecificLimits.Basic
import Mathlib.Algebra.Order.Chebyshev
import Mathlib.Tactic.Linarith
import Mathlib.Tactic.Positivity
import Mathlib.Tactic.FieldSimp
import Mathlib.Tactic.FinCases
import Mathlib.Tactic.NormNum
import Verif.Model.LSSVMDescent
import Verif.Lemmas.PSD
import Verif.Props.LSSVM
import Verif.Props.Stability
import Mathlib.LinearAlgebra.Matrix.NonsingularInverse
import Mathlib.LinearAlgebra.Matrix.ToLinearEquiv
set_option linter.unusedSectionVars false
set_option linter.unusedSimpArgs false
/-!
# A LS-SVM trained by gradient converges to its fit
-/
namespace Kerch
namespace LSTrain
open Finset LSSVM Filter Topology

/-! ## Helpers -/

section helpers
variable {n : ℕ} (K : Fin n → Fin n → ℝ) (γ : ℝ) (y : Fin n → ℝ)

/-- Errors at the points of the sample. -/
def res (p : Par n) (i : Fin n) : ℝ := ∑ j, K i j * p (.inl j) + p (.inr ()) - y i

/-- The second-order part of the loss. -/
noncomputable def quad (v : Par n) : ℝ :=
  1 / (n : ℝ) * ∑ i, ∑ j, v (.inl i) * v (.inl j) * K i j + γ / n * ∑ i, (∑ j, K i j * v (.inl j) + v (.inr ())) ^ 2

/-- The gradient of the loss. -/
noncomputable def slope (p : Par n) : Par n :=
  Sum.elim (fun i => 2 / (n : ℝ) * (∑ j, K i j * p (.inl j) + γ * ∑ j, K i j * res K y p j)) fun _ => 2 * γ / n * ∑ i, res K y p i

theorem loss_form (p : Par n) :
    lossAt K γ y p = 1 / (n : ℝ) * ∑ i, ∑ j, p (.inl i) * p (.inl j) * K i j + γ / n * ∑ i, res K y p i ^ 2 := by
  simp only [lossAt, lossDual, total, regDual, mse, outDual, res, Fin.sum_univ_one, Fintype.sum_unique, Nat.cast_one, mul_one]
  rw [← mul_assoc γ, mul_one_div]
  congr 2
  exact sum_congr rfl fun i _ => sum_congr rfl fun j _ => by ring

theorem res_add (p v : Par n) (i : Fin n) : res K y (p + v) i = res K y p i + (∑ j, K i j * v (.inl j) + v (.inr ())) := by
  simp only [res, Pi.add_apply, mul_add, sum_add_distrib]
  ring

theorem expand (hK : ∀ i j, K i j = K j i) (p v : Par n) :
    lossAt K γ y (p + v) = lossAt K γ y p + ∑ q, slope K γ y p q * v q + quad K γ v := by
  have e1 : ∑ i, ∑ j, (p + v) (.inl i) * (p + v) (.inl j) * K i j =
      ∑ i, ∑ j, p (.inl i) * p (.inl j) * K i j + 2 * ∑ i, (∑ j, K i j * p (.inl j)) * v (.inl i) + ∑ i, ∑ j, v (.inl i) * v (.inl j) * K i j := by
    have s : ∑ i, ∑ j, p (.inl i) * v (.inl j) * K i j = ∑ i, (∑ j, K i j * p (.inl j)) * v (.inl i) := by
      rw [sum_comm]
      refine sum_congr rfl fun i _ => ?_
      rw [sum_mul]
      exact sum_congr rfl fun j _ => by rw [hK i j]; ring
    have s' : ∑ i, ∑ j, v (.inl i) * p (.inl j) * K i j = ∑ i, (∑ j, K i j * p (.inl j)) * v (.inl i) :=
      sum_congr rfl fun i _ => by rw [sum_mul]; exact sum_congr rfl fun j _ => by ring
    have : ∀ i j, (p + v) (.inl i) * (p + v) (.inl j) * K i j = p (.inl i) * p (.inl j) * K i j + p (.inl i) * v (.inl j) * K i j +
        v (.inl i) * p (.inl j) * K i j + v (.inl i) * v (.inl j) * K i j := fun i j => by simp only [Pi.add_apply]; ring
    simp only [this, sum_add_distrib, s, s']
    ring
  have e2 : ∑ i, res K y (p + v) i ^ 2 = ∑ i, res K y p i ^ 2 + 2 * (∑ i, (∑ j, K i j * res K y p j) * v (.inl i) + (∑ i, res K y p i) * v (.inr ())) +
      ∑ i, (∑ j, K i j * v (.inl j) + v (.inr ())) ^ 2 := by
    have s : ∑ i, res K y p i * ∑ j, K i j * v (.inl j) = ∑ i, (∑ j, K i j * res K y p j) * v (.inl i) := by
      simp only [mul_sum, sum_mul]
      rw [sum_comm]
      exact sum_congr rfl fun i _ => sum_congr rfl fun j _ => by rw [hK i j]; ring
    have : ∀ i, res K y (p + v) i ^ 2 = res K y p i ^ 2 + 2 * (res K y p i * ∑ j, K i j * v (.inl j)) + 2 * (res K y p i * v (.inr ())) +
        (∑ j, K i j * v (.inl j) + v (.inr ())) ^ 2 := fun i => by rw [res_add]; ring
    simp only [this, sum_add_distrib, ← mul_sum, s, ← sum_mul]
    ring
  rw [loss_form, loss_form, e1, e2, Fintype.sum_sum_type]
  simp only [slope, Sum.elim_inl, Sum.elim_inr, Fintype.sum_unique, quad, PUnit.default_eq_unit]
  have : ∑ i, 2 / (n : ℝ) * (∑ j, K i j * p (.inl j) + γ * ∑ j, K i j * res K y p j) * v (.inl i) =
      2 / (n : ℝ) * (∑ i, (∑ j, K i j * p (.inl j)) * v (.inl i) + γ * ∑ i, (∑ j, K i j * res K y p j) * v (.inl i)) := by
    rw [mul_sum (a := γ), ← sum_add_distrib, mul_sum]
    exact sum_congr rfl fun i _ => by ring
  rw [this]
  ring

theorem quad_smul (t : ℝ) (v : Par n) : quad K γ (t • v) = t ^ 2 * quad K γ v := by
  simp only [quad, Pi.smul_apply, smul_eq_mul]
  have a : ∑ i, ∑ j, t * v (.inl i) * (t * v (.inl j)) * K i j = t ^ 2 * ∑ i, ∑ j, v (.inl i) * v (.inl j) * K i j := by
    simp only [mul_sum]
    exact sum_congr rfl fun i _ => sum_congr rfl fun j _ => by ring
  have b : ∑ i, (∑ j, K i j * (t * v (.inl j)) + t * v (.inr ())) ^ 2 = t ^ 2 * ∑ i, (∑ j, K i j * v (.inl j) + v (.inr ())) ^ 2 := by
    rw [mul_sum]
    refine sum_congr rfl fun i _ => ?_
    have : ∑ j, K i j * (t * v (.inl j)) = t * ∑ j, K i j * v (.inl j) := by rw [mul_sum]; exact sum_congr rfl fun j _ => by ring
    rw [this]; ring
  rw [a, b]; ring

theorem quad_nonneg (hK : PSDMat K) (hγ : 0 ≤ γ) (v : Par n) : 0 ≤ quad K γ v := by
  have := hK.2 fun i => v (.inl i)
  unfold quad
  positivity

/-- The partial derivatives of the loss are its slope. -/
theorem grad_eq (hK : ∀ i j, K i j = K j i) (p : Par n) (q : Fin n ⊕ Unit) : grad K γ y p () q = slope K γ y p q := by
  classical
  have h : ∀ t, lossAt K γ y (Function.update p q t) =
      lossAt K γ y p + slope K γ y p q * (t - p q) + (t - p q) ^ 2 * quad K γ (Pi.single q 1) := by
    intro t
    have : Function.update p q t = p + (t - p q) • Pi.single q (1 : ℝ) := by
      funext r
      by_cases hr : r = q
      · subst hr; simp
      · simp [Function.update_of_ne hr, Pi.single_eq_of_ne hr]
    rw [this, expand K γ y hK, quad_smul]
    congr 2
    rw [sum_eq_single q]
    · simp
    · intro r _ hr; simp [Pi.single_eq_of_ne hr]
    · simp
  unfold grad
  simp only [h]
  have : HasDerivAt (fun t => lossAt K γ y p + slope K γ y p q * (t - p q) + (t - p q) ^ 2 * quad K γ (Pi.single q 1))
      (0 + slope K γ y p q * 1 + (2 * (p q - p q) ^ (2 - 1) * 1) * quad K γ (Pi.single q 1)) (p q) := by
    have d : HasDerivAt (fun t : ℝ => t - p q) 1 (p q) := (hasDerivAt_id _).sub_const _
    exact ((hasDerivAt_const _ _).add (d.const_mul _)).add ((d.pow 2).mul_const _)
  rw [this.deriv]
  simp

/-- Centring of the entries of the dual parameter. -/
noncomputable def cen (p : Par n) : Par n := Sum.elim (fun i => p (.inl i) - (1 / (n : ℝ)) * ∑ l, p (.inl l)) fun u => p (.inr u)

/-- One epoch on the parameters. -/
noncomputable def next (η : ℝ) (p : Par n) : Par n := cen (p - η • slope K γ y p)

theorem epoch_eq (hK : ∀ i j, K i j = K j i) (η : ℝ) (s : Train.Opt (Fin n ⊕ Unit)) :
    epoch K γ η y s = .ok { p := next K γ y η s.p, grad := some (slope K γ y s.p) } := by
  have g : (fun q => grad K γ y s.p () q) = slope K γ y s.p := funext fun q => grad_eq K γ y hK s.p q
  have : Train.Opt.epoch (fun _ => η) (grad K γ y) [()] s = { p := s.p - η • slope K γ y s.p, grad := some (slope K γ y s.p) } := by
    simp only [Train.Opt.epoch, Train.Opt.zeroGrad, List.foldl_cons, List.foldl_nil, Train.Opt.batch, Train.Opt.backward, Train.Opt.descend,
      Option.getD_none, Pi.zero_apply, zero_add, g]
    congr
  rw [epoch, this, afterStep, center, dif_pos rfl]
  simp only [next, cen]

theorem train_eq (hK : ∀ i j, K i j = K j i) (η : ℝ) (s : Train.Opt (Fin n ⊕ Unit)) (k : ℕ) :
    ∃ s', train K γ η y k s = .ok s' ∧ s'.p = (next K γ y η)^[k] s.p := by
  induction k with
  | zero => exact ⟨s, rfl, rfl⟩
  | succ k ih =>
    obtain ⟨s', h1, h2⟩ := ih
    exact ⟨{ p := next K γ y η s'.p, grad := some (slope K γ y s'.p) }, by rw [train, h1]; exact epoch_eq K γ y hK η s',
      by rw [Function.iterate_succ_apply', ← h2]⟩

theorem cen_near (p z : Par n) (hz : ∑ i, z (.inl i) = 0) : ∑ q, (cen p q - z q) ^ 2 ≤ ∑ q, (p q - z q) ^ 2 := by
  rcases Nat.eq_zero_or_pos n with h0 | hn
  · subst h0; simp [cen]
  have hn' : (n : ℝ) ≠ 0 := by exact_mod_cast hn.ne'
  rw [Fintype.sum_sum_type, Fintype.sum_sum_type]
  simp only [cen, Sum.elim_inl, Sum.elim_inr]
  obtain ⟨m, hm⟩ : ∃ m, m = 1 / (n : ℝ) * ∑ l, p (.inl l) := ⟨_, rfl⟩
  rw [← hm]
  have hs : ∑ l, p (.inl l) = n * m := by rw [hm]; field_simp
  have : ∑ i, (p (.inl i) - m - z (.inl i)) ^ 2 = ∑ i, (p (.inl i) - z (.inl i)) ^ 2 - n * m ^ 2 := by
    have : ∀ i, (p (.inl i) - m - z (.inl i)) ^ 2 = (p (.inl i) - z (.inl i)) ^ 2 - 2 * m * p (.inl i) + 2 * m * z (.inl i) + m ^ 2 := fun i => by ring
    simp only [this, sum_add_distrib, sum_sub_distrib, ← mul_sum, hs, hz, sum_const, card_univ, Fintype.card_fin, nsmul_eq_mul]
    ring
  rw [this]
  have : 0 ≤ (n : ℝ) * m ^ 2 := by positivity
  linarith

theorem cen_sum (hn : 0 < n) (p : Par n) : ∑ i, cen p (.inl i) = 0 := by
  have hn' : (n : ℝ) ≠ 0 := by exact_mod_cast hn.ne'
  simp only [cen, Sum.elim_inl, sum_sub_distrib, sum_const, card_univ, Fintype.card_fin, nsmul_eq_mul]
  field_simp
  simp

theorem cen_self (p : Par n) (h : ∑ i, p (.inl i) = 0) : cen p = p := by
  funext q
  rcases q with i | u
  · simp [cen, h]
  · simp [cen]

theorem cen_sub_smul (p v : Par n) (t : ℝ) : cen (p - t • v) = cen p - t • cen v := by
  funext q
  rcases q with i | u
  · simp only [cen, Sum.elim_inl, Pi.sub_apply, Pi.smul_apply, smul_eq_mul, sum_sub_distrib, ← mul_sum]; ring
  · simp [cen]

theorem cen_inner (v : Par n) : ∑ q, v q * cen v q = ∑ q, cen v q ^ 2 := by
  rcases Nat.eq_zero_or_pos n with h0 | hn
  · subst h0; simp [cen, sq]
  have hs := cen_sum hn v
  have : ∑ q, (v q - cen v q) * cen v q = 0 := by
    rw [Fintype.sum_sum_type]
    have : ∀ i, (v (.inl i) - cen v (.inl i)) = 1 / (n : ℝ) * ∑ l, v (.inl l) := fun i => by simp [cen]
    simp only [this, ← mul_sum, hs, mul_zero, zero_add]
    simp [cen]
  simp only [sub_mul, sum_sub_distrib] at this
  simp only [sq]
  linarith

theorem curv_iff (hK : ∀ i j, K i j = K j i) (x v : Par n) :
    lossAt K γ y (x + v) + lossAt K γ y (x - v) - 2 * lossAt K γ y x = 2 * quad K γ v := by
  have e := expand K γ y hK x ((-1 : ℝ) • v)
  have hv : x + (-1 : ℝ) • v = x - v := by rw [neg_one_smul]; rfl
  rw [hv, quad_smul] at e
  rw [e, expand K γ y hK x v]
  have : ∑ q, slope K γ y x q * ((-1 : ℝ) • v) q = - ∑ q, slope K γ y x q * v q := by
    rw [← sum_neg_distrib]; exact sum_congr rfl fun q _ => by simp
  rw [this]
  ring

/-- The parameters of a fit. -/
def fitPar (h : Fin n → ℝ) (b : ℝ) : Par n := Sum.elim h fun _ => b

theorem slope_fit (hγ : 0 < γ) {h : Fin n → ℝ} {b : ℝ} (hs : DualSol K (1 / γ) y h b) : slope K γ y (fitPar h b) = 0 := by
  have r : ∀ i, res K y (fitPar h b) i = - (1 / γ * h i) := fun i => by
    have := hs.1 i
    simp only [res, fitPar, Sum.elim_inl, Sum.elim_inr]
    linarith
  funext q
  rcases q with i | u
  · simp only [slope, Sum.elim_inl, r, Pi.zero_apply]
    have : γ * ∑ j, K i j * -(1 / γ * h j) = - ∑ j, K i j * h j := by
      rw [mul_sum, ← sum_neg_distrib]
      exact sum_congr rfl fun j _ => by field_simp
    rw [this]; simp [fitPar]
  · simp only [slope, Sum.elim_inr, r, Pi.zero_apply, sum_neg_distrib, ← mul_sum, hs.2]
    ring

theorem gap (hK : ∀ i j, K i j = K j i) (hγ : 0 < γ) {h : Fin n → ℝ} {b : ℝ} (hs : DualSol K (1 / γ) y h b) (p : Par n) :
    lossAt K γ y p = lossAt K γ y (fitPar h b) + quad K γ (p - fitPar h b) := by
  have := expand K γ y hK (fitPar h b) (p - fitPar h b)
  rw [slope_fit K γ y hγ hs, add_sub_cancel] at this
  simpa using this

theorem bias_curv (hn : 0 < n) {Λ : ℝ} (hΛ : ∀ v : Par n, 2 * quad K γ v ≤ Λ * ∑ q, v q ^ 2) : 2 * γ ≤ Λ := by
  have hn' : (n : ℝ) ≠ 0 := by exact_mod_cast hn.ne'
  have := hΛ (Sum.elim (fun _ => 0) fun _ => 1)
  simp [quad, Fintype.sum_sum_type] at this
  rw [div_mul_cancel₀ _ hn'] at this
  exact this

/-- The slope is bounded by the distance of the loss to its least value. -/
theorem slope_le (hK : PSDMat K) (hγ : 0 < γ) (hn : 0 < n) {Λ : ℝ} (hΛ : ∀ v : Par n, 2 * quad K γ v ≤ Λ * ∑ q, v q ^ 2) {h : Fin n → ℝ} {b : ℝ}
    (hs : DualSol K (1 / γ) y h b) (p : Par n) : ∑ q, slope K γ y p q ^ 2 ≤ 2 * Λ * (lossAt K γ y p - lossAt K γ y (fitPar h b)) := by
  have hL : 0 < Λ := by have := bias_curv K γ hn hΛ; linarith
  have e := expand K γ y hK.1 p ((-1 / Λ) • slope K γ y p)
  have g := gap K γ y hK.1 hγ hs (p + (-1 / Λ) • slope K γ y p)
  have g0 := quad_nonneg K γ hK hγ.le (p + (-1 / Λ) • slope K γ y p - fitPar h b)
  have s : ∑ q, slope K γ y p q * ((-1 / Λ) • slope K γ y p) q = -1 / Λ * ∑ q, slope K γ y p q ^ 2 := by
    rw [mul_sum]; exact sum_congr rfl fun q _ => by simp only [Pi.smul_apply, smul_eq_mul]; ring
  rw [quad_smul, s] at e
  have c := hΛ (slope K γ y p)
  obtain ⟨G, hG⟩ : ∃ G, G = ∑ q, slope K γ y p q ^ 2 := ⟨_, rfl⟩
  rw [← hG] at e c ⊢
  have c' : (-1 / Λ) ^ 2 * quad K γ (slope K γ y p) ≤ 1 / (2 * Λ) * G := by
    have : (-1 / Λ) ^ 2 * (2 * quad K γ (slope K γ y p)) ≤ (-1 / Λ) ^ 2 * (Λ * G) := mul_le_mul_of_nonneg_left c (by positivity)
    have e2 : (-1 / Λ) ^ 2 * (Λ * G) = 2 * (1 / (2 * Λ) * G) := by field_simp
    linarith
  have e3 : -1 / Λ * G = -2 * (1 / (2 * Λ) * G) := by field_simp
  have : 1 / (2 * Λ) * G ≤ lossAt K γ y p - lossAt K γ y (fitPar h b) := by linarith
  have := mul_le_mul_of_nonneg_left this (by positivity : (0 : ℝ) ≤ 2 * Λ)
  have e4 : 2 * Λ * (1 / (2 * Λ) * G) = G := by field_simp
  linarith

/-- One epoch brings the parameters nearer to the fit. -/
theorem nearer (hK : PSDMat K) (hγ : 0 < γ) (hn : 0 < n) {Λ : ℝ} (hΛ : ∀ v : Par n, 2 * quad K γ v ≤ Λ * ∑ q, v q ^ 2) {h : Fin n → ℝ} {b : ℝ}
    (hs : DualSol K (1 / γ) y h b) (η : ℝ) (p : Par n) :
    ∑ q, (next K γ y η p q - fitPar h b q) ^ 2 + 2 * η * (2 - η * Λ) * (lossAt K γ y p - lossAt K γ y (fitPar h b)) ≤ ∑ q, (p q - fitPar h b q) ^ 2 := by
  have c := cen_near (p - η • slope K γ y p) (fitPar h b) (by simpa [fitPar] using hs.2)
  have e := expand K γ y hK.1 p ((-1 : ℝ) • (p - fitPar h b))
  have e' : p + (-1 : ℝ) • (p - fitPar h b) = fitPar h b := by rw [neg_one_smul]; abel
  rw [e', quad_smul] at e
  have g := gap K γ y hK.1 hγ hs p
  have i1 : ∑ q, slope K γ y p q * ((-1 : ℝ) • (p - fitPar h b)) q = - ∑ q, slope K γ y p q * (p q - fitPar h b q) := by
    rw [← sum_neg_distrib]; exact sum_congr rfl fun q _ => by simp only [Pi.smul_apply, Pi.sub_apply, smul_eq_mul]; ring
  rw [i1] at e
  have s := slope_le K γ y hK hγ hn hΛ hs p
  have : ∑ q, ((p - η • slope K γ y p) q - fitPar h b q) ^ 2 = ∑ q, (p q - fitPar h b q) ^ 2 - 2 * η * ∑ q, slope K γ y p q * (p q - fitPar h b q) +
      η ^ 2 * ∑ q, slope K γ y p q ^ 2 := by
    rw [mul_sum, mul_sum, ← sum_sub_distrib, ← sum_add_distrib]
    exact sum_congr rfl fun q _ => by simp only [Pi.sub_apply, Pi.smul_apply, smul_eq_mul]; ring
  rw [this] at c
  have s' := mul_le_mul_of_nonneg_left s (sq_nonneg η)
  have i2 : ∑ q, slope K γ y p q * (p q - fitPar h b q) = 2 * (lossAt K γ y p - lossAt K γ y (fitPar h b)) := by linarith
  rw [i2] at c
  unfold next
  nlinarith [c, s']

/-- One epoch from centred parameters does not increase the loss. -/
theorem lower (hK : PSDMat K) {Λ : ℝ} (hΛ : ∀ v : Par n, 2 * quad K γ v ≤ Λ * ∑ q, v q ^ 2)
    (η : ℝ) (hη : 0 ≤ η) (hηΛ : η * Λ ≤ 2) (p : Par n) (hp : ∑ i, p (.inl i) = 0) : lossAt K γ y (next K γ y η p) ≤ lossAt K γ y p := by
  have e : next K γ y η p = p + (-η) • cen (slope K γ y p) := by
    rw [next, cen_sub_smul, cen_self p hp, neg_smul, sub_eq_add_neg]
  rw [e, expand K γ y hK.1, quad_smul]
  have i : ∑ q, slope K γ y p q * ((-η) • cen (slope K γ y p)) q = -η * ∑ q, cen (slope K γ y p) q ^ 2 := by
    rw [← cen_inner, mul_sum]; exact sum_congr rfl fun q _ => by simp only [Pi.smul_apply, smul_eq_mul]; ring
  rw [i]
  have c := mul_le_mul_of_nonneg_left (hΛ (cen (slope K γ y p))) (sq_nonneg η)
  have nn : 0 ≤ ∑ q, cen (slope K γ y p) q ^ 2 := sum_nonneg fun q _ => sq_nonneg _
  nlinarith [mul_le_mul_of_nonneg_right hηΛ (mul_nonneg hη nn)]

end helpers

/-! ## Specification -/

/-- The parameters after `k` epochs. -/
def After {n : ℕ} (K : Fin n → Fin n → ℝ) (γ η : ℝ) (y : Fin n → ℝ) (s : Train.Opt (Fin n ⊕ Unit)) (p : ℕ → Par n) : Prop :=
  ∀ k, ∃ g, train K γ η y k s = .ok ⟨p k, g⟩

/-- The curvature of the loss in all directions is at most `Λ`. -/
def Curved {n : ℕ} (K : Fin n → Fin n → ℝ) (γ : ℝ) (y : Fin n → ℝ) (Λ : ℝ) : Prop :=
  ∀ p v : Par n, lossAt K γ y (p + v) + lossAt K γ y (p - v) - 2 * lossAt K γ y p ≤ Λ * ∑ q, v q ^ 2

/-! ## C151 -/

theorem Curved.quad {n : ℕ} {K : Fin n → Fin n → ℝ} (hK : PSDMat K) {γ : ℝ} {y : Fin n → ℝ} {Λ : ℝ} (h : Curved K γ y Λ) (v : Par n) :
    2 * LSTrain.quad K γ v ≤ Λ * ∑ q, v q ^ 2 := by
  rw [← curv_iff K γ y hK.1 0 v]; exact h 0 v

theorem After.iter {n : ℕ} {K : Fin n → Fin n → ℝ} (hK : ∀ i j, K i j = K j i) {γ η : ℝ} {y : Fin n → ℝ} {s : Train.Opt (Fin n ⊕ Unit)} {p : ℕ → Par n}
    (h : After K γ η y s p) (k : ℕ) : p k = (next K γ y η)^[k] s.p := by
  obtain ⟨g, e⟩ := h k
  obtain ⟨s', e1, e2⟩ := train_eq K γ y hK η s k
  rw [e1] at e
  injection e with e
  rw [← e2, e]

/-- Training never raises, and from the first epoch on the dual parameter is centred. -/
theorem C151_runs {n : ℕ} (hn : 0 < n) (K : Fin n → Fin n → ℝ) (hK : PSDMat K) (γ η : ℝ) (y : Fin n → ℝ) (s : Train.Opt (Fin n ⊕ Unit)) :
    (∃ p, After K γ η y s p) ∧ ∀ p, After K γ η y s p → p 0 = s.p ∧ ∀ k, ∑ i, p (k + 1) (.inl i) = 0 := by
  constructor
  · choose s' h1 h2 using train_eq K γ y hK.1 η s
    exact ⟨fun k => (s' k).p, fun k => ⟨(s' k).grad, h1 k⟩⟩
  · intro p hp
    refine ⟨hp.iter hK.1 0, fun k => ?_⟩
    rw [hp.iter hK.1, Function.iterate_succ_apply']
    exact cen_sum hn _

/-- The curvature is bounded by the entries of the kernel matrix and `gamma`. -/
theorem C151_curvature {n : ℕ} (K : Fin n → Fin n → ℝ) (hK : PSDMat K) (γ : ℝ) (hγ : 0 ≤ γ) (y : Fin n → ℝ) :
    Curved K γ y (2 / (n : ℝ) * (∑ i, K i i + γ * ∑ i, ∑ j, K i j ^ 2 + γ * n)) := by
  intro p v
  rw [curv_iff K γ y hK.1]
  have hd : ∀ i, 0 ≤ K i i := fun i => by
    classical
    have := hK.2 (Pi.single i 1)
    simpa [Pi.single_apply] using this
  have S : ∑ q, v q ^ 2 = ∑ i, v (.inl i) ^ 2 + v (.inr ()) ^ 2 := by simp [Fintype.sum_sum_type]
  have a : ∑ i, ∑ j, v (.inl i) * v (.inl j) * K i j ≤ (∑ i, K i i) * ∑ q, v q ^ 2 := by
    have k2 : ∀ i j, |K i j| ≤ Real.sqrt (K i i) * Real.sqrt (K j j) := by
      intro i j
      rw [← Real.sqrt_mul (hd i)]
      refine Real.abs_le_sqrt ?_
      have := Stability.psd_cauchy hK (Pi.single i 1) (Pi.single j 1)
      simpa [Pi.single_apply] using this
    have t : ∑ i, ∑ j, v (.inl i) * v (.inl j) * K i j ≤ (∑ i, |v (.inl i)| * Real.sqrt (K i i)) ^ 2 := by
      rw [sq, sum_mul_sum]
      refine sum_le_sum fun i _ => sum_le_sum fun j _ => ?_
      calc v (.inl i) * v (.inl j) * K i j ≤ |v (.inl i) * v (.inl j) * K i j| := le_abs_self _
        _ = |v (.inl i)| * |v (.inl j)| * |K i j| := by rw [abs_mul, abs_mul]
        _ ≤ |v (.inl i)| * |v (.inl j)| * (Real.sqrt (K i i) * Real.sqrt (K j j)) := mul_le_mul_of_nonneg_left (k2 i j) (by positivity)
        _ = _ := by ring
    have u := sum_mul_sq_le_sq_mul_sq univ (fun i => |v (.inl i)|) (fun i => Real.sqrt (K i i))
    simp only [sq_abs, Real.sq_sqrt (hd _)] at u
    have : (∑ i, v (.inl i) ^ 2) * ∑ i, K i i ≤ (∑ q, v q ^ 2) * ∑ i, K i i := by
      refine mul_le_mul_of_nonneg_right ?_ (sum_nonneg fun i _ => hd i)
      rw [S]; nlinarith [sq_nonneg (v (.inr ()))]
    linarith
  have b : ∑ i, (∑ j, K i j * v (.inl j) + v (.inr ())) ^ 2 ≤ (∑ i, ∑ j, K i j ^ 2 + n) * ∑ q, v q ^ 2 := by
    have : ∀ i, (∑ j, K i j * v (.inl j) + v (.inr ())) ^ 2 ≤ (∑ j, K i j ^ 2 + 1) * ∑ q, v q ^ 2 := by
      intro i
      have := sum_mul_sq_le_sq_mul_sq univ (Sum.elim (K i) fun _ : Unit => 1) v
      simpa [Fintype.sum_sum_type] using this
    refine (sum_le_sum fun i _ => this i).trans (le_of_eq ?_)
    rw [← sum_mul, sum_add_distrib]
    simp
  unfold LSTrain.quad
  have a' := mul_le_mul_of_nonneg_left a (by positivity : (0 : ℝ) ≤ 1 / n)
  have b' := mul_le_mul_of_nonneg_left b (by positivity : (0 : ℝ) ≤ γ / n)
  have : 2 / (n : ℝ) * (∑ i, K i i + γ * ∑ i, ∑ j, K i j ^ 2 + γ * n) * ∑ q, v q ^ 2 =
    2 * (1 / (n : ℝ) * ((∑ i, K i i) * ∑ q, v q ^ 2) + γ / n * ((∑ i, ∑ j, K i j ^ 2 + n) * ∑ q, v q ^ 2)) := by ring
  rw [this]
  linarith

/-- The loss is the least at the fit of regularisation `1 / gamma`, and after `k` epochs it is at most a multiple of `1 / k` above. -/
theorem C151_rate {n : ℕ} (hn : 0 < n) (K : Fin n → Fin n → ℝ) (hK : PSDMat K) (γ : ℝ) (hγ : 0 < γ) (y h : Fin n → ℝ) (b : ℝ) (hs : DualSol K (1 / γ) y h b)
    {Λ : ℝ} (hΛ : Curved K γ y Λ) (η : ℝ) (hη : 0 < η) (hηΛ : η * Λ < 2) (s : Train.Opt (Fin n ⊕ Unit)) (p : ℕ → Par n) (hp : After K γ η y s p) :
    (∀ q, lossAt K γ y (fitPar h b) ≤ lossAt K γ y q) ∧
    ∀ k, 0 < k → lossAt K γ y (p k) - lossAt K γ y (fitPar h b) ≤ (∑ q, (s.p q - fitPar h b q) ^ 2) / (2 * η * (2 - η * Λ) * k) := by
  have hq := hΛ.quad hK
  have hmin : ∀ q, lossAt K γ y (fitPar h b) ≤ lossAt K γ y q := fun q => by
    rw [gap K γ y hK.1 hγ hs q]; linarith [quad_nonneg K γ hK hγ.le (q - fitPar h b)]
  refine ⟨hmin, fun k hk => ?_⟩
  have hp0 : p 0 = s.p := hp.iter hK.1 0
  have step : ∀ k, p (k + 1) = next K γ y η (p k) := fun k => by rw [hp.iter hK.1, hp.iter hK.1, Function.iterate_succ_apply']
  have cent : ∀ k, ∑ i, p (k + 1) (.inl i) = 0 := fun k => by rw [step]; exact cen_sum hn _
  have dec : ∀ k, lossAt K γ y (p (k + 2)) ≤ lossAt K γ y (p (k + 1)) := fun k => by
    rw [step (k + 1)]; exact lower K γ y hK hq η hη.le hηΛ.le _ (cent k)
  obtain ⟨C, hC⟩ : ∃ C, C = 2 * η * (2 - η * Λ) := ⟨_, rfl⟩
  have hCpos : 0 < C := by rw [hC]; exact mul_pos (by positivity) (by linarith)
  have near := fun k => nearer K γ y hK hγ hn hq hs η (p k)
  have main : ∀ k : ℕ, ∑ q, (p (k + 1) q - fitPar h b q) ^ 2 + C * (k * (lossAt K γ y (p (k + 1)) - lossAt K γ y (fitPar h b))) ≤
      ∑ q, (s.p q - fitPar h b q) ^ 2 := by
    intro k
    induction k with
    | zero =>
      have := near 0
      rw [← step, hp0, ← hC] at this
      have d := mul_nonneg hCpos.le (sub_nonneg.2 (hmin s.p))
      simp only [Nat.cast_zero, zero_mul, mul_zero, add_zero, zero_add] at this ⊢
      linarith
    | succ k ih =>
      have := near (k + 1)
      rw [← step, ← hC] at this
      have d := mul_le_mul_of_nonneg_left (dec k) (by positivity : (0 : ℝ) ≤ C * (k + 1))
      have ex : ((k + 1 : ℕ) : ℝ) = k + 1 := by push_cast; ring
      rw [ex]
      nlinarith [this, ih, d]
  obtain ⟨k, rfl⟩ : ∃ m, k = m + 1 := ⟨k - 1, by omega⟩
  have h1 := main k
  have h2 := near (k + 1)
  rw [← step, ← hC] at h2
  rw [← hC, le_div_iff₀ (by positivity)]
  have ex : ((k + 1 : ℕ) : ℝ) = k + 1 := by push_cast; ring
  rw [ex]
  have h3 : 0 ≤ ∑ q, (p (k + 1 + 1) q - fitPar h b q) ^ 2 := sum_nonneg fun q _ => sq_nonneg _
  nlinarith [h1, h2, h3]

/-- The distance of the parameters to those of the fit never grows, and from the first epoch on neither does the loss. -/
theorem C151_decreases {n : ℕ} (hn : 0 < n) (K : Fin n → Fin n → ℝ) (hK : PSDMat K) (γ : ℝ) (hγ : 0 < γ) (y h : Fin n → ℝ) (b : ℝ)
    (hs : DualSol K (1 / γ) y h b) {Λ : ℝ} (hΛ : Curved K γ y Λ) (η : ℝ) (hη : 0 < η) (hηΛ : η * Λ ≤ 2) (s : Train.Opt (Fin n ⊕ Unit)) (p : ℕ → Par n)
    (hp : After K γ η y s p) (k : ℕ) :
    ∑ q, (p (k + 1) q - fitPar h b q) ^ 2 ≤ ∑ q, (p k q - fitPar h b q) ^ 2 ∧ lossAt K γ y (p (k + 2)) ≤ lossAt K γ y (p (k + 1)) := by
  have hq := hΛ.quad hK
  have step : ∀ k, p (k + 1) = next K γ y η (p k) := fun k => by rw [hp.iter hK.1, hp.iter hK.1, Function.iterate_succ_apply']
  constructor
  · have h1 := nearer K γ y hK hγ hn hq hs η (p k)
    rw [← step] at h1
    have h2 := quad_nonneg K γ hK hγ.le (p k - fitPar h b)
    have h3 := gap K γ y hK.1 hγ hs (p k)
    have : 0 ≤ 2 * η * (2 - η * Λ) * (lossAt K γ y (p k) - lossAt K γ y (fitPar h b)) :=
      mul_nonneg (mul_nonneg (by positivity) (by linarith)) (by linarith)
    linarith
  · rw [step (k + 1)]
    exact lower K γ y hK hq η hη.le hηΛ _ (by rw [step]; exact cen_sum hn _)

theorem loss_tends {n : ℕ} (hn : 0 < n) (K : Fin n → Fin n → ℝ) (hK : PSDMat K) (γ : ℝ) (hγ : 0 < γ) (y h : Fin n → ℝ) (b : ℝ) (hs : DualSol K (1 / γ) y h b)
    {Λ : ℝ} (hΛ : Curved K γ y Λ) (η : ℝ) (hη : 0 < η) (hηΛ : η * Λ < 2) (s : Train.Opt (Fin n ⊕ Unit)) (p : ℕ → Par n) (hp : After K γ η y s p) :
    Tendsto (fun k => lossAt K γ y (p k) - lossAt K γ y (fitPar h b)) atTop (𝓝 0) := by
  obtain ⟨hm, hr⟩ := C151_rate hn K hK γ hγ y h b hs hΛ η hη hηΛ s p hp
  have t : Tendsto (fun k : ℕ => (∑ q, (s.p q - fitPar h b q) ^ 2) / (2 * η * (2 - η * Λ) * k)) atTop (𝓝 0) := by
    have : Tendsto (fun k : ℕ => (∑ q, (s.p q - fitPar h b q) ^ 2) / (2 * η * (2 - η * Λ)) / (k : ℝ)) atTop (𝓝 0) := tendsto_const_div_atTop_nhds_zero_nat _
    simpa only [div_div] using this
  refine tendsto_of_tendsto_of_tendsto_of_le_of_le' tendsto_const_nhds t (Eventually.of_forall fun k => sub_nonneg.2 (hm _)) ?_
  filter_upwards [eventually_gt_atTop 0] with k hk using hr k hk

theorem tends_of_sq {f g : ℕ → ℝ} {c : ℝ} (h : ∀ k, f k ^ 2 ≤ c * g k) (hg : Tendsto g atTop (𝓝 0)) : Tendsto f atTop (𝓝 0) := by
  have : Tendsto (fun k => f k ^ 2) atTop (𝓝 0) :=
    squeeze_zero (fun k => sq_nonneg _) h (by simpa using hg.const_mul c)
  have := this.sqrt
  simp only [Real.sqrt_sq_eq_abs, Real.sqrt_zero] at this
  exact (tendsto_zero_iff_abs_tendsto_zero _).2 this

/-- For a positive semi-definite kernel, the loss tends to its least value, the bias to that of the fit and the output at every point, of the sample or new, to
that of the fit. -/
theorem C151_outputs {X : Type} (κ : X → X → ℝ) (hκ : PSDOn Set.univ κ) {n : ℕ} (hn : 0 < n) (x : Fin n → X) (γ : ℝ) (hγ : 0 < γ) (y h : Fin n → ℝ) (b : ℝ)
    (hs : DualSol (fun i j => κ (x i) (x j)) (1 / γ) y h b) {Λ : ℝ} (hΛ : Curved (fun i j => κ (x i) (x j)) γ y Λ) (η : ℝ) (hη : 0 < η) (hηΛ : η * Λ < 2)
    (s : Train.Opt (Fin n ⊕ Unit)) (p : ℕ → Par n) (hp : After (fun i j => κ (x i) (x j)) γ η y s p) :
    Tendsto (fun k => lossAt (fun i j => κ (x i) (x j)) γ y (p k)) atTop (𝓝 (lossAt (fun i j => κ (x i) (x j)) γ y (fitPar h b))) ∧
    Tendsto (fun k => p k (.inr ())) atTop (𝓝 b) ∧
    ∀ z, Tendsto (fun k => outDual (fun i => κ z (x i)) (fun i => p k (.inl i)) (p k (.inr ()))) atTop (𝓝 (outDual (fun i => κ z (x i)) h b)) := by
  have hK : PSDMat fun i j => κ (x i) (x j) := hκ _ x fun _ => Set.mem_univ _
  have hn' : (0 : ℝ) < n := by exact_mod_cast hn
  have hl := loss_tends hn _ hK γ hγ y h b hs hΛ η hη hηΛ s p hp
  have hg : ∀ k, lossAt (fun i j => κ (x i) (x j)) γ y (p k) - lossAt (fun i j => κ (x i) (x j)) γ y (fitPar h b) =
      quad (fun i j => κ (x i) (x j)) γ (p k - fitPar h b) := fun k => by rw [gap _ γ y hK.1 hγ hs (p k)]; ring
  simp only [hg] at hl
  -- the two parts of the gap
  have q1 : ∀ k, ∑ i, ∑ j, (p k - fitPar h b) (.inl i) * (p k - fitPar h b) (.inl j) * κ (x i) (x j) ≤
      n * quad (fun i j => κ (x i) (x j)) γ (p k - fitPar h b) := by
    intro k
    unfold LSTrain.quad
    have : 0 ≤ ∑ i, (∑ j, κ (x i) (x j) * (p k - fitPar h b) (.inl j) + (p k - fitPar h b) (.inr ())) ^ 2 := sum_nonneg fun _ _ => sq_nonneg _
    have e : ∀ A B : ℝ, (n : ℝ) * (1 / n * A + γ / n * B) = A + γ * B := fun A B => by field_simp
    rw [e]
    have := mul_nonneg hγ.le this
    linarith
  have q2 : ∀ k i, (∑ j, κ (x i) (x j) * (p k - fitPar h b) (.inl j) + (p k - fitPar h b) (.inr ())) ^ 2 ≤
      n / γ * quad (fun i j => κ (x i) (x j)) γ (p k - fitPar h b) := by
    intro k i
    unfold LSTrain.quad
    have h1 := hK.2 fun i => (p k - fitPar h b) (.inl i)
    have h2 := single_le_sum (f := fun i => (∑ j, κ (x i) (x j) * (p k - fitPar h b) (.inl j) + (p k - fitPar h b) (.inr ())) ^ 2)
      (fun _ _ => sq_nonneg _) (mem_univ i)
    have e : ∀ A B : ℝ, (n : ℝ) / γ * (1 / n * A + γ / n * B) = A / γ + B := fun A B => by field_simp
    rw [e]
    have := div_nonneg h1 hγ.le
    linarith
  have row : ∀ z, Tendsto (fun k => ∑ i, κ z (x i) * (p k - fitPar h b) (.inl i)) atTop (𝓝 0) := by
    intro z
    refine tends_of_sq (c := κ z z * n) (fun k => ?_) hl
    have hM : PSDMat fun a a' : Option (Fin n) => κ (a.elim z x) (a'.elim z x) := hκ _ (fun a : Option (Fin n) => a.elim z x) fun _ => Set.mem_univ _
    have := Stability.psd_cauchy hM (fun a : Option (Fin n) => a.elim 1 fun _ => 0) (fun a : Option (Fin n) => a.elim 0 fun i => (p k - fitPar h b) (.inl i))
    simp only [Fintype.sum_option, Option.elim_none, Option.elim_some, mul_zero, zero_mul, sum_const_zero, zero_add, add_zero, one_mul] at this
    have e : ∑ i, κ z (x i) * (p k - fitPar h b) (.inl i) = ∑ i, (p k - fitPar h b) (.inl i) * κ z (x i) := sum_congr rfl fun i _ => mul_comm _ _
    rw [e]
    have hz : 0 ≤ κ z z := by simpa using (hκ Unit (fun _ => z) fun _ => Set.mem_univ _).2 fun _ => 1
    refine this.trans ?_
    rw [mul_assoc]
    exact mul_le_mul_of_nonneg_left (q1 k) hz
  have hb : Tendsto (fun k => p k (.inr ())) atTop (𝓝 b) := by
    have h1 : Tendsto (fun k => ∑ j, κ (x ⟨0, hn⟩) (x j) * (p k - fitPar h b) (.inl j) + (p k - fitPar h b) (.inr ())) atTop (𝓝 0) :=
      tends_of_sq (fun k => q2 k ⟨0, hn⟩) hl
    have h2 := (h1.sub (row (x ⟨0, hn⟩))).add_const b
    simpa [fitPar] using h2
  refine ⟨?_, hb, fun z => ?_⟩
  · have := hl.add_const (lossAt (fun i j => κ (x i) (x j)) γ y (fitPar h b))
    simp only [← hg, sub_add_cancel, zero_add] at this
    exact this
  · have h1 := (row z).add (hb.add_const (∑ i, κ z (x i) * h i))
    simp only [outDual]
    have e : ∀ k, ∑ i, κ z (x i) * p k (.inl i) + p k (.inr ()) =
        ∑ i, κ z (x i) * (p k - fitPar h b) (.inl i) + (p k (.inr ()) + ∑ i, κ z (x i) * h i) := by
      intro k
      simp only [Pi.sub_apply, fitPar, Sum.elim_inl, mul_sub, sum_sub_distrib]
      ring
    simp only [e]
    simpa [add_comm] using h1

/-- With a positive definite kernel matrix all parameters tend to those of the fit. -/
theorem C151_parameters {n : ℕ} (hn : 0 < n) (K : Fin n → Fin n → ℝ) (hK : PSDMat K) (hpd : ∀ c : Fin n → ℝ, c ≠ 0 → 0 < ∑ i, ∑ j, c i * c j * K i j)
    (γ : ℝ) (hγ : 0 < γ) (y h : Fin n → ℝ) (b : ℝ) (hs : DualSol K (1 / γ) y h b) {Λ : ℝ} (hΛ : Curved K γ y Λ) (η : ℝ) (hη : 0 < η) (hηΛ : η * Λ < 2)
    (s : Train.Opt (Fin n ⊕ Unit)) (p : ℕ → Par n) (hp : After K γ η y s p) (i : Fin n) : Tendsto (fun k => p k (.inl i)) atTop (𝓝 (h i)) := by
  have hκ : PSDOn Set.univ K := fun ι _ x _ => hK.sub x
  obtain ⟨-, hb, ho⟩ := C151_outputs K hκ hn (fun i => i) γ hγ y h b hs hΛ η hη hηΛ s p hp
  have hrow : ∀ z, Tendsto (fun k => ∑ j, K z j * p k (.inl j)) atTop (𝓝 (∑ j, K z j * h j)) := fun z => by
    have := (ho z).sub hb
    simpa [outDual] using this
  have hdet : IsUnit (Matrix.of K).det := by
    rw [isUnit_iff_ne_zero]
    intro h0
    obtain ⟨v, hv, hv0⟩ := Matrix.exists_mulVec_eq_zero_iff.2 h0
    have := hpd v hv
    have e : ∑ i, ∑ j, v i * v j * K i j = ∑ i, v i * (Matrix.of K).mulVec v i :=
      sum_congr rfl fun i _ => by simp only [Matrix.mulVec, dotProduct, Matrix.of_apply, mul_sum]; exact sum_congr rfl fun j _ => by ring
    rw [e, hv0] at this
    simp at this
  have inv : ∀ u : Fin n → ℝ, u i = ∑ z, (Matrix.of K)⁻¹ i z * ∑ j, K z j * u j := fun u => by
    have e : (Matrix.of K)⁻¹.mulVec ((Matrix.of K).mulVec u) = u := by rw [Matrix.mulVec_mulVec, Matrix.nonsing_inv_mul _ hdet, Matrix.one_mulVec]
    exact (congrFun e i).symm
  have : Tendsto (fun k => ∑ z, (Matrix.of K)⁻¹ i z * ∑ j, K z j * p k (.inl j)) atTop (𝓝 (∑ z, (Matrix.of K)⁻¹ i z * ∑ j, K z j * h j)) :=
    tendsto_finsetSum _ fun z _ => (hrow z).const_mul _
  rw [← inv h] at this
  refine this.congr fun k => (inv fun j => p k (.inl j)).symm

/-- An epoch leaves the parameters exactly if they are centred and their loss is that of the fit. -/
theorem C151_stationary {n : ℕ} (hn : 0 < n) (K : Fin n → Fin n → ℝ) (hK : PSDMat K) (γ : ℝ) (hγ : 0 < γ) (y h : Fin n → ℝ) (b : ℝ)
    (hs : DualSol K (1 / γ) y h b) (η : ℝ) (hη : η ≠ 0) (s : Train.Opt (Fin n ⊕ Unit)) :
    (∃ g, epoch K γ η y s = .ok ⟨s.p, g⟩) ↔ ∑ i, s.p (.inl i) = 0 ∧ lossAt K γ y s.p = lossAt K γ y (fitPar h b) := by
  have key : (∃ g, epoch K γ η y s = .ok ⟨s.p, g⟩) ↔ next K γ y η s.p = s.p := by
    rw [epoch_eq K γ y hK.1]
    constructor
    · rintro ⟨g, e⟩
      injection e with e
      exact congrArg Train.Opt.p e
    · intro e
      exact ⟨some (slope K γ y s.p), by rw [e]⟩
  rw [key]
  constructor
  · intro e
    have hc : ∑ i, s.p (.inl i) = 0 := by rw [← e]; exact cen_sum hn _
    refine ⟨hc, ?_⟩
    rw [next, cen_sub_smul, cen_self _ hc] at e
    have e0 : cen (slope K γ y s.p) = 0 := by
      have : η • cen (slope K γ y s.p) = 0 := by
        have := sub_eq_self.1 e
        exact this
      exact (smul_eq_zero.1 this).resolve_left hη
    have hx := expand K γ y hK.1 s.p ((-1 : ℝ) • (s.p - fitPar h b))
    have e' : s.p + (-1 : ℝ) • (s.p - fitPar h b) = fitPar h b := by rw [neg_one_smul]; abel
    have hg := gap K γ y hK.1 hγ hs s.p
    have i0 : ∑ q, slope K γ y s.p q * ((-1 : ℝ) • (s.p - fitPar h b)) q = 0 := by
      rw [Fintype.sum_sum_type]
      have a : ∀ i, slope K γ y s.p (.inl i) = 1 / (n : ℝ) * ∑ l, slope K γ y s.p (.inl l) := fun i => by
        have := congrFun e0 (.inl i)
        simp only [cen, Sum.elim_inl, Pi.zero_apply] at this
        linarith
      have c : slope K γ y s.p (.inr ()) = 0 := by simpa [cen] using congrFun e0 (.inr ())
      have d : ∑ i, ((-1 : ℝ) • (s.p - fitPar h b)) (.inl i) = 0 := by
        simp only [Pi.smul_apply, Pi.sub_apply, fitPar, Sum.elim_inl, smul_eq_mul, ← mul_sum, sum_sub_distrib, hc, hs.2, sub_zero, mul_zero]
      rw [sum_congr rfl fun i _ => by rw [a i], ← mul_sum, d]
      simp [c]
    rw [e', quad_smul, i0] at hx
    linarith
  · rintro ⟨hc, hl⟩
    have hle := slope_le K γ y hK hγ hn ((C151_curvature K hK γ hγ.le y).quad hK) hs s.p
    rw [hl, sub_self, mul_zero] at hle
    have h0 : slope K γ y s.p = 0 := by
      have := (sum_eq_zero_iff_of_nonneg (fun q _ => sq_nonneg _)).1 (le_antisymm hle (sum_nonneg fun q _ => sq_nonneg (slope K γ y s.p q)))
      funext q
      simpa using this q (mem_univ q)
    rw [next, h0, smul_zero, sub_zero, cen_self _ hc]

/-- With a centred kernel the distance of the bias to the mean of the targets is multiplied by `1 - 2 η gamma` in each epoch: the bias tends to that mean
exactly if it starts there or `η gamma < 1`, and if `1 < η gamma` the loss grows beyond all bounds from any other start. -/
theorem C151_bias_violated {n : ℕ} (hn : 0 < n) (K : Fin n → Fin n → ℝ) (hK : PSDMat K) (h1 : ∀ i, ∑ j, K i j = 0) (γ : ℝ) (hγ : 0 < γ) (y : Fin n → ℝ) (η : ℝ)
    (hη : 0 < η) (s : Train.Opt (Fin n ⊕ Unit)) (p : ℕ → Par n) (hp : After K γ η y s p) :
    (∀ k, p k (.inr ()) - 1 / (n : ℝ) * ∑ i, y i = (1 - 2 * η * γ) ^ k * (s.p (.inr ()) - 1 / (n : ℝ) * ∑ i, y i)) ∧
    (Tendsto (fun k => p k (.inr ())) atTop (𝓝 (1 / (n : ℝ) * ∑ i, y i)) ↔ s.p (.inr ()) = 1 / (n : ℝ) * ∑ i, y i ∨ η * γ < 1) ∧
    (1 < η * γ → s.p (.inr ()) ≠ 1 / (n : ℝ) * ∑ i, y i → Tendsto (fun k => lossAt K γ y (p k)) atTop atTop) := by
  have hn' : (n : ℝ) ≠ 0 := by exact_mod_cast hn.ne'
  have hn0 : (0 : ℝ) < n := by exact_mod_cast hn
  obtain ⟨m, hm⟩ : ∃ m, m = 1 / (n : ℝ) * ∑ i, y i := ⟨_, rfl⟩
  rw [← hm]
  have hm' : ∑ i, y i = n * m := by rw [hm]; field_simp
  have hcol : ∀ q : Par n, ∑ i, ∑ j, K i j * q (.inl j) = 0 := fun q => by
    rw [sum_comm]
    refine sum_eq_zero fun j _ => ?_
    rw [← sum_mul, sum_congr rfl fun i _ => hK.1 i j, h1, zero_mul]
  have hres : ∀ q : Par n, ∑ i, res K y q i = n * (q (.inr ()) - m) := fun q => by
    simp only [res, sum_sub_distrib, sum_add_distrib, hcol, hm', sum_const, card_univ, Fintype.card_fin, nsmul_eq_mul]
    ring
  have step : ∀ k, p (k + 1) = next K γ y η (p k) := fun k => by rw [hp.iter hK.1, hp.iter hK.1, Function.iterate_succ_apply']
  have geo : ∀ k, p k (.inr ()) - m = (1 - 2 * η * γ) ^ k * (s.p (.inr ()) - m) := by
    intro k
    induction k with
    | zero => rw [hp.iter hK.1 0]; simp
    | succ k ih =>
      rw [step, pow_succ, mul_right_comm, ← ih]
      simp only [next, cen, Sum.elim_inr, Pi.sub_apply, Pi.smul_apply, smul_eq_mul, slope, hres]
      field_simp
      ring
  refine ⟨geo, ?_, ?_⟩
  · have heq : (fun k => p k (.inr ())) = fun k => m + (1 - 2 * η * γ) ^ k * (s.p (.inr ()) - m) := funext fun k => by rw [← geo]; ring
    rw [heq]
    constructor
    · intro ht
      by_contra hcon
      push Not at hcon
      obtain ⟨c1, c2⟩ := hcon
      have ht' := ht.sub_const m
      simp only [add_sub_cancel_left, sub_self] at ht'
      have ha := ht'.abs
      rw [abs_zero] at ha
      have hge : ∀ k : ℕ, |s.p (.inr ()) - m| ≤ |(1 - 2 * η * γ) ^ k * (s.p (.inr ()) - m)| := fun k => by
        rw [abs_mul, abs_pow]
        have : 1 ≤ |1 - 2 * η * γ| := by rw [le_abs]; right; linarith
        exact le_mul_of_one_le_left (abs_nonneg _) (one_le_pow₀ this)
      have := ge_of_tendsto' ha hge
      exact c1 (sub_eq_zero.1 (abs_eq_zero.1 (le_antisymm this (abs_nonneg _))))
    · rintro (h0 | h0)
      · simp [h0]
      · have : |1 - 2 * η * γ| < 1 := by
          have := mul_pos hη hγ
          rw [abs_lt]; constructor <;> linarith
        have := ((tendsto_pow_atTop_nhds_zero_of_abs_lt_one this).mul_const (s.p (.inr ()) - m)).const_add m
        simpa using this
  · intro hbig hne
    have hlow : ∀ k, γ * (s.p (.inr ()) - m) ^ 2 * ((1 - 2 * η * γ) ^ 2) ^ k ≤ lossAt K γ y (p k) := by
      intro k
      rw [loss_form]
      have a := hK.2 fun i => p k (.inl i)
      have c := sq_sum_le_card_mul_sum_sq (s := univ) (f := res K y (p k))
      rw [hres, card_univ, Fintype.card_fin, geo] at c
      have c' : n * ((1 - 2 * η * γ) ^ k * (s.p (.inr ()) - m)) ^ 2 ≤ ∑ i, res K y (p k) i ^ 2 := by
        have : (n : ℝ) * (n * ((1 - 2 * η * γ) ^ k * (s.p (.inr ()) - m)) ^ 2) ≤ n * ∑ i, res K y (p k) i ^ 2 := by linarith
        exact le_of_mul_le_mul_left this hn0
      have c2 := mul_le_mul_of_nonneg_left c' (by positivity : 0 ≤ γ / n)
      have e : γ / n * (n * ((1 - 2 * η * γ) ^ k * (s.p (.inr ()) - m)) ^ 2) = γ * (s.p (.inr ()) - m) ^ 2 * ((1 - 2 * η * γ) ^ 2) ^ k := by
        rw [← pow_mul, mul_comm 2 k, pow_mul]; field_simp
      rw [e] at c2
      have a' := mul_nonneg (by positivity : (0 : ℝ) ≤ 1 / n) a
      linarith
    refine tendsto_atTop_mono hlow ?_
    refine Tendsto.const_mul_atTop ?_ (tendsto_pow_atTop_atTop_of_one_lt ?_)
    · have : 0 < (s.p (.inr ()) - m) ^ 2 := by have := sub_ne_zero.2 hne; positivity
      positivity
    · nlinarith

/-- The first epoch can increase the loss, at every rate: the start is not centred, the parameters after it are. -/
theorem C151_first_violated (η : ℝ) :
    let K : Fin 1 → Fin 1 → ℝ := fun _ _ => 1
    let y : Fin 1 → ℝ := fun _ => 1
    ∃ s : Train.Opt (Fin 1 ⊕ Unit), ∀ p, After K 2 η y s p → lossAt K 2 y (p 0) < lossAt K 2 y (p 1) := by
  intro K y
  refine ⟨⟨Sum.elim (fun _ => 1) fun _ => 0, none⟩, fun p hp => ?_⟩
  have hK : ∀ i j, K i j = K j i := fun _ _ => rfl
  rw [hp.iter hK 0, hp.iter hK 1]
  simp [loss_form, res, next, cen, slope, K, y]

/-- With a kernel that is one on the diagonal, every rate below `1 / (1 + gamma (n + 1))` does for every sample of `n` points. -/
theorem C151_normalised {X : Type} (κ : X → X → ℝ) (hκ : PSDOn Set.univ κ) (h1 : ∀ z, κ z z = 1) {n : ℕ} (hn : 0 < n) (x : Fin n → X) (γ : ℝ) (hγ : 0 < γ)
    (y h : Fin n → ℝ) (b : ℝ) (hs : DualSol (fun i j => κ (x i) (x j)) (1 / γ) y h b) (η : ℝ) (hη : 0 < η) (hη1 : η * (1 + γ * (n + 1)) < 1)
    (s : Train.Opt (Fin n ⊕ Unit)) (p : ℕ → Par n) (hp : After (fun i j => κ (x i) (x j)) γ η y s p) (z : X) :
    Tendsto (fun k => outDual (fun i => κ z (x i)) (fun i => p k (.inl i)) (p k (.inr ()))) atTop (𝓝 (outDual (fun i => κ z (x i)) h b)) := by
  have hK : PSDMat fun i j => κ (x i) (x j) := hκ _ x fun _ => Set.mem_univ _
  have hn' : (0 : ℝ) < n := by exact_mod_cast hn
  refine (C151_outputs κ hκ hn x γ hγ y h b hs (C151_curvature _ hK γ hγ.le y) η hη ?_ s p hp).2.2 z
  have hsq : ∀ i j, κ (x i) (x j) ^ 2 ≤ 1 := fun i j => by
    have := Stability.psd_cauchy hK (Pi.single i 1) (Pi.single j 1)
    simpa [Pi.single_apply, h1] using this
  have hsum : ∑ i, ∑ j, κ (x i) (x j) ^ 2 ≤ (n : ℝ) * n := by
    refine (sum_le_sum fun i _ => sum_le_sum fun j _ => hsq i j).trans ?_
    simp
  simp only [h1, sum_const, card_univ, Fintype.card_fin, nsmul_eq_mul, mul_one]
  have : 2 / (n : ℝ) * (n + γ * ∑ i, ∑ j, κ (x i) (x j) ^ 2 + γ * n) ≤ 2 * (1 + γ * (n + 1)) := by
    rw [div_mul_eq_mul_div, div_le_iff₀ hn']
    nlinarith [mul_le_mul_of_nonneg_left hsum hγ.le]
  have := mul_le_mul_of_nonneg_left this hη.le
  linarith

/-- A batch with all points, in any order, is the epoch above. -/
theorem C151_whole {n : ℕ} (K : Fin n → Fin n → ℝ) (γ η : ℝ) (y : Fin n → ℝ) (π : Fin n ≃ Fin n) (s : Train.Opt (Fin n ⊕ Unit)) :
    batch K γ η y ⟨n, π⟩ s.zeroGrad = epoch K γ η y s := by
  have hl : ∀ p, lossOn K γ y π p = lossAt K γ y p := by
    intro p
    simp only [lossOn, lossAt, lossDual, total, regDual, mse, outDual]
    have h1 : ∀ i, ∑ b, K i (π b) * p (.inl (π b)) = ∑ b, K i b * p (.inl b) := fun i => Equiv.sum_comp π fun b => K i b * p (.inl b)
    have h2 : ∑ a, ∑ b, p (.inl (π a)) * K (π a) (π b) * p (.inl (π b)) = ∑ a, ∑ b, p (.inl a) * K a b * p (.inl b) := by
      rw [← Equiv.sum_comp π fun a => ∑ b, p (.inl a) * K a b * p (.inl b)]
      exact sum_congr rfl fun a _ => Equiv.sum_comp π fun b => p (.inl (π a)) * K (π a) b * p (.inl b)
    simp only [Fin.sum_univ_one, Fintype.sum_unique, h1, h2]
    rw [Equiv.sum_comp π fun a => (∑ b, K a b * p (.inl b) + p (.inr ()) - y a) ^ 2]
  have hg : ∀ p q, gradOn K γ y p ⟨n, π⟩ q = grad K γ y p () q := fun p q => by simp only [gradOn, grad, hl]
  simp only [batch, epoch, Train.Opt.epoch, List.foldl_cons, List.foldl_nil, Train.Opt.batch, Train.Opt.backward, hg]

theorem grad_single {n : ℕ} (K : Fin n → Fin n → ℝ) (γ : ℝ) (y : Fin n → ℝ) (p : Par n) (i : Fin n) :
    gradOn K γ y p ⟨1, fun _ => i⟩ (.inr ()) = 2 * γ * (K i i * p (.inl i) + p (.inr ()) - y i) ∧
    gradOn K γ y p ⟨1, fun _ => i⟩ (.inl i) = K i i * (2 * p (.inl i)) + γ * (2 * (K i i * p (.inl i) + p (.inr ()) - y i) * K i i) ∧
    ∀ j, j ≠ i → gradOn K γ y p ⟨1, fun _ => i⟩ (.inl j) = 0 := by
  have hl : ∀ p : Par n, lossOn K γ y (fun _ : Fin 1 => i) p =
      K i i * p (.inl i) ^ 2 + γ * (K i i * p (.inl i) + p (.inr ()) - y i) ^ 2 := by
    intro p
    simp [lossOn, lossDual, total, regDual, mse, outDual]
    ring
  refine ⟨?_, ?_, fun j hj => ?_⟩
  · simp only [gradOn, hl, Function.update_self, Function.update_of_ne (Sum.inl_ne_inr : (Sum.inl i : Fin n ⊕ Unit) ≠ .inr ())]
    have : HasDerivAt (fun t : ℝ => K i i * p (.inl i) ^ 2 + γ * (K i i * p (.inl i) + t - y i) ^ 2)
        (0 + γ * (2 * (K i i * p (.inl i) + p (.inr ()) - y i) ^ (2 - 1) * 1)) (p (.inr ())) := by
      have d : HasDerivAt (fun t : ℝ => K i i * p (.inl i) + t - y i) 1 (p (.inr ())) := ((hasDerivAt_id _).const_add _).sub_const _
      exact (hasDerivAt_const _ _).add ((d.pow 2).const_mul _)
    rw [this.deriv]; simp; ring
  · simp only [gradOn, hl, Function.update_self, Function.update_of_ne (Sum.inr_ne_inl : (Sum.inr () : Fin n ⊕ Unit) ≠ .inl i)]
    have : HasDerivAt (fun t : ℝ => K i i * t ^ 2 + γ * (K i i * t + p (.inr ()) - y i) ^ 2)
        (K i i * (2 * p (.inl i) ^ (2 - 1) * 1) + γ * (2 * (K i i * p (.inl i) + p (.inr ()) - y i) ^ (2 - 1) * (K i i * 1))) (p (.inl i)) := by
      have d0 : HasDerivAt (fun t : ℝ => t) 1 (p (.inl i)) := hasDerivAt_id _
      have d : HasDerivAt (fun t : ℝ => K i i * t + p (.inr ()) - y i) (K i i * 1) (p (.inl i)) := ((d0.const_mul _).add_const _).sub_const _
      exact ((d0.pow 2).const_mul _).add ((d.pow 2).const_mul _)
    rw [this.deriv]; simp
  · have hne : (Sum.inl i : Fin n ⊕ Unit) ≠ .inl j := fun e => hj (Sum.inl.inj e).symm
    simp only [gradOn, hl, Function.update_of_ne hne, Function.update_of_ne (Sum.inr_ne_inl : (Sum.inr () : Fin n ⊕ Unit) ≠ .inl j)]
    exact deriv_const _ _

/-- Training in batches does not lead to the fit: parameters which no batch of a single point changes exist only if all targets are equal. -/
theorem C151_batches_violated {n : ℕ} (hn : 2 ≤ n) (K : Fin n → Fin n → ℝ) (γ : ℝ) (hγ : 0 < γ) (η : ℝ) (hη : η ≠ 0) (y : Fin n → ℝ)
    (s : Train.Opt (Fin n ⊕ Unit)) :
    (∀ i, ∃ g, batch K γ η y ⟨1, fun _ => i⟩ s.zeroGrad = .ok ⟨s.p, g⟩) ↔
      ∑ i, s.p (.inl i) = 0 ∧ ∀ i, K i i * s.p (.inl i) = 0 ∧ y i = s.p (.inr ()) := by
  have hn' : (n : ℝ) ≠ 0 := by exact_mod_cast (by omega : n ≠ 0)
  have hb : ∀ i, batch K γ η y ⟨1, fun _ => i⟩ s.zeroGrad =
      .ok ⟨cen (s.p - η • gradOn K γ y s.p ⟨1, fun _ => i⟩), some (gradOn K γ y s.p ⟨1, fun _ => i⟩)⟩ := by
    intro i
    rw [batch, afterStep, center, dif_pos rfl]
    simp only [Train.Opt.batch, Train.Opt.backward, Train.Opt.zeroGrad, Train.Opt.descend, Option.getD_none, Pi.zero_apply, zero_add]
    rfl
  constructor
  · intro hs
    have key : ∀ i, cen (s.p - η • gradOn K γ y s.p ⟨1, fun _ => i⟩) = s.p := fun i => by
      obtain ⟨g, e⟩ := hs i
      rw [hb] at e
      injection e with e
      exact congrArg Train.Opt.p e
    refine ⟨?_, fun i => ?_⟩
    · rw [← key ⟨0, by omega⟩]; exact cen_sum (by omega) _
    obtain ⟨db, dh, dj⟩ := grad_single K γ y s.p i
    have e := key i
    have eb := congrFun e (.inr ())
    simp only [cen, Sum.elim_inr, Pi.sub_apply, Pi.smul_apply, smul_eq_mul, db] at eb
    have rb : K i i * s.p (.inl i) + s.p (.inr ()) - y i = 0 := by
      have : η * (2 * γ * (K i i * s.p (.inl i) + s.p (.inr ()) - y i)) = 0 := by linarith
      simpa [hη, hγ.ne'] using this
    obtain ⟨j, hj⟩ : ∃ j : Fin n, j ≠ i := by
      have : Nontrivial (Fin n) := Fin.nontrivial_iff_two_le.2 hn
      exact exists_ne i
    have ej := congrFun e (.inl j)
    have ei := congrFun e (.inl i)
    simp only [cen, Sum.elim_inl] at ej ei
    simp only [Pi.sub_apply (i := Sum.inl j), Pi.smul_apply (i := Sum.inl j), smul_eq_mul, dj j hj, mul_zero, sub_zero] at ej
    have rh : gradOn K γ y s.p ⟨1, fun _ => i⟩ (.inl i) = 0 := by
      have e1 : (s.p - η • gradOn K γ y s.p ⟨1, fun _ => i⟩) (.inl i) = s.p (.inl i) - η * gradOn K γ y s.p ⟨1, fun _ => i⟩ (.inl i) := rfl
      have e2 : (s.p - η • gradOn K γ y s.p ⟨1, fun _ => i⟩) (.inl j) = s.p (.inl j) - η * gradOn K γ y s.p ⟨1, fun _ => i⟩ (.inl j) := rfl
      rw [e1] at ei
      have : η * gradOn K γ y s.p ⟨1, fun _ => i⟩ (.inl i) = 0 := by linarith
      exact (mul_eq_zero.1 this).resolve_left hη
    rw [dh, rb] at rh
    have : K i i * s.p (.inl i) = 0 := by linarith
    exact ⟨this, by linarith⟩
  · rintro ⟨hc, hi⟩ i
    refine ⟨some (gradOn K γ y s.p ⟨1, fun _ => i⟩), (hb i).trans ?_⟩
    have h0 : gradOn K γ y s.p ⟨1, fun _ => i⟩ = 0 := by
      obtain ⟨db, dh, dj⟩ := grad_single K γ y s.p i
      obtain ⟨k0, k1⟩ := hi i
      funext q
      rcases q with j | u
      · by_cases hj : j = i
        · subst hj
          rw [dh, k0, k1]
          have : K j j * (2 * s.p (.inl j)) = 2 * (K j j * s.p (.inl j)) := by ring
          rw [this, k0]; simp
        · exact dj j hj
      · rw [db, k0, k1]; simp
    rw [h0, smul_zero, sub_zero, cen_self _ hc]

/-! ## Concrete cases -/

/-- Two opposite points with the linear kernel. -/
def opposite : Fin 2 → Fin 2 → ℝ := fun i j => if i = j then 1 else -1

theorem opposite_psd : PSDMat opposite := by
  refine ⟨fun i j => by simp [opposite, eq_comm], fun c => ?_⟩
  have : ∑ i, ∑ j, c i * c j * opposite i j = (c 0 - c 1) ^ 2 := by simp [Fin.sum_univ_two, opposite]; ring
  rw [this]; positivity

theorem opposite_fit : DualSol opposite (1 / 1) (fun i => if i = 0 then -1 else 1) (fun i => if i = 0 then -1 / 3 else 1 / 3) 0 := by
  refine ⟨fun i => ?_, by simp [Fin.sum_univ_two]; norm_num⟩
  fin_cases i <;> simp [Fin.sum_univ_two, opposite] <;> norm_num

theorem opposite_curved : Curved opposite 1 (fun i => if i = 0 then -1 else 1) 8 := by
  have := C151_curvature opposite opposite_psd 1 zero_le_one fun i => if i = 0 then -1 else 1
  have e : (2 / ((2 : ℕ) : ℝ) * (∑ i, opposite i i + 1 * ∑ i, ∑ j, opposite i j ^ 2 + 1 * ((2 : ℕ) : ℝ))) = 8 := by
    simp [Fin.sum_univ_two, opposite]; norm_num
  rwa [e] at this

example (s : Train.Opt (Fin 2 ⊕ Unit)) : ∃ p, After opposite 1 (1 / 5) (fun i => if i = 0 then -1 else 1) s p ∧
    (∀ k, 0 < k → lossAt opposite 1 (fun i => if i = 0 then -1 else 1) (p k) -
      lossAt opposite 1 (fun i => if i = 0 then -1 else 1) (fitPar (fun i => if i = 0 then -1 / 3 else 1 / 3) 0) ≤
        (∑ q, (s.p q - fitPar (fun i => if i = 0 then -1 / 3 else 1 / 3) 0 q) ^ 2) / (2 * (1 / 5) * (2 - 1 / 5 * 8) * k)) ∧
    (∀ k, lossAt opposite 1 (fun i => if i = 0 then -1 else 1) (p (k + 2)) ≤ lossAt opposite 1 (fun i => if i = 0 then -1 else 1) (p (k + 1))) ∧
    Tendsto (fun k => p k (.inr ())) atTop (𝓝 0) := by
  obtain ⟨⟨p, hp⟩, -⟩ := C151_runs two_pos opposite opposite_psd 1 (1 / 5) (fun i => if i = 0 then -1 else 1) s
  refine ⟨p, hp, (C151_rate two_pos _ opposite_psd 1 one_pos _ _ _ opposite_fit opposite_curved (1 / 5) (by norm_num) (by norm_num) s p hp).2, fun k =>
    (C151_decreases two_pos _ opposite_psd 1 one_pos _ _ _ opposite_fit opposite_curved (1 / 5) (by norm_num) (by norm_num) s p hp k).2, ?_⟩
  exact (C151_outputs opposite (fun _ _ x _ => opposite_psd.sub x) two_pos (fun i => i) 1 one_pos _ _ _ opposite_fit opposite_curved (1 / 5) (by norm_num)
    (by norm_num) s p hp).2.1

example : ∃ s : Train.Opt (Fin 2 ⊕ Unit), ∃ g, epoch opposite 1 (1 / 5) (fun i => if i = 0 then -1 else 1) s = .ok ⟨s.p, g⟩ :=
  ⟨⟨fitPar (fun i => if i = 0 then -1 / 3 else 1 / 3) 0, none⟩,
    (C151_stationary two_pos _ opposite_psd 1 one_pos _ _ _ opposite_fit (1 / 5) (by norm_num) _).2 ⟨by simpa [fitPar] using opposite_fit.2, rfl⟩⟩

example (s : Train.Opt (Fin 2 ⊕ Unit)) (h0 : s.p (.inr ()) = 1) : ∃ p, After opposite 3 (1 / 2) (fun i => if i = 0 then -1 else 1) s p ∧
    Tendsto (fun k => lossAt opposite 3 (fun i => if i = 0 then -1 else 1) (p k)) atTop atTop := by
  obtain ⟨⟨p, hp⟩, -⟩ := C151_runs two_pos opposite opposite_psd 3 (1 / 2) (fun i => if i = 0 then -1 else 1) s
  refine ⟨p, hp, (C151_bias_violated two_pos _ opposite_psd (fun i => ?_) 3 (by norm_num) _ (1 / 2) (by norm_num) s p hp).2.2 (by norm_num) ?_⟩
  · fin_cases i <;> simp [Fin.sum_univ_two, opposite]
  · rw [h0]; simp [Fin.sum_univ_two]

/-- Two points a kernel takes as unrelated. -/
def unrelated : Fin 2 → Fin 2 → ℝ := fun i j => if i = j then 1 else 0

theorem unrelated_psd : PSDMat unrelated := by
  refine ⟨fun i j => by simp [unrelated, eq_comm], fun c => ?_⟩
  have : ∑ i, ∑ j, c i * c j * unrelated i j = c 0 ^ 2 + c 1 ^ 2 := by simp [Fin.sum_univ_two, unrelated]; ring
  rw [this]; positivity

theorem unrelated_fit : DualSol unrelated (1 / 1) (fun i => if i = 0 then -1 else 1) (fun i => if i = 0 then -1 / 2 else 1 / 2) 0 := by
  refine ⟨fun i => ?_, by simp [Fin.sum_univ_two]; norm_num⟩
  fin_cases i <;> simp [Fin.sum_univ_two, unrelated]
  norm_num

example (s : Train.Opt (Fin 2 ⊕ Unit)) : ∃ p, After unrelated 1 (1 / 5) (fun i => if i = 0 then -1 else 1) s p ∧
    Tendsto (fun k => p k (.inl 1)) atTop (𝓝 (1 / 2)) ∧ Tendsto (fun k => outDual (unrelated 0) (fun i => p k (.inl i)) (p k (.inr ()))) atTop (𝓝 (-1 / 2)) := by
  obtain ⟨⟨p, hp⟩, -⟩ := C151_runs two_pos unrelated unrelated_psd 1 (1 / 5) (fun i => if i = 0 then -1 else 1) s
  refine ⟨p, hp, ?_, ?_⟩
  · have := C151_parameters two_pos unrelated unrelated_psd (fun c hc => ?_) 1 one_pos _ _ _ unrelated_fit
      (C151_curvature unrelated unrelated_psd 1 zero_le_one _) (1 / 5) (by norm_num) (by simp [Fin.sum_univ_two, unrelated]; norm_num) s p hp 1
    · simpa using this
    · have e : ∑ i, ∑ j, c i * c j * unrelated i j = c 0 ^ 2 + c 1 ^ 2 := by simp [Fin.sum_univ_two, unrelated]; ring
      rw [e]
      by_contra h
      have h0 : c 0 = 0 := by nlinarith [sq_nonneg (c 0), sq_nonneg (c 1)]
      have h1 : c 1 = 0 := by nlinarith [sq_nonneg (c 0), sq_nonneg (c 1)]
      exact hc (funext fun i => by fin_cases i <;> simp [h0, h1])
  · have := C151_normalised unrelated (fun _ _ x _ => unrelated_psd.sub x) (fun z => by simp [unrelated]) two_pos (fun i => i) 1 one_pos _ _ _ unrelated_fit
      (1 / 5) (by norm_num) (by norm_num) s p hp 0
    simpa [outDual, Fin.sum_univ_two, unrelated] using this

example : ¬ ∃ s : Train.Opt (Fin 2 ⊕ Unit), ∀ i, ∃ g,
    batch opposite 1 (1 / 5) (fun i => if i = 0 then -1 else 1) ⟨1, fun _ => i⟩ s.zeroGrad = .ok ⟨s.p, g⟩ := by
  rintro ⟨s, hs⟩
  have h := ((C151_batches_violated le_rfl opposite 1 one_pos (1 / 5) (by norm_num) _ s).1 hs).2
  have h0 := (h 0).2
  have h1 := (h 1).2
  norm_num at h0 h1
  linarith

end LSTrain
end Kerch
