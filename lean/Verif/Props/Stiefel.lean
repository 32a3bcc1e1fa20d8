import Verif.Lemmas.Stiefel
import Mathlib.LinearAlgebra.Matrix.Block
import Mathlib.Tactic.FieldSimp
import Mathlib.Tactic.FinCases
import Mathlib.Analysis.InnerProductSpace.GramSchmidtOrtho
import Mathlib.Data.Sum.Interval
import Mathlib.Analysis.InnerProductSpace.PiL2
/-!
# Stiefel optimisers: C61, C62, C77

Specification: `IsCayley` (the implicit midpoint equation), orthonormality `P * Pᵀ = 1`, the contract `IsQR` of a reduced QR factorisation, the inner product `ip` of
matrices and `DiffAt` (first-order expansion of a loss).
-/
set_option linter.unusedSectionVars false
set_option linter.unusedSimpArgs false
namespace Kerch
open Matrix Stiefel

variable {p n : Type} [Fintype p] [Fintype n]

/-! ## C61: orthonormality -/

/-- The directions of SGDG and of AdamG are skew-symmetric, for all points, gradients, buffers and scalings. -/
theorem C61_skew (U : Matrix p n ℝ) (V : Matrix n p ℝ) (c : ℝ) : (c • skew U V)ᵀ = -(c • skew U V) := by
  rw [Matrix.transpose_smul, skew_transpose, smul_neg]

/-- For a skew direction the equation of the loop has exactly one solution, for all step sizes, and this solution has the Gram matrix of the start. -/
theorem C61_cayley (X : Matrix n p ℝ) (W : Matrix n n ℝ) (hW : Wᵀ = -W) (t : ℝ) : (∃! Y, IsCayley X W t Y) ∧ ∀ Y, IsCayley X W t Y → Yᵀ * Y = Xᵀ * X :=
  ⟨cayley_exists_unique X W hW t, fun Y h => cayley_gram X W hW t Y h⟩

/-- Any history of exact Cayley steps keeps the rows orthonormal. -/
theorem C61_history [DecidableEq p] (P : ℕ → Matrix p n ℝ) (V : ℕ → Matrix n p ℝ) (t : ℕ → ℝ) (h0 : P 0 * (P 0)ᵀ = 1)
    (hs : ∀ k, IsCayley (P k)ᵀ (skew (P k) (V k)) (t k) (P (k + 1))ᵀ) (k : ℕ) : P k * (P k)ᵀ = 1 := by
  induction k with
  | zero => exact h0
  | succ k ih =>
    have := cayley_gram _ _ (skew_transpose (P k) (V k)) _ _ (hs k)
    rw [Matrix.transpose_transpose, Matrix.transpose_transpose] at this
    rw [this, ih]

/-- The loop converges to the Cayley point, the distance being halved at each iteration, for the step sizes that both optimisers use. -/
theorem C61_loop [Nonempty n] (X : Matrix n p ℝ) (W : Matrix n n ℝ) (lr : ℝ) (hlr : 0 ≤ lr) (t : ℝ) (ht : t = stepSize W lr ∨ t = -stepSize W lr) (Z : Matrix n p ℝ)
    (hZ : IsCayley X W t Z) (Y : Matrix n p ℝ) (k : ℕ) (j : p) : ∑ i, |cayleyIter X W t k Y i j - Z i j| ≤ (1 / 2) ^ k * ∑ i, |Y i j - Z i j| := by
  obtain ⟨h1, _, h3⟩ := stepSize_ok W lr hlr
  have habs : |t| = stepSize W lr := by
    rcases ht with h | h
    · rw [h, abs_of_nonneg h1]
    · rw [h, abs_neg, abs_of_nonneg h1]
  have h4 := iter_error X W t (normOne W) (normOne_col W) (normOne_nonneg W) Z hZ k Y j
  refine le_trans h4 (mul_le_mul_of_nonneg_right ?_ (colAbs_nonneg _ _))
  apply pow_le_pow_left₀ (div_nonneg (mul_nonneg (abs_nonneg _) (normOne_nonneg W)) (by norm_num))
  rw [habs]
  linarith

/-- Contract of a reduced QR factorisation `A = q r`. -/
structure IsQR [LinearOrder p] (A q : Matrix n p ℝ) (r : Matrix p p ℝ) : Prop where
  mul : A = q * r
  orth : qᵀ * q = 1
  upper : r.BlockTriangular id

theorem sign_sq {x : ℝ} (h : x ≠ 0) : Real.sign x * Real.sign x = 1 := by
  rcases Real.sign_apply_eq_of_ne_zero x h with h | h <;> rw [h] <;> norm_num

/-- The retraction gives orthonormal rows if no diagonal element of `r` vanishes. -/
theorem C61_qr_partial [LinearOrder p] (qr : Matrix n p ℝ → Matrix n p ℝ × Matrix p p ℝ) (U : Matrix p n ℝ) (h : IsQR Uᵀ (qr Uᵀ).1 (qr Uᵀ).2)
    (hd : ∀ i, (qr Uᵀ).2 i i ≠ 0) : qrRetraction qr U * (qrRetraction qr U)ᵀ = 1 := by
  ext a b
  have h1 := congrFun (congrFun h.orth a) b
  rw [Matrix.mul_apply] at h1 ⊢
  simp only [Matrix.transpose_apply] at h1 ⊢
  have h2 : ∑ j, qrRetraction qr U a j * qrRetraction qr U b j = Real.sign ((qr Uᵀ).2 a a) * Real.sign ((qr Uᵀ).2 b b) * (1 : Matrix p p ℝ) a b := by
    rw [← h1, Finset.mul_sum]
    apply Finset.sum_congr rfl
    intro j _
    show (qr Uᵀ).1 j a * Real.sign ((qr Uᵀ).2 a a) * ((qr Uᵀ).1 j b * Real.sign ((qr Uᵀ).2 b b)) = _
    ring
  rw [h2]
  by_cases hab : a = b
  · subst hab
    rw [sign_sq (hd a), one_mul]
  · rw [Matrix.one_apply_ne hab, mul_zero]

/-- The code violates it when the rows are linearly dependent: no factorisation gives orthonormal rows, a row is set to zero. -/
theorem C61_qr_violated [LinearOrder p] (qr : Matrix n p ℝ → Matrix n p ℝ × Matrix p p ℝ) (U : Matrix p n ℝ) (h : IsQR Uᵀ (qr Uᵀ).1 (qr Uᵀ).2)
    (hU : (U * Uᵀ).det = 0) : ∃ a, (∀ j, qrRetraction qr U a j = 0) ∧ qrRetraction qr U * (qrRetraction qr U)ᵀ ≠ 1 := by
  have h1 : U * Uᵀ = (qr Uᵀ).2ᵀ * (qr Uᵀ).2 := by
    have h2 : U = (qr Uᵀ).2ᵀ * (qr Uᵀ).1ᵀ := by rw [← Matrix.transpose_mul, ← h.mul, Matrix.transpose_transpose]
    have h3 : U * Uᵀ = ((qr Uᵀ).2ᵀ * (qr Uᵀ).1ᵀ) * ((qr Uᵀ).1 * (qr Uᵀ).2) := by rw [← h2, ← h.mul]
    rw [h3, Matrix.mul_assoc, ← Matrix.mul_assoc _ (qr Uᵀ).1, h.orth, Matrix.one_mul]
  rw [h1, Matrix.det_mul, Matrix.det_transpose, mul_self_eq_zero, Matrix.det_of_upperTriangular h.upper, Finset.prod_eq_zero_iff] at hU
  obtain ⟨a, _, ha⟩ := hU
  have hz : ∀ j, qrRetraction qr U a j = 0 := by
    intro j
    show (qr Uᵀ).1 j a * Real.sign ((qr Uᵀ).2 a a) = 0
    rw [ha, Real.sign_zero, mul_zero]
  refine ⟨a, hz, fun hc => ?_⟩
  have := congrFun (congrFun hc a) a
  rw [Matrix.mul_apply, Matrix.one_apply_eq] at this
  simp [hz] at this

theorem qr_scaled [LinearOrder p] (qr : Matrix n p ℝ → Matrix n p ℝ × Matrix p p ℝ) (U : Matrix p n ℝ) (c : ℝ) (hc : 0 < c) (hU : U * Uᵀ = (c ^ 2) • (1 : Matrix p p ℝ))
    (h : IsQR Uᵀ (qr Uᵀ).1 (qr Uᵀ).2) : qrRetraction qr U = (1 / c) • U := by
  obtain ⟨q, hq⟩ : ∃ q, q = (qr Uᵀ).1 := ⟨_, rfl⟩
  obtain ⟨r, hr⟩ : ∃ r, r = (qr Uᵀ).2 := ⟨_, rfl⟩
  rw [← hq, ← hr] at h
  have hUq : U = rᵀ * qᵀ := by rw [← Matrix.transpose_mul, ← h.mul, Matrix.transpose_transpose]
  have h1 : rᵀ * r = (c ^ 2) • (1 : Matrix p p ℝ) := by
    rw [← hU]
    have h3 : U * Uᵀ = (rᵀ * qᵀ) * (q * r) := by rw [← hUq, ← h.mul]
    rw [h3, Matrix.mul_assoc, ← Matrix.mul_assoc _ q, h.orth, Matrix.one_mul]
  have hc2 : (c ^ 2) ≠ 0 := pow_ne_zero _ hc.ne'
  have hinv : ((1 / c ^ 2) • rᵀ) * r = 1 := by
    rw [Matrix.smul_mul, h1, smul_smul, one_div, inv_mul_cancel₀ hc2, one_smul]
  have hi : r⁻¹ = (1 / c ^ 2) • rᵀ := Matrix.inv_eq_left_inv hinv
  have : Invertible r := (Matrix.isUnit_iff_isUnit_det r).mpr (Matrix.isUnit_det_of_left_inverse hinv) |>.invertible
  have hup := Matrix.blockTriangular_inv_of_blockTriangular h.upper
  have hdiag : ∀ i j, i ≠ j → r i j = 0 := by
    intro i j hij
    rcases lt_or_gt_of_ne hij with hlt | hgt
    · have := hup (show id i < id j from hlt)
      rw [hi, Matrix.smul_apply, Matrix.transpose_apply, smul_eq_mul] at this
      rcases mul_eq_zero.mp this with h0 | h0
      · exact absurd h0 (by positivity)
      · exact h0
    · exact h.upper (show id j < id i from hgt)
  have hsq : ∀ i, r i i ^ 2 = c ^ 2 := by
    intro i
    have := congrFun (congrFun h1 i) i
    rw [Matrix.mul_apply, Finset.sum_eq_single i] at this
    · simpa [pow_two] using this
    · intro k _ hk
      rw [hdiag k i hk, mul_zero]
    · intro hn
      exact absurd (Finset.mem_univ i) hn
  have hsign : ∀ i, Real.sign (r i i) = 1 / c * r i i := by
    intro i
    rcases sq_eq_sq_iff_eq_or_eq_neg.mp (hsq i) with h2 | h2
    · rw [h2, Real.sign_of_pos hc, one_div, inv_mul_cancel₀ hc.ne']
    · rw [h2, Real.sign_of_neg (by linarith), one_div, mul_neg, inv_mul_cancel₀ hc.ne']
  ext i j
  show (qr Uᵀ).1 j i * Real.sign ((qr Uᵀ).2 i i) = _
  rw [← hq, ← hr, hsign, Matrix.smul_apply, smul_eq_mul]
  have hUij : U i j = q j i * r i i := by
    have := congrFun (congrFun h.mul j) i
    rw [Matrix.transpose_apply, Matrix.mul_apply, Finset.sum_eq_single i] at this
    · exact this
    · intro k _ hk
      rw [hdiag k i hk, mul_zero]
    · intro hn
      exact absurd (Finset.mem_univ i) hn
  rw [hUij]
  ring

/-- On a parameter with orthonormal rows the retraction undoes the damping of the normalisation: the step starts at the parameter itself. -/
theorem C61_retracted [LinearOrder p] (qr : Matrix n p ℝ → Matrix n p ℝ × Matrix p p ℝ) (hqr : ∀ A : Matrix n p ℝ, IsQR A (qr A).1 (qr A).2) (P : Matrix p n ℝ)
    (h : P * Pᵀ = 1) : start qr P true = P := by
  have he := eps_pos
  show qrRetraction qr (unit P) = P
  have hg := unit_gram P h
  rw [Matrix.transpose_transpose] at hg
  rw [qr_scaled qr (unit P) (1 / (1 + eps)) (by positivity) hg (hqr _), unit_orthonormal P h, smul_smul]
  have : (1 / (1 / (1 + eps)) * (1 / (1 + eps)) : ℝ) = 1 := by
    field_simp
  rw [this, one_smul]

/-- Scale of the point from which a step starts. -/
noncomputable def startScale (retract : Bool) : ℝ := if retract then 1 else 1 / (1 + eps)

theorem startScale_ok (b : Bool) : 0 < startScale b ∧ startScale b ^ 2 ≤ 1 := by
  have := eps_pos
  unfold startScale
  cases b with
  | true => simp
  | false =>
    simp only [Bool.false_eq_true, if_false]
    exact ⟨by positivity, scale_sq⟩

theorem start_eq [LinearOrder p] (qr : Matrix n p ℝ → Matrix n p ℝ × Matrix p p ℝ) (hqr : ∀ A : Matrix n p ℝ, IsQR A (qr A).1 (qr A).2) (P : Matrix p n ℝ)
    (h : P * Pᵀ = 1) (b : Bool) : start qr P b = startScale b • P := by
  cases b with
  | true => rw [C61_retracted qr hqr P h]; simp [startScale]
  | false => exact unit_orthonormal P h

theorem start_gram [LinearOrder p] (qr : Matrix n p ℝ → Matrix n p ℝ × Matrix p p ℝ) (hqr : ∀ A : Matrix n p ℝ, IsQR A (qr A).1 (qr A).2) (P : Matrix p n ℝ)
    (h : P * Pᵀ = 1) (b : Bool) : start qr P b * (start qr P b)ᵀ = (startScale b ^ 2) • (1 : Matrix p p ℝ) := by
  rw [start_eq qr hqr P h b, Matrix.transpose_smul, Matrix.smul_mul, Matrix.mul_smul, h, smul_smul, pow_two]

/-- Bound of the loop of 20 iterations. -/
noncomputable def loopError (n : Type) [Fintype n] (lr : ℝ) (V : Matrix n p ℝ) (a : p) : ℝ := (1 / 2) ^ 20 * (lr * ∑ i, |V i a| + Fintype.card n)

/-- One actual step of SGDG on a parameter with orthonormal rows: the new Gram matrix is the identity up to the damping `1/(1+eps)²` of the normalisation and to
the error of 20 iterations, for all gradients, buffers, momenta and non-negative learning rates. -/
theorem C61_sgd [LinearOrder p] [Nonempty n] (qr : Matrix n p ℝ → Matrix n p ℝ × Matrix p p ℝ) (hqr : ∀ A : Matrix n p ℝ, IsQR A (qr A).1 (qr A).2)
    (P : Matrix p n ℝ) (h : P * Pᵀ = 1) (momentum : ℝ) (B : Matrix n p ℝ) (e : Event p n) (hlr : 0 ≤ e.lr) (a b : p) :
    |((sgdStep qr momentum (P, B) e).1 * (sgdStep qr momentum (P, B) e).1ᵀ) a b - startScale e.retract ^ 2 * (1 : Matrix p p ℝ) a b| ≤
      loopError n e.lr (momentum • B - e.gradᵀ) a + loopError n e.lr (momentum • B - e.gradᵀ) b +
      loopError n e.lr (momentum • B - e.gradᵀ) a * loopError n e.lr (momentum • B - e.gradᵀ) b := by
  obtain ⟨V, hV⟩ : ∃ V, V = momentum • B - e.gradᵀ := ⟨_, rfl⟩
  obtain ⟨U, hU⟩ : ∃ U, U = start qr P e.retract := ⟨_, rfl⟩
  have hst : (sgdStep qr momentum (P, B) e).1 = cayleyLoop Uᵀ (skew U V) V (stepSize (skew U V) e.lr) := by rw [hU, hV]; rfl
  rw [hst, ← hV]
  obtain ⟨h1, h2, h3⟩ := stepSize_ok (skew U V) e.lr hlr
  have hG : Uᵀᵀ * Uᵀ = (startScale e.retract ^ 2) • (1 : Matrix p p ℝ) := by
    rw [Matrix.transpose_transpose, hU]
    exact start_gram qr hqr P h e.retract
  have key := loop_gram Uᵀ (startScale e.retract) (startScale_ok _).2 hG (skew U V) (skew_transpose U V) V (stepSize (skew U V) e.lr)
    (by rw [abs_of_nonneg h1]; exact h3) a b
  rw [abs_of_nonneg h1] at key
  have mono : ∀ c, (1 / 2 : ℝ) ^ 20 * (stepSize (skew U V) e.lr * colAbs V c + Fintype.card n) ≤ loopError n e.lr V c := by
    intro c
    unfold loopError
    apply mul_le_mul_of_nonneg_left _ (by positivity)
    have : stepSize (skew U V) e.lr * colAbs V c ≤ e.lr * colAbs V c := mul_le_mul_of_nonneg_right h2 (colAbs_nonneg _ _)
    unfold colAbs at this
    unfold colAbs
    linarith
  have pos : ∀ c, 0 ≤ (1 / 2 : ℝ) ^ 20 * (stepSize (skew U V) e.lr * colAbs V c + Fintype.card n) := by
    intro c
    have := mul_nonneg h1 (colAbs_nonneg V c)
    positivity
  have := mul_le_mul (mono a) (mono b) (pos b) (le_trans (pos a) (mono a))
  have := mono a
  have := mono b
  linarith

/-- The same for AdamG, for all moments and powers. -/
theorem C61_adam [LinearOrder p] [Nonempty n] (qr : Matrix n p ℝ → Matrix n p ℝ × Matrix p p ℝ) (hqr : ∀ A : Matrix n p ℝ, IsQR A (qr A).1 (qr A).2)
    (s : Adam p n) (h : s.param * s.paramᵀ = 1) (beta1 beta2 epsilon : ℝ) (e : Event p n) (hlr : 0 ≤ e.lr) (a b : p) :
    |((adamStep qr beta1 beta2 epsilon s e).param * (adamStep qr beta1 beta2 epsilon s e).paramᵀ) a b - startScale e.retract ^ 2 * (1 : Matrix p p ℝ) a b| ≤
      loopError n e.lr (beta1 • s.m + (1 - beta1) • e.gradᵀ) a + loopError n e.lr (beta1 • s.m + (1 - beta1) • e.gradᵀ) b +
      loopError n e.lr (beta1 • s.m + (1 - beta1) • e.gradᵀ) a * loopError n e.lr (beta1 • s.m + (1 - beta1) • e.gradᵀ) b := by
  obtain ⟨V, hV⟩ : ∃ V, V = beta1 • s.m + (1 - beta1) • e.gradᵀ := ⟨_, rfl⟩
  obtain ⟨U, hU⟩ : ∃ U, U = start qr s.param e.retract := ⟨_, rfl⟩
  obtain ⟨k, W, hW, hst⟩ : ∃ (k : ℝ) (W : Matrix n n ℝ), Wᵀ = -W ∧ (adamStep qr beta1 beta2 epsilon s e).param = cayleyLoop Uᵀ W V (-stepSize W e.lr) := by
    refine ⟨0, _, ?_, by rw [hU, hV]; rfl⟩
    exact C61_skew _ _ _
  rw [hst, ← hV]
  obtain ⟨h1, h2, h3⟩ := stepSize_ok W e.lr hlr
  have hG : Uᵀᵀ * Uᵀ = (startScale e.retract ^ 2) • (1 : Matrix p p ℝ) := by
    rw [Matrix.transpose_transpose, hU]
    exact start_gram qr hqr s.param h e.retract
  have key := loop_gram Uᵀ (startScale e.retract) (startScale_ok _).2 hG W hW V (-stepSize W e.lr)
    (by rw [abs_neg, abs_of_nonneg h1]; exact h3) a b
  rw [abs_neg, abs_of_nonneg h1] at key
  have mono : ∀ c, (1 / 2 : ℝ) ^ 20 * (stepSize W e.lr * colAbs V c + Fintype.card n) ≤ loopError n e.lr V c := by
    intro c
    unfold loopError
    apply mul_le_mul_of_nonneg_left _ (by positivity)
    have : stepSize W e.lr * colAbs V c ≤ e.lr * colAbs V c := mul_le_mul_of_nonneg_right h2 (colAbs_nonneg _ _)
    unfold colAbs at this
    unfold colAbs
    linarith
  have pos : ∀ c, 0 ≤ (1 / 2 : ℝ) ^ 20 * (stepSize W e.lr * colAbs V c + Fintype.card n) := by
    intro c
    have := mul_nonneg h1 (colAbs_nonneg V c)
    positivity
  have := mul_le_mul (mono a) (mono b) (pos b) (le_trans (pos a) (mono a))
  have := mono a
  have := mono b
  linarith

/-- Orthonormality is not kept exactly: without retraction, a zero gradient shrinks orthonormal rows by `1/(1+eps)`. -/
theorem C61_exact_violated [DecidableEq p] [Nonempty p] [Nonempty n] (qr : Matrix n p ℝ → Matrix n p ℝ × Matrix p p ℝ) (P : Matrix p n ℝ) (h : P * Pᵀ = 1)
    (momentum lr : ℝ) : (sgdStep qr momentum (P, 0) ⟨0, lr, false⟩).1 = (1 / (1 + eps)) • P ∧
      (sgdStep qr momentum (P, 0) ⟨0, lr, false⟩).1 * (sgdStep qr momentum (P, 0) ⟨0, lr, false⟩).1ᵀ ≠ 1 := by
  have hV : momentum • (0 : Matrix n p ℝ) - (0 : Matrix p n ℝ)ᵀ = 0 := by simp
  have hW : skew (unit P) (0 : Matrix n p ℝ) = 0 := by
    unfold skew
    simp
  have h1 : (sgdStep qr momentum (P, 0) ⟨0, lr, false⟩).1 = (1 / (1 + eps)) • P := by
    show cayleyLoop (unit P)ᵀ (skew (unit P) (momentum • (0 : Matrix n p ℝ) - (0 : Matrix p n ℝ)ᵀ)) (momentum • (0 : Matrix n p ℝ) - (0 : Matrix p n ℝ)ᵀ) _ = _
    rw [hV, hW]
    unfold cayleyLoop
    rw [smul_zero, add_zero, iter_zero, Matrix.transpose_transpose, unit_orthonormal P h]
  refine ⟨h1, ?_⟩
  rw [h1, Matrix.transpose_smul, Matrix.smul_mul, Matrix.mul_smul, h, smul_smul]
  intro hc
  have := congrFun (congrFun hc (Classical.arbitrary p)) (Classical.arbitrary p)
  rw [Matrix.smul_apply, Matrix.one_apply_eq, smul_eq_mul, mul_one] at this
  have he : eps = 1 / 100000000 := rfl
  rw [he] at this
  norm_num at this

/-! ## C62: momentum -/

theorem sgd_snd [Nonempty n] (qr : Matrix n p ℝ → Matrix n p ℝ × Matrix p p ℝ) (momentum : ℝ) (s : Matrix p n ℝ × Matrix n p ℝ) (e : Event p n) :
    (sgdStep qr momentum s e).2 = s.2 := rfl

theorem sgd_buffer [Nonempty n] (qr : Matrix n p ℝ → Matrix n p ℝ × Matrix p p ℝ) (momentum : ℝ) (s : Matrix p n ℝ × Matrix n p ℝ) (es : List (Event p n)) :
    (es.foldl (sgdStep qr momentum) s).2 = s.2 := by
  induction es generalizing s with
  | nil => rfl
  | cons e es ih => rw [List.foldl_cons, ih]; rfl

/-- The code violates it: for all histories the parameter is the one obtained without momentum. -/
theorem C62_violated [Nonempty n] (qr : Matrix n p ℝ → Matrix n p ℝ × Matrix p p ℝ) (momentum : ℝ) (P : Matrix p n ℝ) (es : List (Event p n)) :
    sgdRun qr momentum P es = sgdRun qr 0 P es := by
  unfold sgdRun
  have : ∀ (Q : Matrix p n ℝ), es.foldl (sgdStep qr momentum) (Q, 0) = es.foldl (sgdStep qr 0) (Q, 0) := by
    induction es with
    | nil => intro Q; rw [List.foldl_nil, List.foldl_nil]
    | cons e es ih =>
      intro Q
      rw [List.foldl_cons, List.foldl_cons]
      have h1 : sgdStep qr momentum (Q, 0) e = sgdStep qr 0 (Q, 0) e := by
        refine Prod.ext ?_ (by rw [sgd_snd, sgd_snd])
        have hV : momentum • (0 : Matrix n p ℝ) - e.gradᵀ = (0 : ℝ) • (0 : Matrix n p ℝ) - e.gradᵀ := by rw [smul_zero, smul_zero]
        unfold sgdStep
        simp only
        rw [hV]
      obtain ⟨R, hR⟩ : ∃ R, sgdStep qr 0 (Q, 0) e = (R, 0) := ⟨(sgdStep qr 0 (Q, 0) e).1, Prod.ext rfl (sgd_snd _ _ _ _)⟩
      rw [h1, hR]
      exact ih R
  exact this P

/-- What a Stiefel parameter becomes depends on the earlier gradients only through the parameter itself. -/
theorem C62_memoryless_violated [Nonempty n] (qr : Matrix n p ℝ → Matrix n p ℝ × Matrix p p ℝ) (momentum : ℝ) (P Q : Matrix p n ℝ) (es fs : List (Event p n))
    (h : (sgdRun qr momentum P es).1 = (sgdRun qr momentum Q fs).1) (e : Event p n) :
    (sgdRun qr momentum P (es ++ [e])).1 = (sgdRun qr momentum Q (fs ++ [e])).1 := by
  have hb : ∀ (P : Matrix p n ℝ) (es : List (Event p n)), (sgdRun qr momentum P es).2 = 0 := fun P es => sgd_buffer qr momentum (P, 0) es
  have he : sgdRun qr momentum P es = sgdRun qr momentum Q fs := Prod.ext h (by rw [hb, hb])
  unfold sgdRun at he ⊢
  rw [List.foldl_append, List.foldl_append, he]

/-- Parameters outside the manifold: the buffer is the discounted sum of all gradients, the first one undamped. -/
theorem C62_euclid {A : Type} [AddCommGroup A] [Module ℝ A] (momentum dampening : ℝ) (hm : momentum ≠ 0) (x d : A) (lr : ℝ) (es : List (A × ℝ)) :
    (((d, lr) :: es).foldl (euclidStep momentum dampening) (x, none)).2 =
      some (momentum ^ es.length • d + ∑ i : Fin es.length, ((1 - dampening) * momentum ^ (es.length - 1 - i)) • (es.get i).1) := by
  have step : ∀ (es : List (A × ℝ)) (y b : A), (es.foldl (euclidStep momentum dampening) (y, some b)).2 =
      some (momentum ^ es.length • b + ∑ i : Fin es.length, ((1 - dampening) * momentum ^ (es.length - 1 - i)) • (es.get i).1) := by
    intro es
    induction es with
    | nil => intro y b; simp
    | cons e es ih =>
      intro y b
      rw [List.foldl_cons]
      have h1 : euclidStep momentum dampening (y, some b) e =
          (y - e.2 • (momentum • b + (1 - dampening) • e.1), some (momentum • b + (1 - dampening) • e.1)) := by
        unfold euclidStep
        rw [if_pos hm]
      rw [h1, ih]
      congr 1
      simp only [List.length_cons, Fin.sum_univ_succ, Fin.val_zero, List.get_cons_zero, Fin.val_succ, List.get_cons_succ]
      rw [smul_add, smul_smul, smul_smul, ← pow_succ, add_assoc]
      congr 2
      · congr 1
        rw [mul_comm]
        simp
      · apply Finset.sum_congr rfl
        intro i _
        congr 3
        omega
  rw [List.foldl_cons]
  have h1 : euclidStep momentum dampening (x, none) (d, lr) = (x - lr • d, some d) := by
    unfold euclidStep
    rw [if_pos hm]
  rw [h1, step]

/-! ## C77: descent -/

/-- Inner product of matrices. -/
def ip (A B : Matrix n p ℝ) : ℝ := ∑ i, ∑ j, A i j * B i j

theorem ip_trace (A B : Matrix n p ℝ) : ip A B = (Aᵀ * B).trace := by
  unfold ip Matrix.trace
  rw [Finset.sum_comm]
  exact Finset.sum_congr rfl fun j _ => by simp [Matrix.mul_apply]

theorem ip_add_left (A B C : Matrix n p ℝ) : ip (A + B) C = ip A C + ip B C := by
  rw [ip_trace, ip_trace, ip_trace, Matrix.transpose_add, Matrix.add_mul, Matrix.trace_add]

theorem ip_add_right (A B C : Matrix n p ℝ) : ip C (A + B) = ip C A + ip C B := by
  rw [ip_trace, ip_trace, ip_trace, Matrix.mul_add, Matrix.trace_add]

theorem ip_smul_left (c : ℝ) (A B : Matrix n p ℝ) : ip (c • A) B = c * ip A B := by
  rw [ip_trace, ip_trace, Matrix.transpose_smul, Matrix.smul_mul, Matrix.trace_smul, smul_eq_mul]

theorem ip_smul_right (c : ℝ) (A B : Matrix n p ℝ) : ip A (c • B) = c * ip A B := by
  rw [ip_trace, ip_trace, Matrix.mul_smul, Matrix.trace_smul, smul_eq_mul]

theorem ip_comm (A B : Matrix n p ℝ) : ip A B = ip B A := by
  unfold ip
  exact Finset.sum_congr rfl fun i _ => Finset.sum_congr rfl fun j _ => mul_comm _ _

theorem ip_adj (U : Matrix p n ℝ) (A : Matrix p p ℝ) (B : Matrix n p ℝ) : ip (Uᵀ * A) B = ip A (U * B) := by
  rw [ip_trace, ip_trace, Matrix.transpose_mul, Matrix.transpose_transpose, Matrix.mul_assoc]

theorem ip_transpose (A B : Matrix p p ℝ) : ip Aᵀ Bᵀ = ip A B := by
  unfold ip
  rw [Finset.sum_comm]
  rfl

theorem ip_self_nonneg (A : Matrix n p ℝ) : 0 ≤ ip A A := Finset.sum_nonneg fun _ _ => Finset.sum_nonneg fun _ _ => mul_self_nonneg _

theorem ip_self_eq_zero (A : Matrix n p ℝ) (h : ip A A = 0) : A = 0 := by
  ext i j
  have h1 := (Finset.sum_eq_zero_iff_of_nonneg (fun i _ => Finset.sum_nonneg fun j _ => mul_self_nonneg (A i j))).mp h i (Finset.mem_univ i)
  have h2 := (Finset.sum_eq_zero_iff_of_nonneg (fun j _ => mul_self_nonneg (A i j))).mp h1 j (Finset.mem_univ j)
  exact mul_self_eq_zero.mp h2

theorem direction_eq [DecidableEq p] (U : Matrix p n ℝ) (V : Matrix n p ℝ) (s : ℝ) (hU : U * Uᵀ = s • (1 : Matrix p p ℝ)) :
    skew U V * Uᵀ = s • V - (s / 2) • (Uᵀ * (U * V)) - (1 - s / 2) • (Uᵀ * (U * V)ᵀ) := by
  have e1 : V * U * Uᵀ = s • V := by rw [Matrix.mul_assoc, hU, Matrix.mul_smul, Matrix.mul_one]
  have e2 : Uᵀ * (U * (V * U)) * Uᵀ = s • (Uᵀ * (U * V)) := by
    rw [Matrix.mul_assoc, Matrix.mul_assoc, e1, Matrix.mul_smul, Matrix.mul_smul]
  have e3 : (V * U)ᵀ * Uᵀ = Uᵀ * (U * V)ᵀ := by rw [Matrix.transpose_mul, Matrix.transpose_mul, Matrix.mul_assoc]
  have e4 : (Uᵀ * (U * (V * U)))ᵀ * Uᵀ = s • (Uᵀ * (U * V)ᵀ) := by
    rw [Matrix.transpose_mul, Matrix.transpose_mul, Matrix.transpose_transpose, Matrix.transpose_mul, Matrix.transpose_mul, Matrix.mul_assoc, hU, Matrix.mul_smul,
      Matrix.mul_one, Matrix.mul_assoc]
  unfold skew
  simp only
  rw [Matrix.transpose_sub, Matrix.transpose_smul, Matrix.sub_mul, Matrix.sub_mul, Matrix.sub_mul, Matrix.smul_mul, Matrix.smul_mul, e1, e2, e3, e4, smul_smul, smul_smul,
    sub_smul, one_smul, one_div, inv_mul_eq_div]
  try abel

/-- At orthonormal rows, the direction `W Uᵀ` is the projection of `V` on the tangent space: what `stiefel_proj_tan` (gutils.py:35-43) computes. -/
theorem C77_projection [DecidableEq p] [DecidableEq n] (U : Matrix p n ℝ) (hU : U * Uᵀ = 1) (V : Matrix n p ℝ) :
    skew U V * Uᵀ = Uᵀ * ((1 / 2 : ℝ) • (U * V - (U * V)ᵀ)) + (1 - Uᵀ * U) * V ∧
    (U * (skew U V * Uᵀ) + (U * (skew U V * Uᵀ))ᵀ = 0) ∧
    (U * V + (U * V)ᵀ = 0 → skew U V * Uᵀ = V) := by
  have h1 := direction_eq U V 1 (by rw [one_smul]; exact hU)
  have hA : skew U V * Uᵀ = Uᵀ * ((1 / 2 : ℝ) • (U * V - (U * V)ᵀ)) + (1 - Uᵀ * U) * V := by
    rw [h1, Matrix.mul_smul, Matrix.mul_sub, Matrix.sub_mul, Matrix.one_mul, Matrix.mul_assoc, one_smul, smul_sub]
    have : (1 : ℝ) - 1 / 2 = 1 / 2 := by norm_num
    rw [this]
    have h2 : Uᵀ * (U * V) = (1 / 2 : ℝ) • (Uᵀ * (U * V)) + (1 / 2 : ℝ) • (Uᵀ * (U * V)) := by
      rw [← add_smul]
      norm_num
    conv_rhs => rw [show V - Uᵀ * (U * V) = V - ((1 / 2 : ℝ) • (Uᵀ * (U * V)) + (1 / 2 : ℝ) • (Uᵀ * (U * V))) from by rw [← h2]]
    abel
  refine ⟨hA, ?_, ?_⟩
  · have h3 : U * (skew U V * Uᵀ) = (1 / 2 : ℝ) • (U * V - (U * V)ᵀ) := by
      rw [hA, Matrix.mul_add, ← Matrix.mul_assoc, hU, Matrix.one_mul, Matrix.sub_mul, Matrix.one_mul, Matrix.mul_sub, Matrix.mul_assoc, ← Matrix.mul_assoc, hU,
        Matrix.one_mul, sub_self, add_zero]
    rw [h3, Matrix.transpose_smul, Matrix.transpose_sub, Matrix.transpose_transpose, ← smul_add]
    simp
  · intro h0
    have h4 : (U * V)ᵀ = -(U * V) := (neg_eq_of_add_eq_zero_right h0).symm
    rw [h1, h4, Matrix.mul_neg, one_smul, smul_neg, sub_neg_eq_add]
    have : (1 : ℝ) - 1 / 2 = 1 / 2 := by norm_num
    rw [this, sub_add_cancel]

/-- The direction never points uphill, at rows orthonormal up to a scale `c` of at most 1: its inner product with the descent direction is at least its squared
norm. -/
theorem C77_direction [DecidableEq p] (U : Matrix p n ℝ) (V : Matrix n p ℝ) (c : ℝ) (hc : 0 < c) (hc1 : c ^ 2 ≤ 1) (hU : U * Uᵀ = (c ^ 2) • (1 : Matrix p p ℝ)) :
    ip (skew U V * Uᵀ) (skew U V * Uᵀ) ≤ ip V (skew U V * Uᵀ) := by
  obtain ⟨s, hs⟩ : ∃ s, s = c ^ 2 := ⟨_, rfl⟩
  rw [← hs] at hc1 hU
  have hs0 : 0 < s := by rw [hs]; positivity
  obtain ⟨A, hA⟩ : ∃ A, A = U * V := ⟨_, rfl⟩
  obtain ⟨Q, hQ⟩ : ∃ Q, Q = s • V - Uᵀ * A := ⟨_, rfl⟩
  obtain ⟨K, hK⟩ : ∃ K, K = A - Aᵀ := ⟨_, rfl⟩
  have hD : skew U V * Uᵀ = Q + (1 - s / 2) • (Uᵀ * K) := by
    rw [direction_eq U V s hU, ← hA, hQ, hK, Matrix.mul_sub, smul_sub, sub_smul, sub_smul, one_smul, one_smul]
    abel
  have hUQ : U * Q = 0 := by
    rw [hQ, Matrix.mul_sub, Matrix.mul_smul, ← hA, ← Matrix.mul_assoc, hU, Matrix.smul_mul, Matrix.one_mul, sub_self]
  have hUU : ∀ B C : Matrix p p ℝ, ip (Uᵀ * B) (Uᵀ * C) = s * ip B C := by
    intro B C
    rw [ip_adj, ← Matrix.mul_assoc, hU, Matrix.smul_mul, Matrix.one_mul, ip_smul_right]
  have hQU : ∀ B : Matrix p p ℝ, ip (Uᵀ * B) Q = 0 := by
    intro B
    rw [ip_adj, hUQ]
    simp [ip]
  have hKK : ip A K = ip K K / 2 := by
    have e1 : ip Aᵀ K = -ip A K := by
      rw [← ip_transpose A K]
      have : Kᵀ = -K := by rw [hK, Matrix.transpose_sub, Matrix.transpose_transpose, neg_sub]
      rw [this]
      unfold ip
      simp
    have e2 : ip K K = ip A K - ip Aᵀ K := by
      conv_lhs => rw [show ip K K = ip (A + (-1 : ℝ) • Aᵀ) K from by rw [hK]; congr 1; simp [sub_eq_add_neg]]
      rw [ip_add_left, ip_smul_left]
      ring
    linarith
  have hV : s • V = Q + Uᵀ * A := by rw [hQ]; abel
  have h1 : s * ip V (skew U V * Uᵀ) = ip Q Q + (1 - s / 2) * (s * (ip K K / 2)) := by
    rw [← ip_smul_left, hV, hD, ip_add_left, ip_add_right, ip_add_right, ip_smul_right, ip_smul_right, hQU, ip_comm Q (Uᵀ * K), hQU, hUU, hKK]
    ring
  have h2 : ip (skew U V * Uᵀ) (skew U V * Uᵀ) = ip Q Q + (1 - s / 2) ^ 2 * (s * ip K K) := by
    rw [hD, ip_add_left, ip_add_right, ip_add_right, ip_smul_right, ip_smul_left, ip_smul_left, ip_smul_right, hQU, ip_comm Q (Uᵀ * K), hQU, hUU]
    ring
  have h3 : 0 ≤ s * (ip V (skew U V * Uᵀ) - ip (skew U V * Uᵀ) (skew U V * Uᵀ)) := by
    have e : s * (ip V (skew U V * Uᵀ) - ip (skew U V * Uᵀ) (skew U V * Uᵀ)) =
        (1 - s) * ip Q Q + s * (1 - s / 2) * (1 / 2 * (1 - s) ^ 2) * ip K K := by
      rw [mul_sub, h1, h2]
      ring
    rw [e]
    have := ip_self_nonneg Q
    have := ip_self_nonneg K
    have a1 : 0 ≤ 1 - s := by linarith
    have a2 : 0 ≤ 1 - s / 2 := by linarith
    positivity
  have := (mul_nonneg_iff_of_pos_left hs0).mp h3
  linarith

/-- First-order expansion of a loss at a point: `g` is its gradient. -/
def DiffAt (f : Matrix p n ℝ → ℝ) (U g : Matrix p n ℝ) : Prop :=
  ∀ ε > 0, ∃ δ > 0, ∀ Z, (∀ i j, |Z i j - U i j| ≤ δ) → |f Z - f U - ip g (Z - U)| ≤ ε * ∑ i, ∑ j, |Z i j - U i j|

/-- The result of the loop, to second order in the step size. -/
theorem loop_expansion [DecidableEq p] [Nonempty n] (U : Matrix p n ℝ) (c : ℝ) (hc1 : c ^ 2 ≤ 1) (hU : U * Uᵀ = (c ^ 2) • (1 : Matrix p p ℝ)) (W : Matrix n n ℝ)
    (hW : Wᵀ = -W) (V : Matrix n p ℝ) : ∃ B : ℝ, 0 ≤ B ∧ ∀ t, 0 ≤ t → t ≤ 1 → t * normOne W ≤ 1 → ∀ i j,
      |cayleyLoop Uᵀ W V t i j - U i j - t * (W * Uᵀ) j i| ≤ t ^ 2 * B := by
  obtain ⟨N, hN⟩ : ∃ N, N = normOne W := ⟨_, rfl⟩
  have hN0 : 0 ≤ N := hN ▸ normOne_nonneg W
  have hcol : ∀ k, ∑ i, |W i k| ≤ N := by rw [hN]; exact normOne_col W
  obtain ⟨X, hX⟩ : ∃ X, X = Uᵀ := ⟨_, rfl⟩
  have hG : Xᵀ * X = (c ^ 2) • (1 : Matrix p p ℝ) := by rw [hX, Matrix.transpose_transpose]; exact hU
  have hX1 := entry_le_of_gram X c hc1 hG
  have hSV : ∀ j, colAbs V j ≤ ∑ j, colAbs V j := fun j => Finset.single_le_sum (f := fun j => colAbs V j) (fun j _ => colAbs_nonneg V j) (Finset.mem_univ j)
  have hSV0 : 0 ≤ ∑ j, colAbs V j := Finset.sum_nonneg fun j _ => colAbs_nonneg V j
  refine ⟨N * (N * (Fintype.card n)) + N * ((∑ j, colAbs V j) + N * Fintype.card n), by positivity, ?_⟩
  intro t ht0 ht1 htN i j
  rw [← hN] at htN
  obtain ⟨Z, hZ, _⟩ := cayley_exists_unique X W hW t
  have hZ1 := entry_le_of_gram Z c hc1 ((cayley_gram X W hW t Z hZ).trans hG)
  have hZe : Z = X + (t / 2) • (W * (X + Z)) := by
    have hz : Z = X + t • (W * ((1 / 2 : ℝ) • (X + Z))) := hZ
    have : t • (W * ((1 / 2 : ℝ) • (X + Z))) = (t / 2) • (W * (X + Z)) := by
      rw [Matrix.mul_smul, smul_smul]
      congr 1
      ring
    rwa [this] at hz
  have hXZ : ∀ j, colAbs (X + Z) j ≤ 2 * Fintype.card n := by
    intro j
    have e1 := colAbs_add X Z j
    have e2 := colAbs_le_card X hX1 j
    have e3 := colAbs_le_card Z hZ1 j
    linarith
  -- second order term of the Cayley point
  have hsec : Z - X - t • (W * X) = (t ^ 2 / 4) • (W * (W * (X + Z))) := by
    have e1 : Z - X = (t / 2) • (W * (X + Z)) := by
      conv_lhs => rw [hZe]
      rw [add_sub_cancel_left]
    have e2 : X + Z = (2 : ℝ) • X + (Z - X) := by rw [two_smul]; abel
    have e3 : (t / 2) • (W * (X + Z)) = t • (W * X) + (t / 2) • (W * (Z - X)) := by
      conv_lhs => rw [e2, Matrix.mul_add, Matrix.mul_smul, smul_add, smul_smul]
      congr 2
      ring
    rw [e1, e3, add_sub_cancel_left, e1, Matrix.mul_smul, smul_smul]
    congr 1
    ring
  have b1 : |(Z - X - t • (W * X)) j i| ≤ t ^ 2 * (N * (N * (Fintype.card n))) := by
    have e1 : |(Z - X - t • (W * X)) j i| ≤ colAbs (Z - X - t • (W * X)) i :=
      Finset.single_le_sum (f := fun k => |(Z - X - t • (W * X)) k i|) (fun k _ => abs_nonneg _) (Finset.mem_univ j)
    refine le_trans e1 ?_
    rw [hsec, colAbs_smul, abs_of_nonneg (by positivity)]
    have e2 := colAbs_mul W (W * (X + Z)) N hcol i
    have e3 := colAbs_mul W (X + Z) N hcol i
    have e4 : colAbs (W * (W * (X + Z))) i ≤ N * (N * (2 * Fintype.card n)) :=
      le_trans e2 (mul_le_mul_of_nonneg_left (le_trans e3 (mul_le_mul_of_nonneg_left (hXZ i) hN0)) hN0)
    calc t ^ 2 / 4 * colAbs (W * (W * (X + Z))) i ≤ t ^ 2 / 4 * (N * (N * (2 * Fintype.card n))) := mul_le_mul_of_nonneg_left e4 (by positivity)
      _ ≤ t ^ 2 * (N * (N * (Fintype.card n))) := by
        have : 0 ≤ t ^ 2 * (N * (N * (Fintype.card n : ℝ))) := by positivity
        nlinarith
  -- error of the loop
  obtain ⟨Y, hY⟩ : ∃ Y, Y = cayleyIter X W t 20 (X + t • V) := ⟨_, rfl⟩
  have b2 : |(Y - Z) j i| ≤ t ^ 2 * (N * ((∑ j, colAbs V j) + N * Fintype.card n)) := by
    have e1 : |(Y - Z) j i| ≤ colAbs (Y - Z) i := Finset.single_le_sum (f := fun k => |(Y - Z) k i|) (fun k _ => abs_nonneg _) (Finset.mem_univ j)
    refine le_trans e1 ?_
    have e2 := iter_error X W t N hcol hN0 Z hZ 20 (X + t • V) i
    rw [← hY, abs_of_nonneg ht0] at e2
    refine le_trans e2 ?_
    have e3 : colAbs (X + t • V - Z) i ≤ t * ((∑ j, colAbs V j) + N * Fintype.card n) := by
      have f1 : X + t • V - Z = t • V + -((t / 2) • (W * (X + Z))) := by
        conv_lhs => rw [hZe]
        abel
      rw [f1]
      refine le_trans (colAbs_add _ _ _) ?_
      rw [colAbs_smul, colAbs_neg, colAbs_smul, abs_of_nonneg ht0, abs_of_nonneg (by positivity : 0 ≤ t / 2)]
      have f2 : colAbs (W * (X + Z)) i ≤ N * (2 * Fintype.card n) := le_trans (colAbs_mul W (X + Z) N hcol i) (mul_le_mul_of_nonneg_left (hXZ i) hN0)
      have f3 : t / 2 * colAbs (W * (X + Z)) i ≤ t / 2 * (N * (2 * Fintype.card n)) := mul_le_mul_of_nonneg_left f2 (by positivity)
      have f4 : t * colAbs V i ≤ t * ∑ j, colAbs V j := mul_le_mul_of_nonneg_left (hSV i) ht0
      nlinarith
    have e4 : (t * N / 2) ^ 20 ≤ t * N := by
      have g0 : 0 ≤ t * N / 2 := by positivity
      have g1 : t * N / 2 ≤ 1 := by linarith
      have : (t * N / 2) ^ 20 ≤ (t * N / 2) ^ 1 := pow_le_pow_of_le_one g0 g1 (by norm_num)
      rw [pow_one] at this
      have : 0 ≤ t * N := by positivity
      linarith
    calc (t * N / 2) ^ 20 * colAbs (X + t • V - Z) i ≤ (t * N) * (t * ((∑ j, colAbs V j) + N * Fintype.card n)) :=
          mul_le_mul e4 e3 (colAbs_nonneg _ _) (by positivity)
      _ = t ^ 2 * (N * ((∑ j, colAbs V j) + N * Fintype.card n)) := by ring
  have hfin : cayleyLoop Uᵀ W V t i j - U i j - t * (W * Uᵀ) j i = (Z - X - t • (W * X)) j i + (Y - Z) j i := by
    have : cayleyLoop Uᵀ W V t i j = Y j i := by rw [hY, hX]; rfl
    rw [this, hX]
    simp only [Matrix.sub_apply, Matrix.smul_apply, Matrix.transpose_apply, smul_eq_mul]
    ring
  rw [hfin, mul_add]
  exact le_trans (abs_add_le _ _) (add_le_add b1 b2)

/-- The actual step (20 iterations, with or without retraction) strictly lowers every differentiable loss, for all small enough learning rates, unless the
direction is zero. -/
theorem C77_downhill [LinearOrder p] [Nonempty n] (qr : Matrix n p ℝ → Matrix n p ℝ × Matrix p p ℝ) (hqr : ∀ A : Matrix n p ℝ, IsQR A (qr A).1 (qr A).2)
    (P g : Matrix p n ℝ) (h : P * Pᵀ = 1) (retract : Bool) (f : Matrix p n ℝ → ℝ) (hf : DiffAt f (start qr P retract) g)
    (hD : skew (start qr P retract) (-gᵀ) * (start qr P retract)ᵀ ≠ 0) :
    ∃ δ > 0, ∀ lr, 0 < lr → lr < δ → f (sgdStep qr 0 (P, 0) ⟨g, lr, retract⟩).1 < f (start qr P retract) := by
  obtain ⟨U, hU⟩ : ∃ U, U = start qr P retract := ⟨_, rfl⟩
  have hG : U * Uᵀ = (startScale retract ^ 2) • (1 : Matrix p p ℝ) := by rw [hU]; exact start_gram qr hqr P h retract
  obtain ⟨V, hV⟩ : ∃ V, V = -gᵀ := ⟨_, rfl⟩
  rw [← hU] at hf hD ⊢
  rw [← hV] at hD
  obtain ⟨hc0, hc1⟩ := startScale_ok retract
  obtain ⟨D, hDd⟩ : ∃ D, D = skew U V * Uᵀ := ⟨_, rfl⟩
  have hdir := C77_direction U V (startScale retract) hc0 hc1 hG
  rw [← hDd] at hdir hD
  obtain ⟨d, hd⟩ : ∃ d, d = ip D D := ⟨_, rfl⟩
  have hdpos : 0 < d := by
    rcases (ip_self_nonneg D).lt_or_eq with h1 | h1
    · rw [hd]; exact h1
    · exact absurd (ip_self_eq_zero D h1.symm) hD
  obtain ⟨B, hB0, hB⟩ := loop_expansion U (startScale retract) hc1 hG (skew U V) (skew_transpose U V) V
  obtain ⟨S, hS⟩ : ∃ S, S = ∑ i, ∑ j, |g i j| := ⟨_, rfl⟩
  have hS0 : 0 ≤ S := by rw [hS]; exact Finset.sum_nonneg fun _ _ => Finset.sum_nonneg fun _ _ => abs_nonneg _
  obtain ⟨L, hL⟩ : ∃ L, L = ∑ i, ∑ j, (|D j i| + B) := ⟨_, rfl⟩
  have hL0 : 0 ≤ L := by
    rw [hL]
    exact Finset.sum_nonneg fun _ _ => Finset.sum_nonneg fun _ _ => by positivity
  obtain ⟨δ, hδ, hexp⟩ := hf (d / (4 * (L + 1))) (by positivity)
  have hN0 := normOne_nonneg (skew U V)
  have he := eps_pos
  refine ⟨min (min 1 (1 / 2 * 2 / (normOne (skew U V) + eps))) (min (δ / (L + 1)) (d / (4 * (B * S + 1)))), by positivity, ?_⟩
  intro t ht0 ht
  have ht1 : t < 1 := lt_of_lt_of_le ht (le_trans (min_le_left _ _) (min_le_left _ _))
  have ht2 : t < 1 / 2 * 2 / (normOne (skew U V) + eps) := lt_of_lt_of_le ht (le_trans (min_le_left _ _) (min_le_right _ _))
  have ht3 : t < δ / (L + 1) := lt_of_lt_of_le ht (le_trans (min_le_right _ _) (min_le_left _ _))
  have ht4 : t < d / (4 * (B * S + 1)) := lt_of_lt_of_le ht (le_trans (min_le_right _ _) (min_le_right _ _))
  have hstep : stepSize (skew U V) t = t := min_eq_right ht2.le
  have htN : t * normOne (skew U V) ≤ 1 := by
    have := (stepSize_ok (skew U V) t ht0.le).2.2
    rwa [hstep] at this
  obtain ⟨Z, hZ⟩ : ∃ Z, Z = (sgdStep qr 0 (P, 0) ⟨g, t, retract⟩).1 := ⟨_, rfl⟩
  have hZe : Z = cayleyLoop Uᵀ (skew U V) V t := by
    have e1 : Z = cayleyLoop Uᵀ (skew U ((0 : ℝ) • (0 : Matrix n p ℝ) - gᵀ)) ((0 : ℝ) • (0 : Matrix n p ℝ) - gᵀ)
        (stepSize (skew U ((0 : ℝ) • (0 : Matrix n p ℝ) - gᵀ)) t) := by rw [hZ, hU]; rfl
    have e2 : (0 : ℝ) • (0 : Matrix n p ℝ) - gᵀ = V := by rw [hV, smul_zero, zero_sub]
    rw [e2, hstep] at e1
    exact e1
  rw [← hZ]
  have hent : ∀ i j, |Z i j - U i j - t * D j i| ≤ t ^ 2 * B := by
    intro i j
    have := hB t ht0.le ht1.le htN i j
    rw [← hDd, ← hZe] at this
    exact this
  have hsmall : ∀ i j, |Z i j - U i j| ≤ t * (|D j i| + B) := by
    intro i j
    have e1 := hent i j
    have e2 : |Z i j - U i j| ≤ |Z i j - U i j - t * D j i| + |t * D j i| := by
      have := abs_add_le (Z i j - U i j - t * D j i) (t * D j i)
      simpa using this
    rw [abs_mul, abs_of_pos ht0] at e2
    have e3 : t ^ 2 * B ≤ t * B := mul_le_mul_of_nonneg_right (by nlinarith) hB0
    rw [mul_add]
    linarith
  have hsum : ∑ i, ∑ j, |Z i j - U i j| ≤ t * L := by
    rw [hL, Finset.mul_sum]
    apply Finset.sum_le_sum
    intro i _
    rw [Finset.mul_sum]
    exact Finset.sum_le_sum fun j _ => hsmall i j
  have hle : ∀ i j, |Z i j - U i j| ≤ δ := by
    intro i j
    have e1 : |Z i j - U i j| ≤ ∑ j, |Z i j - U i j| := Finset.single_le_sum (f := fun j => |Z i j - U i j|) (fun j _ => abs_nonneg _) (Finset.mem_univ j)
    have e2 : ∑ j, |Z i j - U i j| ≤ ∑ i, ∑ j, |Z i j - U i j| :=
      Finset.single_le_sum (f := fun i => ∑ j, |Z i j - U i j|) (fun i _ => Finset.sum_nonneg fun j _ => abs_nonneg _) (Finset.mem_univ i)
    have e3 : t * L ≤ δ := by
      rw [lt_div_iff₀ (by positivity)] at ht3
      nlinarith
    linarith
  have hfo := hexp Z hle
  -- first order term
  have hlin : ip g (Z - U) ≤ -(t * d) + t ^ 2 * (B * S) := by
    have e1 : ip g (Z - U) = t * ip g Dᵀ + ip g (Z - U - t • Dᵀ) := by
      rw [← ip_smul_right, ← ip_add_right]
      congr 1
      abel
    have e2 : ip g Dᵀ = -ip V D := by
      rw [hV]
      unfold ip
      rw [Finset.sum_comm]
      simp
    have e3 : ip g (Z - U - t • Dᵀ) ≤ t ^ 2 * (B * S) := by
      unfold ip
      calc ∑ i, ∑ j, g i j * (Z - U - t • Dᵀ) i j ≤ ∑ i, ∑ j, |g i j| * (t ^ 2 * B) := by
            apply Finset.sum_le_sum
            intro i _
            apply Finset.sum_le_sum
            intro j _
            refine le_trans (le_abs_self _) ?_
            rw [abs_mul]
            exact mul_le_mul_of_nonneg_left (hent i j) (abs_nonneg _)
        _ = t ^ 2 * (B * S) := by
            rw [hS]
            simp_rw [← Finset.sum_mul]
            ring
    rw [e1, e2]
    have e4 : t * d ≤ t * ip V D := mul_le_mul_of_nonneg_left (by rw [hd]; exact hdir) ht0.le
    linarith
  have hrem : d / (4 * (L + 1)) * ∑ i, ∑ j, |Z i j - U i j| ≤ t * (d / 4) := by
    calc d / (4 * (L + 1)) * ∑ i, ∑ j, |Z i j - U i j| ≤ d / (4 * (L + 1)) * (t * L) := mul_le_mul_of_nonneg_left hsum (by positivity)
      _ = t * (d / 4) * (L / (L + 1)) := by field_simp
      _ ≤ t * (d / 4) * 1 := by
          apply mul_le_mul_of_nonneg_left _ (by positivity)
          rw [div_le_one (by positivity)]
          linarith
      _ = t * (d / 4) := mul_one _
  have hquad : t ^ 2 * (B * S) ≤ t * (d / 4) := by
    rw [lt_div_iff₀ (by positivity)] at ht4
    have : 0 ≤ B * S := mul_nonneg hB0 hS0
    nlinarith
  have := (abs_le.mp hfo).2
  have : 0 < t * d := mul_pos ht0 hdpos
  linarith

/-- The first step of AdamG: the direction is that of the gradient itself, scaled by its own norm, whatever the decay rates: the averages start at zero and their bias is corrected. -/
theorem C62_adam_first [Nonempty n] (qr : Matrix n p ℝ → Matrix n p ℝ × Matrix p p ℝ) (beta1 beta2 epsilon : ℝ) (h1 : beta1 ≠ 1) (h2 : beta2 ≠ 1) (P : Matrix p n ℝ) (e : Event p n) :
    (adamStep qr beta1 beta2 epsilon (Adam.init beta1 beta2 P) e).param =
      cayleyLoop (start qr P e.retract)ᵀ ((1 / Real.sqrt ((∑ i, ∑ j, e.grad i j ^ 2) + epsilon)) • skew (start qr P e.retract) e.gradᵀ) ((1 - beta1) • e.gradᵀ)
        (-stepSize ((1 / Real.sqrt ((∑ i, ∑ j, e.grad i j ^ 2) + epsilon)) • skew (start qr P e.retract) e.gradᵀ) e.lr) ∧
    (adamStep qr beta1 beta2 epsilon (Adam.init beta1 beta2 P) e).v = (1 - beta2) * ∑ i, ∑ j, e.grad i j ^ 2 := by
  have h1' : 1 - beta1 ≠ 0 := sub_ne_zero.2 (Ne.symm h1)
  have h2' : 1 - beta2 ≠ 0 := sub_ne_zero.2 (Ne.symm h2)
  have hm : (1 / (1 - beta1)) • (beta1 • (0 : Matrix n p ℝ) + (1 - beta1) • e.gradᵀ) = e.gradᵀ := by
    rw [smul_zero, zero_add, smul_smul, one_div, inv_mul_cancel₀ h1', one_smul]
  have hv : (beta2 * 0 + (1 - beta2) * ∑ i, ∑ j, e.grad i j ^ 2) / (1 - beta2) = ∑ i, ∑ j, e.grad i j ^ 2 := by
    rw [mul_zero, zero_add, mul_div_cancel_left₀ _ h2']
  constructor
  · simp only [adamStep, Adam.init, hm, hv]
    rw [smul_zero, zero_add]
  · simp only [adamStep, Adam.init, mul_zero, zero_add]

/-- The stored first moment of AdamG is the projection on the tangent space of the discounted sum of the earlier one and of the gradient: earlier gradients keep
acting. -/
theorem C62_adam [DecidableEq p] [DecidableEq n] [Nonempty n] (qr : Matrix n p ℝ → Matrix n p ℝ × Matrix p p ℝ) (beta1 beta2 epsilon : ℝ) (s : Adam p n) (e : Event p n)
    (hU : start qr s.param e.retract * (start qr s.param e.retract)ᵀ = 1) (hb : s.beta1Power ≠ 1)
    (hv : 0 < (beta2 * s.v + (1 - beta2) * ∑ i, ∑ j, e.grad i j ^ 2) / (1 - s.beta2Power) + epsilon) :
    let U := start qr s.param e.retract
    let V := beta1 • s.m + (1 - beta1) • e.gradᵀ
    (adamStep qr beta1 beta2 epsilon s e).m = Uᵀ * ((1 / 2 : ℝ) • (U * V - (U * V)ᵀ)) + (1 - Uᵀ * U) * V := by
  intro U V
  obtain ⟨k, hk⟩ : ∃ k, k = Real.sqrt ((beta2 * s.v + (1 - beta2) * ∑ i, ∑ j, e.grad i j ^ 2) / (1 - s.beta2Power) + epsilon) := ⟨_, rfl⟩
  have hk0 : k ≠ 0 := by rw [hk]; exact (Real.sqrt_pos.mpr hv).ne'
  have hb1 : 1 - s.beta1Power ≠ 0 := sub_ne_zero.mpr (Ne.symm hb)
  have hm : (adamStep qr beta1 beta2 epsilon s e).m = (k * (1 - s.beta1Power)) • (((1 / k) • skew U ((1 / (1 - s.beta1Power)) • V)) * Uᵀ) := by rw [hk]; rfl
  have hskew : ∀ (a : ℝ) (V : Matrix n p ℝ), skew U (a • V) = a • skew U V := by
    intro a V
    unfold skew
    simp only [Matrix.smul_mul, Matrix.mul_smul, Matrix.transpose_sub, Matrix.transpose_smul, smul_sub, smul_comm (1 / 2 : ℝ) a]
  rw [hm, hskew, smul_smul, Matrix.smul_mul, smul_smul, ← (C77_projection U hU V).1]
  have : k * (1 - s.beta1Power) * (1 / k * (1 / (1 - s.beta1Power))) = 1 := by field_simp
  rw [this, one_smul]

/-! ## Instances of the hypotheses -/

/-- A point with orthonormal rows and a gradient with a non-zero direction. -/
def exP : Matrix (Fin 1) (Fin 2) ℝ := !![1, 0]

def exG : Matrix (Fin 1) (Fin 2) ℝ := !![0, 1]

example : exP * exPᵀ = 1 := by
  ext i j
  fin_cases i; fin_cases j
  simp [exP, Matrix.mul_apply, Fin.sum_univ_two]

example : skew exP (-exGᵀ) * exPᵀ ≠ 0 := by
  intro h
  have := congrFun (congrFun h 1) 0
  simp only [skew, exP, exG, Matrix.mul_apply, Matrix.sub_apply, Matrix.smul_apply, Matrix.transpose_apply, Matrix.neg_apply, Fin.sum_univ_two, Fin.sum_univ_one] at this
  norm_num at this

/-- A linear loss is differentiable. -/
example (U g : Matrix p n ℝ) : DiffAt (fun Z => ip g Z) U g := by
  intro ε hε
  refine ⟨1, one_pos, fun Z _ => ?_⟩
  have : ip g Z - ip g U - ip g (Z - U) = 0 := by
    have e : Z = U + (Z - U) := by abel
    have := ip_add_right U (Z - U) g
    rw [← e] at this
    linarith
  simp only [this, abs_zero]
  exact mul_nonneg hε.le (Finset.sum_nonneg fun _ _ => Finset.sum_nonneg fun _ _ => abs_nonneg _)

/-- Rows that are linearly dependent. -/
example : ((!![1, 0; 1, 0] : Matrix (Fin 2) (Fin 2) ℝ) * (!![1, 0; 1, 0] : Matrix (Fin 2) (Fin 2) ℝ)ᵀ).det = 0 := by
  rw [Matrix.det_fin_two]
  simp only [Matrix.mul_apply, Matrix.transpose_apply, Fin.sum_univ_two]
  norm_num

/-- A QR factorisation. -/
example : IsQR (exP)ᵀ (exP)ᵀ 1 where
  mul := by rw [Matrix.mul_one]
  orth := by
    ext i j
    fin_cases i; fin_cases j
    simp [exP, Matrix.mul_apply, Fin.sum_univ_two]
  upper := Matrix.blockTriangular_one

end Kerch

/-! ## The contract of the QR factorisation is met, and concrete cases of the theorems above -/

namespace Kerch
open Matrix Stiefel
namespace StiefelCase

/-- Every matrix with at least as many rows as columns has a QR factorisation. -/
theorem exists_isQR {p n : Type} [Fintype p] [Fintype n] [LinearOrder p] (hpn : Fintype.card p ≤ Fintype.card n) (A : Matrix n p ℝ) :
    ∃ q r, IsQR A q r := by
  classical
  obtain ⟨m, hm⟩ : ∃ m, Fintype.card p + m = Fintype.card n := ⟨_, Nat.add_sub_cancel' hpn⟩
  let _ : Fintype (p ⊕ₗ Fin m) := Fintype.ofEquiv (p ⊕ Fin m) toLex
  let _ : LocallyFiniteOrderBot (p ⊕ₗ Fin m) :=
    LocallyFiniteOrderBot.ofIic _ (fun a => Finset.univ.filter (· ≤ a)) (fun a x => by simp)
  have hc : Fintype.card (p ⊕ₗ Fin m) = Fintype.card n := by
    rw [Fintype.card_congr (ofLex : p ⊕ₗ Fin m ≃ p ⊕ Fin m), Fintype.card_sum, Fintype.card_fin, hm]
  have hd : Module.finrank ℝ (EuclideanSpace ℝ n) = Fintype.card (p ⊕ₗ Fin m) := by rw [finrank_euclideanSpace, hc]
  let f : p ⊕ₗ Fin m → EuclideanSpace ℝ n := fun i => match ofLex i with
    | .inl a => WithLp.toLp 2 (fun k => A k a)
    | .inr _ => 0
  let b := InnerProductSpace.gramSchmidtOrthonormalBasis hd f
  refine ⟨Matrix.of fun k a => b (toLex (.inl a)) k, Matrix.of fun a c => inner ℝ (b (toLex (.inl a))) (f (toLex (.inl c))), ?_, ?_, ?_⟩
  · ext k c
    have h := b.sum_repr (f (toLex (.inl c)))
    have h1 := congrArg (fun v : EuclideanSpace ℝ n => v k) h
    simp only at h1
    have h2 : A k c = f (toLex (.inl c)) k := rfl
    rw [h2, ← h1, Matrix.mul_apply]
    simp only [Matrix.of_apply]
    rw [WithLp.ofLp_sum, Finset.sum_apply]
    have h3 : ∀ g : p ⊕ₗ Fin m → ℝ, ∑ i, g i = (∑ a, g (toLex (.inl a))) + ∑ a, g (toLex (.inr a)) := fun g =>
      (Equiv.sum_comp toLex g).symm.trans (Fintype.sum_sum_type (fun x => g (toLex x)))
    rw [h3]
    have h4 : ∑ a : Fin m, ((b.repr (f (toLex (.inl c)))) (toLex (.inr a)) • b (toLex (.inr a)) : EuclideanSpace ℝ n).ofLp k = 0 := by
      apply Finset.sum_eq_zero
      intro a _
      have : (b.repr (f (toLex (.inl c)))) (toLex (.inr a)) = 0 :=
        InnerProductSpace.gramSchmidtOrthonormalBasis_inv_triangular' hd f (Sum.Lex.inl_lt_inr c a)
      rw [this]; simp
    rw [h4, add_zero]
    refine Finset.sum_congr rfl fun a _ => ?_
    rw [OrthonormalBasis.repr_apply_apply]
    simp [mul_comm]
  · ext a c
    rw [Matrix.mul_apply]
    have h := (orthonormal_iff_ite.mp b.orthonormal) (toLex (.inl c)) (toLex (.inl a))
    rw [PiLp.inner_apply] at h
    simp only [Matrix.transpose_apply, Matrix.one_apply, Matrix.of_apply]
    rw [show (∑ k, b (toLex (.inl a)) k * b (toLex (.inl c)) k) = _ from h]
    have : (toLex (Sum.inl c) : p ⊕ₗ Fin m) = toLex (Sum.inl a) ↔ a = c :=
      ⟨fun h => (Sum.inl.inj (toLex.injective h)).symm, fun h => by rw [h]⟩
    simp only [this]
  · intro a c hac
    exact InnerProductSpace.gramSchmidtOrthonormalBasis_inv_triangular hd f (Sum.Lex.inl_lt_inl_iff.mpr hac)

/-- The factorisation of all matrices of three rows and two columns. -/
noncomputable def qr (A : Matrix (Fin 3) (Fin 2) ℝ) : Matrix (Fin 3) (Fin 2) ℝ × Matrix (Fin 2) (Fin 2) ℝ :=
  ((exists_isQR (by simp) A).choose, (exists_isQR (by simp) A).choose_spec.choose)

theorem isQR (A : Matrix (Fin 3) (Fin 2) ℝ) : IsQR A (qr A).1 (qr A).2 := (exists_isQR (by simp) A).choose_spec.choose_spec

/-- Two orthonormal rows. -/
noncomputable def P : Matrix (Fin 2) (Fin 3) ℝ := !![3 / 5, 4 / 5, 0; 0, 0, 1]

theorem P_orth : P * Pᵀ = 1 := by
  ext i j
  fin_cases i <;> fin_cases j <;> simp [P, Matrix.mul_apply, Fin.sum_univ_three]; norm_num

def G : Matrix (Fin 2) (Fin 3) ℝ := !![1, 2, 3; 4, 5, 6]

def W : Matrix (Fin 3) (Fin 3) ℝ := !![0, 1, 2; -1, 0, 3; -2, -3, 0]

theorem W_skew : Wᵀ = -W := by
  ext i j
  fin_cases i <;> fin_cases j <;> simp [W]

/-- Steps of the exact method, started at `P`. -/
noncomputable def hist (V : ℕ → Matrix (Fin 3) (Fin 2) ℝ) (t : ℕ → ℝ) : ℕ → Matrix (Fin 2) (Fin 3) ℝ
  | 0 => P
  | k + 1 => ((C61_cayley (hist V t k)ᵀ (skew (hist V t k) (V k)) (skew_transpose _ _) (t k)).1.choose)ᵀ

example := C61_cayley Pᵀ W W_skew 2
example (V : ℕ → Matrix (Fin 3) (Fin 2) ℝ) (t : ℕ → ℝ) (k : ℕ) : hist V t k * (hist V t k)ᵀ = 1 :=
  C61_history (hist V t) V t P_orth (fun j => by
    have := (C61_cayley (hist V t j)ᵀ (skew (hist V t j) (V j)) (skew_transpose _ _) (t j)).1.choose_spec.1
    simpa only [hist, Matrix.transpose_transpose] using this) k
example (k : ℕ) := C61_loop Pᵀ W (1 / 10) (by norm_num) _ (Or.inl rfl) _ (C61_cayley Pᵀ W W_skew (stepSize W (1 / 10))).1.choose_spec.1 0 k 0
example := C61_retracted qr isQR P P_orth
example (B : Matrix (Fin 3) (Fin 2) ℝ) := C61_sgd qr isQR P P_orth (9 / 10) B ⟨G, 1 / 10, true⟩ (by norm_num)
example (m : Matrix (Fin 3) (Fin 2) ℝ) :=
  C61_adam qr isQR ⟨P, m, 2, 9 / 10, 99 / 100⟩ P_orth (9 / 10) (99 / 100) (1 / 100000000) ⟨G, 1 / 10, false⟩ (by norm_num)
example := C61_exact_violated qr P P_orth (9 / 10) (1 / 10)
example (e : Event (Fin 2) (Fin 3)) := C62_memoryless_violated qr (9 / 10) P P [⟨G, 0, false⟩] [⟨G, 0, false⟩] rfl e
example := C62_euclid (A := ℝ) (9 / 10) 0 (by norm_num) 1 2 (1 / 10) [(3, 1 / 10), (4, 1 / 10)]
example := C77_projection P P_orth Gᵀ
example := C77_direction P Gᵀ 1 one_pos (by norm_num) (by rw [P_orth]; simp)
example := C62_adam_first qr (9 / 10) (99 / 100) (1 / 100000000) (by norm_num) (by norm_num) P ⟨G, 1 / 10, true⟩
example := C62_adam qr (9 / 10) (99 / 100) (1 / 100000000) ⟨P, Gᵀ, 2, 9 / 10, 99 / 100⟩ ⟨G, 1 / 10, true⟩
  (by rw [show start qr P true = P from C61_retracted qr isQR P P_orth]; exact P_orth) (by norm_num)
  (by
    have : 0 ≤ ∑ i, ∑ j, G i j ^ 2 := Finset.sum_nonneg fun i _ => Finset.sum_nonneg fun j _ => sq_nonneg _
    have h2 : (99 / 100 * 2 + (1 - 99 / 100) * ∑ i, ∑ j, G i j ^ 2) / (1 - 99 / 100) + 1 / 100000000 =
        198 + (∑ i, ∑ j, G i j ^ 2) + 1 / 100000000 := by ring
    show (0 : ℝ) < (99 / 100 * 2 + (1 - 99 / 100) * ∑ i, ∑ j, G i j ^ 2) / (1 - 99 / 100) + 1 / 100000000
    rw [h2]; positivity)

/-- A linear loss goes down from `P`. -/
example : ∃ δ > 0, ∀ lr, 0 < lr → lr < δ → ip G (sgdStep qr 0 (P, 0) ⟨G, lr, true⟩).1 < ip G (start qr P true) :=
  C77_downhill qr isQR P G P_orth true (fun Z => ip G Z) (by
    intro ε hε
    refine ⟨1, one_pos, fun Z _ => ?_⟩
    have : ip G Z - ip G (start qr P true) - ip G (Z - start qr P true) = 0 := by
      have e : Z = start qr P true + (Z - start qr P true) := by abel
      have := ip_add_right (start qr P true) (Z - start qr P true) G
      rw [← e] at this
      linarith
    rw [this, abs_zero]
    exact mul_nonneg hε.le (Finset.sum_nonneg fun i _ => Finset.sum_nonneg fun j _ => abs_nonneg _)) (by
    rw [show start qr P true = P from C61_retracted qr isQR P P_orth]
    intro h
    have := congrFun (congrFun h 0) 0
    simp only [skew, P, G, Matrix.mul_apply, Fin.sum_univ_three, Fin.sum_univ_two, Matrix.sub_apply, Matrix.smul_apply, Matrix.transpose_apply, Matrix.neg_apply] at this
    have e : ∀ a b c : ℝ, ![a, b, c] 2 = c := fun _ _ _ => rfl
    norm_num [e] at this)

end StiefelCase
end Kerch
