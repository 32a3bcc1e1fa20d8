import Verif.Lemmas.KPCA
import Verif.Props.KernelMat
/-!
# C47-C49, C66, C67: kernel PCA
-/
set_option linter.unusedSectionVars false
set_option linter.unusedSimpArgs false
namespace Kerch
open Finset Level KPCA

section
variable {n d : ℕ}

/-! ## helper lemmas -/

theorem levelC_apply (Φ : Fin n → Fin d → ℝ) (i j : Fin d) : levelC Φ i j = (1 / (n : ℝ)) * ∑ a, Φ a i * Φ a j := by
  simp [levelC, matC, Matrix.mul_apply, Matrix.smul_apply]

theorem levelK_apply (κ : ℝ) (Φ : Fin n → Fin d → ℝ) (i j : Fin n) : levelK κ Φ i j = κ * ∑ a, Φ i a * Φ j a := by
  simp [levelK, matK, Matrix.mul_apply]

theorem levelC_psd (Φ : Fin n → Fin d → ℝ) : PSDMat (levelC Φ) := by
  have := (psdMat_gram (fun (j : Fin d) (a : Fin n) => Φ a j)).smul (a := 1 / (n : ℝ)) (by positivity)
  have e : levelC Φ = fun i j => 1 / (n : ℝ) * ((fun a => Φ a i) ⬝ᵥ fun a => Φ a j) := by
    funext i j; rw [levelC_apply]; rfl
  rw [e]; exact this

theorem levelK_psd {κ : ℝ} (hκ : 0 ≤ κ) (Φ : Fin n → Fin d → ℝ) : PSDMat (levelK κ Φ) := by
  have := (psdMat_gram Φ).smul hκ
  have e : levelK κ Φ = fun i j => κ * (Φ i ⬝ᵥ Φ j) := by
    funext i j; rw [levelK_apply]; rfl
  rw [e]; exact this

theorem levelK_trace (hn : n ≠ 0) (κ : ℝ) (Φ : Fin n → Fin d → ℝ) : ∑ i, levelK κ Φ i i = κ * (n * ∑ j, levelC Φ j j) := by
  have : Nonempty (Fin n) := ⟨⟨0, Nat.pos_of_ne_zero hn⟩⟩
  have h := C31_trace (n := Fin n) (d := Fin d) (Matrix.of Φ)
  have h' : ∑ i, matK (Matrix.of Φ) i i = n * ∑ j, levelC Φ j j := by simpa [Matrix.trace, levelC] using h
  rw [← h', mul_sum]; rfl

/-- Sums over the kept components lie between zero and the trace, and increase with the dimension. -/
theorem kept_sum {m : ℕ} {M : Fin m → Fin m → ℝ} (hM : PSDMat M) (D : EigDecomp M) (k : ℕ) :
    0 ≤ ∑ l : D.Kept k, D.lam l.1 ∧ ∑ l : D.Kept k, D.lam l.1 ≤ ∑ i, M i i := by
  rw [D.sum_kept k fun l => D.lam l, D.trace_eq]
  constructor
  · refine sum_nonneg fun l _ => ?_
    split
    · exact D.lam_nonneg hM l
    · exact le_refl _
  · refine sum_le_sum fun l _ => ?_
    split
    · exact le_refl _
    · exact D.lam_nonneg hM l

theorem kept_mono {m : ℕ} {M : Fin m → Fin m → ℝ} (hM : PSDMat M) (D D' : EigDecomp M) (hD : D.lam = D'.lam) {k k' : ℕ} (h : k ≤ k') :
    ∑ l : D.Kept k, D.lam l.1 ≤ ∑ l : D'.Kept k', D'.lam l.1 := by
  rw [D.sum_kept k fun l => D.lam l, D'.sum_kept k' fun l => D'.lam l, ← hD]
  refine sum_le_sum fun l _ => ?_
  by_cases h1 : l.val < k ∧ EPS ≤ D.lam l
  · rw [if_pos h1, if_pos ⟨h1.1.trans_le h, h1.2⟩]
  · rw [if_neg h1]
    split
    · exact D.lam_nonneg hM l
    · exact le_refl _

theorem kept_all {m : ℕ} {M : Fin m → Fin m → ℝ} (D : EigDecomp M) (k : ℕ) (h : ∀ l : Fin m, ¬ (l.val < k ∧ EPS ≤ D.lam l) → D.lam l = 0) :
    ∑ l : D.Kept k, D.lam l.1 = ∑ i, M i i := by
  rw [D.sum_kept k fun l => D.lam l, D.trace_eq]
  refine sum_congr rfl fun l _ => ?_
  split
  · rfl
  · rename_i hl; exact (h l hl).symm

/-! ## C47 -/

/-- **C47**, partial: in primal representation the relative variance lies between 0 and 1. -/
theorem C47_primal_partial (Φ : Fin n → Fin d → ℝ) (κ : ℝ) (D : EigDecomp (levelC Φ)) (k : ℕ) :
    0 ≤ relVar (modelVarP D k) (totalVar .primal κ Φ) ∧ relVar (modelVarP D k) (totalVar .primal κ Φ) ≤ 1 := by
  obtain ⟨h0, h1⟩ := kept_sum (levelC_psd Φ) D k
  exact ⟨div_nonneg h0 (h0.trans h1), div_le_one_of_le₀ h1 (h0.trans h1)⟩

/-- **C47**, partial: it increases with the output dimension (whatever decompositions with the same eigenvalues are returned). -/
theorem C47_primal_mono_partial (Φ : Fin n → Fin d → ℝ) (κ : ℝ) (D D' : EigDecomp (levelC Φ)) (hD : D.lam = D'.lam) (k k' : ℕ) (h : k ≤ k') :
    relVar (modelVarP D k) (totalVar .primal κ Φ) ≤ relVar (modelVarP D' k') (totalVar .primal κ Φ) := by
  obtain ⟨h0, h1⟩ := kept_sum (levelC_psd Φ) D k
  exact div_le_div_of_nonneg_right (kept_mono (levelC_psd Φ) D D' hD h) (h0.trans h1)

/-- **C47**, partial: it is 1 if no component with a non-zero eigenvalue is discarded (and the data is not all zero). -/
theorem C47_primal_complete_partial (Φ : Fin n → Fin d → ℝ) (κ : ℝ) (D : EigDecomp (levelC Φ)) (k : ℕ)
    (h : ∀ l : Fin d, ¬ (l.val < k ∧ EPS ≤ D.lam l) → D.lam l = 0) (ht : totalVar .primal κ Φ ≠ 0) :
    relVar (modelVarP D k) (totalVar .primal κ Φ) = 1 := by
  have : modelVarP D k = totalVar .primal κ Φ := kept_all D k h
  rw [relVar, this, div_self ht]

/-- **C47**, partial: a model of which the default representation is primal, solved in dual with `kappa = 1`, has the right relative variance too. -/
theorem C47_mixed_partial (hn : n ≠ 0) (Φ : Fin n → Fin d → ℝ) (E : EigDecomp (levelK 1 Φ)) (k : ℕ) :
    0 ≤ relVar (modelVarD E k) (totalVar .primal 1 Φ) ∧ relVar (modelVarD E k) (totalVar .primal 1 Φ) ≤ 1 ∧
    ((∀ l : Fin n, ¬ (l.val < k ∧ EPS ≤ E.lam l) → E.lam l = 0) → totalVar .primal 1 Φ ≠ 0 →
      relVar (modelVarD E k) (totalVar .primal 1 Φ) = 1) := by
  have hn' : (n : ℝ) ≠ 0 := by exact_mod_cast hn
  have hp : (0 : ℝ) < n := by positivity
  have hm : modelVarD E k = (1 / (n : ℝ)) * ∑ l : E.Kept k, E.lam l.1 := by rw [modelVarD, mul_sum]
  have ht : ∑ i, levelK 1 Φ i i = n * totalVar .primal 1 Φ := by rw [levelK_trace hn, one_mul]; rfl
  obtain ⟨h0, h1⟩ := kept_sum (levelK_psd zero_le_one Φ) E k
  rw [ht] at h1
  have h1' : modelVarD E k ≤ totalVar .primal 1 Φ := by
    rw [hm, one_div, inv_mul_le_iff₀ hp]; exact h1
  have h0' : 0 ≤ modelVarD E k := by rw [hm]; positivity
  refine ⟨div_nonneg h0' (h0'.trans h1'), div_le_one_of_le₀ h1' (h0'.trans h1'), fun h hne => ?_⟩
  have := kept_all E k h
  rw [ht] at this
  rw [relVar, hm, this]
  field_simp

/-- **C47** violated, with what holds instead: with the dual representation as default, the relative variance of a model with `n` points never exceeds
`1/n`; a complete model has `1/n`, not 1. -/
theorem C47_dual_violated (hn : n ≠ 0) (Φ : Fin n → Fin d → ℝ) (κ : ℝ) (hκ : 0 ≤ κ) (E : EigDecomp (levelK κ Φ)) (k : ℕ) :
    0 ≤ relVar (modelVarD E k) (totalVar .dual κ Φ) ∧ relVar (modelVarD E k) (totalVar .dual κ Φ) ≤ 1 / n ∧
    ((∀ l : Fin n, ¬ (l.val < k ∧ EPS ≤ E.lam l) → E.lam l = 0) → totalVar .dual κ Φ ≠ 0 →
      relVar (modelVarD E k) (totalVar .dual κ Φ) = 1 / n) := by
  have hn' : (n : ℝ) ≠ 0 := by exact_mod_cast hn
  have hm : modelVarD E k = (1 / (n : ℝ)) * ∑ l : E.Kept k, E.lam l.1 := by rw [modelVarD, mul_sum]
  obtain ⟨h0, h1⟩ := kept_sum (levelK_psd hκ Φ) E k
  have ht : totalVar .dual κ Φ = ∑ i, levelK κ Φ i i := rfl
  rw [ht, relVar, hm, mul_div_assoc]
  refine ⟨mul_nonneg (by positivity) (div_nonneg h0 (h0.trans h1)), ?_, fun h hne => ?_⟩
  · exact mul_le_of_le_one_right (by positivity) (div_le_one_of_le₀ h1 (h0.trans h1))
  · rw [kept_all E k h, div_self hne, mul_one]

/-! ## C48 -/

variable {m : ℕ} {M : Fin m → Fin m → ℝ}

/-- **C48**: the loss of orthonormal parameters is non-negative. -/
theorem C48_nonneg (hM : PSDMat M) (D : EigDecomp M) {A : Type} [Fintype A] [DecidableEq A] (U : A → Fin m → ℝ)
    (hU : ∀ a b, ∑ i, U a i * U b i = if a = b then 1 else 0) : 0 ≤ loss M U := by
  rw [loss, captured D U, D.trace_eq, ← sum_sub_distrib]
  refine sum_nonneg fun l _ => ?_
  have := captured_le_one D U hU l
  nlinarith [D.lam_nonneg hM l]

/-- **C48**: the parameters after `solve` are orthonormal, and the loss is the sum of the discarded eigenvalues. -/
theorem C48_solution (D : EigDecomp M) (k : ℕ) :
    (∀ a b : D.Kept k, ∑ i, solU D k a i * solU D k b i = if a.1 = b.1 then 1 else 0) ∧
    loss M (solU D k) = ∑ l, if l.val < k ∧ EPS ≤ D.lam l then 0 else D.lam l := by
  refine ⟨fun a b => D.orth a.1 b.1, ?_⟩
  rw [loss]
  have hc : ∑ i, ∑ j, (∑ a, solU D k a i * solU D k a j) * M j i = ∑ l : D.Kept k, D.lam l.1 := by
    calc ∑ i, ∑ j, (∑ a, solU D k a i * solU D k a j) * M j i
        = ∑ i, ∑ j, ∑ a : D.Kept k, D.V i a.1 * (D.V j a.1 * M j i) := by
          refine sum_congr rfl fun i _ => sum_congr rfl fun j _ => ?_
          rw [sum_mul]
          exact sum_congr rfl fun a _ => by rw [solU, solU]; ring
      _ = ∑ i, ∑ a : D.Kept k, D.V i a.1 * ∑ j, M i j * D.V j a.1 := by
          refine sum_congr rfl fun i _ => ?_
          rw [sum_comm]
          refine sum_congr rfl fun a _ => ?_
          rw [mul_sum]
          exact sum_congr rfl fun j _ => by rw [D.symm i j]; ring
      _ = ∑ a : D.Kept k, ∑ i, D.lam a.1 * (D.V i a.1 * D.V i a.1) := by
          rw [sum_comm]
          exact sum_congr rfl fun a _ => sum_congr rfl fun i _ => by rw [D.eig i a.1]; ring
      _ = ∑ l : D.Kept k, D.lam l.1 := by
          refine sum_congr rfl fun a _ => ?_
          rw [← mul_sum, D.orth a.1 a.1, if_pos rfl, mul_one]
  rw [hc, D.sum_kept k fun l => D.lam l, D.trace_eq, ← sum_sub_distrib]
  refine sum_congr rfl fun l _ => ?_
  split <;> ring

/-- **C48**: the solution minimises the loss among all orthonormal parameters with at most as many components. -/
theorem C48_optimal (D : EigDecomp M) (k : ℕ) {A : Type} [Fintype A] [DecidableEq A] (U : A → Fin m → ℝ)
    (hU : ∀ a b, ∑ i, U a i * U b i = if a = b then 1 else 0) (hc : Fintype.card A ≤ Fintype.card (D.Kept k)) :
    loss M (solU D k) ≤ loss M U := by
  rw [(C48_solution D k).2, loss, captured D U, D.trace_eq, ← sum_sub_distrib]
  obtain ⟨p, hp⟩ : ∃ p : Fin m → ℝ, p = fun l => ∑ a, (∑ i, U a i * D.V i l) ^ 2 := ⟨_, rfl⟩
  have hp0 : ∀ l, 0 ≤ p l := fun l => by rw [hp]; exact sum_nonneg fun a _ => sq_nonneg _
  have hp1 : ∀ l, p l ≤ 1 := fun l => by rw [hp]; exact captured_le_one D U hU l
  have hps : ∑ l, p l = Fintype.card A := by rw [hp]; exact captured_sum D U hU
  have hcard : (Fintype.card (D.Kept k) : ℝ) = ∑ l : Fin m, if l.val < k ∧ EPS ≤ D.lam l then 1 else 0 := by
    rw [← D.sum_kept k fun _ => (1 : ℝ)]; simp
  have hc' : (Fintype.card A : ℝ) ≤ Fintype.card (D.Kept k) := by exact_mod_cast hc
  rw [← hps, hcard] at hc'
  -- a value between the kept eigenvalues and the others
  obtain ⟨c, hc0, hin, hout⟩ : ∃ c : ℝ, 0 ≤ c ∧ (∀ l : Fin m, (l.val < k ∧ EPS ≤ D.lam l) → c ≤ D.lam l) ∧
      ((∃ l : Fin m, l.val < k ∧ EPS ≤ D.lam l) → ∀ l : Fin m, ¬ (l.val < k ∧ EPS ≤ D.lam l) → D.lam l ≤ c) := by
    classical
    by_cases hS : (univ.filter fun l : Fin m => l.val < k ∧ EPS ≤ D.lam l).Nonempty
    · obtain ⟨l0, hl0, hmin⟩ := exists_min_image _ D.lam hS
      have h0 : l0.val < k ∧ EPS ≤ D.lam l0 := by simpa using hl0
      refine ⟨D.lam l0, EPS_pos.le.trans h0.2, fun l hl => hmin l (by simpa using hl), fun _ l hl => ?_⟩
      by_cases hlk : l.val < k
      · have : D.lam l < EPS := by
          by_contra hge
          exact hl ⟨hlk, not_lt.1 hge⟩
        linarith [h0.2]
      · exact D.sorted (show l0 ≤ l from by have := h0.1; exact Fin.le_def.2 (by omega))
    · refine ⟨0, le_refl _, fun l hl => absurd ⟨l, by simpa using hl⟩ hS, fun ⟨l, hl⟩ => absurd ⟨l, by simpa using hl⟩ hS⟩
  by_cases hex : ∃ l : Fin m, l.val < k ∧ EPS ≤ D.lam l
  · have hterm : ∀ l, c * ((if l.val < k ∧ EPS ≤ D.lam l then 1 else 0) - p l)
        ≤ (D.lam l - D.lam l * p l) - (if l.val < k ∧ EPS ≤ D.lam l then 0 else D.lam l) := by
      intro l
      by_cases hl : l.val < k ∧ EPS ≤ D.lam l
      · rw [if_pos hl, if_pos hl]
        nlinarith [hin l hl, hp1 l]
      · rw [if_neg hl, if_neg hl]
        nlinarith [hout hex l hl, hp0 l]
    have := sum_le_sum fun l (_ : l ∈ (univ : Finset (Fin m))) => hterm l
    rw [← mul_sum, sum_sub_distrib, sum_sub_distrib] at this
    have h2 : 0 ≤ c * (∑ l : Fin m, (if l.val < k ∧ EPS ≤ D.lam l then (1 : ℝ) else 0) - ∑ l, p l) := mul_nonneg hc0 (by linarith)
    rw [hp] at this h2
    linarith
  · have hz : ∀ l, p l = 0 := by
      have h0 : ∑ l, p l ≤ 0 := by
        refine hc'.trans (le_of_eq ?_)
        exact sum_eq_zero fun l _ => if_neg fun h => hex ⟨l, h⟩
      have := (sum_eq_zero_iff_of_nonneg fun l _ => hp0 l).1 (le_antisymm h0 (sum_nonneg fun l _ => hp0 l))
      exact fun l => this l (mem_univ l)
    refine sum_le_sum fun l _ => ?_
    have hl : ¬ (l.val < k ∧ EPS ≤ D.lam l) := fun h => hex ⟨l, h⟩
    rw [if_neg hl]
    have := hz l
    rw [hp] at this
    rw [show ∑ a, (∑ i, U a i * D.V i l) ^ 2 = 0 from this]
    simp

/-! ## C49 -/

/-- **C49**, general form: for every eigenvalue `c > 0` of the covariance, the products of the dual scores of any two points, summed over the components
of eigenvalue `κ n c` of the kernel matrix, are `n/κ` times those of the primal scores over the components of eigenvalue `c`: within an eigenvalue the scores
are the same up to scaling and a common rotation, whatever decompositions are returned. -/
theorem C49_general (hn : n ≠ 0) (Φ : Fin n → Fin d → ℝ) (κ : ℝ) (hκ : 0 < κ) (D : EigDecomp (levelC Φ)) (E : EigDecomp (levelK κ Φ)) (c : ℝ)
    (hc : 0 < c) (φ ψ : Fin d → ℝ) :
    (∑ l, if E.lam l = κ * n * c then scoreD E Φ φ l * scoreD E Φ ψ l else 0)
      = n / κ * ∑ l, if D.lam l = c then scoreP D κ φ l * scoreP D κ ψ l else 0 := by
  have hn' : (n : ℝ) ≠ 0 := by exact_mod_cast hn
  have hnp : (0 : ℝ) < n := by positivity
  -- images of the dual eigenvectors
  obtain ⟨W, hW⟩ : ∃ W : Fin n → Fin d → ℝ, W = fun l j => ∑ i, E.V i l * Φ i j := ⟨_, rfl⟩
  have hsD : ∀ (φ : Fin d → ℝ) l, scoreD E Φ φ l = ∑ j, φ j * W l j := by
    intro φ l
    rw [scoreD, hW]
    simp_rw [sum_mul, mul_sum]
    rw [sum_comm]
    exact sum_congr rfl fun j _ => sum_congr rfl fun i _ => by ring
  -- they are eigenvectors of the covariance
  have hWeig : ∀ l, E.lam l = κ * n * c → ∀ i, ∑ j, levelC Φ i j * W l j = c * W l i := by
    intro l hl i
    have he : ∀ a, ∑ j, Φ a j * W l j = n * c * E.V a l := by
      intro a
      have := E.eig a l
      simp only [levelK_apply] at this
      rw [hl] at this
      have h2 : κ * ∑ j, Φ a j * W l j = κ * (n * c * E.V a l) := by
        rw [← mul_assoc, ← mul_assoc, ← this, hW, mul_sum]
        simp_rw [mul_sum, sum_mul]
        rw [sum_comm]
        exact sum_congr rfl fun j _ => sum_congr rfl fun x _ => by ring
      exact mul_left_cancel₀ hκ.ne' h2
    calc ∑ j, levelC Φ i j * W l j = ∑ j, ∑ a, (1 / (n : ℝ)) * (Φ a i * (Φ a j * W l j)) := by
          refine sum_congr rfl fun j _ => ?_
          rw [levelC_apply, mul_sum, sum_mul]
          exact sum_congr rfl fun a _ => by ring
      _ = ∑ a, (1 / (n : ℝ)) * (Φ a i * ∑ j, Φ a j * W l j) := by
          rw [sum_comm]
          refine sum_congr rfl fun a _ => ?_
          rw [mul_sum, mul_sum]
      _ = c * W l i := by
          rw [show W l i = ∑ a, E.V a l * Φ a i from by rw [hW], mul_sum]
          refine sum_congr rfl fun a _ => ?_
          rw [he a]
          field_simp
  -- coefficients on the primal eigenvectors
  obtain ⟨A, hA⟩ : ∃ A : Fin n → Fin d → ℝ, A = fun l m => ∑ j, W l j * D.V j m := ⟨_, rfl⟩
  have hexp : ∀ l, E.lam l = κ * n * c → ∀ j, W l j = ∑ m, if D.lam m = c then A l m * D.V j m else 0 := by
    intro l hl j
    rw [hA]
    exact D.eig_expand (W l) c (hWeig l hl) j
  -- the images of the primal eigenvectors are eigenvectors of the kernel matrix
  obtain ⟨Z, hZ⟩ : ∃ Z : Fin d → Fin n → ℝ, Z = fun m i => ∑ j, Φ i j * D.V j m := ⟨_, rfl⟩
  have hAZ : ∀ l m, A l m = ∑ i, Z m i * E.V i l := by
    intro l m
    rw [hA, hZ, hW]
    simp_rw [sum_mul]
    rw [sum_comm]
    exact sum_congr rfl fun i _ => sum_congr rfl fun j _ => by ring
  have hCV : ∀ m j, ∑ a, Φ a j * Z m a = n * (D.lam m * D.V j m) := by
    intro m j
    rw [← D.eig j m, hZ]
    simp_rw [levelC_apply, mul_sum, sum_mul]
    rw [sum_comm]
    refine sum_congr rfl fun j' _ => ?_
    rw [mul_sum]
    refine sum_congr rfl fun a _ => ?_
    field_simp
  have hZeig : ∀ m, D.lam m = c → ∀ i, ∑ j, levelK κ Φ i j * Z m j = κ * n * c * Z m i := by
    intro m hm i
    calc ∑ j, levelK κ Φ i j * Z m j = ∑ a, κ * (Φ i a * ∑ j, Φ j a * Z m j) := by
          simp_rw [levelK_apply, mul_sum, sum_mul]
          rw [sum_comm]
          exact sum_congr rfl fun a _ => sum_congr rfl fun j _ => by ring
      _ = ∑ a, κ * n * c * (Φ i a * D.V a m) := by
          refine sum_congr rfl fun a _ => ?_
          rw [hCV m a, hm]; ring
      _ = κ * n * c * Z m i := by rw [← mul_sum, hZ]
  have hZZ : ∀ m m', D.lam m = c → ∑ i, Z m' i * Z m i = if m = m' then n * c else 0 := by
    intro m m' hm
    calc ∑ i, Z m' i * Z m i = ∑ i, ∑ j, D.V j m' * (Φ i j * Z m i) := by
          refine sum_congr rfl fun i _ => ?_
          rw [show Z m' i = ∑ j, Φ i j * D.V j m' from by rw [hZ], sum_mul]
          exact sum_congr rfl fun j _ => by ring
      _ = ∑ j, n * c * (D.V j m * D.V j m') := by
          rw [sum_comm]
          refine sum_congr rfl fun j _ => ?_
          rw [← mul_sum, hCV m j, hm]; ring
      _ = if m = m' then n * c else 0 := by
          rw [← mul_sum, D.orth m m']
          split <;> simp
  -- orthogonality of the coefficients
  have hAA : ∀ m m', D.lam m = c → D.lam m' = c → (∑ l, if E.lam l = κ * n * c then A l m * A l m' else 0) = if m = m' then n * c else 0 := by
    intro m m' hm hm'
    rw [← hZZ m m' hm]
    calc (∑ l, if E.lam l = κ * n * c then A l m * A l m' else 0)
        = ∑ l, ∑ i, Z m' i * (if E.lam l = κ * n * c then (∑ j, Z m j * E.V j l) * E.V i l else 0) := by
          refine sum_congr rfl fun l _ => ?_
          by_cases hl : E.lam l = κ * n * c
          · simp only [if_pos hl]
            rw [hAZ l m, hAZ l m', mul_sum]
            exact sum_congr rfl fun i _ => by ring
          · simp only [if_neg hl, mul_zero, sum_const_zero]
      _ = ∑ i, Z m' i * Z m i := by
          rw [sum_comm]
          refine sum_congr rfl fun i _ => ?_
          rw [← mul_sum, ← E.eig_expand (Z m) (κ * n * c) (hZeig m hm) i]
  -- scores
  have hφ : ∀ (φ : Fin d → ℝ) l, E.lam l = κ * n * c → scoreD E Φ φ l = ∑ m, if D.lam m = c then A l m * ∑ j, φ j * D.V j m else 0 := by
    intro φ l hl
    rw [hsD]
    calc ∑ j, φ j * W l j = ∑ j, ∑ m, φ j * (if D.lam m = c then A l m * D.V j m else 0) :=
          sum_congr rfl fun j _ => by rw [hexp l hl j, mul_sum]
      _ = ∑ m, if D.lam m = c then A l m * ∑ j, φ j * D.V j m else 0 := by
          rw [sum_comm]
          refine sum_congr rfl fun m _ => ?_
          by_cases hm : D.lam m = c
          · simp only [if_pos hm, mul_sum]
            exact sum_congr rfl fun j _ => by ring
          · simp only [if_neg hm, mul_zero, sum_const_zero]
  have hsP : ∀ (φ : Fin d → ℝ) m, D.lam m = c → scoreP D κ φ m = Real.sqrt κ * Real.sqrt c * ∑ j, φ j * D.V j m := by
    intro φ m hm
    rw [scoreP, mul_sum, hm]
    exact sum_congr rfl fun j _ => by ring
  obtain ⟨f, hf⟩ : ∃ f : Fin d → ℝ, f = fun m => ∑ j, φ j * D.V j m := ⟨_, rfl⟩
  obtain ⟨g, hg⟩ : ∃ g : Fin d → ℝ, g = fun m => ∑ j, ψ j * D.V j m := ⟨_, rfl⟩
  have e1 : (∑ l, if E.lam l = κ * n * c then scoreD E Φ φ l * scoreD E Φ ψ l else 0)
      = ∑ m, ∑ m', if D.lam m = c then if D.lam m' = c then
          f m * g m' * ∑ l, (if E.lam l = κ * n * c then A l m * A l m' else 0) else 0 else 0 := by
    calc (∑ l, if E.lam l = κ * n * c then scoreD E Φ φ l * scoreD E Φ ψ l else 0)
        = ∑ l, ∑ m, ∑ m', if D.lam m = c then if D.lam m' = c then
          f m * g m' * (if E.lam l = κ * n * c then A l m * A l m' else 0) else 0 else 0 := by
          refine sum_congr rfl fun l _ => ?_
          by_cases hl : E.lam l = κ * n * c
          · simp only [if_pos hl]
            rw [hφ φ l hl, hφ ψ l hl, sum_mul_sum]
            refine sum_congr rfl fun m _ => sum_congr rfl fun m' _ => ?_
            by_cases hm : D.lam m = c <;> by_cases hm' : D.lam m' = c
            · simp only [if_pos hm, if_pos hm', hf, hg]; ring
            · simp only [if_pos hm, if_neg hm', mul_zero]
            · simp only [if_neg hm, zero_mul]
            · simp only [if_neg hm, zero_mul]
          · simp only [if_neg hl, mul_zero, ite_self, sum_const_zero]
      _ = _ := by
          rw [sum_comm]
          refine sum_congr rfl fun m _ => ?_
          rw [sum_comm]
          refine sum_congr rfl fun m' _ => ?_
          by_cases hm : D.lam m = c <;> by_cases hm' : D.lam m' = c
          · simp only [if_pos hm, if_pos hm', mul_sum]
          · simp only [if_pos hm, if_neg hm', sum_const_zero]
          · simp only [if_neg hm, sum_const_zero]
          · simp only [if_neg hm, sum_const_zero]
  rw [e1, mul_sum]
  refine sum_congr rfl fun m _ => ?_
  by_cases hm : D.lam m = c
  · simp only [if_pos hm]
    have : ∀ m', (if D.lam m' = c then f m * g m' * ∑ l, (if E.lam l = κ * n * c then A l m * A l m' else 0) else 0)
        = if m = m' then f m * g m * (n * c) else 0 := by
      intro m'
      by_cases hm' : D.lam m' = c
      · rw [if_pos hm', hAA m m' hm hm']
        by_cases h : m = m'
        · subst h; simp
        · simp [h]
      · rw [if_neg hm', if_neg (fun h : m = m' => hm' (h ▸ hm))]
    rw [sum_congr rfl fun m' _ => this m', sum_ite_eq, if_pos (mem_univ m), hsP φ m hm, hsP ψ m hm]
    have hs : Real.sqrt κ * Real.sqrt κ = κ := Real.mul_self_sqrt hκ.le
    have hs' : Real.sqrt c * Real.sqrt c = c := Real.mul_self_sqrt hc.le
    have hff : f m = ∑ j, φ j * D.V j m := by rw [hf]
    have hgg : g m = ∑ j, ψ j * D.V j m := by rw [hg]
    rw [← hff, ← hgg]
    calc f m * g m * (n * c) = n / κ * (κ * c) * (f m * g m) := by field_simp
      _ = n / κ * ((Real.sqrt κ * Real.sqrt κ) * (Real.sqrt c * Real.sqrt c)) * (f m * g m) := by rw [hs, hs']
      _ = _ := by ring
  · simp only [if_neg hm, sum_const_zero, mul_zero]

/-- Each positive eigenvalue of the covariance has as many components in dual as in primal. -/
theorem eig_card (hn : n ≠ 0) (Φ : Fin n → Fin d → ℝ) (κ : ℝ) (hκ : 0 < κ) (D : EigDecomp (levelC Φ)) (E : EigDecomp (levelK κ Φ)) (c : ℝ)
    (hc : 0 < c) : (univ.filter fun l => E.lam l = κ * n * c).card = (univ.filter fun l => D.lam l = c).card := by
  have hn' : (n : ℝ) ≠ 0 := by exact_mod_cast hn
  have hnp : (0 : ℝ) < n := by positivity
  -- sum the general identity over the unit vectors
  have h : ∑ a : Fin d, (∑ l, if E.lam l = κ * n * c then scoreD E Φ (Pi.single a 1) l * scoreD E Φ (Pi.single a 1) l else 0)
      = ∑ a : Fin d, n / κ * ∑ l, if D.lam l = c then scoreP D κ (Pi.single a 1) l * scoreP D κ (Pi.single a 1) l else 0 :=
    sum_congr rfl fun a _ => C49_general hn Φ κ hκ D E c hc _ _
  have hl : ∑ a : Fin d, (∑ l, if E.lam l = κ * n * c then scoreD E Φ (Pi.single a 1) l * scoreD E Φ (Pi.single a 1) l else 0)
      = ∑ l, if E.lam l = κ * n * c then n * c else 0 := by
    rw [sum_comm]
    refine sum_congr rfl fun l _ => ?_
    by_cases hl : E.lam l = κ * n * c
    · simp only [if_pos hl]
      have hs : ∀ a : Fin d, scoreD E Φ (Pi.single a 1) l = ∑ i, Φ i a * E.V i l := by
        intro a
        rw [scoreD]
        refine sum_congr rfl fun i _ => ?_
        simp [Pi.single_apply, ite_mul]
      simp_rw [hs]
      have h1 : κ * ∑ a, (∑ i, Φ i a * E.V i l) * ∑ i, Φ i a * E.V i l = κ * (n * c) := by
        have hv := E.orth l l
        rw [if_pos rfl] at hv
        calc κ * ∑ a, (∑ i, Φ i a * E.V i l) * ∑ i, Φ i a * E.V i l
            = ∑ i, E.V i l * ∑ j, levelK κ Φ i j * E.V j l := by
              simp_rw [levelK_apply, sum_mul_sum, mul_sum, sum_mul, mul_sum]
              rw [sum_comm]
              refine sum_congr rfl fun i _ => ?_
              rw [sum_comm]
              exact sum_congr rfl fun j _ => sum_congr rfl fun a _ => by ring
          _ = ∑ i, κ * (n * c) * (E.V i l * E.V i l) := sum_congr rfl fun i _ => by rw [E.eig i l, hl]; ring
          _ = κ * (n * c) := by rw [← mul_sum, hv, mul_one]
      exact mul_left_cancel₀ hκ.ne' h1
    · simp only [if_neg hl, sum_const_zero]
  have hr : ∑ a : Fin d, n / κ * (∑ l, if D.lam l = c then scoreP D κ (Pi.single a 1) l * scoreP D κ (Pi.single a 1) l else 0)
      = ∑ l, if D.lam l = c then n * c else 0 := by
    rw [← mul_sum, sum_comm, mul_sum]
    refine sum_congr rfl fun l _ => ?_
    by_cases hl : D.lam l = c
    · simp only [if_pos hl]
      have hs : ∀ a : Fin d, scoreP D κ (Pi.single a 1) l = Real.sqrt κ * Real.sqrt c * D.V a l := by
        intro a
        rw [scoreP, hl]
        simp [Pi.single_apply, ite_mul]
        ring
      have hv := D.orth l l
      rw [if_pos rfl] at hv
      have hk : Real.sqrt κ * Real.sqrt κ = κ := Real.mul_self_sqrt hκ.le
      have hc' : Real.sqrt c * Real.sqrt c = c := Real.mul_self_sqrt hc.le
      calc n / κ * ∑ a, scoreP D κ (Pi.single a 1) l * scoreP D κ (Pi.single a 1) l
          = n / κ * ∑ a, ((Real.sqrt κ * Real.sqrt κ) * (Real.sqrt c * Real.sqrt c)) * (D.V a l * D.V a l) := by
            congr 1
            exact sum_congr rfl fun a _ => by rw [hs a]; ring
        _ = n * c := by rw [hk, hc', ← mul_sum, hv]; field_simp
    · simp only [if_neg hl, sum_const_zero, mul_zero]
  rw [hl, hr, ← sum_filter, ← sum_filter, sum_const, sum_const, nsmul_eq_mul, nsmul_eq_mul] at h
  have := mul_right_cancel₀ (by positivity : (n : ℝ) * c ≠ 0) h
  exact_mod_cast this

/-- The number of components with an eigenvalue of at least `c` is the same. -/
theorem eig_card_ge (hn : n ≠ 0) (Φ : Fin n → Fin d → ℝ) (κ : ℝ) (hκ : 0 < κ) (D : EigDecomp (levelC Φ)) (E : EigDecomp (levelK κ Φ)) (c : ℝ)
    (hc : 0 < c) : (univ.filter fun l => κ * n * c ≤ E.lam l).card = (univ.filter fun l => c ≤ D.lam l).card := by
  classical
  have hn' : (n : ℝ) ≠ 0 := by exact_mod_cast hn
  have hnp : (0 : ℝ) < κ * n := by positivity
  let T : Finset ℝ := ((univ.image D.lam) ∪ (univ.image fun l => E.lam l / (κ * n))).filter fun t => c ≤ t
  have h1 : (univ.filter fun l => c ≤ D.lam l).card = ∑ t ∈ T, (univ.filter fun l => D.lam l = t).card := by
    rw [card_eq_sum_card_fiberwise (f := D.lam) (t := T)]
    · refine sum_congr rfl fun t ht => ?_
      congr 1
      ext l
      simp only [mem_filter, mem_univ, true_and]
      refine ⟨fun h => h.2, fun h => ⟨?_, h⟩⟩
      rw [h]; exact (mem_filter.1 ht).2
    · intro l hl
      have hl' : c ≤ D.lam l := by simpa using hl
      simp only [T, coe_filter, Set.mem_ofPred_eq, mem_union, mem_image, mem_univ, true_and]
      exact ⟨Or.inl ⟨l, rfl⟩, hl'⟩
  have h2 : (univ.filter fun l => κ * n * c ≤ E.lam l).card = ∑ t ∈ T, (univ.filter fun l => E.lam l = κ * n * t).card := by
    rw [card_eq_sum_card_fiberwise (f := fun l => E.lam l / (κ * n)) (t := T)]
    · refine sum_congr rfl fun t ht => ?_
      congr 1
      ext l
      simp only [mem_filter, mem_univ, true_and]
      have ht' : c ≤ t := (mem_filter.1 ht).2
      constructor
      · rintro ⟨-, h⟩
        rw [← h]; field_simp
      · intro h
        refine ⟨?_, ?_⟩
        · rw [h]; exact mul_le_mul_of_nonneg_left ht' hnp.le
        · rw [h]; field_simp
    · intro l hl
      have hl' : κ * n * c ≤ E.lam l := by simpa using hl
      simp only [T, coe_filter, Set.mem_ofPred_eq, mem_union, mem_image, mem_univ, true_and]
      refine ⟨Or.inr ⟨l, rfl⟩, ?_⟩
      rw [le_div_iff₀ hnp]; linarith
  rw [h1, h2]
  exact sum_congr rfl fun t ht => eig_card hn Φ κ hκ D E t (hc.trans_le (mem_filter.1 ht).2)

/-- For a decreasing sequence, an element is at least `c` iff there are more such elements than its index. -/
theorem antitone_count {m : ℕ} (f : Fin m → ℝ) (hf : Antitone f) (c : ℝ) (i : ℕ) :
    i < (univ.filter fun l => c ≤ f l).card ↔ ∃ h : i < m, c ≤ f ⟨i, h⟩ := by
  constructor
  · intro h
    by_contra hno
    have hsub : (univ.filter fun l => c ≤ f l) ⊆ univ.filter fun l : Fin m => l.val < i := by
      intro l hl
      simp only [mem_filter, mem_univ, true_and] at hl ⊢
      by_contra hge
      have him : i < m := by omega
      exact hno ⟨him, hl.trans (hf (Fin.le_def.2 (by simpa using hge)))⟩
    have h2 := card_le_card hsub
    have h3 : (univ.filter fun l : Fin m => l.val < i).card ≤ i := by
      have : (univ.filter fun l : Fin m => l.val < i).card = ((univ.filter fun l : Fin m => l.val < i).image Fin.val).card :=
        (card_image_of_injective _ Fin.val_injective).symm
      rw [this]
      refine (card_le_card (t := range i) ?_).trans (by simp)
      intro x hx
      simp only [mem_image, mem_filter, mem_univ, true_and] at hx
      obtain ⟨l, hl, rfl⟩ := hx
      exact mem_range.2 hl
    omega
  · rintro ⟨him, hc⟩
    have hsub : (univ.filter fun l : Fin m => l.val ≤ i) ⊆ univ.filter fun l => c ≤ f l := by
      intro l hl
      simp only [mem_filter, mem_univ, true_and] at hl ⊢
      exact hc.trans (hf (Fin.le_def.2 hl))
    have h2 := card_le_card hsub
    have h3 : (univ.filter fun l : Fin m => l.val ≤ i).card = i + 1 := by
      have : (univ.filter fun l : Fin m => l.val ≤ i) = Finset.Iic ⟨i, him⟩ := by
        ext l; simp [Fin.le_def]
      rw [this, Fin.card_Iic]
    omega

/-- **C49**, eigenvalues: for every decomposition either solver may return, the `i`-th eigenvalue of the covariance, if positive, is matched by the `i`-th
one of the kernel matrix, which is `κ n` times as large: `vals` is the same in both representations for `κ = 1`. -/
theorem C49_vals (hn : n ≠ 0) (Φ : Fin n → Fin d → ℝ) (κ : ℝ) (hκ : 0 < κ) (D : EigDecomp (levelC Φ)) (E : EigDecomp (levelK κ Φ)) (i : Fin d)
    (hi : 0 < D.lam i) : ∃ h : i.val < n, E.lam ⟨i.val, h⟩ = κ * n * D.lam i := by
  have hn' : (n : ℝ) ≠ 0 := by exact_mod_cast hn
  have hnp : (0 : ℝ) < κ * n := by positivity
  have key : ∀ c, 0 < c → ((∃ h : i.val < n, κ * n * c ≤ E.lam ⟨i.val, h⟩) ↔ c ≤ D.lam i) := by
    intro c hc
    rw [← antitone_count E.lam E.sorted, eig_card_ge hn Φ κ hκ D E c hc, antitone_count D.lam D.sorted]
    exact ⟨fun ⟨_, h⟩ => h, fun h => ⟨i.2, h⟩⟩
  obtain ⟨h, h1⟩ := (key _ hi).2 (le_refl _)
  refine ⟨h, le_antisymm ?_ h1⟩
  have hpos : 0 < E.lam ⟨i.val, h⟩ / (κ * n) := div_pos ((mul_pos hnp hi).trans_le h1) hnp
  have h2 := (key _ hpos).1 ⟨h, le_of_eq (by field_simp)⟩
  rw [div_le_iff₀ hnp] at h2
  linarith

/-- **C49**: if a positive eigenvalue of the covariance is simple, the scores of all points along the `i`-th component agree in both representations, up to
one sign and the factor `√(n/κ)`, whatever decompositions are returned. -/
theorem C49 (hn : n ≠ 0) (Φ : Fin n → Fin d → ℝ) (κ : ℝ) (hκ : 0 < κ) (D : EigDecomp (levelC Φ)) (E : EigDecomp (levelK κ Φ)) (l : Fin d)
    (hc : 0 < D.lam l) (hl : ∀ m, D.lam m = D.lam l ↔ m = l) :
    ∃ h : l.val < n, ∃ s : ℝ, (s = 1 ∨ s = -1) ∧
      ∀ φ : Fin d → ℝ, scoreD E Φ φ ⟨l.val, h⟩ = s * (Real.sqrt (n / κ) * scoreP D κ φ l) := by
  obtain ⟨h, hE⟩ := C49_vals hn Φ κ hκ D E l hc
  refine ⟨h, ?_⟩
  obtain ⟨l', hl'd⟩ : ∃ l' : Fin n, l' = ⟨l.val, h⟩ := ⟨_, rfl⟩
  rw [← hl'd] at hE ⊢
  have hl' : ∀ m, E.lam m = κ * n * D.lam l ↔ m = l' := by
    have h1 := eig_card hn Φ κ hκ D E (D.lam l) hc
    have h2 : (univ.filter fun m => D.lam m = D.lam l) = {l} := by ext m; simp [hl m]
    rw [h2, card_singleton, card_eq_one] at h1
    obtain ⟨b, hb⟩ := h1
    have hm : ∀ m, E.lam m = κ * n * D.lam l ↔ m = b := by
      intro m
      have : m ∈ (univ.filter fun m => E.lam m = κ * n * D.lam l) ↔ m ∈ ({b} : Finset (Fin n)) := by rw [hb]
      simpa using this
    have : l' = b := (hm l').1 hE
    rw [this]; exact hm
  have key : ∀ φ ψ, scoreD E Φ φ l' * scoreD E Φ ψ l' = (Real.sqrt (n / κ) * scoreP D κ φ l) * (Real.sqrt (n / κ) * scoreP D κ ψ l) := by
    intro φ ψ
    have h := C49_general hn Φ κ hκ D E (D.lam l) hc φ ψ
    simp only [hl, hl', sum_ite_eq', mem_univ, if_true] at h
    have hs : Real.sqrt (n / κ) * Real.sqrt (n / κ) = n / κ := Real.mul_self_sqrt (by positivity)
    rw [h]
    calc n / κ * (scoreP D κ φ l * scoreP D κ ψ l) = (Real.sqrt (n / κ) * Real.sqrt (n / κ)) * (scoreP D κ φ l * scoreP D κ ψ l) := by rw [hs]
      _ = _ := by ring
  by_cases h0 : ∀ φ : Fin d → ℝ, scoreD E Φ φ l' = 0
  · refine ⟨1, Or.inl rfl, fun φ => ?_⟩
    have := key φ φ
    rw [h0 φ, zero_mul] at this
    rw [h0 φ, one_mul]
    exact (mul_self_eq_zero.1 this.symm).symm
  · push Not at h0
    obtain ⟨ψ, hψ⟩ := h0
    have h1 := key ψ ψ
    rcases mul_self_eq_mul_self_iff.1 h1 with h2 | h2
    · refine ⟨1, Or.inl rfl, fun φ => ?_⟩
      have := key φ ψ
      rw [← h2] at this
      rw [one_mul]
      exact mul_right_cancel₀ hψ this
    · refine ⟨-1, Or.inr rfl, fun φ => ?_⟩
      have := key φ ψ
      have h3 : Real.sqrt (n / κ) * scoreP D κ ψ l = - scoreD E Φ ψ l' := by linarith
      rw [h3] at this
      have h4 : scoreD E Φ φ l' * scoreD E Φ ψ l' = (-1 * (Real.sqrt (n / κ) * scoreP D κ φ l)) * scoreD E Φ ψ l' := by linarith
      exact mul_right_cancel₀ hψ h4

/-! ## C67: latent variables -/

/-- Specification: the orthogonal projection on the span of the kept components. -/
def IsProjection {m : ℕ} {I : Type} [Fintype I] (u : I → Fin m → ℝ) (v w : Fin m → ℝ) : Prop :=
  (∃ a : I → ℝ, ∀ j, w j = ∑ l, a l * u l j) ∧ ∀ l, ∑ j, (v j - w j) * u l j = 0

/-- **C67**, partial (primal): mapping features to latent variables and back is the orthogonal projection on the kept components. -/
theorem C67_primal_partial (Φ : Fin n → Fin d → ℝ) (D : EigDecomp (levelC Φ)) (k : ℕ) (φ : Fin d → ℝ) :
    IsProjection (fun (l : D.Kept k) j => D.V j l.1) φ (phiMap D k (hPhi D k φ)) := by
  have hexp : ∀ j, phiMap D k (hPhi D k φ) j = ∑ l : D.Kept k, (∑ i, φ i * D.V i l.1) * D.V j l.1 := by
    intro j
    rw [phiMap]
    refine sum_congr rfl fun l _ => ?_
    have hp := D.lam_pos l
    have hs : Real.sqrt (D.lam l.1) * Real.sqrt (D.lam l.1) = D.lam l.1 := Real.mul_self_sqrt hp.le
    have : ∑ j, φ j * (D.V j l.1 * Real.sqrt (D.lam l.1)) = (∑ i, φ i * D.V i l.1) * Real.sqrt (D.lam l.1) := by
      rw [sum_mul]; exact sum_congr rfl fun j _ => by ring
    rw [hPhi, this]
    calc (∑ i, φ i * D.V i l.1) * Real.sqrt (D.lam l.1) * (1 / D.lam l.1) * (D.V j l.1 * Real.sqrt (D.lam l.1))
        = (∑ i, φ i * D.V i l.1) * D.V j l.1 * ((Real.sqrt (D.lam l.1) * Real.sqrt (D.lam l.1)) / D.lam l.1) := by ring
      _ = _ := by rw [hs, div_self hp.ne', mul_one]
  refine ⟨⟨fun l => ∑ i, φ i * D.V i l.1, hexp⟩, fun l => ?_⟩
  simp_rw [sub_mul]
  rw [sum_sub_distrib, sub_eq_zero]
  calc ∑ j, φ j * D.V j l.1 = ∑ l' : Fin d, if l' = l.1 then ∑ i, φ i * D.V i l' else 0 := by simp
    _ = ∑ l' : D.Kept k, (∑ i, φ i * D.V i l'.1) * (if l'.1 = l.1 then 1 else 0) := by
        rw [D.sum_kept k fun l' => (∑ i, φ i * D.V i l') * (if l' = l.1 then 1 else 0)]
        refine sum_congr rfl fun l' _ => ?_
        by_cases h : l' = l.1
        · rw [if_pos h, if_pos h, if_pos (h ▸ l.2), mul_one]
        · rw [if_neg h, if_neg h, mul_zero, ite_self]
    _ = ∑ j, phiMap D k (hPhi D k φ) j * D.V j l.1 := by
        obtain ⟨f, hf⟩ : ∃ f : Fin d → ℝ, f = fun l' => ∑ i, φ i * D.V i l' := ⟨_, rfl⟩
        have hf' : ∀ l', ∑ i, φ i * D.V i l' = f l' := fun l' => by rw [hf]
        simp_rw [hexp, hf', sum_mul]
        rw [sum_comm]
        refine sum_congr rfl fun l' _ => ?_
        rw [← D.orth l'.1 l.1, mul_sum]
        exact sum_congr rfl fun j _ => by ring

/-- **C67**, partial: on a point of the span of the kept components nothing is lost. -/
theorem C67_roundtrip_partial (Φ : Fin n → Fin d → ℝ) (D : EigDecomp (levelC Φ)) (k : ℕ) (a : D.Kept k → ℝ) (φ : Fin d → ℝ)
    (hφ : ∀ j, φ j = ∑ l, a l * D.V j l.1) : phiMap D k (hPhi D k φ) = φ := by
  obtain ⟨⟨b, hb⟩, ho⟩ := C67_primal_partial Φ D k φ
  -- the difference is in the span and orthogonal to it
  have hz : ∑ j, (φ j - phiMap D k (hPhi D k φ) j) * (φ j - phiMap D k (hPhi D k φ) j) = 0 := by
    have : ∀ j, φ j - phiMap D k (hPhi D k φ) j = ∑ l, (a l - b l) * D.V j l.1 := by
      intro j
      rw [hφ j, hb j, ← sum_sub_distrib]
      exact sum_congr rfl fun l _ => by ring
    calc ∑ j, (φ j - phiMap D k (hPhi D k φ) j) * (φ j - phiMap D k (hPhi D k φ) j)
        = ∑ j, ∑ l, (a l - b l) * ((φ j - phiMap D k (hPhi D k φ) j) * D.V j l.1) := by
          refine sum_congr rfl fun j _ => ?_
          conv_lhs => rw [mul_comm]; arg 1; rw [this j]
          rw [sum_mul]
          exact sum_congr rfl fun l _ => by ring
      _ = ∑ l, (a l - b l) * ∑ j, (φ j - phiMap D k (hPhi D k φ) j) * D.V j l.1 := by
          rw [sum_comm]
          exact sum_congr rfl fun l _ => by rw [mul_sum]
      _ = 0 := sum_eq_zero fun l _ => by rw [ho l, mul_zero]
  funext j
  have := (sum_eq_zero_iff_of_nonneg fun j _ => mul_self_nonneg _).1 hz j (mem_univ j)
  linarith [mul_self_eq_zero.1 this]

/-- **C67** violated (dual): mapping kernel values to latent variables and back gives `n` times the orthogonal projection. -/
theorem C67_dual_violated (Φ : Fin n → Fin d → ℝ) (κ : ℝ) (E : EigDecomp (levelK κ Φ)) (k : ℕ) (kx : Fin n → ℝ) (hn : n ≠ 0) :
    kMap E k (hK E k kx) = fun j => n * ∑ l : E.Kept k, (∑ i, kx i * E.V i l.1) * E.V j l.1 := by
  funext j
  have hn' : (n : ℝ) ≠ 0 := by exact_mod_cast hn
  rw [kMap]
  calc ∑ i, (∑ l : E.Kept k, hK E k kx l * E.V i l.1) * levelK κ Φ i j
      = ∑ l : E.Kept k, hK E k kx l * ∑ i, levelK κ Φ j i * E.V i l.1 := by
        simp_rw [sum_mul, mul_sum]
        rw [sum_comm]
        exact sum_congr rfl fun l _ => sum_congr rfl fun i _ => by rw [E.symm i j]; ring
    _ = n * ∑ l : E.Kept k, (∑ i, kx i * E.V i l.1) * E.V j l.1 := by
        rw [mul_sum]
        refine sum_congr rfl fun l _ => ?_
        rw [E.eig j l.1, hK]
        have := (E.lam_pos l).ne'
        field_simp

end

/-! ## non-vacuity -/

/-- The identity is a covariance: two points on the axes at distance `√2`. -/
noncomputable def exΦ : Fin 2 → Fin 2 → ℝ := fun i j => if i = j then Real.sqrt 2 else 0

theorem exC : levelC exΦ = fun i j => if i = j then 1 else 0 := by
  funext i j
  rw [levelC_apply]
  fin_cases i <;> fin_cases j <;> simp [exΦ, Fin.sum_univ_two]

/-- A decomposition exists for this covariance, the total variance is 2, and nothing is discarded with `k = 2`. -/
example : totalVar .primal 1 exΦ ≠ 0 ∧ ∃ D : EigDecomp (levelC exΦ), ∀ l : Fin 2, ¬ (l.val < 2 ∧ EPS ≤ D.lam l) → D.lam l = 0 := by
  constructor
  · rw [totalVar, exC]; simp
  · rw [exC]
    refine ⟨eigId 2, fun l hl => absurd ⟨l.2, ?_⟩ hl⟩
    show EPS ≤ 1
    norm_num [EPS]

/-- Simple eigenvalues: one feature, one point. -/
noncomputable def exΨ : Fin 1 → Fin 1 → ℝ := fun _ _ => 1

example : ∃ (D : EigDecomp (levelC exΨ)) (_ : EigDecomp (levelK 1 exΨ)), 0 < D.lam 0 ∧ (∀ m, D.lam m = D.lam 0 ↔ m = 0) := by
  have hC : levelC exΨ = fun i j => if i = j then 1 else 0 := by
    funext i j; rw [levelC_apply]; fin_cases i; fin_cases j; simp [exΨ]
  have hK : levelK 1 exΨ = fun i j => if i = j then 1 else 0 := by
    funext i j; rw [levelK_apply]; fin_cases i; fin_cases j; simp [exΨ]
  rw [hC, hK]
  refine ⟨eigId 1, eigId 1, by simp [eigId], fun m => ?_⟩
  fin_cases m; simp [eigId]

/-- Orthonormal parameters. -/
example : ∀ a b : Fin 1, ∑ i : Fin 2, (![![3 / 5, 4 / 5]] : Fin 1 → Fin 2 → ℝ) a i * (![![3 / 5, 4 / 5]] : Fin 1 → Fin 2 → ℝ) b i
    = if a = b then 1 else 0 := by
  intro a b
  fin_cases a; fin_cases b
  norm_num [Fin.sum_univ_two]

/-! ## Cases by name -/

/-- Two points on the axes: the decomposition of their covariance and of their kernel matrix. -/
noncomputable def exD : EigDecomp (levelC exΦ) := exC ▸ eigId 2

theorem exK : levelK (1 / 2) exΦ = fun i j => if i = j then 1 else 0 := by
  funext i j
  rw [levelK_apply]
  fin_cases i <;> fin_cases j <;> simp [exΦ, Fin.sum_univ_two]

noncomputable def exE : EigDecomp (levelK (1 / 2) exΦ) := exK ▸ eigId 2

theorem lam_cast {n : ℕ} {M N : Fin n → Fin n → ℝ} (h : M = N) (D : EigDecomp N) : (h ▸ D : EigDecomp M).lam = D.lam := by subst h; rfl

theorem exD_lam : exD.lam = fun _ => 1 := (lam_cast exC (eigId 2)).trans rfl

example : relVar (modelVarP exD 1) (totalVar .primal 1 exΦ) ≤ relVar (modelVarP exD 2) (totalVar .primal 1 exΦ) :=
  C47_primal_mono_partial exΦ 1 exD exD rfl 1 2 (by norm_num)

example : relVar (modelVarP exD 2) (totalVar .primal 1 exΦ) = 1 := by
  refine C47_primal_complete_partial exΦ 1 exD 2 (fun l hl => absurd ⟨l.2, by rw [exD_lam]; norm_num [EPS]⟩ hl) ?_
  rw [totalVar, exC]; simp

example (E : EigDecomp (levelK 1 exΦ)) : relVar (modelVarD E 1) (totalVar .primal 1 exΦ) ≤ 1 := (C47_mixed_partial two_ne_zero exΦ E 1).2.1

example : relVar (modelVarD exE 2) (totalVar .dual (1 / 2) exΦ) ≤ 1 / (2 : ℕ) := (C47_dual_violated two_ne_zero exΦ (1 / 2) (by norm_num) exE 2).2.1

theorem exU : ∀ a b : Fin 1, ∑ i : Fin 2, (![![3 / 5, 4 / 5]] : Fin 1 → Fin 2 → ℝ) a i * (![![3 / 5, 4 / 5]] : Fin 1 → Fin 2 → ℝ) b i = if a = b then 1 else 0 := by
  intro a b
  fin_cases a; fin_cases b
  norm_num [Fin.sum_univ_two]

example : 0 ≤ loss (levelC exΦ) (![![3 / 5, 4 / 5]] : Fin 1 → Fin 2 → ℝ) := C48_nonneg (by rw [exC]; unfold PSDMat; refine ⟨fun i j => by simp [eq_comm], fun c => ?_⟩; simp [Fin.sum_univ_two]; nlinarith [sq_nonneg (c 0), sq_nonneg (c 1)]) exD _ exU

example : loss (levelC exΦ) (solU exD 2) ≤ loss (levelC exΦ) (![![3 / 5, 4 / 5]] : Fin 1 → Fin 2 → ℝ) :=
  C48_optimal exD 2 _ exU (Fintype.card_pos_iff.2 ⟨⟨0, by norm_num, by rw [exD_lam]; norm_num [EPS]⟩⟩)

/-- The eigenvalue 1 of both, with multiplicity 2. -/
example (φ ψ : Fin 2 → ℝ) := C49_general two_ne_zero exΦ (1 / 2) (by norm_num) exD exE 1 one_pos φ ψ

example : ∃ h : (1 : Fin 2).val < 2, exE.lam ⟨(1 : Fin 2).val, h⟩ = 1 / 2 * (2 : ℕ) * exD.lam 1 :=
  C49_vals two_ne_zero exΦ (1 / 2) (by norm_num) exD exE 1 (by rw [exD_lam]; norm_num)

/-- One point, one feature: a simple eigenvalue. -/
example (D : EigDecomp (levelC exΨ)) (E : EigDecomp (levelK 1 exΨ)) (hD : 0 < D.lam 0) :
    ∃ h : (0 : Fin 1).val < 1, ∃ s : ℝ, (s = 1 ∨ s = -1) ∧ ∀ φ : Fin 1 → ℝ, scoreD E exΨ φ ⟨(0 : Fin 1).val, h⟩ = s * (Real.sqrt ((1 : ℕ) / 1) * scoreP D 1 φ 0) :=
  C49 one_ne_zero exΨ 1 one_pos D E 0 hD fun m => by fin_cases m; simp

example (a : exD.Kept 1 → ℝ) : phiMap exD 1 (hPhi exD 1 fun j => ∑ l, a l * exD.V j l.1) = fun j => ∑ l, a l * exD.V j l.1 :=
  C67_roundtrip_partial exΦ exD 1 a _ fun _ => rfl

example (kx : Fin 2 → ℝ) := C67_dual_violated exΦ (1 / 2) exE 1 kx two_ne_zero


end Kerch
