import Verif.Props.KPCA
import Verif.Model.PPCALik
import Mathlib.LinearAlgebra.Matrix.SchurComplement
import Mathlib.Analysis.Matrix.Spectrum
import Mathlib.Analysis.Matrix.PosDef
import Mathlib.Analysis.Convex.Birkhoff
import Mathlib.Algebra.Order.Rearrangement
import Mathlib.Analysis.SpecialFunctions.Log.Basic
import Mathlib.Data.Fin.Tuple.Sort
set_option linter.unusedSectionVars false
set_option linter.unusedSimpArgs false
/-!
# Gaussian likelihoods of covariances with few directions of their own
-/
namespace Kerch
namespace PPCALik
open Finset KPCA

theorem log_basic {g x : ℝ} (hg : 0 < g) (hx : 0 < x) : Real.log x + 1 ≤ Real.log g + x / g := by
  have := Real.log_le_sub_one_of_pos (div_pos hx hg)
  rw [Real.log_div hx.ne' hg.ne'] at this
  linarith

theorem log_basic_strict {g x : ℝ} (hg : 0 < g) (hx : 0 < x) (hne : g ≠ x) : Real.log x + 1 < Real.log g + x / g := by
  have := Real.log_lt_sub_one_of_pos (div_pos hx hg) (fun h => hne (by rw [div_eq_one_iff_eq hg.ne'] at h; exact h.symm))
  rw [Real.log_div hx.ne' hg.ne'] at this
  linarith

/-- The trace inequality: a doubly stochastic weighting never gives less than the pairing of the greatest with the smallest. -/
theorem pairing {d : ℕ} (lam t : Fin d → ℝ) (P : Matrix (Fin d) (Fin d) ℝ) (hP : P ∈ doublyStochastic ℝ (Fin d)) (hl : Antitone lam) (τ : Equiv.Perm (Fin d))
    (ht : Monotone (t ∘ τ)) : ∑ i, lam i * t (τ i) ≤ ∑ i, ∑ j, P i j * lam i * t j := by
  obtain ⟨w, hw0, hw1, hw⟩ := exists_eq_sum_perm_of_mem_doublyStochastic hP
  have hanti : Antivary lam (t ∘ τ) := fun i j hij => hl (by
    by_contra h
    exact absurd (ht (le_of_not_ge h)) (not_le.2 hij))
  have e : ∑ i, ∑ j, P i j * lam i * t j = ∑ σ, w σ * ∑ i, lam i * t (σ i) := by
    rw [← hw]
    simp only [Matrix.sum_apply, Matrix.smul_apply, sum_mul, smul_eq_mul]
    have : ∀ i, ∑ j, ∑ σ : Equiv.Perm (Fin d), w σ * σ.permMatrix ℝ i j * lam i * t j = ∑ σ, w σ * (lam i * t (σ i)) := by
      intro i
      rw [sum_comm]
      refine sum_congr rfl fun σ _ => ?_
      rw [Finset.sum_eq_single (σ i)]
      · simp [Equiv.Perm.permMatrix, PEquiv.toMatrix_apply, Equiv.toPEquiv_apply]; ring
      · intro j _ hj
        simp [Equiv.Perm.permMatrix, PEquiv.toMatrix_apply, Equiv.toPEquiv_apply, Ne.symm hj]
      · simp
    simp only [this, mul_sum]
    rw [sum_comm]
  rw [e]
  have key : ∀ σ : Equiv.Perm (Fin d), ∑ i, lam i * t (τ i) ≤ ∑ i, lam i * t (σ i) := by
    intro σ
    have := hanti.sum_mul_le_sum_mul_comp_perm (σ := σ.trans τ.symm)
    simpa using this
  calc ∑ i, lam i * t (τ i) = ∑ σ, w σ * ∑ i, lam i * t (τ i) := by rw [← sum_mul, hw1, one_mul]
    _ ≤ _ := sum_le_sum fun σ _ => mul_le_mul_of_nonneg_left (key σ) (hw0 σ)

/-- What is lost at least by any covariance with at most `k` directions of its own. -/
noncomputable def best {d : ℕ} (lam : Fin d → ℝ) (k : ℕ) (m : ℝ) : ℝ := (∑ i with i.val < k, (Real.log (lam i) + 1)) + (d - k : ℝ) * (Real.log m + 1)

theorem card_lt {d k : ℕ} (hk : k ≤ d) : (#{i : Fin d | i.val < k}) = k := by
  have := Fin.card_filter_val_lt (n := d) (m := k)
  omega

theorem card_ge {d k : ℕ} (hk : k ≤ d) : (#{i : Fin d | ¬ i.val < k}) = d - k := by
  have := Finset.card_filter_add_card_filter_not (s := (univ : Finset (Fin d))) (fun i => i.val < k)
  rw [card_lt hk, card_univ, Fintype.card_fin] at this
  omega

theorem core {d k : ℕ} (hk : k ≤ d) (lam g : Fin d → ℝ) (s m : ℝ) (P : Matrix (Fin d) (Fin d) ℝ) (hP : P ∈ doublyStochastic ℝ (Fin d)) (hl : Antitone lam)
    (hs : 0 < s) (hg : ∀ j, s ≤ g j) (hcard : #{j | g j ≠ s} ≤ k) (hpos : ∀ i : Fin d, i.val < k → 0 < lam i)
    (hm : k < d → 0 < m) (hmdef : ∑ i with ¬ i.val < k, lam i = (d - k) * m) :
    best lam k m ≤ ∑ j, Real.log (g j) + ∑ i, ∑ j, P i j * lam i / g j := by
  classical
  obtain ⟨τ, hτ⟩ : ∃ τ : Equiv.Perm (Fin d), Antitone (g ∘ τ) := by
    refine ⟨Tuple.sort (fun j => - g j), fun a b hab => ?_⟩
    have := Tuple.monotone_sort (fun j => - g j) hab
    simp only [Function.comp_apply] at this ⊢
    linarith
  have hgpos : ∀ j, 0 < g j := fun j => lt_of_lt_of_le hs (hg j)
  have h1 : ∑ i, lam i * (1 / g (τ i)) ≤ ∑ i, ∑ j, P i j * lam i * (1 / g j) :=
    pairing lam (fun j => 1 / g j) P hP hl τ (fun a b hab => one_div_le_one_div_of_le (hgpos _) (hτ hab))
  have h2 : ∑ j, Real.log (g j) = ∑ i, Real.log (g (τ i)) := (Equiv.sum_comp τ fun j => Real.log (g j)).symm
  have h3 : ∑ i, ∑ j, P i j * lam i / g j = ∑ i, ∑ j, P i j * lam i * (1 / g j) :=
    sum_congr rfl fun i _ => sum_congr rfl fun j _ => by rw [mul_one_div]
  have htail : ∀ i : Fin d, ¬ i.val < k → g (τ i) = s := by
    intro i hi
    by_contra hne
    have hgt : s < g (τ i) := lt_of_le_of_ne (hg _) (Ne.symm hne)
    have hsub : (univ.filter fun a : Fin d => a.val < i.val + 1).map τ.toEmbedding ⊆ univ.filter fun j => g j ≠ s := by
      intro j hj
      rw [mem_map] at hj
      obtain ⟨a, ha, rfl⟩ := hj
      rw [mem_filter] at ha ⊢
      refine ⟨mem_univ _, ?_⟩
      have : g (τ i) ≤ g (τ a) := hτ (show a ≤ i from by have := ha.2; exact Fin.le_def.2 (by omega))
      exact (lt_of_lt_of_le hgt this).ne'
    have := card_le_card hsub
    rw [card_map, card_lt (by omega)] at this
    omega
  rw [h2, h3]
  refine le_trans ?_ (add_le_add_right h1 _)
  rw [← sum_add_distrib, ← sum_filter_add_sum_filter_not univ (fun i : Fin d => i.val < k)]
  unfold best
  refine add_le_add (sum_le_sum fun i hi => ?_) ?_
  · rw [mem_filter] at hi
    rw [mul_one_div]
    exact log_basic (hgpos _) (hpos i hi.2)
  · have : ∑ i with ¬ i.val < k, (Real.log (g (τ i)) + lam i * (1 / g (τ i))) = ∑ i : Fin d with ¬ i.val < k, (Real.log s + lam i * (1 / s)) :=
      sum_congr rfl fun i hi => by rw [mem_filter] at hi; rw [htail i hi.2]
    rw [this, sum_add_distrib, sum_const, card_ge hk, nsmul_eq_mul, ← sum_mul, hmdef, Nat.cast_sub hk]
    rcases hk.lt_or_eq with h | h
    · have hd : (0 : ℝ) < d - k := sub_pos.2 (by exact_mod_cast h)
      have := mul_le_mul_of_nonneg_left (log_basic hs (hm h)) hd.le
      calc _ ≤ _ := this
        _ = _ := by ring
    · subst h; simp

open Matrix

/-- Twice the mean of what a centred Gaussian of covariance `C` loses on data of second moments `S`, up to a constant. -/
noncomputable def nll {d : ℕ} (S C : Matrix (Fin d) (Fin d) ℝ) : ℝ := Real.log C.det + (C⁻¹ * S).trace

/-- The covariance with variances `g` along the columns of `U` and `s` in every other direction. -/
noncomputable def frameCov {d : ℕ} {κ : Type} [Fintype κ] [DecidableEq κ] (U : Matrix (Fin d) κ ℝ) (g : κ → ℝ) (s : ℝ) : Matrix (Fin d) (Fin d) ℝ :=
  U * diagonal (fun l => g l - s) * Uᵀ + s • 1

variable {d : ℕ} {κ : Type} [Fintype κ] [DecidableEq κ] (U : Matrix (Fin d) κ ℝ) (hU : Uᵀ * U = 1) (g : κ → ℝ) (s : ℝ)

include hU in
theorem frame_det (hs : s ≠ 0) : (frameCov U g s).det = s ^ d * ∏ l, (g l / s) := by
  have e : frameCov U g s = s • (1 + U * (diagonal (fun l => g l / s - 1) * Uᵀ)) := by
    unfold frameCov
    rw [smul_add, add_comm, ← Matrix.mul_assoc]
    congr 1
    rw [← Matrix.smul_mul, ← Matrix.mul_smul]
    congr 2
    ext a b
    by_cases h : a = b
    · subst h; simp; field_simp
    · simp [h]
  rw [e, det_smul, Fintype.card_fin, det_one_add_mul_comm, Matrix.mul_assoc, hU, Matrix.mul_one, ← diagonal_one, diagonal_add, det_diagonal]
  simp

include hU in
theorem frame_inv (hs : s ≠ 0) (hg : ∀ l, g l ≠ 0) : (frameCov U g s)⁻¹ = frameCov U (fun l => (g l)⁻¹) s⁻¹ := by
  refine inv_eq_right_inv ?_
  unfold frameCov
  rw [add_mul, mul_add, mul_add]
  have e1 : U * diagonal (fun l => g l - s) * Uᵀ * (U * diagonal (fun l => (g l)⁻¹ - s⁻¹) * Uᵀ) = U * diagonal (fun l => (g l - s) * ((g l)⁻¹ - s⁻¹)) * Uᵀ := by
    calc _ = U * diagonal (fun l => g l - s) * (Uᵀ * U) * diagonal (fun l => (g l)⁻¹ - s⁻¹) * Uᵀ := by simp only [Matrix.mul_assoc]
      _ = _ := by rw [hU, Matrix.mul_one, Matrix.mul_assoc U, diagonal_mul_diagonal]
  rw [e1]
  have e2 : U * diagonal (fun l => g l - s) * Uᵀ * (s⁻¹ • (1 : Matrix (Fin d) (Fin d) ℝ)) = U * diagonal (fun l => (g l - s) * s⁻¹) * Uᵀ := by
    rw [Matrix.mul_smul, Matrix.mul_one, ← Matrix.smul_mul, ← Matrix.mul_smul]
    congr 2
    ext a b
    by_cases h : a = b
    · subst h; simp; ring
    · simp [h]
  have e3 : (s • (1 : Matrix (Fin d) (Fin d) ℝ)) * (U * diagonal (fun l => (g l)⁻¹ - s⁻¹) * Uᵀ) = U * diagonal (fun l => s * ((g l)⁻¹ - s⁻¹)) * Uᵀ := by
    rw [Matrix.smul_mul, Matrix.one_mul, ← Matrix.smul_mul, ← Matrix.mul_smul]
    congr 2
    ext a b
    by_cases h : a = b
    · subst h; simp
    · simp [h]
  rw [e2, e3, Matrix.smul_mul, Matrix.one_mul, smul_smul, mul_inv_cancel₀ hs, one_smul, ← add_assoc, ← Matrix.add_mul, ← Matrix.mul_add, ← Matrix.add_mul, ← Matrix.mul_add, diagonal_add, diagonal_add]
  have : (fun l => (g l - s) * ((g l)⁻¹ - s⁻¹) + (g l - s) * s⁻¹ + s * ((g l)⁻¹ - s⁻¹)) = fun _ => 0 := by
    funext l
    have := hg l
    field_simp
    ring
  rw [this]
  simp

include hU in
theorem frame_nll (S : Matrix (Fin d) (Fin d) ℝ) (hs : 0 < s) (hg : ∀ l, 0 < g l) :
    nll S (frameCov U g s) = (d - Fintype.card κ) * Real.log s + ∑ l, Real.log (g l)
      + (∑ l, (U.col l ⬝ᵥ S *ᵥ U.col l) * ((g l)⁻¹ - s⁻¹) + S.trace * s⁻¹) := by
  unfold nll
  rw [frame_det U hU g s hs.ne', frame_inv U hU g s hs.ne' fun l => (hg l).ne']
  congr 1
  · rw [Real.log_mul (pow_pos hs d).ne' (prod_pos fun l _ => div_pos (hg l) hs).ne', Real.log_pow, Real.log_prod fun l _ => (div_pos (hg l) hs).ne']
    have : ∑ l, Real.log (g l / s) = ∑ l, Real.log (g l) - Fintype.card κ * Real.log s := by
      rw [← nsmul_eq_mul, ← card_univ, ← sum_const, ← sum_sub_distrib]
      exact sum_congr rfl fun l _ => Real.log_div (hg l).ne' hs.ne'
    rw [this]; ring
  · unfold frameCov
    rw [add_mul, trace_add, Matrix.smul_mul, Matrix.one_mul, trace_smul, smul_eq_mul, mul_comm s⁻¹]
    congr 1
    rw [Matrix.mul_assoc, Matrix.mul_assoc, trace_mul_comm, Matrix.mul_assoc, trace]
    refine sum_congr rfl fun l _ => ?_
    rw [diag_apply, diagonal_mul, mul_comm]
    congr 1
    rw [Matrix.mul_assoc]
    simp only [mul_apply, transpose_apply, dotProduct, mulVec, col_apply]

theorem weights {S : Fin d → Fin d → ℝ} (D : EigDecomp S) (U : Matrix (Fin d) (Fin d) ℝ) (hU : Uᵀ * U = 1) :
    (Matrix.of fun i j => (∑ a, D.V a i * U a j) ^ 2) ∈ doublyStochastic ℝ (Fin d) := by
  have hU' : U * Uᵀ = 1 := mul_eq_one_comm.1 hU
  rw [mem_doublyStochastic_iff_sum]
  refine ⟨fun i j => sq_nonneg _, fun i => ?_, fun j => ?_⟩
  · simp only [of_apply, sq, sum_mul_sum]
    rw [sum_comm]
    have : ∀ a b, ∑ j, D.V a i * U a j * (D.V b i * U b j) = D.V a i * D.V b i * if a = b then 1 else 0 := by
      intro a b
      have h := congrFun (congrFun hU' a) b
      rw [mul_apply, one_apply] at h
      rw [← h, mul_sum]
      exact sum_congr rfl fun j _ => by rw [transpose_apply]; ring
    calc _ = ∑ a, ∑ b, ∑ j, D.V a i * U a j * (D.V b i * U b j) := sum_congr rfl fun a _ => sum_comm
      _ = 1 := by
        simp only [this, mul_ite, mul_one, mul_zero, sum_ite_eq, mem_univ, if_true]
        have := D.orth i i
        rwa [if_pos rfl] at this
  · have h := congrFun (congrFun hU j) j
    rw [mul_apply, one_apply, if_pos rfl] at h
    rw [← h]
    have key : ∀ a, U a j = ∑ l, (∑ b, U b j * D.V b l) * D.V a l := D.expand fun a => U a j
    simp only [of_apply, transpose_apply]
    calc ∑ i, (∑ a, D.V a i * U a j) ^ 2 = ∑ i, ∑ a, U a j * ((∑ b, U b j * D.V b i) * D.V a i) := by
          refine sum_congr rfl fun i _ => ?_
          rw [sq, sum_mul]
          refine sum_congr rfl fun a _ => ?_
          have : ∑ b, U b j * D.V b i = ∑ b, D.V b i * U b j := sum_congr rfl fun b _ => mul_comm _ _
          rw [this]; ring
      _ = _ := by
        rw [sum_comm]
        refine sum_congr rfl fun a _ => ?_
        rw [← mul_sum, ← key a]

theorem quad_eq {S : Fin d → Fin d → ℝ} (D : EigDecomp S) (u : Fin d → ℝ) : u ⬝ᵥ (of S) *ᵥ u = ∑ i, (∑ a, D.V a i * u a) ^ 2 * D.lam i := by
  simp only [dotProduct, mulVec, of_apply]
  have : ∀ i, (∑ a, D.V a i * u a) ^ 2 * D.lam i = ∑ a, ∑ b, u a * ((D.lam i * D.V a i * D.V b i) * u b) := by
    intro i
    rw [sq, sum_mul_sum, sum_mul]
    refine sum_congr rfl fun a _ => ?_
    rw [sum_mul]
    exact sum_congr rfl fun b _ => by ring
  simp only [this]
  rw [sum_comm]
  refine sum_congr rfl fun a _ => ?_
  rw [sum_comm, mul_sum]
  refine sum_congr rfl fun b _ => ?_
  rw [D.spectral a b, sum_mul, mul_sum]

/-- No covariance with at most `k` directions of its own does better than `best`. -/
theorem bound_frame {k : ℕ} (hk : k ≤ d) {S : Fin d → Fin d → ℝ} (D : EigDecomp S) (U : Matrix (Fin d) (Fin d) ℝ) (hU : Uᵀ * U = 1) (g : Fin d → ℝ) (s m : ℝ)
    (hs : 0 < s) (hg : ∀ j, s ≤ g j) (hcard : #{j | g j ≠ s} ≤ k) (hpos : ∀ i : Fin d, i.val < k → 0 < D.lam i)
    (hm : k < d → 0 < m) (hmdef : ∑ i with ¬ i.val < k, D.lam i = (d - k) * m) : best D.lam k m ≤ nll (of S) (frameCov U g s) := by
  have hgp : ∀ j, 0 < g j := fun j => lt_of_lt_of_le hs (hg j)
  rw [frame_nll U hU g s (of S) hs hgp]
  have h := core hk D.lam g s m _ (weights D U hU) D.sorted hs hg hcard hpos hm hmdef
  refine h.trans (le_of_eq ?_)
  rw [Fintype.card_fin, sub_self, zero_mul, zero_add]
  congr 1
  have hP := mem_doublyStochastic_iff_sum.1 (weights D U hU)
  have htr : (of S).trace = ∑ l, (U.col l ⬝ᵥ (of S) *ᵥ U.col l) := by
    simp only [quad_eq D, col_apply]
    rw [sum_comm]
    simp only [← sum_mul]
    have : (of S).trace = ∑ i, D.lam i := D.trace_eq
    rw [this]
    refine sum_congr rfl fun i _ => ?_
    have := hP.2.1 i
    simp only [of_apply] at this
    rw [this, one_mul]
  rw [htr, sum_mul, ← sum_add_distrib, sum_comm]
  refine sum_congr rfl fun j _ => ?_
  rw [mul_sub, sub_add_cancel, quad_eq D, sum_mul]
  refine sum_congr rfl fun i _ => ?_
  rw [div_eq_mul_inv]
  rfl

theorem eigDecomp_exists (S : Matrix (Fin d) (Fin d) ℝ) (hS : S.IsHermitian) : Nonempty (EigDecomp fun a b => S a b) := by
  classical
  let τ := Tuple.sort (fun j => - hS.eigenvalues j)
  refine ⟨⟨fun l => hS.eigenvalues (τ l), fun a l => hS.eigenvectorBasis (τ l) a, fun a b hab => ?_, fun k l => ?_, fun i k => ?_⟩⟩
  · have := Tuple.monotone_sort (fun j => - hS.eigenvalues j) hab
    simp only [Function.comp_apply] at this
    exact neg_le_neg_iff.1 this
  · have := orthonormal_iff_ite.1 hS.eigenvectorBasis.orthonormal (τ l) (τ k)
    simp only [PiLp.inner_apply, RCLike.inner_apply, conj_trivial] at this
    rw [this]
    by_cases h : k = l
    · subst h; simp
    · rw [if_neg h, if_neg fun h' => h (τ.injective h').symm]
  · have := congrFun (hS.mulVec_eigenvectorBasis (τ k)) i
    simpa [mulVec, dotProduct] using this

/-- Any factor with at most `k` columns and any noise: not better than `best`. -/
theorem bound {k : ℕ} (hk : k ≤ d) {S : Fin d → Fin d → ℝ} (D : EigDecomp S) (W : Matrix (Fin d) κ ℝ) (hW : Fintype.card κ ≤ k) (s m : ℝ)
    (hs : 0 < s) (hpos : ∀ i : Fin d, i.val < k → 0 < D.lam i)
    (hm : k < d → 0 < m) (hmdef : ∑ i with ¬ i.val < k, D.lam i = (d - k) * m) : best D.lam k m ≤ nll (of S) (W * Wᵀ + s • 1) := by
  have hpsd : (W * Wᵀ).PosSemidef := by
    have := posSemidef_self_mul_conjTranspose W
    rwa [conjTranspose_eq_transpose_of_trivial] at this
  have hM : (W * Wᵀ).IsHermitian := hpsd.isHermitian
  have hspec := hM.spectral_theorem
  rw [Unitary.conjStarAlgAut_apply] at hspec
  set U : Matrix (Fin d) (Fin d) ℝ := (hM.eigenvectorUnitary : Matrix (Fin d) (Fin d) ℝ) with hUdef
  have hU : Uᵀ * U = 1 := by
    have := (mem_unitaryGroup_iff'.1 hM.eigenvectorUnitary.2)
    rwa [star_eq_conjTranspose, conjTranspose_eq_transpose_of_trivial] at this
  have e : W * Wᵀ + s • 1 = frameCov U (fun j => hM.eigenvalues j + s) s := by
    unfold frameCov
    congr 1
    refine hspec.trans ?_
    rw [star_eq_conjTranspose, conjTranspose_eq_transpose_of_trivial]
    congr 3
    funext l
    simp
  rw [e]
  refine bound_frame hk D U hU _ s m hs (fun j => by linarith [hpsd.eigenvalues_nonneg j]) ?_ hpos hm hmdef
  have hr := hM.rank_eq_card_non_zero_eigs
  have h2 : (W * Wᵀ).rank ≤ Fintype.card κ := (rank_mul_le_left W Wᵀ).trans (rank_le_card_width W)
  rw [hr, Fintype.card_subtype] at h2
  have : (univ.filter fun j => hM.eigenvalues j + s ≠ s) = univ.filter fun j => hM.eigenvalues j ≠ 0 := by
    ext j; simp
  rw [this]
  exact h2.trans hW

end PPCALik
end Kerch
