import Verif.Model.Recon
import Verif.Props.KPCA
/-!
# C95: reconstructions of a KPCA level
-/
set_option linter.unusedSectionVars false
set_option linter.unusedSimpArgs false
namespace Kerch
namespace Recon
open Finset KPCA
variable {m n d : ℕ}

/-! ## Specification -/

/-- Squared distance of two matrices. -/
def dist2 {m : ℕ} (A B : Fin m → Fin m → ℝ) : ℝ := ∑ i, ∑ j, (A i j - B i j) ^ 2

/-- `B` has its rows in the span of an orthonormal family of at most `r` vectors: the matrices of rank at most `r`. -/
def RankLe {m : ℕ} (r : ℕ) (B : Fin m → Fin m → ℝ) : Prop :=
  ∃ (A : Type) (_ : Fintype A) (_ : DecidableEq A) (U : A → Fin m → ℝ) (c : Fin m → A → ℝ), Fintype.card A ≤ r ∧
    (∀ a b, ∑ i, U a i * U b i = if a = b then 1 else 0) ∧ ∀ i j, B i j = ∑ a, c i a * U a j

/-! ## Helpers -/

variable {M : Fin m → Fin m → ℝ}

/-- Whether a component is kept. -/
def IsKept (D : EigDecomp M) (k : ℕ) (l : Fin m) : Prop := l.val < k ∧ EPS ≤ D.lam l

noncomputable instance (D : EigDecomp M) (k : ℕ) (l : Fin m) : Decidable (IsKept D k l) := by unfold IsKept; classical infer_instance

/-- The decomposition of the square of a positive semi-definite matrix. -/
noncomputable def sqDecomp (hM : PSDMat M) (D : EigDecomp M) : EigDecomp (fun i j => ∑ k, M i k * M k j) where
  lam l := D.lam l ^ 2
  V := D.V
  sorted := fun a b h => by
    have h1 := D.sorted h
    have h2 := D.lam_nonneg hM b
    exact pow_le_pow_left₀ h2 h1 2
  orth := D.orth
  eig := fun i l => by
    calc ∑ j, (∑ k, M i k * M k j) * D.V j l = ∑ k, M i k * ∑ j, M k j * D.V j l := by
          simp_rw [sum_mul, mul_sum]
          rw [sum_comm]
          exact sum_congr rfl fun _ _ => sum_congr rfl fun _ _ => by ring
      _ = D.lam l * ∑ k, M i k * D.V k l := by
          rw [mul_sum]; exact sum_congr rfl fun k _ => by rw [D.eig k l]; ring
      _ = D.lam l ^ 2 * D.V i l := by rw [D.eig i l]; ring

/-- Weights between 0 and 1 summing to at most the size of an initial segment collect at most the sum over it of a decreasing non-negative function. -/
theorem weighted_top (f p : Fin m → ℝ) (hf : Antitone f) (hf0 : ∀ l, 0 ≤ f l) (hp0 : ∀ l, 0 ≤ p l) (hp1 : ∀ l, p l ≤ 1) (S : Fin m → Prop) [DecidablePred S]
    (hS : ∀ l l', l' ≤ l → S l → S l') (hc : ∑ l, p l ≤ ∑ l : Fin m, if S l then (1 : ℝ) else 0) : ∑ l, f l * p l ≤ ∑ l, if S l then f l else 0 := by
  by_cases hex : ∃ l, S l
  · obtain ⟨l0, hl0, hmin⟩ := exists_min_image (univ.filter S) f (by obtain ⟨l, hl⟩ := hex; exact ⟨l, by simpa using hl⟩)
    have h0 : S l0 := by simpa using hl0
    have hterm : ∀ l, f l0 * ((if S l then 1 else 0) - p l) ≤ (if S l then f l else 0) - f l * p l := by
      intro l
      by_cases hl : S l
      · rw [if_pos hl, if_pos hl]
        have := hmin l (by simpa using hl)
        nlinarith [hp1 l]
      · rw [if_neg hl, if_neg hl]
        have hle : l0 ≤ l := by
          by_contra h
          exact hl (hS l0 l (le_of_lt (not_le.1 h)) h0)
        have := hf hle
        nlinarith [hp0 l]
    have := sum_le_sum fun l (_ : l ∈ (univ : Finset (Fin m))) => hterm l
    rw [← mul_sum, sum_sub_distrib, sum_sub_distrib] at this
    have h2 : 0 ≤ f l0 * (∑ l : Fin m, (if S l then (1 : ℝ) else 0) - ∑ l, p l) := mul_nonneg (hf0 l0) (by linarith)
    linarith
  · have hz : ∀ l, p l = 0 := by
      have h0 : ∑ l, p l ≤ 0 := by
        refine hc.trans (le_of_eq ?_)
        exact sum_eq_zero fun l _ => if_neg fun h => hex ⟨l, h⟩
      have := (sum_eq_zero_iff_of_nonneg fun l _ => hp0 l).1 (le_antisymm h0 (sum_nonneg fun l _ => hp0 l))
      exact fun l => this l (mem_univ l)
    simp only [hz, mul_zero, sum_const_zero]
    exact sum_nonneg fun l _ => by split; exacts [hf0 l, le_rfl]

theorem kept_initial (D : EigDecomp M) (k : ℕ) (l l' : Fin m) (h : l' ≤ l) (hl : IsKept D k l) : IsKept D k l' :=
  ⟨lt_of_le_of_lt (Fin.le_def.1 h) hl.1, hl.2.trans (D.sorted h)⟩

theorem sum_kept' (D : EigDecomp M) (k : ℕ) (f : Fin m → ℝ) : ∑ l : D.Kept k, f l.1 = ∑ l, if IsKept D k l then f l else 0 := by
  rw [D.sum_kept k f]
  refine sum_congr rfl fun l _ => ?_
  unfold IsKept
  congr

/-- Pythagoras: the square of a vector is at least that of its projection, and the distance to a vector of the span at least that to the projection. -/
theorem dist_span {A : Type} [Fintype A] [DecidableEq A] (U : A → Fin m → ℝ) (hU : ∀ a b, ∑ i, U a i * U b i = if a = b then 1 else 0) (v : Fin m → ℝ)
    (c : A → ℝ) : ∑ j, v j ^ 2 - ∑ a, (∑ j, v j * U a j) ^ 2 ≤ ∑ j, (v j - ∑ a, c a * U a j) ^ 2 := by
  have h1 : ∑ j, v j * ∑ a, c a * U a j = ∑ a, c a * ∑ j, v j * U a j := by
    simp_rw [mul_sum]; rw [sum_comm]
    exact sum_congr rfl fun _ _ => sum_congr rfl fun _ _ => by ring
  have h2 : ∑ j, (∑ a, c a * U a j) ^ 2 = ∑ a, c a ^ 2 := by
    calc ∑ j, (∑ a, c a * U a j) ^ 2 = ∑ a, ∑ b, c a * c b * ∑ j, U a j * U b j := by
          simp_rw [sq, sum_mul_sum, mul_sum]
          rw [sum_comm]
          refine sum_congr rfl fun a _ => ?_
          rw [sum_comm]
          exact sum_congr rfl fun b _ => sum_congr rfl fun j _ => by ring
      _ = ∑ a, c a ^ 2 := by simp [hU, sq]
  have e : ∑ j, (v j - ∑ a, c a * U a j) ^ 2 = ∑ j, v j ^ 2 - 2 * ∑ j, v j * ∑ a, c a * U a j + ∑ j, (∑ a, c a * U a j) ^ 2 := by
    rw [mul_sum, ← sum_sub_distrib, ← sum_add_distrib]
    exact sum_congr rfl fun j _ => by ring
  rw [e, h1, h2]
  have : 0 ≤ ∑ a, (c a - ∑ j, v j * U a j) ^ 2 := sum_nonneg fun _ _ => sq_nonneg _
  have e2 : ∑ a, (c a - ∑ j, v j * U a j) ^ 2 = ∑ a, c a ^ 2 - 2 * ∑ a, c a * ∑ j, v j * U a j + ∑ a, (∑ j, v j * U a j) ^ 2 := by
    rw [mul_sum, ← sum_sub_distrib, ← sum_add_distrib]
    exact sum_congr rfl fun j _ => by ring
  linarith

/-- No matrix of rank at most the number of kept components is nearer than the sum of the squares of the discarded eigenvalues. -/
theorem eckart_young (hM : PSDMat M) (D : EigDecomp M) (k : ℕ) (B : Fin m → Fin m → ℝ) (hB : RankLe (Fintype.card (D.Kept k)) B) :
    (∑ l, if IsKept D k l then 0 else D.lam l ^ 2) ≤ dist2 M B := by
  obtain ⟨A, _, _, U, c, hcard, hU, hB⟩ := hB
  have h1 : ∑ i, (∑ j, M i j ^ 2 - ∑ a, (∑ j, M i j * U a j) ^ 2) ≤ dist2 M B := by
    refine sum_le_sum fun i _ => ?_
    simp only [hB]
    exact dist_span U hU (M i) (c i)
  refine le_trans ?_ h1
  rw [sum_sub_distrib]
  have hsym := D.symm
  have t1 : ∑ i, ∑ j, M i j ^ 2 = ∑ l, D.lam l ^ 2 := by
    refine Eq.trans ?_ (sqDecomp hM D).trace_eq
    exact sum_congr rfl fun i _ => sum_congr rfl fun j _ => by rw [hsym j i, sq]
  have t2 : ∑ i, ∑ a, (∑ j, M i j * U a j) ^ 2 = ∑ l, D.lam l ^ 2 * ∑ a, (∑ i, U a i * D.V i l) ^ 2 := by
    refine Eq.trans ?_ (captured (sqDecomp hM D) U)
    calc ∑ i, ∑ a, (∑ j, M i j * U a j) ^ 2 = ∑ i, ∑ a, ∑ p, ∑ q, U a p * U a q * (M p i * M i q) := by
          refine sum_congr rfl fun i _ => sum_congr rfl fun a _ => ?_
          rw [sq, sum_mul_sum]
          exact sum_congr rfl fun p _ => sum_congr rfl fun q _ => by rw [hsym i p]; ring
      _ = ∑ p, ∑ q, (∑ a, U a p * U a q) * ∑ i, M q i * M i p := by
          simp_rw [sum_mul, mul_sum]
          rw [sum_comm]
          calc ∑ a, ∑ i, ∑ p, ∑ q, U a p * U a q * (M p i * M i q) = ∑ a, ∑ p, ∑ q, ∑ i, U a p * U a q * (M p i * M i q) := by
                refine sum_congr rfl fun a _ => ?_
                rw [sum_comm]
                refine sum_congr rfl fun p _ => ?_
                rw [sum_comm]
            _ = ∑ p, ∑ q, ∑ a, ∑ i, U a p * U a q * (M q i * M i p) := by
                rw [sum_comm]
                refine sum_congr rfl fun p _ => ?_
                rw [sum_comm]
                refine sum_congr rfl fun q _ => sum_congr rfl fun a _ => sum_congr rfl fun i _ => ?_
                rw [hsym p i, hsym i q]; ring
  rw [t1, t2]
  have hcR : (Fintype.card A : ℝ) ≤ Fintype.card (D.Kept k) := by exact_mod_cast hcard
  have hcard2 : (Fintype.card (D.Kept k) : ℝ) = ∑ l : Fin m, if IsKept D k l then (1 : ℝ) else 0 := by
    rw [← sum_kept' D k fun _ => (1 : ℝ)]; simp
  have := weighted_top (fun l => D.lam l ^ 2) (fun l => ∑ a, (∑ i, U a i * D.V i l) ^ 2) (sqDecomp hM D).sorted (fun _ => sq_nonneg _)
    (fun l => sum_nonneg fun _ _ => sq_nonneg _) (captured_le_one D U hU) (IsKept D k) (kept_initial D k)
    (by rw [captured_sum D U hU, ← hcard2]; exact hcR)
  have e : (∑ l, if IsKept D k l then 0 else D.lam l ^ 2) = ∑ l, D.lam l ^ 2 - ∑ l, if IsKept D k l then D.lam l ^ 2 else 0 := by
    rw [← sum_sub_distrib]
    exact sum_congr rfl fun l _ => by split <;> ring
  rw [e]
  linarith

/-- The distance of two matrices with the same eigenvectors. -/
theorem dist_spectral (D : EigDecomp M) (g : Fin m → ℝ) (B : Fin m → Fin m → ℝ) (hB : ∀ i j, B i j = ∑ l, D.V i l * g l * D.V j l) :
    dist2 M B = ∑ l, (D.lam l - g l) ^ 2 := by
  have e : ∀ i j, M i j - B i j = ∑ l, (D.lam l - g l) * D.V i l * D.V j l := by
    intro i j
    rw [hB, D.spectral i j, ← sum_sub_distrib]
    exact sum_congr rfl fun l _ => by ring
  simp only [dist2, e]
  calc ∑ i, ∑ j, (∑ l, (D.lam l - g l) * D.V i l * D.V j l) ^ 2
      = ∑ i, ∑ l, (D.lam l - g l) ^ 2 * D.V i l ^ 2 := by
        refine sum_congr rfl fun i _ => ?_
        calc ∑ j, (∑ l, (D.lam l - g l) * D.V i l * D.V j l) ^ 2
            = ∑ l, ∑ l', ((D.lam l - g l) * D.V i l) * ((D.lam l' - g l') * D.V i l') * ∑ j, D.V j l * D.V j l' := by
              simp_rw [sq, sum_mul_sum, mul_sum]
              rw [sum_comm]
              refine sum_congr rfl fun l _ => ?_
              rw [sum_comm]
              exact sum_congr rfl fun l' _ => sum_congr rfl fun j _ => by ring
          _ = ∑ l, (D.lam l - g l) ^ 2 * D.V i l ^ 2 := by
              refine sum_congr rfl fun l _ => ?_
              simp only [D.orth, mul_ite, mul_one, mul_zero, sum_ite_eq, mem_univ, if_true]
              ring
    _ = ∑ l, (D.lam l - g l) ^ 2 := by
        rw [sum_comm]
        refine sum_congr rfl fun l _ => ?_
        have := D.orth l l
        rw [if_pos rfl] at this
        rw [← mul_sum]
        simp only [sq] at this ⊢
        rw [this, mul_one]

theorem Crec_eq (D : EigDecomp M) (k : ℕ) (i j : Fin m) : Crec D k i j = ∑ l, D.V i l * (if IsKept D k l then D.lam l else 0) * D.V j l := by
  rw [Crec, sum_kept' D k fun l => D.V i l * D.lam l * D.V j l]
  exact sum_congr rfl fun l _ => by split <;> ring

theorem Krec_eq (E : EigDecomp M) (k : ℕ) (i j : Fin m) : Krec E k i j = (1 / (m : ℝ)) * Crec E k i j := by
  rw [Krec, Crec, mul_sum]
  exact sum_congr rfl fun l _ => by ring

theorem Crec_rank (D : EigDecomp M) (k : ℕ) : RankLe (Fintype.card (D.Kept k)) (Crec D k) := by
  classical
  exact ⟨D.Kept k, inferInstance, Classical.decEq _, fun a j => D.V j a.1, fun i a => D.V i a.1 * D.lam a.1, le_rfl,
    fun a b => by rw [D.orth a.1 b.1]; by_cases h : a = b <;> simp [h, Subtype.ext_iff] ; exact fun h2 => absurd (Subtype.ext h2) h, fun i j => rfl⟩

/-! ## C95 -/

/-- **C95**, primal: `C_reconstructed` has the rank of the number of components kept, its distance to the covariance is the sum of the squares of the discarded eigenvalues,
and no matrix of that rank is nearer. For all samples and numbers of components. -/
theorem C95_cov_partial (Φ : Fin n → Fin d → ℝ) (D : EigDecomp (levelC Φ)) (k : ℕ) :
    RankLe (Fintype.card (D.Kept k)) (Crec D k) ∧ dist2 (levelC Φ) (Crec D k) = (∑ l, if IsKept D k l then 0 else D.lam l ^ 2) ∧
    ∀ B, RankLe (Fintype.card (D.Kept k)) B → dist2 (levelC Φ) (Crec D k) ≤ dist2 (levelC Φ) B := by
  have e : dist2 (levelC Φ) (Crec D k) = (∑ l, if IsKept D k l then 0 else D.lam l ^ 2) := by
    rw [dist_spectral D _ _ (Crec_eq D k)]
    exact sum_congr rfl fun l _ => by split <;> ring
  exact ⟨Crec_rank D k, e, fun B hB => e ▸ eckart_young (levelC_psd Φ) D k B hB⟩

/-- **C95**, dual: the reconstruction of the sample is the best approximation of the kernel matrix of its rank. -/
theorem C95_sample_partial (Φ : Fin n → Fin d → ℝ) (κ : ℝ) (hκ : 0 ≤ κ) (E : EigDecomp (levelK κ Φ)) (k : ℕ) :
    dist2 (levelK κ Φ) (fun i => reconD E k (levelK κ Φ i)) = (∑ l, if IsKept E k l then 0 else E.lam l ^ 2) ∧
    ∀ B, RankLe (Fintype.card (E.Kept k)) B → dist2 (levelK κ Φ) (fun i => reconD E k (levelK κ Φ i)) ≤ dist2 (levelK κ Φ) B := by
  have hr : (fun i => reconD E k (levelK κ Φ i)) = Crec E k := by
    funext i j
    rw [reconD, Crec]
    simp_rw [mul_sum]
    rw [sum_comm]
    refine sum_congr rfl fun l _ => ?_
    calc ∑ p, levelK κ Φ i p * (E.V p l.1 * E.V j l.1) = (∑ p, levelK κ Φ i p * E.V p l.1) * E.V j l.1 := by
          rw [sum_mul]; exact sum_congr rfl fun p _ => by ring
      _ = E.V i l.1 * E.lam l.1 * E.V j l.1 := by rw [E.eig i l.1]; ring
  have e : dist2 (levelK κ Φ) (Crec E k) = (∑ l, if IsKept E k l then 0 else E.lam l ^ 2) := by
    rw [dist_spectral E _ _ (Crec_eq E k)]
    exact sum_congr rfl fun l _ => by split <;> ring
  rw [hr]
  exact ⟨e, fun B hB => e ▸ eckart_young (levelK_psd hκ Φ) E k B hB⟩

/-- **C95**: reconstructing twice changes nothing, reconstructing the features of points gives the nearest features in the span of the components. -/
theorem C95_projection (D : EigDecomp M) (k : ℕ) (φ : Fin m → ℝ) :
    reconP D k (reconP D k φ) = reconP D k φ ∧
    ∀ c : D.Kept k → ℝ, ∑ j, (φ j - reconP D k φ j) ^ 2 ≤ ∑ j, (φ j - ∑ l, c l * D.V j l.1) ^ 2 := by
  classical
  have hU : ∀ a b : D.Kept k, ∑ i, D.V i a.1 * D.V i b.1 = if a = b then 1 else 0 := by
    intro a b
    rw [D.orth a.1 b.1]
    by_cases h : a = b
    · simp [h]
    · rw [if_neg h, if_neg fun h2 => h (Subtype.ext h2)]
  have hp : ∀ (ψ : Fin m → ℝ) j, reconP D k ψ j = ∑ l : D.Kept k, (∑ i, ψ i * D.V i l.1) * D.V j l.1 := by
    intro ψ j
    rw [reconP]
    simp_rw [mul_sum, sum_mul]
    rw [sum_comm]
    exact sum_congr rfl fun _ _ => sum_congr rfl fun _ _ => by ring
  have hip : ∀ ψ χ : Fin m → ℝ, ∑ j, ψ j * reconP D k χ j = ∑ l : D.Kept k, (∑ j, χ j * D.V j l.1) * ∑ j, ψ j * D.V j l.1 := by
    intro ψ χ
    calc ∑ j, ψ j * reconP D k χ j = ∑ j, ∑ l : D.Kept k, (∑ i, χ i * D.V i l.1) * (ψ j * D.V j l.1) := by
          refine sum_congr rfl fun j _ => ?_
          rw [hp, mul_sum]
          exact sum_congr rfl fun l _ => by ring
      _ = _ := by
          rw [sum_comm]
          exact sum_congr rfl fun l _ => (mul_sum _ _ _).symm
  have hcoef : ∀ l : D.Kept k, ∑ i, reconP D k φ i * D.V i l.1 = ∑ i, φ i * D.V i l.1 := by
    intro l
    calc ∑ i, reconP D k φ i * D.V i l.1 = ∑ i, D.V i l.1 * reconP D k φ i := sum_congr rfl fun i _ => by ring
      _ = ∑ l' : D.Kept k, (∑ i, φ i * D.V i l'.1) * ∑ i, D.V i l.1 * D.V i l'.1 := hip _ _
      _ = ∑ i, φ i * D.V i l.1 := by simp only [hU, mul_ite, mul_one, mul_zero, sum_ite_eq, mem_univ, if_true]
  refine ⟨?_, fun c => ?_⟩
  · funext j
    rw [hp, hp φ j]
    exact sum_congr rfl fun l _ => by rw [hcoef l]
  · refine le_trans (le_of_eq ?_) (dist_span (fun (l : D.Kept k) j => D.V j l.1) hU φ c)
    have h1 : ∑ j, φ j * reconP D k φ j = ∑ l : D.Kept k, (∑ j, φ j * D.V j l.1) ^ 2 := by
      rw [hip]; exact sum_congr rfl fun l _ => by ring
    have h2 : ∑ j, reconP D k φ j * reconP D k φ j = ∑ l : D.Kept k, (∑ j, φ j * D.V j l.1) ^ 2 := by
      rw [hip]; exact sum_congr rfl fun l _ => by rw [hcoef l, sq]
    have e : ∑ j, (φ j - reconP D k φ j) ^ 2 = ∑ j, φ j ^ 2 - 2 * ∑ j, φ j * reconP D k φ j + ∑ j, reconP D k φ j * reconP D k φ j := by
      rw [mul_sum, ← sum_sub_distrib, ← sum_add_distrib]
      exact sum_congr rfl fun j _ => by ring
    rw [e, h1, h2]; ring

/-- **C95** does not hold of `K_reconstructed`: after a dual fit it is the best approximation divided by the number of points; as soon as there are two
points and a kept component, another matrix of the same rank is strictly nearer to the kernel matrix. -/
theorem C95_kernel_violated (hn : 2 ≤ n) (Φ : Fin n → Fin d → ℝ) (κ : ℝ) (E : EigDecomp (levelK κ Φ)) (k : ℕ) (l0 : Fin n) (hl0 : IsKept E k l0) :
    (∀ i j, Krec E k i j = (1 / (n : ℝ)) * reconD E k (levelK κ Φ i) j) ∧
    ∃ B, RankLe (Fintype.card (E.Kept k)) B ∧ dist2 (levelK κ Φ) B < dist2 (levelK κ Φ) (Krec E k) := by
  have hn2 : (2 : ℝ) ≤ n := by exact_mod_cast hn
  have hnp : (0 : ℝ) < n := by linarith
  have hinv : 1 / (n : ℝ) ≤ 1 / 2 := one_div_le_one_div_of_le (by norm_num) hn2
  have hpos : 0 < 1 / (n : ℝ) := by positivity
  constructor
  · intro i j
    rw [Krec_eq, reconD, Crec]
    congr 1
    simp_rw [mul_sum]
    rw [sum_comm]
    refine sum_congr rfl fun l _ => ?_
    calc E.V i l.1 * E.lam l.1 * E.V j l.1 = (∑ p, levelK κ Φ i p * E.V p l.1) * E.V j l.1 := by rw [E.eig i l.1]; ring
      _ = ∑ p, levelK κ Φ i p * (E.V p l.1 * E.V j l.1) := by rw [sum_mul]; exact sum_congr rfl fun p _ => by ring
  · refine ⟨Crec E k, Crec_rank E k, ?_⟩
    rw [dist_spectral E _ _ (Crec_eq E k), dist_spectral E (fun l => if IsKept E k l then (1 / (n : ℝ)) * E.lam l else 0) (Krec E k) fun i j => by
      rw [Krec_eq, Crec_eq, mul_sum]; exact sum_congr rfl fun l _ => by split <;> ring]
    refine sum_lt_sum (fun l _ => ?_) ⟨l0, mem_univ _, ?_⟩
    · split
      · simp only [sub_self, ne_eq, OfNat.ofNat_ne_zero, not_false_eq_true, zero_pow]; positivity
      · exact le_rfl
    · rw [if_pos hl0, if_pos hl0]
      have h0 : 0 < E.lam l0 := lt_of_lt_of_le (by norm_num [EPS]) hl0.2
      have : 0 < (E.lam l0 - 1 / (n : ℝ) * E.lam l0) := by nlinarith
      simp only [sub_self, ne_eq, OfNat.ofNat_ne_zero, not_false_eq_true, zero_pow]
      positivity

theorem reconD_coef (E : EigDecomp M) (k : ℕ) (w : Fin m → ℝ) (j : Fin m) :
    reconD E k w j = ∑ l, (if IsKept E k l then ∑ i, w i * E.V i l else 0) * E.V j l := by
  rw [reconD]
  have e : ∀ i, ∑ l : E.Kept k, E.V i l.1 * E.V j l.1 = ∑ l, if IsKept E k l then E.V i l * E.V j l else 0 := fun i =>
    sum_kept' E k fun l => E.V i l * E.V j l
  simp_rw [e, mul_sum]
  rw [sum_comm]
  refine sum_congr rfl fun l _ => ?_
  by_cases h : IsKept E k l
  · simp only [if_pos h, sum_mul]; exact sum_congr rfl fun i _ => by ring
  · simp only [if_neg h, mul_zero, sum_const_zero, zero_mul]

/-- **C95**: when both representations keep the same eigenvalues, the dual reconstruction of a point is the primal one: the inner products of the
reconstructed features with those of the sample. For all samples, points and decompositions. -/
theorem C95_agree_partial (hn : n ≠ 0) (Φ : Fin n → Fin d → ℝ) (D : EigDecomp (levelC Φ)) (E : EigDecomp (levelK 1 Φ)) (k : ℕ)
    (hkeep : ∀ l q, E.lam q = n * D.lam l → (IsKept E k q ↔ IsKept D k l)) (φ : Fin d → ℝ) (j : Fin n) :
    reconD E k (fun i => ∑ a, φ a * Φ i a) j = ∑ a, reconP D k φ a * Φ j a := by
  have hn' : (n : ℝ) ≠ 0 := by exact_mod_cast hn
  -- images of the primal eigenvectors
  obtain ⟨Z, hZ⟩ : ∃ Z : Fin d → Fin n → ℝ, Z = fun l i => ∑ a, D.V a l * Φ i a := ⟨_, rfl⟩
  have hZeig : ∀ l i, ∑ p, levelK 1 Φ i p * Z l p = n * D.lam l * Z l i := by
    intro l i
    have hC : ∀ a, ∑ p, Φ p a * Z l p = n * D.lam l * D.V a l := by
      intro a
      have := D.eig a l
      simp only [levelC_apply] at this
      rw [mul_assoc, ← this, hZ]
      simp_rw [mul_sum, sum_mul]
      rw [sum_comm]
      refine sum_congr rfl fun b _ => ?_
      rw [mul_sum]
      refine sum_congr rfl fun p _ => ?_
      field_simp
    calc ∑ p, levelK 1 Φ i p * Z l p = ∑ a, Φ i a * ∑ p, Φ p a * Z l p := by
          simp_rw [levelK_apply, one_mul, sum_mul, mul_sum]
          rw [sum_comm]
          exact sum_congr rfl fun _ _ => sum_congr rfl fun _ _ => by ring
      _ = n * D.lam l * Z l i := by
          simp_rw [hC]
          rw [hZ]
          simp only
          rw [mul_sum]
          exact sum_congr rfl fun _ _ => by ring
  have hproj : ∀ l, reconD E k (Z l) j = if IsKept D k l then Z l j else 0 := by
    intro l
    rw [reconD_coef]
    by_cases h : IsKept D k l
    · rw [if_pos h, E.expand (Z l) j]
      refine sum_congr rfl fun q _ => ?_
      by_cases hq : E.lam q = n * D.lam l
      · rw [if_pos ((hkeep l q hq).2 h)]
      · rw [E.eig_orth (Z l) _ (hZeig l) q hq, ite_self]
    · rw [if_neg h]
      refine sum_eq_zero fun q _ => ?_
      by_cases hq : E.lam q = n * D.lam l
      · rw [if_neg fun h2 => h ((hkeep l q hq).1 h2), zero_mul]
      · rw [E.eig_orth (Z l) _ (hZeig l) q hq, ite_self, zero_mul]
  have hφ : (fun i => ∑ a, φ a * Φ i a) = fun i => ∑ l, (∑ b, φ b * D.V b l) * Z l i := by
    funext i
    rw [hZ]
    calc ∑ a, φ a * Φ i a = ∑ a, ∑ l, (∑ b, φ b * D.V b l) * (D.V a l * Φ i a) := by
          refine sum_congr rfl fun a _ => ?_
          rw [D.expand φ a, sum_mul]
          exact sum_congr rfl fun l _ => by ring
      _ = _ := by rw [sum_comm]; exact sum_congr rfl fun l _ => (mul_sum _ _ _).symm
  have hlin : reconD E k (fun i => ∑ l, (∑ b, φ b * D.V b l) * Z l i) j = ∑ l, (∑ b, φ b * D.V b l) * reconD E k (Z l) j := by
    simp only [reconD]
    simp_rw [sum_mul]
    rw [sum_comm]
    refine sum_congr rfl fun l _ => ?_
    simp only [← sum_mul]
    rw [mul_sum]
    exact sum_congr rfl fun i _ => by ring
  rw [hφ, hlin]
  simp only [hproj]
  have hrp : ∀ a, reconP D k φ a = ∑ l, (if IsKept D k l then ∑ i, φ i * D.V i l else 0) * D.V a l := fun a => reconD_coef D k φ a
  have hr : ∑ a, reconP D k φ a * Φ j a = ∑ l, ∑ a, (if IsKept D k l then ∑ i, φ i * D.V i l else 0) * D.V a l * Φ j a := by
    rw [sum_comm]
    exact sum_congr rfl fun a _ => by rw [hrp, sum_mul]
  rw [hr]
  refine sum_congr rfl fun l _ => ?_
  by_cases h : IsKept D k l
  · rw [if_pos h, if_pos h, hZ]; simp only
    rw [mul_sum]
    exact sum_congr rfl fun a _ => by ring
  · simp only [if_neg h, mul_zero, zero_mul, sum_const_zero]

/-! ## Non-vacuity -/

/-- Two points of one feature, the second one at zero. -/
def exΦ : Fin 2 → Fin 1 → ℝ := fun i _ => if i = 0 then 1 else 0

/-- The decomposition of its covariance. -/
noncomputable def exD : EigDecomp (levelC exΦ) where
  lam _ := 1 / 2
  V _ _ := 1
  sorted := fun _ _ _ => le_rfl
  orth := fun i j => by simp [Subsingleton.elim i j]
  eig := fun i l => by simp [levelC_apply, exΦ]

/-- The decomposition of its kernel matrix. -/
noncomputable def exE : EigDecomp (levelK 1 exΦ) where
  lam l := if l = 0 then 1 else 0
  V i l := if i = l then 1 else 0
  sorted := fun a b h => by
    by_cases hb : b = 0
    · have : a = 0 := le_antisymm (hb ▸ h) (Fin.zero_le _)
      simp [hb, this]
    · simp only [if_neg hb]; split <;> norm_num
  orth := fun i j => by fin_cases i <;> fin_cases j <;> simp
  eig := fun i l => by fin_cases i <;> fin_cases l <;> simp [levelK_apply, exΦ]

example : IsKept exD 1 0 ∧ IsKept exE 1 0 ∧ ∀ l q, exE.lam q = (2 : ℕ) * exD.lam l → (IsKept exE 1 q ↔ IsKept exD 1 l) := by
  have h1 : IsKept exD 1 0 := ⟨by decide, by norm_num [exD, EPS]⟩
  have h2 : IsKept exE 1 0 := ⟨by decide, by norm_num [exE, EPS]⟩
  refine ⟨h1, h2, fun l q h => ?_⟩
  have hl : l = 0 := Subsingleton.elim _ _
  have hq : q = 0 := by
    by_contra hq
    simp [exE, exD, hq] at h
  rw [hl, hq]
  exact ⟨fun _ => h1, fun _ => h2⟩

end Recon
end Kerch
