import Mathlib.LinearAlgebra.Matrix.NonsingularInverse
import Verif.Model.Nystrom
import Verif.Lemmas.PSD
set_option linter.unusedSectionVars false
set_option linter.unusedSimpArgs false
/-!
# C34: the Nyström kernel
-/
namespace Kerch
open Finset

namespace EigDecomp
variable {n : ℕ} {M : Fin n → Fin n → ℝ} (D : EigDecomp M)

theorem orth' (i j : Fin n) : ∑ l, D.V i l * D.V j l = if i = j then 1 else 0 := by
  have h : (Matrix.of D.V).transpose * Matrix.of D.V = 1 := by
    ext k l
    simpa [Matrix.mul_apply, Matrix.one_apply] using D.orth k l
  have h2 := mul_eq_one_comm.1 h
  have := congrFun (congrFun h2 i) j
  simpa [Matrix.mul_apply, Matrix.one_apply] using this

/-- The spectral theorem from the contract: `M = Σ_l λ_l v_l v_lᵀ`. -/
theorem spectral (i j : Fin n) : M i j = ∑ l, D.lam l * D.V i l * D.V j l := by
  calc M i j = ∑ a, M i a * (if a = j then 1 else 0) := by simp
    _ = ∑ a, ∑ l, M i a * (D.V a l * D.V j l) := by
        refine sum_congr rfl fun a _ => ?_
        rw [← D.orth' a j, mul_sum]
    _ = ∑ l, ∑ a, (M i a * D.V a l) * D.V j l := by
        rw [sum_comm]
        exact sum_congr rfl fun l _ => sum_congr rfl fun a _ => by ring
    _ = _ := by
        refine sum_congr rfl fun l _ => ?_
        rw [← sum_mul, D.eig i l]

theorem sum_kept (k : ℕ) (f : Fin n → ℝ) : ∑ l : D.Kept k, f l.1 = ∑ l, if l.val < k ∧ EPS ≤ D.lam l then f l else 0 := by
  classical
  rw [← sum_filter]
  have h : ∑ l ∈ univ.filter (fun l : Fin n => l.val < k ∧ EPS ≤ D.lam l), f l = ∑ l : { l : Fin n // l.val < k ∧ EPS ≤ D.lam l }, f l.1 :=
    sum_subtype _ (by simp) f
  rw [h]
  exact Fintype.sum_equiv (Equiv.refl _) _ _ fun _ => rfl

theorem lam_pos {k : ℕ} (l : D.Kept k) : 0 < D.lam l.1 := EPS_pos.trans_le l.2.2

theorem gram_sample (k : ℕ) (i j : Fin n) :
    ∑ l : D.Kept k, D.samplePhi k i l * D.samplePhi k j l
      = ∑ l, if l.val < k ∧ EPS ≤ D.lam l then D.lam l * D.V i l * D.V j l else 0 := by
  rw [← D.sum_kept k fun l => D.lam l * D.V i l * D.V j l]
  refine sum_congr rfl fun l _ => ?_
  have : Real.sqrt (D.lam l.1) * Real.sqrt (D.lam l.1) = D.lam l.1 := Real.mul_self_sqrt (D.lam_pos l).le
  rw [samplePhi, samplePhi, mul_mul_mul_comm, this]
  ring

end EigDecomp

variable {n : ℕ} {M : Fin n → Fin n → ℝ}

/-- Evaluating the feature map at the points of the sample gives the features of the sample: whatever was pruned. -/
theorem C34_consistent (D : EigDecomp M) (k : ℕ) (i : Fin n) : D.oosPhi k (M i) = D.samplePhi k i := by
  funext l
  have hp := D.lam_pos l
  rw [EigDecomp.oosPhi, D.eig i l.1, EigDecomp.samplePhi]
  have hs := Real.sqrt_pos.2 hp
  have : Real.sqrt (D.lam l.1) * Real.sqrt (D.lam l.1) = D.lam l.1 := Real.mul_self_sqrt hp.le
  field_simp
  rw [sq, this]
  ring

/-- If what is dropped has eigenvalue zero (in particular when nothing is dropped), the features reproduce the kernel matrix of the base kernel. -/
theorem C34_sample (D : EigDecomp M) (k : ℕ) (h : ∀ l : Fin n, ¬ (l.val < k ∧ EPS ≤ D.lam l) → D.lam l = 0) (i j : Fin n) :
    ∑ l : D.Kept k, D.samplePhi k i l * D.samplePhi k j l = M i j := by
  rw [D.gram_sample, D.spectral i j]
  refine sum_congr rfl fun l _ => ?_
  by_cases hl : l.val < k ∧ EPS ≤ D.lam l
  · rw [if_pos hl]
  · rw [if_neg hl, h l hl]; ring

/-- Out of sample, the features reproduce the values of the base kernel against the sample, for every point, when no eigenvalue is dropped. -/
theorem C34_oos (D : EigDecomp M) (k : ℕ) (h : ∀ l : Fin n, l.val < k ∧ EPS ≤ D.lam l) (kx : Fin n → ℝ) (i : Fin n) :
    ∑ l : D.Kept k, D.oosPhi k kx l * D.samplePhi k i l = kx i := by
  have h1 : ∀ l : D.Kept k, D.oosPhi k kx l * D.samplePhi k i l = (∑ j, kx j * D.V j l.1) * D.V i l.1 := by
    intro l
    have hs := Real.sqrt_pos.2 (D.lam_pos l)
    rw [EigDecomp.oosPhi, EigDecomp.samplePhi]
    field_simp
  rw [sum_congr rfl fun l _ => h1 l, D.sum_kept k fun l => (∑ j, kx j * D.V j l) * D.V i l]
  simp only [if_pos (h _), sum_mul]
  rw [sum_comm]
  have : ∀ j, ∑ l, kx j * D.V j l * D.V i l = kx j * if j = i then 1 else 0 := by
    intro j
    rw [← D.orth' j i, mul_sum]
    exact sum_congr rfl fun l _ => by ring
  simp [this]

/-- The same when zero eigenvalues are dropped, for base kernels that are positive semi-definite on the sample and the new point (`none`). -/
theorem C34_oos_singular (κ : Option (Fin n) → Option (Fin n) → ℝ) (hκ : PSDMat κ) (D : EigDecomp fun i j => κ (some i) (some j)) (k : ℕ)
    (h : ∀ l : Fin n, ¬ (l.val < k ∧ EPS ≤ D.lam l) → D.lam l = 0) (i : Fin n) :
    ∑ l : D.Kept k, D.oosPhi k (fun j => κ none (some j)) l * D.samplePhi k i l = κ none (some i) := by
  -- eigenvectors of eigenvalue zero are orthogonal to the row of the new point
  have hz : ∀ l, D.lam l = 0 → ∑ j, κ none (some j) * D.V j l = 0 := by
    intro l hl
    by_contra hne
    obtain ⟨s, hs⟩ : ∃ s, s = ∑ j, κ none (some j) * D.V j l := ⟨_, rfl⟩
    rw [← hs] at hne
    -- quadratic form at (-(κ none none + 1) / ... , t v)
    have key : ∀ t : ℝ, 0 ≤ κ none none + 2 * t * s := by
      intro t
      have h2 := hκ.2 (fun o => match o with | none => 1 | some j => t * D.V j l)
      simp only [Fintype.sum_option] at h2
      have e1 : ∀ a, ∑ x, t * D.V a l * (t * D.V x l) * κ (some a) (some x) = 0 := by
        intro a
        have : ∑ x, t * D.V a l * (t * D.V x l) * κ (some a) (some x) = t * D.V a l * t * ∑ x, κ (some a) (some x) * D.V x l := by
          rw [mul_sum]; exact sum_congr rfl fun x _ => by ring
        rw [this, D.eig a l, hl]; ring
      have e2 : ∑ x, 1 * (t * D.V x l) * κ none (some x) = t * s := by
        rw [hs, mul_sum]; exact sum_congr rfl fun x _ => by ring
      have e3 : ∑ x, t * D.V x l * 1 * κ (some x) none = t * s := by
        rw [hs, mul_sum]; exact sum_congr rfl fun x _ => by rw [hκ.1 (some x) none]; ring
      rw [sum_add_distrib, e3, e2, sum_eq_zero fun a _ => e1 a] at h2
      linarith
    have h3 := key (-(κ none none + 1) / (2 * s))
    have h4 : 2 * (-(κ none none + 1) / (2 * s)) * s = -(κ none none + 1) := by field_simp
    rw [h4] at h3
    linarith
  have h1 : ∀ l : D.Kept k, D.oosPhi k (fun j => κ none (some j)) l * D.samplePhi k i l = (∑ j, κ none (some j) * D.V j l.1) * D.V i l.1 := by
    intro l
    have hs := Real.sqrt_pos.2 (D.lam_pos l)
    rw [EigDecomp.oosPhi, EigDecomp.samplePhi]
    field_simp
  rw [sum_congr rfl fun l _ => h1 l, D.sum_kept k fun l => (∑ j, κ none (some j) * D.V j l) * D.V i l]
  have h5 : ∀ l, (if l.val < k ∧ EPS ≤ D.lam l then (∑ j, κ none (some j) * D.V j l) * D.V i l else 0)
      = ∑ j, κ none (some j) * D.V j l * D.V i l := by
    intro l
    rw [← sum_mul]
    by_cases hl : l.val < k ∧ EPS ≤ D.lam l
    · rw [if_pos hl]
    · rw [if_neg hl, hz l (h l hl), zero_mul]
  rw [sum_congr rfl fun l _ => h5 l, sum_comm]
  have : ∀ j, ∑ l, κ none (some j) * D.V j l * D.V i l = κ none (some j) * if j = i then 1 else 0 := by
    intro j
    rw [← D.orth' j i, mul_sum]
    exact sum_congr rfl fun l _ => by ring
  simp [this]

/-- Whatever the dimension, the kernel matrix of the features is positive semi-definite, and stays below that of a positive semi-definite base
kernel. -/
theorem C34_below (D : EigDecomp M) (hM : PSDMat M) (k : ℕ) :
    PSDMat (fun i j => ∑ l : D.Kept k, D.samplePhi k i l * D.samplePhi k j l) ∧
    PSDMat (fun i j => M i j - ∑ l : D.Kept k, D.samplePhi k i l * D.samplePhi k j l) := by
  refine ⟨psdMat_gram _, ?_⟩
  -- eigenvalues of a PSD matrix are non negative
  have hlam : ∀ l, 0 ≤ D.lam l := by
    intro l
    have h := hM.2 fun i => D.V i l
    have e : ∑ i, ∑ j, D.V i l * D.V j l * M i j = D.lam l := by
      have : ∀ i, ∑ j, D.V i l * D.V j l * M i j = D.lam l * (D.V i l * D.V i l) := by
        intro i
        have : ∑ j, D.V i l * D.V j l * M i j = D.V i l * ∑ j, M i j * D.V j l := by
          rw [mul_sum]; exact sum_congr rfl fun j _ => by ring
        rw [this, D.eig i l]; ring
      rw [sum_congr rfl fun i _ => this i, ← mul_sum, D.orth l l, if_pos rfl, mul_one]
    rwa [e] at h
  have e : (fun i j => M i j - ∑ l : D.Kept k, D.samplePhi k i l * D.samplePhi k j l)
      = fun i j => ∑ l, (if l.val < k ∧ EPS ≤ D.lam l then 0 else Real.sqrt (D.lam l) * D.V i l)
          * (if l.val < k ∧ EPS ≤ D.lam l then 0 else Real.sqrt (D.lam l) * D.V j l) := by
    funext i j
    rw [D.gram_sample, D.spectral i j, ← sum_sub_distrib]
    refine sum_congr rfl fun l _ => ?_
    split
    · ring
    · have := Real.mul_self_sqrt (hlam l)
      rw [sub_zero, mul_mul_mul_comm, this]; ring
  rw [e]
  exact psdMat_gram _

/-- The error of the approximation: the trace of what is missing is the sum of the dropped eigenvalues. -/
theorem C34_trace (D : EigDecomp M) (k : ℕ) :
    ∑ i, M i i - ∑ i, ∑ l : D.Kept k, D.samplePhi k i l * D.samplePhi k i l
      = ∑ l, if l.val < k ∧ EPS ≤ D.lam l then 0 else D.lam l := by
  have h1 : ∀ c : Fin n → ℝ, ∑ i, ∑ l, c l * D.V i l * D.V i l = ∑ l, c l := by
    intro c
    rw [sum_comm]
    refine sum_congr rfl fun l _ => ?_
    have := D.orth l l
    rw [if_pos rfl] at this
    calc ∑ i, c l * D.V i l * D.V i l = c l * ∑ i, D.V i l * D.V i l := by
          rw [mul_sum]; exact sum_congr rfl fun i _ => by ring
      _ = c l := by rw [this, mul_one]
  have hM : ∑ i, M i i = ∑ l, D.lam l := by
    rw [← h1 D.lam]; exact sum_congr rfl fun i _ => D.spectral i i
  have hK : ∑ i, ∑ l : D.Kept k, D.samplePhi k i l * D.samplePhi k i l = ∑ l, if l.val < k ∧ EPS ≤ D.lam l then D.lam l else 0 := by
    rw [← h1 fun l => if l.val < k ∧ EPS ≤ D.lam l then D.lam l else 0]
    refine sum_congr rfl fun i _ => ?_
    rw [D.gram_sample]
    refine sum_congr rfl fun l _ => ?_
    split <;> ring
  rw [hM, hK, ← sum_sub_distrib]
  refine sum_congr rfl fun l _ => ?_
  split <;> ring

/-! ### History -/

theorem evalK_ok (d : DimVal) (n : ℕ) (M : Fin n → Fin n → ℝ) (z : Int) (D : EigDecomp M) (k : ℕ) (hk : NysSt.reqDim ⟨d, n, M, .num z⟩ = k)
    (hkn : k ≤ n) (hz : 1 ≤ z) :
    NysSt.evalK ⟨d, n, M, .num z⟩ D = (.ok fun i j => ∑ l : D.Kept k, D.samplePhi k i l * D.samplePhi k j l,
      ⟨if Fintype.card (D.Kept k) < k then .tensor (Fintype.card (D.Kept k)) else d.orTotal n, n, M, .num z⟩) := by
  subst hk
  have hle : (Lvl.num 1).le (.num z) = .ok true := by simp [Lvl.le, hz]
  unfold NysSt.evalK
  rw [if_neg (not_lt.2 hkn)]
  simp only [hle]

/-- From a freshly created kernel with default dimension, a normal cache and non singular base kernel, the kernel matrix is that of the base kernel;
and it stays so when asked again. Missing (`_partial`): later samples, see the violations. -/
theorem C34_first_partial (n : ℕ) (M : Fin n → Fin n → ℝ) (D D' : EigDecomp M) (h : ∀ l, EPS ≤ D.lam l) (h' : ∀ l, EPS ≤ D'.lam l) (z : Int)
    (hz : 1 ≤ z) :
    let s : NysSt := ⟨.tensor n, n, M, .num z⟩
    (s.evalK D).1 = .ok M ∧ (s.evalK D).2 = ⟨.tensor n, n, M, .num z⟩ ∧
      (NysSt.evalK ⟨.tensor n, n, M, .num z⟩ D').1 = .ok M := by
  have hc : ∀ D : EigDecomp M, (∀ l, EPS ≤ D.lam l) → Fintype.card (D.Kept n) = n := by
    intro D h
    have : Fintype.card (D.Kept n) = Fintype.card (Fin n) :=
      Fintype.card_congr ⟨fun l => l.1, fun l => ⟨l, l.2, h l⟩, fun l => rfl, fun l => rfl⟩
    simpa using this
  have hK : ∀ D : EigDecomp M, (∀ l, EPS ≤ D.lam l) → (fun i j => ∑ l : D.Kept n, D.samplePhi n i l * D.samplePhi n j l) = M := by
    intro D h
    funext i j
    exact C34_sample D n (fun l hl => absurd ⟨l.2, h l⟩ hl) i j
  intro s
  have h1 := evalK_ok (.tensor n) n M z D n rfl le_rfl hz
  have h2 := evalK_ok (.tensor n) n M z D' n rfl le_rfl hz
  rw [hK D h, hc D h, if_neg (lt_irrefl n)] at h1
  rw [hK D' h'] at h2
  exact ⟨congrArg Prod.fst h1, congrArg Prod.snd h1, congrArg Prod.fst h2⟩

/-- The decomposition of the identity. -/
noncomputable def eigId (n : ℕ) : EigDecomp (n := n) fun i j => if i = j then 1 else 0 where
  lam := fun _ => 1
  V := fun i j => if i = j then 1 else 0
  sorted := fun _ _ _ => le_refl _
  orth := by intro k l; simp [eq_comm]
  eig := by intro i k; simp [eq_comm]

/-- A kernel matrix of rank `r` (pairwise orthogonal points, the last ones zero, with the linear kernel) and its decomposition. -/
def diagOnes (n r : ℕ) (i j : Fin n) : ℝ := if i = j then (if i.val < r then 1 else 0) else 0

noncomputable def eigOnes (n r : ℕ) : EigDecomp (diagOnes n r) where
  lam := fun i => if i.val < r then 1 else 0
  V := fun i j => if i = j then 1 else 0
  sorted := by
    intro i j hij
    have : i.val ≤ j.val := hij
    show (if j.val < r then (1 : ℝ) else 0) ≤ if i.val < r then 1 else 0
    by_cases h : j.val < r
    · rw [if_pos h, if_pos (by omega)]
    · simp only [if_neg h]; split <;> norm_num
  orth := by intro k l; simp [eq_comm]
  eig := by
    intro i k
    simp only [diagOnes]
    rw [Finset.sum_eq_single k (by intro j _ hj; simp [hj]) (by simp)]
    by_cases h : i = k
    · subst h; simp
    · simp [h]

/-- All eigenvalues of the identity are 1. -/
theorem eigId_lam {n : ℕ} (D : EigDecomp (n := n) fun i j => if i = j then 1 else 0) (l : Fin n) : D.lam l = 1 := by
  have h := D.orth l l
  rw [if_pos rfl] at h
  obtain ⟨i, hi⟩ : ∃ i, D.V i l ≠ 0 := by
    by_contra hn
    push Not at hn
    simp [hn] at h
  have := D.eig i l
  simp only [ite_mul, one_mul, zero_mul, Finset.sum_ite_eq, Finset.mem_univ, if_true] at this
  have h2 : (D.lam l - 1) * D.V i l = 0 := by linarith
  rcases mul_eq_zero.1 h2 with h3 | h3
  · linarith
  · exact absurd h3 hi

/-- Violation: pruning is definitive. After one evaluation on a sample whose base kernel has rank `r`, lower than the number of points, the dimension stays
reduced for the following samples: on a new sample on which the base kernel is the identity the kernel matrix is not the identity, its trace being `r`. -/
theorem C34_dim_violated (n r : ℕ) (_h0 : 0 < r) (hr : r < n) (z : Int) (hz : 1 ≤ z) :
    let s : NysSt := ⟨.tensor n, n, diagOnes n r, .num z⟩
    let s' := (s.evalK (eigOnes n r)).2.newSample n fun i j => if i = j then 1 else 0
    ∀ D : EigDecomp (n := n) (fun i j => if i = j then 1 else 0),
      ∃ K : Fin n → Fin n → ℝ, (s'.evalK D).1 = .ok K ∧ ∑ i, K i i = r := by
  intro s s' D
  have hk : Fintype.card ((eigOnes n r).Kept n) = r := by
    have : Fintype.card ((eigOnes n r).Kept n) = Fintype.card (Fin r) := by
      refine Fintype.card_congr ⟨fun l => ⟨l.1.1, ?_⟩, fun l => ⟨⟨l.1, by omega⟩, by have := l.2; simp only; omega, ?_⟩, fun l => rfl, fun l => rfl⟩
      · by_contra h
        have := l.2.2
        simp only [eigOnes, if_neg h] at this
        exact absurd this (not_le.2 EPS_pos)
      · simp only [eigOnes, if_pos l.2]; norm_num [EPS]
    simpa using this
  have hs : s' = ⟨.tensor r, n, fun i j => if i = j then 1 else 0, .num z⟩ := by
    have h1 := evalK_ok (.tensor n) n (diagOnes n r) z (eigOnes n r) n rfl le_rfl hz
    rw [hk, if_pos hr] at h1
    simp only [s', s, h1, NysSt.newSample]
  have key : ∀ t : NysSt, (ht : t = ⟨.tensor r, n, fun i j => if i = j then 1 else 0, .num z⟩) → ∀ D : EigDecomp t.M,
      ∃ K : Fin t.n → Fin t.n → ℝ, (t.evalK D).1 = .ok K ∧ ∑ i, K i i = r := by
    rintro t rfl D
    have h1 := evalK_ok (.tensor r) n _ z D r rfl hr.le hz
    refine ⟨_, congrArg Prod.fst h1, ?_⟩
    have ht := C34_trace D r
    have hl : ∀ l : Fin n, (if l.val < r ∧ EPS ≤ D.lam l then 0 else D.lam l) = if l.val < r then (0 : ℝ) else 1 := by
      intro l
      have := eigId_lam D l
      rw [this]
      have he : EPS ≤ 1 := by norm_num [EPS]
      simp [he]
    simp only [hl, if_true] at ht
    have hcount : ∑ l : Fin n, (if l.val < r then (0 : ℝ) else 1) = n - r := by
      rw [Fin.sum_univ_eq_sum_range (fun l => if l < r then (0 : ℝ) else 1) n]
      obtain ⟨c, rfl⟩ := Nat.exists_eq_add_of_le hr.le
      rw [Finset.sum_range_add]
      have h1 : ∑ x ∈ Finset.range r, (if x < r then (0 : ℝ) else 1) = 0 :=
        Finset.sum_eq_zero fun x hx => by rw [if_pos (Finset.mem_range.1 hx)]
      rw [h1]
      simp
    rw [hcount] at ht
    simp only [Finset.sum_const, Finset.card_univ, Fintype.card_fin, nsmul_eq_mul, mul_one] at ht
    linarith
  exact key s' hs D

/-- Three points of which one is zero. -/
example (D : EigDecomp (n := 3) (fun i j => if i = j then 1 else 0)) :
    ∃ K : Fin 3 → Fin 3 → ℝ, (((⟨.tensor 3, 3, diagOnes 3 2, .num 2⟩ : NysSt).evalK (eigOnes 3 2)).2.newSample 3 (fun i j => if i = j then 1 else 0)
      |>.evalK D).1 = .ok K ∧ ∑ i, K i i = (2 : ℕ) := C34_dim_violated 3 2 (by norm_num) (by norm_num) 2 (by norm_num) D

/-- Violation: after a new sample with fewer points, every evaluation raises. -/
theorem C34_smaller_violated (n m : ℕ) (h : m < n) (M : Fin n → Fin n → ℝ) (M' : Fin m → Fin m → ℝ) (D : EigDecomp M) (hD : ∀ l, EPS ≤ D.lam l)
    (z : Int) (hz : 1 ≤ z) :
    let s : NysSt := ⟨.tensor n, n, M, .num z⟩
    ∀ D' : EigDecomp M', (NysSt.evalK ((s.evalK D).2.newSample m M') D').1 = .error .assertionError := by
  intro s D'
  have hs := (C34_first_partial n M D D hD hD z hz).2.1
  have key : ∀ t : NysSt, (ht : t = ⟨.tensor n, n, M, .num z⟩) → ∀ D' : EigDecomp (t.newSample m M').M,
      ((t.newSample m M').evalK D').1 = .error .assertionError := by
    rintro t rfl D'
    simp [NysSt.evalK, NysSt.reqDim, NysSt.newSample, h]
  exact key _ hs D'

/-- Violation: without cache (level `none`) no feature can be computed. -/
theorem C34_cache_violated (n : ℕ) (M : Fin n → Fin n → ℝ) (D : EigDecomp M) (d : DimVal) :
    (NysSt.evalK ⟨d, n, M, .num 0⟩ D).1 ≠ .ok M := by
  have hle : (Lvl.num 1).le (.num 0) = .ok false := rfl
  simp only [NysSt.evalK, hle]
  by_cases h : n < NysSt.reqDim ⟨d, n, M, .num 0⟩
  · rw [if_pos h]; simp
  · rw [if_neg h]; simp

/-- Violation: a dimension given at construction cannot be read before something is pruned. -/
theorem C34_given_dim_violated (k n : ℕ) (hk : k ≤ n) (M : Fin n → Fin n → ℝ) (D : EigDecomp M) (hD : ∀ l, EPS ≤ D.lam l) (z : Int) (hz : 1 ≤ z) :
    (NysSt.evalK ⟨.pyint k, n, M, .num z⟩ D).2.getDim = .error .attributeError := by
  have hc : Fintype.card (D.Kept k) = k := by
    have : Fintype.card (D.Kept k) = Fintype.card (Fin k) :=
      Fintype.card_congr ⟨fun l => ⟨l.1, l.2.1⟩, fun l => ⟨⟨l, l.2.trans_le hk⟩, l.2, hD _⟩, fun l => rfl, fun l => rfl⟩
    simpa using this
  have h1 := evalK_ok (.pyint k) n M z D k rfl hk hz
  rw [hc, if_neg (lt_irrefl k)] at h1
  rw [h1]
  rfl

/-- Non-vacuity: the hypotheses of `C34_sample`, `C34_oos` and `C34_first_partial` are met by the identity (RBF on far away points). -/
example (l : Fin 3) : l.val < 3 ∧ EPS ≤ (eigId 3).lam l := ⟨l.2, by norm_num [eigId, EPS]⟩

end Kerch
