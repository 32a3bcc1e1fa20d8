import Verif.Model.Eigs
import Mathlib.Algebra.Order.BigOperators.Ring.Finset
import Mathlib.Tactic.Linarith
import Mathlib.Tactic.NormNum
import Mathlib.Tactic.FinCases
set_option linter.unusedSectionVars false
set_option linter.unusedSimpArgs false
/-!
# C88: `utils.eigs` returns the greatest eigenpairs
-/
namespace Kerch
namespace Eigs
open Finset Matrix

/-- Specification: `r` consists of `k` orthonormal eigenvectors of `A` with their eigenvalues in descending order, and these are the greatest: on the
orthogonal complement of the vectors returned the quadratic form of `A` is below all values returned. -/
structure Greatest {n : ℕ} (A : Matrix (Fin n) (Fin n) ℝ) (k : ℕ) (r : Pairs n) : Prop where
  card : r.m = k
  eig : ∀ j, A *ᵥ (fun i => r.V i j) = r.s j • fun i => r.V i j
  orth : r.V.transpose * r.V = 1
  desc : Antitone r.s
  top : ∀ x : Fin n → ℝ, (∀ j, x ⬝ᵥ (fun i => r.V i j) = 0) → ∀ j, x ⬝ᵥ A *ᵥ x ≤ r.s j * (x ⬝ᵥ x)

section
variable {n : ℕ} {A V : Matrix (Fin n) (Fin n) ℝ} {s : Fin n → ℝ}

theorem col_eig (h : A * V = V * diagonal s) (l : Fin n) : A *ᵥ (fun i => V i l) = s l • fun i => V i l := by
  funext i
  have := congrFun (congrFun h i) l
  rw [mul_diagonal] at this
  rw [Pi.smul_apply, smul_eq_mul, mul_comm, ← this]
  rfl

theorem expand (hV : V.transpose * V = 1) (h : A * V = V * diagonal s) (x : Fin n → ℝ) :
    x ⬝ᵥ A *ᵥ x = ∑ l, s l * (x ⬝ᵥ fun i => V i l) ^ 2 ∧ x ⬝ᵥ x = ∑ l, (x ⬝ᵥ fun i => V i l) ^ 2 := by
  have hV' : V * V.transpose = 1 := mul_eq_one_comm.1 hV
  obtain ⟨y, hy⟩ : ∃ y, y = V.transpose *ᵥ x := ⟨_, rfl⟩
  have hx : x = V *ᵥ y := by rw [hy, mulVec_mulVec, hV', one_mulVec]
  have hyl : ∀ l, (x ⬝ᵥ fun i => V i l) = y l := by
    intro l
    rw [hy]
    exact dotProduct_comm _ _
  simp only [hyl]
  have e1 : A *ᵥ x = V *ᵥ (diagonal s *ᵥ y) := by rw [hx, mulVec_mulVec, h, mulVec_mulVec]
  have e2 : ∀ z : Fin n → ℝ, x ⬝ᵥ V *ᵥ z = y ⬝ᵥ z := by
    intro z
    rw [hx, dotProduct_mulVec, vecMul_mulVec, hV, vecMul_one]
  constructor
  · rw [e1, e2]
    refine sum_congr rfl fun l _ => ?_
    rw [mulVec_diagonal]; ring
  · have e3 : x ⬝ᵥ x = x ⬝ᵥ V *ᵥ y := by rw [← hx]
    rw [e3, e2]
    exact sum_congr rfl fun l _ => by ring

theorem greatest_first (hV : V.transpose * V = 1) (h : A * V = V * diagonal s) (hs : Antitone s) (k : ℕ) (hk : k ≤ n) (r : Pairs n) (hm : r.m = k)
    (hr : ∀ j : Fin r.m, r.s j = s ⟨j, by omega⟩ ∧ ∀ i, r.V i j = V i ⟨j, by omega⟩) : Greatest A k r where
  card := hm
  eig := by
    intro j
    have e : (fun i => r.V i j) = fun i => V i ⟨j, by omega⟩ := funext (hr j).2
    rw [e, (hr j).1]
    exact col_eig h _
  orth := by
    ext j l
    have := congrFun (congrFun hV ⟨j, by omega⟩) ⟨l, by omega⟩
    simp only [mul_apply, transpose_apply, (hr _).2, one_apply, Fin.mk.injEq, Fin.ext_iff] at this ⊢
    exact this
  desc := by
    intro j l hjl
    rw [(hr j).1, (hr l).1]
    exact hs hjl
  top := by
    intro x hx j
    obtain ⟨e1, e2⟩ := expand hV h x
    rw [e1, e2, mul_sum]
    refine sum_le_sum fun l _ => ?_
    by_cases hl : l.val < r.m
    · have := hx ⟨l, hl⟩
      have e : (fun i => r.V i ⟨l, hl⟩) = fun i => V i l := funext (hr ⟨l, hl⟩).2
      rw [e] at this
      rw [this]; simp
    · refine mul_le_mul_of_nonneg_right ?_ (sq_nonneg _)
      rw [(hr j).1]
      exact hs (show (j : ℕ) ≤ l by omega)

theorem lowerSym_of_symm (hA : A.transpose = A) : lowerSym A = A := by
  ext i j
  unfold lowerSym
  split
  · rfl
  · exact congrFun (congrFun hA i) j

theorem svd_eig (hA : A.transpose = A) (hpsd : ∀ x : Fin n → ℝ, 0 ≤ x ⬝ᵥ A *ᵥ x) {r : (Fin n → ℝ) × Matrix (Fin n) (Fin n) ℝ} (h : IsSvd A r) :
    A * r.2 = r.2 * diagonal r.1 := by
  obtain ⟨U, hU, hM⟩ := h.prod
  have hV' : r.2 * r.2.transpose = 1 := mul_eq_one_comm.1 h.orth
  have h2 : A * A * r.2 = r.2 * diagonal (fun i => r.1 i * r.1 i) := by
    have : A * A = A.transpose * A := by rw [hA]
    rw [this, hM]
    simp only [transpose_mul, transpose_transpose, diagonal_transpose]
    calc r.2 * (diagonal r.1 * U.transpose) * (U * diagonal r.1 * r.2.transpose) * r.2
        = r.2 * diagonal r.1 * (U.transpose * U) * diagonal r.1 * (r.2.transpose * r.2) := by simp only [Matrix.mul_assoc]
      _ = _ := by rw [hU, h.orth, Matrix.mul_one, Matrix.mul_one, Matrix.mul_assoc, diagonal_mul_diagonal]
  have key : ∀ l, A *ᵥ (fun i => r.2 i l) = r.1 l • fun i => r.2 i l := by
    intro l
    obtain ⟨v, hv⟩ : ∃ v, v = fun i => r.2 i l := ⟨_, rfl⟩
    rw [← hv]
    have e : A *ᵥ (A *ᵥ v) = (r.1 l * r.1 l) • v := by rw [mulVec_mulVec, hv]; exact col_eig h2 l
    obtain ⟨w, hw⟩ : ∃ w, w = A *ᵥ v - r.1 l • v := ⟨_, rfl⟩
    have hAw : A *ᵥ w = -(r.1 l • w) := by
      rw [hw, mulVec_sub, e, mulVec_smul, smul_sub, smul_smul]
      abel
    have h3 := hpsd w
    rw [hAw, dotProduct_neg, dotProduct_smul, smul_eq_mul] at h3
    have h4 : 0 ≤ w ⬝ᵥ w := sum_nonneg fun i _ => mul_self_nonneg _
    have hw0 : w ⬝ᵥ w = 0 := by
      rcases (h.nonneg l).eq_or_lt with h0 | h0
      · have hw' : w = A *ᵥ v := by rw [hw, ← h0, zero_smul, sub_zero]
        have h5 : w ⬝ᵥ A *ᵥ v = v ⬝ᵥ A *ᵥ w := by
          rw [dotProduct_mulVec, ← mulVec_transpose, hA, dotProduct_comm]
        rw [← hw', hAw, ← h0, zero_smul, neg_zero, dotProduct_zero] at h5
        exact h5
      · nlinarith
    have hw1 : w = 0 := by
      have := (sum_eq_zero_iff_of_nonneg (s := univ) (f := fun i => w i * w i) fun i _ => mul_self_nonneg _).1 hw0
      funext i
      simpa using this i (mem_univ i)
    exact sub_eq_zero.1 (hw ▸ hw1)
  ext i l
  rw [mul_diagonal, mul_comm]
  exact congrFun (key l) i

end

variable {n : ℕ} (T : Torch n) (A : Matrix (Fin n) (Fin n) ℝ)

theorem eigs_square (k : Option ℤ) (B : Option (Matrix (Fin n) (Fin n) ℝ)) (psd sym : Bool) :
    eigs T A k B psd sym = if k.getD n ≤ n then
      (match T.lobpcg A (k.getD n) B with
      | some r => .ok r
      | none => (target T A B).map fun M =>
        if sym then lastFlipped (T.eigh M) (k.getD n) else if psd then first (T.svd M) (k.getD n) else first (T.eig M) (k.getD n))
      else .error .assertionError := by
  unfold eigs
  rw [dif_pos rfl]
  rfl

/-- On a symmetric matrix (default arguments), for `1 ≤ k ≤ n`, the greatest `k` eigenpairs are returned, by whichever decomposition; with `k=None` all.
Missing (`_partial`): `k = 0`, and generalised or unsymmetric problems, see the violations. -/
theorem C88_greatest_partial (hA : A.transpose = A) (k : Option ℕ) (hk : ∀ j, k = some j → 1 ≤ j ∧ j ≤ n) (hn : 0 < n) (psd : Bool)
    (hl : ∀ r, T.lobpcg A (k.getD n) none = some r → Greatest A (k.getD n) r) (he : IsEigh A (T.eigh A)) :
    ∃ r, eigs T A (k.map Int.ofNat) none psd true = .ok r ∧ Greatest A (k.getD n) r := by
  obtain ⟨j, hj⟩ : ∃ j, j = k.getD n := ⟨_, rfl⟩
  have hj1 : 1 ≤ j ∧ j ≤ n := by
    cases k with
    | none => subst hj; exact ⟨hn, le_rfl⟩
    | some i => rw [hj]; exact hk i rfl
  have hz : (k.map Int.ofNat).getD (n : ℤ) = (j : ℤ) := by cases k <;> simp [hj]
  rw [eigs_square, hz, if_pos (by exact_mod_cast hj1.2)]
  rw [← hj] at hl ⊢
  cases hT : T.lobpcg A (j : ℤ) none with
  | some r => exact ⟨r, rfl, hl r hT⟩
  | none =>
    refine ⟨lastFlipped (T.eigh A) j, rfl, ?_⟩
    have hstart : n - sliceStart n j = j := by unfold sliceStart; rw [if_pos (by exact_mod_cast hj1.1)]; simp; omega
    have heig := he.eig
    rw [lowerSym_of_symm hA] at heig
    refine greatest_first (V := (T.eigh A).2.submatrix id Fin.rev) (s := fun i => (T.eigh A).1 i.rev) ?_ ?_ ?_ j hj1.2 _ hstart ?_
    · ext a b
      have := congrFun (congrFun he.orth a.rev) b.rev
      simp only [mul_apply, transpose_apply, one_apply, submatrix_apply, id, Fin.rev_inj] at this ⊢
      exact this
    · ext a b
      have := congrFun (congrFun heig a) b.rev
      rw [mul_diagonal] at this ⊢
      exact this
    · intro a b hab
      exact he.asc (Fin.rev_le_rev.2 hab)
    · intro l
      have hrev : (⟨n - 1 - (l : ℕ), by have := l.2; omega⟩ : Fin n) = Fin.rev ⟨l, by have := l.2; simp only [lastFlipped] at this; omega⟩ := by
        ext; simp [Fin.rev]; omega
      constructor
      · simp only [lastFlipped, hrev]
      · intro i; simp only [lastFlipped, hrev, submatrix_apply, id]

/-- The same on a symmetric positive semi-definite matrix by the route `sym=False`. -/
theorem C88_psd_partial (hA : A.transpose = A) (hpsd : ∀ x : Fin n → ℝ, 0 ≤ x ⬝ᵥ A *ᵥ x) (k : ℕ) (hk : k ≤ n)
    (hl : ∀ r, T.lobpcg A k none = some r → Greatest A k r) (he : IsSvd A (T.svd A)) :
    ∃ r, eigs T A (some k) none true false = .ok r ∧ Greatest A k r := by
  rw [eigs_square, Option.getD_some, if_pos (by exact_mod_cast hk)]
  cases hT : T.lobpcg A (k : ℤ) none with
  | some r => exact ⟨r, rfl, hl r hT⟩
  | none =>
    refine ⟨first (T.svd A) k, rfl, ?_⟩
    have hend : sliceEnd n k = k := by unfold sliceEnd; rw [if_pos (by omega)]; simp; omega
    exact greatest_first he.orth (svd_eig hA hpsd he) he.desc k hk _ hend fun l => ⟨rfl, fun i => rfl⟩

/-- More pairs than the size, and matrices that are not square, are refused. -/
theorem C88_refused {a b : ℕ} (T : Torch a) (A : Matrix (Fin a) (Fin b) ℝ) (k : Option ℤ) (B : Option (Matrix (Fin a) (Fin a) ℝ)) (psd sym : Bool)
    (h : a ≠ b ∨ ∃ j, k = some j ∧ (a : ℤ) < j) : eigs T A k B psd sym = .error .assertionError := by
  unfold eigs
  rcases h with h | ⟨j, rfl, h⟩
  · rw [dif_neg h]
  · by_cases hab : a = b
    · rw [dif_pos hab, Option.getD_some]
      exact if_neg (not_le.2 h)
    · rw [dif_neg hab]

/-- Violation: no pair is requested (`k=0`) and all are returned. -/
theorem C88_zero_violated (psd : Bool) (hl : T.lobpcg A 0 none = none) : ∃ r, eigs T A (some 0) none psd true = .ok r ∧ r.m = n := by
  rw [eigs_square, Option.getD_some, if_pos (by omega), hl]
  refine ⟨_, rfl, ?_⟩
  simp [lastFlipped, sliceStart]

/-- Violation: for the generalised problem `A x = s B x` the Hermitian decomposition is applied to `B⁻¹ A`, which is not symmetric: on `A = [[0,1],[1,0]]`,
`B = diag(1,2)` the values returned are not generalised eigenvalues. -/
theorem C88_generalised_violated (T : Torch 2) (psd : Bool) (hl : T.lobpcg !![0, 1; 1, 0] 2 (some !![1, 0; 0, 2]) = none)
    (hi : T.inv !![1, 0; 0, 2] = some !![1, 0; 0, 1 / 2]) (he : ∀ M, IsEigh M (T.eigh M)) :
    ∃ r, eigs T !![0, 1; 1, 0] none (some !![1, 0; 0, 2]) psd true = .ok r ∧
      ∀ j, ∀ x : Fin 2 → ℝ, !![0, 1; 1, 0] *ᵥ x = r.s j • (!![1, 0; 0, 2] *ᵥ x) → x = 0 := by
  obtain ⟨M, hM⟩ : ∃ M : Matrix (Fin 2) (Fin 2) ℝ, M = !![1, 0; 0, 1 / 2] * !![0, 1; 1, 0] := ⟨_, rfl⟩
  refine ⟨lastFlipped (T.eigh M) 2, ?_, ?_⟩
  · rw [eigs_square, Option.getD_none, if_pos le_rfl]
    have h2 : ((2 : ℕ) : ℤ) = 2 := rfl
    rw [h2, hl]
    simp only [target, hi, Except.map, if_true, hM]
  · intro j x hx
    obtain ⟨l, hl⟩ : ∃ l, (lastFlipped (T.eigh M) 2).s j = (T.eigh M).1 l := ⟨_, rfl⟩
    have hsq : (T.eigh M).1 l * (T.eigh M).1 l = 1 / 4 := by
      have hE := he M
      have hlow : lowerSym M = !![0, 1 / 2; 1 / 2, 0] := by
        ext a b
        fin_cases a <;> fin_cases b <;> simp [lowerSym, hM, mul_apply, Fin.sum_univ_two]
      have h1 := col_eig hE.eig l
      rw [hlow] at h1
      have e0 := congrFun h1 0
      have e1 := congrFun h1 1
      have e2 := congrFun (congrFun hE.orth l) l
      simp only [mulVec, dotProduct, Fin.sum_univ_two, of_apply, cons_val', cons_val_zero, cons_val_one, cons_val_fin_one, Pi.smul_apply, smul_eq_mul,
        mul_apply, transpose_apply, one_apply_eq] at e0 e1 e2
      generalize (T.eigh M).1 l = s at *
      generalize (T.eigh M).2 0 l = v0 at *
      generalize (T.eigh M).2 1 l = v1 at *
      have a0 : v1 = 2 * s * v0 := by linarith
      have a1 : v0 = 2 * s * v1 := by linarith
      have h3 : (4 * (s * s) - 1) * v0 = 0 := by rw [a0] at a1; linarith
      rcases mul_eq_zero.1 h3 with h4 | h4
      · linarith
      · rw [h4] at a0 e2; rw [a0] at e2; norm_num at e2
    rw [hl] at hx
    have e0 := congrFun hx 0
    have e1 := congrFun hx 1
    simp only [mulVec, dotProduct, Fin.sum_univ_two, of_apply, cons_val', cons_val_zero, cons_val_one, cons_val_fin_one, Pi.smul_apply, smul_eq_mul] at e0 e1
    generalize (T.eigh M).1 l = s at *
    have a0 : x 1 = s * x 0 := by linarith
    have a1 : x 0 = s * (2 * x 1) := by linarith
    have h0 : x 0 = 0 := by
      have : x 0 = 2 * (s * s) * x 0 := by rw [a0] at a1; linarith
      rw [hsq] at this; linarith
    funext i
    fin_cases i
    · exact h0
    · show x 1 = 0
      rw [a0, h0, mul_zero]

/-- Violation: with `sym=False, psd=False` the first pairs of `eig` are returned, in whatever order: on `diag(1,2)` the smallest one may be. -/
theorem C88_unordered_violated : ∃ r : (Fin 2 → ℝ) × Matrix (Fin 2) (Fin 2) ℝ, IsEig (diagonal ![1, 2]) r ∧
    ∀ T : Torch 2, T.lobpcg (diagonal ![1, 2]) 1 none = none → T.eig (diagonal ![1, 2]) = r →
      ∃ p, eigs T (diagonal ![1, 2]) (some 1) none false false = .ok p ∧ (∀ j, p.s j = 1) ∧ ¬ Greatest (diagonal ![1, 2]) 1 p := by
  refine ⟨(![1, 2], 1), by simp [IsEig], fun T hl he => ?_⟩
  refine ⟨first (![1, 2], 1) 1, ?_, ?_, ?_⟩
  · rw [eigs_square, Option.getD_some, if_pos (by norm_num), hl]
    simp only [target, Except.map, he, Bool.false_eq_true, if_false]
  · intro j
    have h1 : (j : ℕ) < 1 := by have := j.2; simpa [first, sliceEnd] using this
    have h0 : (j : ℕ) = 0 := by omega
    simp only [first, h0]
    rfl
  · intro h
    have h1 := h.top ![0, 1] (fun j => by
      have h1 : (j : ℕ) < 1 := by have := j.2; simpa [first, sliceEnd] using this
      have h0 : (j : ℕ) = 0 := by omega
      simp [first, h0, dotProduct, Fin.sum_univ_two, one_apply]) ⟨0, by simp [first, sliceEnd]⟩
    simp [first, dotProduct, Fin.sum_univ_two, mulVec_diagonal] at h1

/-- `diag(3, 1)`, whose ascending decomposition has the second axis first: the greatest pair. -/
example : ∃ r, eigs ⟨fun _ _ _ => none, fun _ => none, fun _ => (![1, 3], !![0, 1; 1, 0]), fun _ => (0, 0), fun _ => (0, 0)⟩ (diagonal ![3, 1]) (some 1) none true
    true = .ok r ∧ Greatest (diagonal ![3, 1]) 1 r := by
  refine C88_greatest_partial _ (diagonal ![3, 1]) (diagonal_transpose _) (some 1) (by simp) (by norm_num) true (fun r h => by cases h) ⟨?_, ?_, ?_⟩
  · intro a b h
    fin_cases a <;> fin_cases b <;> simp at h ⊢
  · ext a b
    fin_cases a <;> fin_cases b <;> simp [mul_apply, Fin.sum_univ_two]
  · ext a b
    fin_cases a <;> fin_cases b <;> simp [lowerSym, mul_apply, Fin.sum_univ_two, diagonal]

end Eigs
end Kerch
