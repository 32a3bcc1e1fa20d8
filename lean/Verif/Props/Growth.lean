import Verif.Props.KPCA
import Verif.Lemmas.PPCALik
import Mathlib.LinearAlgebra.Dimension.StrongRankCondition
import Mathlib.LinearAlgebra.FiniteDimensional.Lemmas
import Mathlib.Tactic.Linarith
set_option linter.unusedSectionVars false
set_option linter.unusedSimpArgs false
/-!
# C134: a KPCA fitted on a part of the sample, or on more points

`level.vals` of a level on `num_idx` points are the eigenvalues of `K` divided by `num_idx` (kerch/level/single_view/_KPCA.py:160, 176) or those of the covariance, already
divided by it (kerch/level/single_view/_View.py:320-322). The model is the one of Model/KPCA (`levelK`, `levelC`, `modelVarD`); this file has no definition of its own beside
specifications. A part of the sample is an embedding `e` of its positions, in any order.
-/
namespace Kerch
namespace Growth
open Finset KPCA

variable {p q m : ℕ}

/-- The value of the quadratic form of a matrix. -/
def quad (M : Fin p → Fin p → ℝ) (u : Fin p → ℝ) : ℝ := ∑ i, ∑ j, u i * M i j * u j

theorem quad_expand {M : Fin p → Fin p → ℝ} (D : EigDecomp M) (u : Fin p → ℝ) : quad M u = ∑ l, D.lam l * (∑ i, D.V i l * u i) ^ 2 := by
  have h := PPCALik.quad_eq D u
  simp only [dotProduct, Matrix.mulVec, Matrix.of_apply] at h
  unfold quad
  simp only [mul_assoc, ← mul_sum]
  rw [h]
  exact sum_congr rfl fun l _ => mul_comm _ _

theorem norm_expand {M : Fin p → Fin p → ℝ} (D : EigDecomp M) (u : Fin p → ℝ) : ∑ i, u i ^ 2 = ∑ l, (∑ i, D.V i l * u i) ^ 2 := by
  have key := D.expand u
  calc ∑ i, u i ^ 2 = ∑ i, ∑ l, u i * ((∑ j, u j * D.V j l) * D.V i l) := by
        refine sum_congr rfl fun i _ => ?_
        rw [← mul_sum, ← key i, sq]
    _ = _ := by
        rw [sum_comm]
        refine sum_congr rfl fun l _ => ?_
        have : ∑ j, u j * D.V j l = ∑ i, D.V i l * u i := sum_congr rfl fun j _ => mul_comm _ _
        rw [this, sq, sum_mul]
        exact sum_congr rfl fun i _ => by ring

/-- Comparison of eigenvalues: if the combinations of the first `l + 1` eigenvectors meeting `m` linear conditions can be sent to vectors of the same length and no smaller
form, then the `l`-th eigenvalue is at most the `l'`-th one for `l' + m ≤ l`. -/
theorem compare {M : Fin p → Fin p → ℝ} {M' : Fin q → Fin q → ℝ} (D : EigDecomp M) (D' : EigDecomp M') (l : Fin p) (l' : Fin q) (Q : Fin m → Fin p → ℝ)
    (J : Fin q → Fin p → ℝ) (hle : l'.val + m ≤ l.val)
    (h : ∀ u : Fin p → ℝ, (∀ i, l < i → ∑ a, D.V a i * u a = 0) → (∀ r, ∑ a, Q r a * u a = 0) →
      quad M u ≤ quad M' (fun b => ∑ a, J b a * u a) ∧ ∑ b, (∑ a, J b a * u a) ^ 2 = ∑ a, u a ^ 2) : D.lam l ≤ D'.lam l' := by
  classical
  let emb : Fin (l.val + 1) → Fin p := fun i => ⟨i.val, by have := i.2; have := l.2; omega⟩
  let A : Matrix (Fin l'.val ⊕ Fin m) (Fin (l.val + 1)) ℝ := Matrix.of fun c i => match c with
    | .inl j => ∑ b, D'.V b ⟨j.val, j.2.trans l'.2⟩ * ∑ a, J b a * D.V a (emb i)
    | .inr r => ∑ a, Q r a * D.V a (emb i)
  have hker : LinearMap.ker A.mulVecLin ≠ ⊥ := by
    refine LinearMap.ker_ne_bot_of_finrank_lt ?_
    simp only [Module.finrank_pi, Fintype.card_sum, Fintype.card_fin]
    omega
  obtain ⟨a, ha, hne⟩ := (Submodule.ne_bot_iff _).1 hker
  rw [LinearMap.mem_ker, Matrix.mulVecLin_apply] at ha
  let u : Fin p → ℝ := fun b => ∑ i, a i * D.V b (emb i)
  have hemb : Function.Injective emb := fun i j hij => Fin.ext (by simpa [emb] using hij)
  have hco : ∀ t, ∑ b, D.V b t * u b = ∑ i, a i * if t = emb i then 1 else 0 := by
    intro t
    simp only [u, mul_sum]
    rw [sum_comm]
    refine sum_congr rfl fun i _ => ?_
    rw [← D.orth t (emb i), mul_sum]
    exact sum_congr rfl fun b _ => by ring
  have hco0 : ∀ t, l < t → ∑ b, D.V b t * u b = 0 := by
    intro t ht
    rw [hco t]
    refine sum_eq_zero fun i _ => ?_
    rw [if_neg, mul_zero]
    rintro rfl
    have := i.2
    have : l.val < i.val := ht
    omega
  have hcoi : ∀ i, ∑ b, D.V b (emb i) * u b = a i := by
    intro i
    rw [hco (emb i), sum_eq_single i]
    · simp
    · intro j _ hj
      rw [if_neg fun e => hj (hemb e).symm, mul_zero]
    · simp
  have hA : ∀ c, ∑ i, A c i * a i = 0 := fun c => congrFun ha c
  have hQ : ∀ r, ∑ b, Q r b * u b = 0 := by
    intro r
    rw [← hA (.inr r)]
    simp only [A, Matrix.of_apply, u, mul_sum, sum_mul]
    rw [sum_comm]
    exact sum_congr rfl fun i _ => sum_congr rfl fun b _ => by ring
  obtain ⟨h1, h2⟩ := h u hco0 hQ
  have hJ : ∀ t : Fin q, t < l' → ∑ b, D'.V b t * (∑ c, J b c * u c) = 0 := by
    intro t ht
    rw [← hA (.inl ⟨t.val, ht⟩)]
    simp only [A, Matrix.of_apply, u, mul_sum, sum_mul]
    symm
    rw [sum_comm]
    refine sum_congr rfl fun b _ => ?_
    rw [sum_comm]
    exact sum_congr rfl fun i _ => sum_congr rfl fun c _ => by ring
  have hlow : D.lam l * ∑ i, u i ^ 2 ≤ quad M u := by
    rw [norm_expand D u, quad_expand D u, mul_sum]
    refine sum_le_sum fun t _ => ?_
    rcases le_or_gt t l with ht | ht
    · exact mul_le_mul_of_nonneg_right (D.sorted ht) (sq_nonneg _)
    · rw [hco0 t ht]; simp
  have hhigh : quad M' (fun b => ∑ c, J b c * u c) ≤ D'.lam l' * ∑ i, u i ^ 2 := by
    rw [← h2, norm_expand D' (fun b => ∑ c, J b c * u c), quad_expand D', mul_sum]
    refine sum_le_sum fun t _ => ?_
    rcases lt_or_ge t l' with ht | ht
    · rw [hJ t ht]; simp
    · exact mul_le_mul_of_nonneg_right (D'.sorted ht) (sq_nonneg _)
  have hpos : 0 < ∑ i, u i ^ 2 := by
    obtain ⟨i, hi⟩ := Function.ne_iff.1 hne
    rw [norm_expand D u]
    refine sum_pos' (fun t _ => sq_nonneg _) ⟨emb i, mem_univ _, ?_⟩
    rw [hcoi i]
    exact lt_of_le_of_ne (sq_nonneg _) (Ne.symm (pow_ne_zero 2 hi))
  nlinarith

section subset
variable (e : Fin p ↪ Fin q)

/-- Values on a part of the points, completed by zeros. -/
def ext (u : Fin p → ℝ) (b : Fin q) : ℝ := ∑ a, (if b = e a then 1 else 0) * u a

theorem ext_at (u : Fin p → ℝ) (a : Fin p) : ext e u (e a) = u a := by
  unfold ext
  rw [sum_eq_single a]
  · simp
  · intro c _ hc
    rw [if_neg fun h => hc (e.injective h).symm, zero_mul]
  · simp

theorem ext_off (u : Fin p → ℝ) (b : Fin q) (hb : b ∉ Set.range e) : ext e u b = 0 := by
  unfold ext
  refine sum_eq_zero fun a _ => ?_
  rw [if_neg fun h => hb ⟨a, h.symm⟩, zero_mul]

theorem sum_ext (f : Fin q → ℝ) (hf : ∀ b, b ∉ Set.range e → f b = 0) : ∑ b, f b = ∑ a, f (e a) :=
  (Fintype.sum_of_injective e e.injective (fun a => f (e a)) f hf fun _ => rfl).symm

theorem quad_ext (M' : Fin q → Fin q → ℝ) (u : Fin p → ℝ) : quad M' (ext e u) = quad (fun i j => M' (e i) (e j)) u := by
  unfold quad
  rw [sum_ext e _ fun b hb => by simp [ext_off e u b hb]]
  refine sum_congr rfl fun a _ => ?_
  rw [sum_ext e _ fun b hb => by simp [ext_off e u b hb]]
  exact sum_congr rfl fun c _ => by rw [ext_at, ext_at]

theorem norm_ext (u : Fin p → ℝ) : ∑ b, ext e u b ^ 2 = ∑ a, u a ^ 2 := by
  rw [sum_ext e _ fun b hb => by simp [ext_off e u b hb]]
  exact sum_congr rfl fun c _ => by rw [ext_at]

theorem ext_restrict (u : Fin q → ℝ) (hu : ∀ b, b ∉ Set.range e → u b = 0) : ext e (fun a => u (e a)) = u := by
  funext b
  by_cases hb : b ∈ Set.range e
  · obtain ⟨a, rfl⟩ := hb
    exact ext_at e _ a
  · rw [ext_off e _ b hb, hu b hb]

/-- The points left out. -/
theorem others : ∃ c : Fin (q - p) → Fin q, ∀ b, b ∉ Set.range e → ∃ r, c r = b := by
  classical
  let s : Finset (Fin q) := univ.filter fun b => b ∉ Set.range e
  have hcard : s.card = q - p := by
    have h1 : (univ.filter fun b => b ∈ Set.range e).card = p := by
      have : (univ.filter fun b => b ∈ Set.range e) = univ.map e := by ext b; simp
      rw [this, card_map, card_univ, Fintype.card_fin]
    have h2 := card_filter_add_card_filter_not (s := (univ : Finset (Fin q))) (fun b => b ∈ Set.range e)
    rw [h1, card_univ, Fintype.card_fin] at h2
    have : s.card = (univ.filter fun b => ¬ b ∈ Set.range e).card := rfl
    omega
  refine ⟨fun r => (s.equivFinOfCardEq hcard).symm r, fun b hb => ?_⟩
  refine ⟨s.equivFinOfCardEq hcard ⟨b, mem_filter.2 ⟨mem_univ _, hb⟩⟩, ?_⟩
  simp

include e in
theorem size_le : p ≤ q := by simpa using Fintype.card_le_of_embedding e

/-- What is needed of two samples of which one is a part of the other, for eigenvalues to interlace: on the combinations considered both forms agree. -/
theorem interlace {M : Fin p → Fin p → ℝ} {M' : Fin q → Fin q → ℝ} (E : EigDecomp M) (E' : EigDecomp M') (l : Fin p) (h0 : 0 ≤ E.lam l)
    (h0' : ∀ t, 0 ≤ E'.lam t)
    (h1 : 0 < E.lam l → ∀ u, (∀ i, l < i → ∑ a, E.V a i * u a = 0) → quad M u = quad M' (ext e u))
    (h2 : ∀ t : Fin q, 0 < E'.lam t → ∀ u, (∀ i, t < i → ∑ a, E'.V a i * u a = 0) → (∀ b, b ∉ Set.range e → u b = 0) →
      quad M' u = quad M fun a => u (e a)) :
    E.lam l ≤ E'.lam (l.castLE (size_le e)) ∧ ∀ t : Fin q, l.val + (q - p) ≤ t.val → E'.lam t ≤ E.lam l := by
  constructor
  · rcases h0.lt_or_eq with h | h
    · refine compare (m := 0) E E' l _ (fun r => r.elim0) (fun b a => if b = e a then 1 else 0) (by simp) ?_
      intro u hu _
      exact ⟨le_of_eq (h1 h u hu), norm_ext e u⟩
    · rw [← h]; exact h0' _
  · intro t ht
    rcases (h0' t).lt_or_eq with h | h
    · obtain ⟨c, hc⟩ := others e
      refine compare (m := q - p) E' E t l (fun r a => if a = c r then 1 else 0) (fun b a => if a = e b then 1 else 0) ht ?_
      intro u hu hQ
      have hz : ∀ b, b ∉ Set.range e → u b = 0 := by
        intro b hb
        obtain ⟨r, rfl⟩ := hc b hb
        simpa using hQ r
      have hr : (fun b : Fin p => ∑ a, (if a = e b then (1 : ℝ) else 0) * u a) = fun a => u (e a) := by
        funext b; simp
      have hr' : ∀ b : Fin p, ∑ a, (if a = e b then (1 : ℝ) else 0) * u a = u (e b) := congrFun hr
      refine ⟨?_, ?_⟩
      · rw [hr]
        exact le_of_eq (h2 t h u hu hz)
      · simp only [hr']
        rw [← norm_ext e fun a => u (e a), ext_restrict e u hz]
    · rw [← h]; exact h0
end subset

/-! ## C134 -/

variable {n d : ℕ}

/-- Kernels whose values do not depend on the rest of the sample: for a part (any `p` distinct points, in any order) of a sample of `q` points, with eigenvalues
`num_idx * vals`: none is greater than the one of the same rank on the whole sample, nor smaller than the one `q - p` ranks further. -/
theorem C134_interlace (e : Fin p ↪ Fin q) {M' : Fin q → Fin q → ℝ} (hM : PSDMat M') (E : EigDecomp fun i j => M' (e i) (e j)) (E' : EigDecomp M') (l : Fin p) :
    E.lam l ≤ E'.lam (l.castLE (size_le e)) ∧ ∀ t : Fin q, l.val + (q - p) ≤ t.val → E'.lam t ≤ E.lam l := by
  have hM0 : PSDMat fun i j => M' (e i) (e j) := by
    refine ⟨fun i j => hM.1 _ _, fun c => ?_⟩
    have := hM.2 (ext e c)
    have hq := quad_ext e M' c
    unfold quad at hq
    have h1 : ∀ (r : ℕ) (M : Fin r → Fin r → ℝ) (u : Fin r → ℝ), ∑ i, ∑ j, u i * u j * M i j = ∑ i, ∑ j, u i * M i j * u j :=
      fun r M u => sum_congr rfl fun i _ => sum_congr rfl fun j _ => by ring
    rw [h1] at this
    rw [h1, ← hq]
    exact this
  refine interlace e E E' l (E.lam_nonneg hM0 l) (E'.lam_nonneg hM) (fun _ u _ => (quad_ext e M' u).symm) ?_
  intro t _ u _ hz
  rw [← quad_ext e M' fun a => u (e a), ext_restrict e u hz]

/-- Specification: the features minus their mean on the sample. -/
noncomputable def centred (Φ : Fin n → Fin d → ℝ) (i : Fin n) (a : Fin d) : ℝ := Φ i a - (∑ j, Φ j a) / n

theorem quad_levelK (κ : ℝ) (Φ : Fin n → Fin d → ℝ) (u : Fin n → ℝ) : quad (levelK κ Φ) u = κ * ∑ a, (∑ i, u i * Φ i a) ^ 2 := by
  unfold quad
  have : ∀ i j, levelK κ Φ i j = κ * ∑ a, Φ i a * Φ j a := fun i j => by simp [levelK, matK, Matrix.mul_apply]
  simp only [this]
  have h2 : ∀ a, (∑ i, u i * Φ i a) ^ 2 = ∑ i, ∑ j, u i * Φ i a * (u j * Φ j a) := fun a => by rw [sq, sum_mul_sum]
  simp only [h2, mul_sum, sum_mul]
  rw [sum_comm (γ := Fin d)]
  refine sum_congr rfl fun i _ => ?_
  rw [sum_comm (γ := Fin d)]
  exact sum_congr rfl fun j _ => sum_congr rfl fun a _ => by ring

theorem centred_sum (Φ : Fin n → Fin d → ℝ) (u : Fin n → ℝ) (hu : ∑ i, u i = 0) (a : Fin d) : ∑ i, u i * centred Φ i a = ∑ i, u i * Φ i a := by
  simp only [centred, mul_sub, sum_sub_distrib, ← sum_mul]
  rw [hu, zero_mul, sub_zero]

/-- Combinations of eigenvectors of positive eigenvalues of a centred matrix have a null sum. -/
theorem centred_null (κ : ℝ) (Φ : Fin n → Fin d → ℝ) (E : EigDecomp (levelK κ (centred Φ))) (l : Fin n) (hl : 0 < E.lam l) (u : Fin n → ℝ)
    (hu : ∀ i, l < i → ∑ a, E.V a i * u a = 0) : ∑ i, u i = 0 := by
  have hn : (n : ℝ) ≠ 0 := by
    have : n ≠ 0 := by rintro rfl; exact l.elim0
    exact_mod_cast this
  have h0 : ∀ a, ∑ i, centred Φ i a = 0 := by
    intro a
    simp only [centred, sum_sub_distrib, sum_const, card_univ, Fintype.card_fin, nsmul_eq_mul]
    rw [mul_div_cancel₀ _ hn, sub_self]
  have hK : ∀ j, ∑ i, levelK κ (centred Φ) i j = 0 := by
    intro j
    have : ∀ i, levelK κ (centred Φ) i j = ∑ a, κ * (centred Φ i a * centred Φ j a) := fun i => by simp [levelK, matK, Matrix.mul_apply, mul_sum]
    simp only [this]
    rw [sum_comm]
    refine sum_eq_zero fun a _ => ?_
    rw [← mul_sum, ← sum_mul, h0, zero_mul, mul_zero]
  have hV : ∀ t, t ≤ l → ∑ i, E.V i t = 0 := by
    intro t ht
    have hpos : 0 < E.lam t := lt_of_lt_of_le hl (E.sorted ht)
    have h1 : ∑ i, ∑ j, levelK κ (centred Φ) i j * E.V j t = E.lam t * ∑ i, E.V i t := by
      rw [mul_sum]; exact sum_congr rfl fun i _ => E.eig i t
    rw [sum_comm] at h1
    simp only [← sum_mul, hK, zero_mul, sum_const_zero] at h1
    rcases mul_eq_zero.1 h1.symm with h | h
    · exact absurd h hpos.ne'
    · exact h
  have key := E.expand u
  rw [sum_congr rfl fun i _ => key i, sum_comm]
  refine sum_eq_zero fun t _ => ?_
  rw [← mul_sum]
  rcases le_or_gt t l with ht | ht
  · rw [hV t ht, mul_zero]
  · have : ∑ j, u j * E.V j t = ∑ a, E.V a t * u a := sum_congr rfl fun j _ => mul_comm _ _
    rw [this, hu t ht, zero_mul]

/-- Centred kernels, whose values do depend on the rest of the sample: the same. -/
theorem C134_centred (e : Fin p ↪ Fin q) (κ : ℝ) (hκ : 0 ≤ κ) (Φ : Fin q → Fin d → ℝ) (E : EigDecomp (levelK κ (centred fun i => Φ (e i))))
    (E' : EigDecomp (levelK κ (centred Φ))) (l : Fin p) :
    E.lam l ≤ E'.lam (l.castLE (size_le e)) ∧ ∀ t : Fin q, l.val + (q - p) ≤ t.val → E'.lam t ≤ E.lam l := by
  have hext : ∀ u : Fin p → ℝ, ∑ i, u i = 0 → quad (levelK κ (centred fun i => Φ (e i))) u = quad (levelK κ (centred Φ)) (ext e u) := by
    intro u hu
    have hu' : ∑ b, ext e u b = 0 := by
      rw [sum_ext e _ (ext_off e u), ← hu]
      exact sum_congr rfl fun a _ => ext_at e u a
    rw [quad_levelK, quad_levelK]
    congr 1
    refine sum_congr rfl fun a _ => ?_
    rw [centred_sum _ u hu, centred_sum _ _ hu', sum_ext e _ fun b hb => by rw [ext_off e u b hb, zero_mul]]
    congr 1
    exact sum_congr rfl fun i _ => by rw [ext_at]
  refine interlace e E E' l (E.lam_nonneg (levelK_psd hκ _) l) (E'.lam_nonneg (levelK_psd hκ _)) ?_ ?_
  · intro hl u hu
    exact hext u (centred_null κ _ E l hl u hu)
  · intro t ht u hu hz
    have h1 := centred_null κ _ E' t ht u hu
    have h2 : ∑ a, u (e a) = 0 := by rw [← sum_ext e u hz]; exact h1
    rw [hext _ h2, ext_restrict e u hz]

/-- What the first `k` components capture (`num_idx * model_variance(normalize=False)`) never decreases with more points. -/
theorem C134_captured (e : Fin p ↪ Fin q) {M : Fin p → Fin p → ℝ} {M' : Fin q → Fin q → ℝ} (E : EigDecomp M) (E' : EigDecomp M')
    (h : ∀ l : Fin p, E.lam l ≤ E'.lam (l.castLE (size_le e))) (k : ℕ) : p * modelVarD E k ≤ q * modelVarD E' k := by
  classical
  have hx : ∀ (r : ℕ) (N : Fin r → Fin r → ℝ) (F : EigDecomp N), r * modelVarD F k = ∑ l, if l.val < k ∧ EPS ≤ F.lam l then F.lam l else 0 := by
    intro r N F
    rw [← F.sum_kept k fun l => F.lam l]
    unfold modelVarD
    rw [← mul_sum, ← mul_assoc]
    rcases Nat.eq_zero_or_pos r with h0 | h0
    · subst h0
      have : IsEmpty (F.Kept k) := ⟨fun x => x.1.elim0⟩
      simp
    · have : (r : ℝ) ≠ 0 := by exact_mod_cast h0.ne'
      field_simp
  rw [hx, hx]
  have hE : (0 : ℝ) < EPS := by unfold EPS; norm_num
  have h1 : ∑ l : Fin p, (if l.val < k ∧ EPS ≤ E.lam l then E.lam l else 0)
      ≤ ∑ l : Fin p, if l.val < k ∧ EPS ≤ E'.lam (l.castLE (size_le e)) then E'.lam (l.castLE (size_le e)) else 0 := by
    refine sum_le_sum fun l _ => ?_
    by_cases hl : l.val < k ∧ EPS ≤ E.lam l
    · rw [if_pos hl, if_pos ⟨hl.1, hl.2.trans (h l)⟩]
      exact h l
    · rw [if_neg hl]
      split
      · rename_i h2; exact hE.le.trans h2.2
      · exact le_refl _
  refine h1.trans ?_
  have := sum_le_univ_sum_of_nonneg (s := univ.map (Fin.castLEEmb (size_le e))) (f := fun l : Fin q => if l.val < k ∧ EPS ≤ E'.lam l then E'.lam l else 0) (fun l => by
    split
    · rename_i h2; exact hE.le.trans h2.2
    · exact le_refl _)
  rw [sum_map] at this
  exact this

/-- What they leave out (`num_idx` times the variance beyond the first `k` components) does not decrease either. -/
theorem C134_left_out (e : Fin p ↪ Fin q) {M : Fin p → Fin p → ℝ} {M' : Fin q → Fin q → ℝ} (hM' : PSDMat M') (E : EigDecomp M) (E' : EigDecomp M')
    (h : ∀ l : Fin p, E.lam l ≤ E'.lam (l.castLE (size_le e))) (k : ℕ) :
    ∑ i, M i i - ∑ l with l.val < k, E.lam l ≤ ∑ i, M' i i - ∑ l with l.val < k, E'.lam l := by
  classical
  rw [E.trace_eq, E'.trace_eq, ← sum_filter_add_sum_filter_not univ (fun l : Fin p => l.val < k) E.lam,
    ← sum_filter_add_sum_filter_not univ (fun l : Fin q => l.val < k) E'.lam, add_sub_cancel_left, add_sub_cancel_left]
  calc ∑ l : Fin p with ¬ l.val < k, E.lam l ≤ ∑ l : Fin p with ¬ l.val < k, E'.lam (l.castLE (size_le e)) := sum_le_sum fun l _ => h l
    _ = ∑ l ∈ (univ.filter fun l : Fin p => ¬ l.val < k).map (Fin.castLEEmb (size_le e)), E'.lam l := by rw [sum_map]; rfl
    _ ≤ _ := by
      refine sum_le_sum_of_subset_of_nonneg ?_ fun l _ _ => E'.lam_nonneg hM' l
      intro l hl
      rw [mem_map] at hl
      obtain ⟨a, ha, rfl⟩ := hl
      rw [mem_filter] at ha ⊢
      exact ⟨mem_univ _, by simpa using ha.2⟩

/-- In the primal: the eigenvalues of the covariance times the number of points do not decrease with more points. -/
theorem C134_primal (e : Fin p ↪ Fin q) (hp : p ≠ 0) (Φ : Fin q → Fin d → ℝ) (D : EigDecomp (levelC fun i => Φ (e i))) (D' : EigDecomp (levelC Φ)) (l : Fin d) :
    p * D.lam l ≤ q * D'.lam l := by
  have hq : q ≠ 0 := by have := size_le e; omega
  have hq' : (0 : ℝ) < q := by exact_mod_cast Nat.pos_of_ne_zero hq
  have hnn : 0 ≤ D'.lam l := D'.lam_nonneg (levelC_psd Φ) l
  rcases lt_or_ge 0 (D.lam l) with hl | hl
  · have hk : (Matrix.of (levelK 1 Φ)).IsHermitian := by
      ext i j
      exact (levelK_psd zero_le_one Φ).1 j i
    obtain ⟨E'⟩ := PPCALik.eigDecomp_exists _ hk
    have hk' : (Matrix.of (levelK 1 fun i => Φ (e i))).IsHermitian := by
      ext i j
      exact (levelK_psd zero_le_one _).1 j i
    obtain ⟨E⟩ := PPCALik.eigDecomp_exists _ hk'
    obtain ⟨h, h1⟩ := C49_vals hp (fun i => Φ (e i)) 1 one_pos D E l hl
    have h2 := (C134_interlace e (levelK_psd zero_le_one Φ) E E' ⟨l.val, h⟩).1
    rw [h1, one_mul] at h2
    have hc : 0 < p * D.lam l / q := div_pos (mul_pos (by exact_mod_cast Nat.pos_of_ne_zero hp) hl) hq'
    have h3 : l.val < (univ.filter fun t => 1 * q * (p * D.lam l / q) ≤ E'.lam t).card := by
      rw [antitone_count E'.lam E'.sorted]
      refine ⟨h.trans_le (size_le e), ?_⟩
      rw [one_mul, mul_div_cancel₀ _ hq'.ne']
      exact h2
    rw [eig_card_ge hq Φ 1 one_pos D' E' _ hc, antitone_count D'.lam D'.sorted] at h3
    obtain ⟨_, h4⟩ := h3
    rw [div_le_iff₀ hq'] at h4
    linarith
  · exact (mul_nonpos_of_nonneg_of_nonpos (Nat.cast_nonneg p) hl).trans (mul_nonneg hq'.le hnn)

/-! ## Examples -/

/-- Two points on the axes, at distances 2 and 1 of the origin. -/
def exPhi : Fin 2 → Fin 2 → ℝ := fun i a => if i = a then (if i = 0 then 2 else 1) else 0

/-- The part of the sample made of its second point. -/
def exPart : Fin 1 ↪ Fin 2 := ⟨fun _ => 1, fun i j _ => Subsingleton.elim i j⟩

noncomputable def exTwo : EigDecomp (levelK 1 exPhi) where
  lam := ![4, 1]
  V := fun i j => if i = j then 1 else 0
  sorted := by intro i j h; fin_cases i <;> fin_cases j <;> simp_all
  orth := by intro i j; fin_cases i <;> fin_cases j <;> simp
  eig := by intro i j; fin_cases i <;> fin_cases j <;> simp [levelK, matK, Matrix.mul_apply, exPhi] <;> norm_num

noncomputable def exOne : EigDecomp fun i j => levelK 1 exPhi (exPart i) (exPart j) where
  lam := ![1]
  V := fun _ _ => 1
  sorted := by intro i j _; simp [Subsingleton.elim i j]
  orth := by intro i j; simp [Subsingleton.elim i j]
  eig := by
    intro i j
    have h : ∀ i, exPart i = 1 := fun _ => rfl
    simp [h, levelK, matK, Matrix.mul_apply, exPhi, Subsingleton.elim j 0]

/-- `C134_interlace`: the eigenvalue 1 of the part lies between both (4 and 1) of the whole. -/
example : exOne.lam 0 ≤ exTwo.lam 0 ∧ exTwo.lam 1 ≤ exOne.lam 0 := by
  have h := C134_interlace exPart (levelK_psd zero_le_one exPhi) exOne exTwo 0
  exact ⟨h.1, h.2 1 (by simp)⟩

/-- `C134_captured` and `C134_left_out`: with one component, 1 is captured of the part and 4 of the whole; 0 is left out of the part and 1 of the whole. -/
example : (1 : ℕ) * modelVarD exOne 1 ≤ (2 : ℕ) * modelVarD exTwo 1 :=
  C134_captured exPart exOne exTwo (fun l => (C134_interlace exPart (levelK_psd zero_le_one exPhi) exOne exTwo l).1) 1
example : ∑ i : Fin 1, levelK 1 exPhi (exPart i) (exPart i) - ∑ l with l.val < 1, exOne.lam l ≤ ∑ i, levelK 1 exPhi i i - ∑ l with l.val < 1, exTwo.lam l :=
  C134_left_out exPart (levelK_psd zero_le_one exPhi) exOne exTwo (fun l => (C134_interlace exPart (levelK_psd zero_le_one exPhi) exOne exTwo l).1) 1

/-- `C134_centred`: any sample of three points and its two last ones. -/
example (Φ : Fin 3 → Fin 2 → ℝ) (E : EigDecomp (levelK 1 (centred fun i => Φ (Fin.succEmb 2 i)))) (E' : EigDecomp (levelK 1 (centred Φ))) : E'.lam 1 ≤ E.lam 0 ∧ E.lam 0 ≤ E'.lam 0 := by
  have h := C134_centred (Fin.succEmb 2) 1 zero_le_one Φ E E' 0
  exact ⟨h.2 1 (by simp), by simpa using h.1⟩

noncomputable def exCov : EigDecomp (levelC exPhi) where
  lam := ![2, 1 / 2]
  V := fun i j => if i = j then 1 else 0
  sorted := by intro i j h; fin_cases i <;> fin_cases j <;> simp_all; norm_num
  orth := by intro i j; fin_cases i <;> fin_cases j <;> simp
  eig := by intro i j; fin_cases i <;> fin_cases j <;> simp [levelC, matC, Matrix.mul_apply, exPhi]

/-- `C134_primal`: the second point alone has a covariance of first eigenvalue at most `2 * 2`. -/
example (D : EigDecomp (levelC fun i => exPhi (exPart i))) : D.lam 0 ≤ 4 := by
  have h := C134_primal exPart one_ne_zero exPhi D exCov 0
  simp [exCov] at h
  linarith

end Growth
end Kerch
