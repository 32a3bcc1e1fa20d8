import Verif.Lemmas.PPCALik
import Verif.Props.PPCA
import Mathlib.Analysis.SpecialFunctions.Trigonometric.Basic
set_option linter.unusedSectionVars false
set_option linter.unusedSimpArgs false
/-!
# C133: the likelihood of a fitted probabilistic PCA
-/
namespace Kerch
namespace PPCALik
open Finset Matrix PPCA KPCA

variable {n d : ℕ}

/-- Specification: the density at `x` of a centred Gaussian of covariance `C`. -/
noncomputable def density (C : Matrix (Fin d) (Fin d) ℝ) (x : Fin d → ℝ) : ℝ := Real.exp (-(x ⬝ᵥ C⁻¹ *ᵥ x) / 2) / Real.sqrt ((2 * Real.pi) ^ d * C.det)

/-- Specification: the log-likelihood of the features of a sample. -/
noncomputable def logLik (Φ : Fin n → Fin d → ℝ) (C : Matrix (Fin d) (Fin d) ℝ) : ℝ := ∑ i, Real.log (density C (Φ i))

/-- Specification: the covariance of features `W h + ε`, with `h` standard normal and `ε` of variance `s` in each direction. -/
def modelCov {κ : Type} [Fintype κ] (W : Fin d → κ → ℝ) (s : ℝ) : Matrix (Fin d) (Fin d) ℝ := of fun a b => ∑ l, W a l * W b l + if a = b then s else 0

theorem modelCov_eq {κ : Type} [Fintype κ] (W : Fin d → κ → ℝ) (s : ℝ) : modelCov W s = of W * (of W)ᵀ + s • 1 := by
  ext a b
  simp [modelCov, mul_apply, one_apply]

theorem modelCov_det {κ : Type} [Fintype κ] (W : Fin d → κ → ℝ) (s : ℝ) (hs : 0 < s) : 0 < (modelCov W s).det := by
  rw [modelCov_eq]
  refine PosDef.det_pos ?_
  have h1 : (of W * (of W)ᵀ).PosSemidef := by
    have := posSemidef_self_mul_conjTranspose (of W)
    rwa [conjTranspose_eq_transpose_of_trivial] at this
  exact PosDef.posSemidef_add h1 (PosDef.one.smul hs)

theorem levelC_apply (Φ : Fin n → Fin d → ℝ) (a b : Fin d) : levelC Φ a b = (∑ i, Φ i a * Φ i b) / n := by
  simp [levelC, matC, mul_apply, div_eq_inv_mul]

theorem levelK_apply (Φ : Fin n → Fin d → ℝ) (i j : Fin n) : levelK 1 Φ i j = ∑ a, Φ i a * Φ j a := by
  simp [levelK, matK, mul_apply]

theorem logLik_eq (hn : n ≠ 0) (Φ : Fin n → Fin d → ℝ) (C : Matrix (Fin d) (Fin d) ℝ) (hC : 0 < C.det) :
    logLik Φ C = -(n / 2 : ℝ) * (d * Real.log (2 * Real.pi) + nll (of (levelC Φ)) C) := by
  have hn' : (n : ℝ) ≠ 0 := by exact_mod_cast hn
  have hp : (0 : ℝ) < (2 * Real.pi) ^ d := by positivity
  have h1 : ∀ x, Real.log (density C x) = -(x ⬝ᵥ C⁻¹ *ᵥ x) / 2 - (d * Real.log (2 * Real.pi) + Real.log C.det) / 2 := by
    intro x
    unfold density
    rw [Real.log_div (Real.exp_pos _).ne' (Real.sqrt_pos.2 (mul_pos hp hC)).ne', Real.log_exp, Real.log_sqrt (mul_pos hp hC).le, Real.log_mul hp.ne' hC.ne', Real.log_pow]
  unfold logLik
  simp only [h1]
  rw [sum_sub_distrib, sum_const, card_univ, Fintype.card_fin, nsmul_eq_mul]
  have h2 : (C⁻¹ * of (levelC Φ)).trace * n = ∑ i, Φ i ⬝ᵥ C⁻¹ *ᵥ Φ i := by
    have : ∀ a b : Fin d, C⁻¹ a b * ((∑ i, Φ i b * Φ i a) / n) * n = ∑ i, Φ i a * (C⁻¹ a b * Φ i b) := by
      intro a b
      rw [mul_assoc, div_mul_cancel₀ _ hn', mul_sum]
      exact sum_congr rfl fun i _ => by ring
    calc (C⁻¹ * of (levelC Φ)).trace * n = ∑ a, ∑ b, C⁻¹ a b * ((∑ i, Φ i b * Φ i a) / n) * n := by
          simp only [trace, diag_apply, mul_apply, of_apply, levelC_apply, sum_mul]
      _ = ∑ a, ∑ b, ∑ i, Φ i a * (C⁻¹ a b * Φ i b) := by simp only [this]
      _ = ∑ a, ∑ i, ∑ b, Φ i a * (C⁻¹ a b * Φ i b) := sum_congr rfl fun a _ => sum_comm
      _ = ∑ i, ∑ a, ∑ b, Φ i a * (C⁻¹ a b * Φ i b) := sum_comm
      _ = _ := by simp only [dotProduct, mulVec, mul_sum]
  unfold nll
  have h3 : ∑ i, -(Φ i ⬝ᵥ C⁻¹ *ᵥ Φ i) / 2 = -((C⁻¹ * of (levelC Φ)).trace * n) / 2 := by
    rw [h2, ← sum_div, sum_neg_distrib]
  rw [h3]
  ring

section dual
variable (hn : n ≠ 0) (Φ : Fin n → Fin d → ℝ) (E : EigDecomp (levelK 1 Φ)) (k : ℕ) (hk : k ≤ n) (hpos : ∀ l : Comp n k, 0 < E.lam l.1)

/-- The directions of the features found by a fit in the dual. -/
noncomputable def dirs : Matrix (Fin d) (Comp n k) ℝ := of fun a l => (∑ i, Φ i a * E.V i l.1) / Real.sqrt (E.lam l.1)

theorem dirs_image (l : Comp n k) (hl : 0 < E.lam l.1) (i : Fin n) : ∑ a, Φ i a * dirs Φ E k a l = Real.sqrt (E.lam l.1) * E.V i l.1 := by
  have h := E.eig i l.1
  simp only [levelK_apply] at h
  have hs := Real.sqrt_pos.2 hl
  unfold dirs
  simp only [of_apply, ← mul_div_assoc]
  rw [← sum_div, div_eq_iff hs.ne']
  have : Real.sqrt (E.lam l.1) * E.V i l.1 * Real.sqrt (E.lam l.1) = E.lam l.1 * E.V i l.1 := by
    rw [mul_right_comm, Real.mul_self_sqrt hl.le]
  rw [this, ← h]
  simp only [mul_sum, sum_mul]
  rw [sum_comm]
  exact sum_congr rfl fun j _ => sum_congr rfl fun a _ => by ring

include hpos in
theorem dirs_orth : (dirs Φ E k)ᵀ * dirs Φ E k = 1 := by
  ext l l'
  rw [mul_apply, one_apply]
  have hs := Real.sqrt_pos.2 (hpos l)
  have : ∑ a, (dirs Φ E k)ᵀ l a * dirs Φ E k a l' = (∑ i, E.V i l.1 * ∑ a, Φ i a * dirs Φ E k a l') / Real.sqrt (E.lam l.1) := by
    rw [eq_div_iff hs.ne']
    simp only [transpose_apply]
    have h1 : ∀ a, dirs Φ E k a l * Real.sqrt (E.lam l.1) = ∑ i, Φ i a * E.V i l.1 := fun a => by
      unfold dirs; rw [of_apply, div_mul_cancel₀ _ hs.ne']
    rw [sum_mul]
    calc _ = ∑ a, (∑ i, Φ i a * E.V i l.1) * dirs Φ E k a l' := sum_congr rfl fun a _ => by rw [← h1 a]; ring
      _ = ∑ a, ∑ i, E.V i l.1 * (Φ i a * dirs Φ E k a l') := sum_congr rfl fun a _ => by rw [sum_mul]; exact sum_congr rfl fun i _ => by ring
      _ = _ := by rw [sum_comm]; simp only [mul_sum]
  rw [this]
  simp only [dirs_image Φ E k l' (hpos l')]
  have h2 : ∑ i, E.V i l.1 * (Real.sqrt (E.lam l'.1) * E.V i l'.1) = Real.sqrt (E.lam l'.1) * ∑ i, E.V i l.1 * E.V i l'.1 := by
    rw [mul_sum]; exact sum_congr rfl fun i _ => by ring
  rw [h2, E.orth]
  by_cases h : l = l'
  · subst h; simp [hs.ne']
  · rw [if_neg h, if_neg fun h' => h (Subtype.ext h')]; simp

theorem dirs_quad (l : Comp n k) (hl : 0 < E.lam l.1) : (dirs Φ E k).col l ⬝ᵥ (of (levelC Φ)) *ᵥ (dirs Φ E k).col l = E.lam l.1 / n := by
  have h : ∀ u : Fin d → ℝ, u ⬝ᵥ (of (levelC Φ)) *ᵥ u = (∑ i, (∑ a, Φ i a * u a) ^ 2) / n := by
    intro u
    simp only [dotProduct, mulVec, of_apply, levelC_apply]
    have : ∀ i, (∑ a, Φ i a * u a) ^ 2 = ∑ a, ∑ b, u a * (Φ i a * Φ i b * u b) := by
      intro i
      rw [sq, sum_mul_sum]
      exact sum_congr rfl fun a _ => sum_congr rfl fun b _ => by ring
    simp only [this]
    rw [sum_comm, sum_div]
    refine sum_congr rfl fun a _ => ?_
    rw [sum_comm, sum_div, mul_sum]
    refine sum_congr rfl fun b _ => ?_
    rw [← mul_sum, ← sum_mul]
    ring
  rw [h]
  have : ∀ i, ∑ a, Φ i a * (dirs Φ E k).col l a = Real.sqrt (E.lam l.1) * E.V i l.1 := dirs_image Φ E k l hl
  simp only [this, mul_pow, Real.sq_sqrt hl.le]
  rw [← mul_sum]
  have := E.orth l.1 l.1
  rw [if_pos rfl] at this
  simp only [sq, this, mul_one]

theorem card_comp (hk : k ≤ n) : Fintype.card (Comp n k) = k := by
  rw [Fintype.card_subtype]; exact card_lt hk

/-- What is left out by the components kept. -/
noncomputable def tail : ℝ := (∑ i, levelK 1 Φ i i - ∑ l : Comp n k, E.lam l.1) / n

theorem trace_tail : (of (levelC Φ)).trace - ∑ l : Comp n k, E.lam l.1 / n = tail Φ E k := by
  unfold tail
  rw [sub_div, ← sum_div]
  congr 1
  simp only [trace, diag_apply, of_apply, levelC_apply, levelK_apply]
  rw [← sum_div, sum_comm]

/-- The weights with noise `t` along the directions found. -/
noncomputable def fitted (t : ℝ) (a : Fin d) (l : Comp n k) : ℝ := dirs Φ E k a l * Real.sqrt (E.lam l.1 / n - t)

theorem fitted_cov (t : ℝ) (ht : ∀ l : Comp n k, t ≤ E.lam l.1 / n) : modelCov (fitted Φ E k t) t = frameCov (dirs Φ E k) (fun l => E.lam l.1 / n) t := by
  classical
  rw [modelCov_eq]
  unfold frameCov
  congr 1
  ext a b
  rw [mul_apply, mul_apply]
  refine sum_congr rfl fun l _ => ?_
  rw [mul_diagonal]
  simp only [transpose_apply, of_apply, fitted]
  have := Real.mul_self_sqrt (sub_nonneg.2 (ht l))
  calc _ = dirs Φ E k a l * dirs Φ E k b l * (Real.sqrt (E.lam l.1 / n - t) * Real.sqrt (E.lam l.1 / n - t)) := by ring
    _ = _ := by rw [this]; ring

include hn hk hpos in
theorem fitted_nll (t : ℝ) (h0 : 0 < t) (ht : ∀ l : Comp n k, t ≤ E.lam l.1 / n) :
    nll (of (levelC Φ)) (modelCov (fitted Φ E k t) t) = ∑ l : Comp n k, (Real.log (E.lam l.1 / n) + 1) + ((d - k) * Real.log t + tail Φ E k / t) := by
  have hn' : (0 : ℝ) < n := by exact_mod_cast Nat.pos_of_ne_zero hn
  rw [fitted_cov Φ E k t ht, frame_nll _ (dirs_orth Φ E k hpos) _ t _ h0 fun l => div_pos (hpos l) hn', card_comp k hk]
  have : ∀ l : Comp n k, (dirs Φ E k).col l ⬝ᵥ (of (levelC Φ)) *ᵥ (dirs Φ E k).col l * ((E.lam l.1 / n)⁻¹ - t⁻¹) = 1 - E.lam l.1 / n * t⁻¹ := by
    intro l
    rw [dirs_quad Φ E k l (hpos l), mul_sub, mul_inv_cancel₀ (div_pos (hpos l) hn').ne']
  simp only [this]
  rw [sum_add_distrib, sum_sub_distrib, ← sum_mul, ← trace_tail]
  ring

include hn hk hpos in
theorem hidden_fitted (hr : ∀ l : Comp n k, sigma E k ^ 2 ≤ E.lam l.1 / n) :
    ∃ H : Comp n k → Fin n → ℝ, (∀ l i, hidden E k l i = some (H l i)) ∧ (fun a l => ∑ i, Φ i a * H l i) = fitted Φ E k (sigma E k ^ 2) := by
  have hn' : (0 : ℝ) < n := by exact_mod_cast Nat.pos_of_ne_zero hn
  refine ⟨_, fun l i => hidden_some E k l (hpos l) (hr l) i, ?_⟩
  funext a l
  have hl := hpos l
  have hs := Real.sqrt_pos.2 hl
  unfold fitted dirs
  have e : E.lam l.1 / n - sigma E k ^ 2 = E.lam l.1 * (1 / n - sigma E k ^ 2 / E.lam l.1) := by field_simp
  rw [of_apply, e, Real.sqrt_mul hl.le, ← mul_assoc, div_mul_cancel₀ _ hs.ne', sum_mul]
  exact sum_congr rfl fun i _ => by ring

theorem levelC_hermitian : (of (levelC Φ)).IsHermitian := by
  ext a b
  simp only [conjTranspose_apply, of_apply, levelC_apply, star_trivial]
  congr 1
  exact sum_congr rfl fun i _ => mul_comm _ _

include hn in
theorem transfer (D : EigDecomp (levelC Φ)) (l : Fin n) (hl : 0 < E.lam l) : ∃ h : l.val < d, D.lam ⟨l.val, h⟩ = E.lam l / n := by
  have hn' : (0 : ℝ) < n := by exact_mod_cast Nat.pos_of_ne_zero hn
  have key : ∀ c, 0 < c → (1 * n * c ≤ E.lam l ↔ ∃ h : l.val < d, c ≤ D.lam ⟨l.val, h⟩) := by
    intro c hc
    rw [← antitone_count D.lam D.sorted, ← eig_card_ge hn Φ 1 one_pos D E c hc, antitone_count E.lam E.sorted]
    exact ⟨fun h => ⟨l.2, h⟩, fun ⟨_, h⟩ => h⟩
  obtain ⟨h, h1⟩ := (key (E.lam l / n) (div_pos hl hn')).1 (by rw [one_mul, mul_div_cancel₀ _ hn'.ne'])
  refine ⟨h, le_antisymm ?_ h1⟩
  have h2 := (key _ ((div_pos hl hn').trans_le h1)).2 ⟨h, le_refl _⟩
  rw [le_div_iff₀ hn']
  linarith

include hn hk hpos in
theorem transfer_sum (D : EigDecomp (levelC Φ)) (f : ℝ → ℝ) : ∑ l : Comp n k, f (E.lam l.1 / n) = ∑ i : Fin d with i.val < k, f (D.lam i) := by
  classical
  refine sum_bij (fun (l : Comp n k) _ => (⟨l.1.val, (transfer hn Φ E D l.1 (hpos l)).1⟩ : Fin d)) ?_ ?_ ?_ ?_
  · intro l _; simpa using l.2
  · intro a _ b _ h
    exact Subtype.ext (Fin.ext (by simpa using h))
  · intro i hi
    rw [mem_filter] at hi
    exact ⟨⟨⟨i.val, lt_of_lt_of_le hi.2 hk⟩, hi.2⟩, mem_univ _, rfl⟩
  · intro l _
    rw [(transfer hn Φ E D l.1 (hpos l)).2]

include hn hk hpos in
theorem kept_le : k ≤ d := by
  obtain ⟨D⟩ := eigDecomp_exists (of (levelC Φ)) (levelC_hermitian Φ)
  by_contra h
  have h' : d < k := not_le.1 h
  have := (transfer hn Φ E D ⟨d, by omega⟩ (hpos ⟨⟨d, by omega⟩, h'⟩)).1
  exact absurd this (lt_irrefl d)

include hn hk hpos in
theorem tail_sum (D : EigDecomp (levelC Φ)) : ∑ i with ¬ i.val < k, D.lam i = tail Φ E k := by
  rw [← trace_tail]
  have h1 : (of (levelC Φ)).trace = ∑ i, D.lam i := D.trace_eq
  have h2 := transfer_sum hn Φ E k hk hpos D id
  simp only [id] at h2
  rw [h1, h2, ← sum_filter_add_sum_filter_not univ (fun i : Fin d => i.val < k)]
  ring

include hn hk hpos in
theorem optimum (h0 : 0 < tail Φ E k) : k < d ∧ (∀ l : Comp n k, tail Φ E k / (d - k) ≤ E.lam l.1 / n) ∧
    ∀ (W : Fin d → Comp n k → ℝ) (s : ℝ), 0 < s →
      ∑ l : Comp n k, (Real.log (E.lam l.1 / n) + 1) + (d - k) * (Real.log (tail Φ E k / (d - k)) + 1) ≤ nll (of (levelC Φ)) (modelCov W s) := by
  classical
  obtain ⟨D⟩ := eigDecomp_exists (of (levelC Φ)) (levelC_hermitian Φ)
  have hkd := kept_le hn Φ E k hk hpos
  have ht : ∑ i with ¬ i.val < k, D.lam i = tail Φ E k := tail_sum hn Φ E k hk hpos D
  have hlt : k < d := by
    rcases hkd.lt_or_eq with h | h
    · exact h
    · exfalso
      have : (univ.filter fun i : Fin d => ¬ i.val < k) = ∅ := by
        ext i; simp; omega
      rw [this, sum_empty] at ht
      exact h0.ne ht
  have hd : (0 : ℝ) < d - k := sub_pos.2 (by exact_mod_cast hlt)
  refine ⟨hlt, fun l => ?_, fun W s hs => ?_⟩
  · obtain ⟨hld, hl⟩ := transfer hn Φ E D l.1 (hpos l)
    rw [div_le_iff₀ hd, ← hl, ← ht]
    have : ∀ i ∈ univ.filter (fun i : Fin d => ¬ i.val < k), D.lam i ≤ D.lam ⟨l.1.val, hld⟩ := by
      intro i hi
      rw [mem_filter] at hi
      exact D.sorted (Fin.le_def.2 (by have := l.2; simp only; omega))
    have h2 := sum_le_card_nsmul _ _ _ this
    rw [card_ge hkd, nsmul_eq_mul, Nat.cast_sub hkd] at h2
    linarith
  · have hb := bound hkd D (of W) (le_of_eq (card_comp k hk)) s (tail Φ E k / (d - k)) hs ?_ (fun _ => div_pos h0 hd) ?_
    · rw [modelCov_eq]
      refine le_trans (le_of_eq ?_) hb
      unfold best
      rw [transfer_sum hn Φ E k hk hpos D fun x => Real.log x + 1]
    · intro i hi
      obtain ⟨h, e⟩ := transfer hn Φ E D ⟨i.val, lt_of_lt_of_le hi hk⟩ (hpos ⟨⟨i.val, lt_of_lt_of_le hi hk⟩, hi⟩)
      have : D.lam i = E.lam ⟨i.val, lt_of_lt_of_le hi hk⟩ / n := e
      rw [this]
      exact div_pos (hpos ⟨⟨i.val, lt_of_lt_of_le hi hk⟩, hi⟩) (by exact_mod_cast Nat.pos_of_ne_zero hn)
    · exact ht.trans (by field_simp)

include hn hk hpos in
/-- After a fit in the dual whose noise is not null and does not exceed the components kept, no other weights (with as many components) and no other noise give the
sample a greater likelihood if and only if the noise `sigma` times the number of features left out is the number of points minus the number of components. Missing
(`_partial`): fits for which this fails (`C133_noise_violated`, `C133_gap`). -/
theorem C133_most_likely_partial (hσ : 0 < sigma E k) (hr : ∀ l : Comp n k, sigma E k ^ 2 ≤ E.lam l.1 / n) :
    ∃ H : Comp n k → Fin n → ℝ, (∀ l i, hidden E k l i = some (H l i)) ∧
      ((∀ (W : Fin d → Comp n k → ℝ) (s : ℝ), 0 < s →
          logLik Φ (modelCov W s) ≤ logLik Φ (modelCov (fun a l => ∑ i, Φ i a * H l i) (sigma E k ^ 2))) ↔ sigma E k * (d - k) = n - k) := by
  obtain ⟨H, hH, hW⟩ := hidden_fitted hn Φ E k hk hpos hr
  refine ⟨H, hH, ?_⟩
  rw [hW]
  have hn' : (0 : ℝ) < n := by exact_mod_cast Nat.pos_of_ne_zero hn
  have hkn : k ≠ n := by rintro rfl; simp [sigma] at hσ
  have hnk : (0 : ℝ) < n - k := sub_pos.2 (by exact_mod_cast lt_of_le_of_ne hk hkn)
  have hsig : tail Φ E k = sigma E k * (n - k) := by
    unfold sigma tail
    rw [if_neg hkn]
    field_simp
  have h0 : 0 < tail Φ E k := by rw [hsig]; exact mul_pos hσ hnk
  obtain ⟨hlt, hm, hopt⟩ := optimum hn Φ E k hk hpos h0
  have hd : (0 : ℝ) < d - k := sub_pos.2 (by exact_mod_cast hlt)
  have hs2 : 0 < sigma E k ^ 2 := by positivity
  have hmp : 0 < tail Φ E k / (d - k) := div_pos h0 hd
  have hle : ∀ {C C' : Matrix (Fin d) (Fin d) ℝ}, 0 < C.det → 0 < C'.det → (logLik Φ C ≤ logLik Φ C' ↔ nll (of (levelC Φ)) C' ≤ nll (of (levelC Φ)) C) := by
    intro C C' hC hC'
    rw [logLik_eq hn Φ C hC, logLik_eq hn Φ C' hC']
    constructor <;> intro h <;> nlinarith
  have hiff : sigma E k * (d - k) = n - k ↔ sigma E k ^ 2 = tail Φ E k / (d - k) := by
    rw [eq_div_iff hd.ne', hsig, sq, mul_assoc]
    exact (mul_right_inj' hσ.ne').symm
  rw [hiff]
  have hfit := fitted_nll hn Φ E k hk hpos (sigma E k ^ 2) hs2 hr
  constructor
  · intro h
    by_contra hne
    have h1 := (hle (modelCov_det _ _ hmp) (modelCov_det _ _ hs2)).1 (h (fitted Φ E k (tail Φ E k / (d - k))) _ hmp)
    rw [fitted_nll hn Φ E k hk hpos _ hmp hm, hfit] at h1
    have h2 := mul_lt_mul_of_pos_left (log_basic_strict hs2 hmp hne) hd
    have e1 : tail Φ E k / (tail Φ E k / (d - k)) = d - k := by field_simp
    have e2 : (d - k : ℝ) * (Real.log (sigma E k ^ 2) + tail Φ E k / (d - k) / sigma E k ^ 2) = (d - k) * Real.log (sigma E k ^ 2) + tail Φ E k / sigma E k ^ 2 := by
      field_simp
    rw [e2] at h2
    rw [e1] at h1
    linarith
  · intro h W s hs
    rw [hle (modelCov_det _ _ hs) (modelCov_det _ _ hs2), hfit]
    refine le_trans (le_of_eq ?_) (hopt W s hs)
    rw [h]
    field_simp

include hn hk hpos in
/-- What is lost: with noise of positive variance, the likelihood of the fitted model is below the greatest one by exactly `n/2` times the number of features left out
times `m / σ² - 1 - log (m / σ²)`, `m` being the mean variance left out; weights and a noise attaining the greatest one exist. -/
theorem C133_gap (hσ : 0 < sigma E k) (hr : ∀ l : Comp n k, sigma E k ^ 2 ≤ E.lam l.1 / n) :
    ∃ H : Comp n k → Fin n → ℝ, (∀ l i, hidden E k l i = some (H l i)) ∧ ∃ (W' : Fin d → Comp n k → ℝ) (m : ℝ), 0 < m ∧
      m * (d - k) = (∑ i, ∑ a, Φ i a ^ 2 - ∑ l : Comp n k, E.lam l.1) / n ∧
      (∀ (W : Fin d → Comp n k → ℝ) (s : ℝ), 0 < s → logLik Φ (modelCov W s) ≤ logLik Φ (modelCov W' m)) ∧
      logLik Φ (modelCov W' m) - logLik Φ (modelCov (fun a l => ∑ i, Φ i a * H l i) (sigma E k ^ 2))
        = n / 2 * ((d - k) * (m / sigma E k ^ 2 - 1 - Real.log (m / sigma E k ^ 2))) := by
  obtain ⟨H, hH, hW⟩ := hidden_fitted hn Φ E k hk hpos hr
  refine ⟨H, hH, fitted Φ E k (tail Φ E k / (d - k)), tail Φ E k / (d - k), ?_⟩
  rw [hW]
  have hn' : (0 : ℝ) < n := by exact_mod_cast Nat.pos_of_ne_zero hn
  have hkn : k ≠ n := by rintro rfl; simp [sigma] at hσ
  have hnk : (0 : ℝ) < n - k := sub_pos.2 (by exact_mod_cast lt_of_le_of_ne hk hkn)
  have hsig : tail Φ E k = sigma E k * (n - k) := by
    unfold sigma tail
    rw [if_neg hkn]
    field_simp
  have h0 : 0 < tail Φ E k := by rw [hsig]; exact mul_pos hσ hnk
  obtain ⟨hlt, hm, hopt⟩ := optimum hn Φ E k hk hpos h0
  have hd : (0 : ℝ) < d - k := sub_pos.2 (by exact_mod_cast hlt)
  have hs2 : 0 < sigma E k ^ 2 := by positivity
  have hmp : 0 < tail Φ E k / (d - k) := div_pos h0 hd
  have hfit := fitted_nll hn Φ E k hk hpos (sigma E k ^ 2) hs2 hr
  have hbest := fitted_nll hn Φ E k hk hpos _ hmp hm
  have e1 : tail Φ E k / (tail Φ E k / (d - k)) = d - k := by field_simp
  rw [e1] at hbest
  refine ⟨hmp, ?_, fun W s hs => ?_, ?_⟩
  · rw [div_mul_cancel₀ _ hd.ne']
    unfold tail
    simp only [levelK_apply, sq]
  · rw [logLik_eq hn Φ _ (modelCov_det _ _ hs), logLik_eq hn Φ _ (modelCov_det _ _ hmp), hbest]
    have := hopt W s hs
    nlinarith
  · rw [logLik_eq hn Φ _ (modelCov_det _ _ hmp), logLik_eq hn Φ _ (modelCov_det _ _ hs2), hbest, hfit, Real.log_div hmp.ne' hs2.ne']
    field_simp
    ring
end dual

section full
variable (hn : n ≠ 0) (Φ : Fin n → Fin d → ℝ)

theorem complete_cov (D : EigDecomp (levelC Φ)) (c s : ℝ) : frameCov (of D.V) (fun l => c * D.lam l) s = c • of (levelC Φ) := by
  have hV : (of D.V)ᵀ * of D.V = 1 := by
    ext a b
    rw [mul_apply, one_apply]
    exact D.orth a b
  have hV' : of D.V * (of D.V)ᵀ = 1 := mul_eq_one_comm.1 hV
  have e : of D.V * diagonal (fun l => c * D.lam l - s) * (of D.V)ᵀ = c • of (levelC Φ) - s • (of D.V * (of D.V)ᵀ) := by
    ext a b
    rw [mul_apply, Matrix.sub_apply, Matrix.smul_apply, Matrix.smul_apply, mul_apply, of_apply, D.spectral a b, smul_eq_mul, smul_eq_mul, mul_sum, mul_sum, ← sum_sub_distrib]
    refine sum_congr rfl fun l _ => ?_
    rw [mul_diagonal]
    simp only [transpose_apply, of_apply]
    ring
  unfold frameCov
  rw [e, hV']
  simp

theorem complete_nll (D : EigDecomp (levelC Φ)) (hD : ∀ l, 0 < D.lam l) (c : ℝ) (hc : 0 < c) :
    nll (of (levelC Φ)) (c • of (levelC Φ)) = ∑ l, Real.log (D.lam l) + d * (Real.log c + 1 / c) := by
  have hV : (of D.V)ᵀ * of D.V = 1 := by
    ext a b
    rw [mul_apply, one_apply]
    exact D.orth a b
  rw [← complete_cov Φ D c 1, frame_nll _ hV _ 1 _ one_pos fun l => mul_pos hc (hD l), Fintype.card_fin, sub_self, zero_mul, zero_add]
  have hq : ∀ l, (of D.V).col l ⬝ᵥ (of (levelC Φ)) *ᵥ (of D.V).col l = D.lam l := by
    intro l
    rw [quad_eq D]
    rw [sum_eq_single l]
    · have := D.orth l l
      rw [if_pos rfl] at this
      have h' : ∑ a, D.V a l * (of D.V).col l a = 1 := this
      rw [h']; ring
    · intro i _ hi
      have := D.orth i l
      rw [if_neg hi] at this
      have h' : ∑ a, D.V a i * (of D.V).col l a = 0 := this
      rw [h']; ring
    · simp
  have ht : (of (levelC Φ)).trace = ∑ i, D.lam i := D.trace_eq
  simp only [hq]
  have h1 : ∀ l, D.lam l * ((c * D.lam l)⁻¹ - 1⁻¹) = 1 / c - D.lam l := by
    intro l
    have := (hD l).ne'
    field_simp
  have h2 : ∀ l, Real.log (c * D.lam l) = Real.log c + Real.log (D.lam l) := fun l => Real.log_mul hc.ne' (hD l).ne'
  simp only [h1, h2]
  rw [ht, sum_add_distrib, sum_sub_distrib, sum_const, sum_const, card_univ, Fintype.card_fin, nsmul_eq_mul, nsmul_eq_mul]
  ring

theorem complete_det (D : EigDecomp (levelC Φ)) (hD : ∀ l, 0 < D.lam l) (c : ℝ) (hc : 0 < c) : 0 < (c • of (levelC Φ)).det := by
  have hV : (of D.V)ᵀ * of D.V = 1 := by
    ext a b
    rw [mul_apply, one_apply]
    exact D.orth a b
  rw [← complete_cov Φ D c 1, frame_det _ hV _ 1 one_ne_zero, one_pow, one_mul]
  exact prod_pos fun l _ => div_pos (mul_pos hc (hD l)) one_pos

/-- No centred Gaussian is more likely than the one with the covariance of the sample. -/
theorem complete_best (hn : n ≠ 0) (D : EigDecomp (levelC Φ)) (hD : ∀ l, 0 < D.lam l) (C : Matrix (Fin d) (Fin d) ℝ) (hC : C.PosDef) :
    logLik Φ C ≤ logLik Φ (of (levelC Φ)) := by
  classical
  have h1 := complete_nll Φ D hD 1 one_pos
  have h1' := complete_det Φ D hD 1 one_pos
  rw [one_smul] at h1 h1'
  rw [logLik_eq hn Φ C hC.det_pos, logLik_eq hn Φ _ h1', h1]
  suffices h : ∑ l, Real.log (D.lam l) + d * (Real.log 1 + 1 / 1) ≤ nll (of (levelC Φ)) C by
    have hn' : (0 : ℝ) < n := by exact_mod_cast Nat.pos_of_ne_zero hn
    nlinarith
  have hM := hC.isHermitian
  have hspec := hM.spectral_theorem
  rw [Unitary.conjStarAlgAut_apply] at hspec
  set U : Matrix (Fin d) (Fin d) ℝ := (hM.eigenvectorUnitary : Matrix (Fin d) (Fin d) ℝ) with hUdef
  have hU : Uᵀ * U = 1 := by
    have := (mem_unitaryGroup_iff'.1 hM.eigenvectorUnitary.2)
    rwa [star_eq_conjTranspose, conjTranspose_eq_transpose_of_trivial] at this
  have hU' : U * Uᵀ = 1 := mul_eq_one_comm.1 hU
  have e : ∀ s, C = frameCov U hM.eigenvalues s := by
    intro s
    have e1 : U * diagonal (fun l => hM.eigenvalues l - s) * Uᵀ = U * diagonal hM.eigenvalues * Uᵀ - s • (U * Uᵀ) := by
      ext a b
      rw [mul_apply, Matrix.sub_apply, Matrix.smul_apply, mul_apply, mul_apply, smul_eq_mul, mul_sum, ← sum_sub_distrib]
      refine sum_congr rfl fun l _ => ?_
      rw [mul_diagonal, mul_diagonal]
      ring
    unfold frameCov
    rw [e1, hU']
    refine hspec.trans ?_
    rw [star_eq_conjTranspose, conjTranspose_eq_transpose_of_trivial, sub_add_cancel]
    congr 3
  obtain ⟨s, hs, hsl⟩ : ∃ s, 0 < s ∧ ∀ j, s ≤ hM.eigenvalues j := by
    rcases isEmpty_or_nonempty (Fin d) with h | h
    · exact ⟨1, one_pos, fun j => h.elim j⟩
    · obtain ⟨j, _, hj⟩ := exists_min_image univ hM.eigenvalues univ_nonempty
      exact ⟨_, hC.eigenvalues_pos j, fun i => hj i (mem_univ i)⟩
  have hb := bound_frame (le_refl d) D U hU hM.eigenvalues s 1 hs hsl ((card_le_univ _).trans (by simp)) (fun i _ => hD i) (fun h => absurd h (lt_irrefl d))
    (by
      have : (univ.filter fun i : Fin d => ¬ i.val < d) = ∅ := by ext i; simp
      rw [this]; simp)
  rw [← e s] at hb
  refine le_trans (le_of_eq ?_) hb
  unfold best
  have : (univ.filter fun i : Fin d => i.val < d) = univ := by ext i; simp
  rw [this, sum_add_distrib, sum_const, card_univ, Fintype.card_fin, nsmul_eq_mul]
  simp

/-- A fit in the dual keeping as many components as there are features, all of positive variance: the noise is null, the covariance of the model is the one of the
sample, and no covariance at all is more likely. Missing (`_partial`): fits keeping fewer. -/
theorem C133_complete_partial (hn : n ≠ 0) (E : EigDecomp (levelK 1 Φ)) (hd : d ≤ n) (hpos : ∀ l : Comp n d, 0 < E.lam l.1) :
    sigma E d = 0 ∧ ∃ H : Comp n d → Fin n → ℝ, (∀ l i, hidden E d l i = some (H l i)) ∧
      modelCov (fun a l => ∑ i, Φ i a * H l i) (sigma E d ^ 2) = of (levelC Φ) ∧
      ∀ C : Matrix (Fin d) (Fin d) ℝ, C.PosDef → logLik Φ C ≤ logLik Φ (modelCov (fun a l => ∑ i, Φ i a * H l i) (sigma E d ^ 2)) := by
  classical
  have hn' : (0 : ℝ) < n := by exact_mod_cast Nat.pos_of_ne_zero hn
  obtain ⟨D⟩ := eigDecomp_exists (of (levelC Φ)) (levelC_hermitian Φ)
  have ht : ∑ i with ¬ i.val < d, D.lam i = tail Φ E d := tail_sum hn Φ E d hd hpos D
  have h0 : tail Φ E d = 0 := by
    rw [← ht]
    have : (univ.filter fun i : Fin d => ¬ i.val < d) = ∅ := by ext i; simp
    rw [this, sum_empty]
  have hσ : sigma E d = 0 := by
    unfold sigma
    unfold tail at h0
    rw [div_eq_zero_iff] at h0
    rcases h0 with h | h
    · rw [h, zero_div]; split <;> rfl
    · exact absurd h hn'.ne'
  have hr : ∀ l : Comp n d, sigma E d ^ 2 ≤ E.lam l.1 / n := fun l => by rw [hσ]; simpa using (div_pos (hpos l) hn').le
  obtain ⟨H, hH, hW⟩ := hidden_fitted hn Φ E d hd hpos hr
  have hD : ∀ l, 0 < D.lam l := by
    intro i
    obtain ⟨h, e⟩ := transfer hn Φ E D ⟨i.val, lt_of_lt_of_le i.2 hd⟩ (hpos ⟨⟨i.val, lt_of_lt_of_le i.2 hd⟩, i.2⟩)
    have : D.lam i = E.lam ⟨i.val, lt_of_lt_of_le i.2 hd⟩ / n := e
    rw [this]
    exact div_pos (hpos ⟨⟨i.val, lt_of_lt_of_le i.2 hd⟩, i.2⟩) hn'
  have hcov : modelCov (fun a l => ∑ i, Φ i a * H l i) (sigma E d ^ 2) = of (levelC Φ) := by
    rw [hW, hσ, fitted_cov Φ E d _ (by rw [← hσ]; exact hr)]
    have hZ := dirs_orth Φ E d hpos
    have hZ' : dirs Φ E d * (dirs Φ E d)ᵀ = 1 := (Matrix.mul_eq_one_comm_of_card_eq (Comp n d) (Fin d) ℝ (by rw [card_comp d hd, Fintype.card_fin])).1 hZ
    have hSZ : of (levelC Φ) * dirs Φ E d = dirs Φ E d * diagonal fun l : Comp n d => E.lam l.1 / n := by
      ext a l
      rw [mul_apply, mul_diagonal]
      have hs := Real.sqrt_pos.2 (hpos l)
      calc ∑ b, of (levelC Φ) a b * dirs Φ E d b l = (∑ i, Φ i a * ∑ b, Φ i b * dirs Φ E d b l) / n := by
            simp only [of_apply, levelC_apply, mul_sum, sum_div]
            rw [sum_comm]
            refine sum_congr rfl fun b _ => ?_
            rw [sum_mul]
            exact sum_congr rfl fun i _ => by ring
        _ = (Real.sqrt (E.lam l.1) * ∑ i, Φ i a * E.V i l.1) / n := by
            simp only [dirs_image Φ E d l (hpos l)]
            congr 1
            rw [mul_sum]
            exact sum_congr rfl fun i _ => by ring
        _ = _ := by
            unfold dirs
            rw [of_apply, div_mul_div_comm, div_eq_div_iff hn'.ne' (mul_pos hs hn').ne']
            have := Real.mul_self_sqrt (hpos l).le
            linear_combination (n * ∑ i, Φ i a * E.V i l.1) * this
    unfold frameCov
    simp only [ne_eq, OfNat.ofNat_ne_zero, not_false_eq_true, zero_pow, sub_zero, zero_smul, add_zero]
    rw [← hSZ, Matrix.mul_assoc, hZ', Matrix.mul_one]
  refine ⟨hσ, H, hH, hcov, fun C hC => ?_⟩
  rw [hcov]
  exact complete_best Φ hn D hD C hC

/-- The noise of a fit in the primal does not depend on the number of features: it is the mean of the discarded eigenvalues (over the number of points, as in the dual) only if there are as many
features as points, or if nothing is discarded. -/
theorem C133_primal_noise_violated (D : EigDecomp (levelC Φ)) (k : ℕ) (hk : k < d) (hkn : k ≠ n) (hn : n ≠ 0) :
    n * sigmaPrimal Φ D k = (∑ l : {l : Fin d // ¬ l.1 < k}, D.lam l.1) / (d - k) ↔ d = n ∨ ∑ l : {l : Fin d // ¬ l.1 < k}, D.lam l.1 = 0 := by
  have hsplit : ∑ a, levelC Φ a a - ∑ l : Comp d k, D.lam l.1 = ∑ l : {l : Fin d // ¬ l.1 < k}, D.lam l.1 := by
    rw [show ∑ a, levelC Φ a a = ∑ l, D.lam l from D.trace_eq, ← Fintype.sum_subtype_add_sum_subtype (fun l : Fin d => l.1 < k) D.lam]
    exact add_sub_cancel_left _ _
  have hn' : (n : ℝ) ≠ 0 := by exact_mod_cast hn
  have h1 : (d : ℝ) - k ≠ 0 := sub_ne_zero.2 (by exact_mod_cast hk.ne')
  have h2 : (n : ℝ) - k ≠ 0 := sub_ne_zero.2 (by exact_mod_cast Ne.symm hkn)
  unfold sigmaPrimal
  rw [if_neg hkn, hsplit, mul_div_mul_left _ _ hn' |> fun e => (mul_div_assoc (n : ℝ) _ _).symm.trans e, div_eq_div_iff h2 h1]
  constructor
  · intro h
    by_cases h0 : ∑ l : {l : Fin d // ¬ l.1 < k}, D.lam l.1 = 0
    · exact Or.inr h0
    · left
      have := mul_left_cancel₀ h0 h
      have h3 : (d : ℝ) = n := by linarith
      exact_mod_cast h3
  · rintro (h | h)
    · exact congrArg (fun m : ℕ => _ * ((m : ℝ) - k)) h
    · rw [h, zero_mul, zero_mul]

/-- The same fit in the primal: the covariance of the model is the one of the sample divided by the number of points, and the one of the sample is strictly more
likely as soon as there are two points. -/
theorem C133_primal_violated (hn : 2 ≤ n) (hd0 : d ≠ 0) (D : EigDecomp (levelC Φ)) (hpos : ∀ l, 0 < D.lam l) :
    sigmaPrimal Φ D d = 0 ∧ ∃ W : Comp d d → Fin d → ℝ, (∀ l a, weight Φ D d l a = some (W l a)) ∧
      modelCov (fun a l => W l a) (sigmaPrimal Φ D d ^ 2) = (1 / n : ℝ) • of (levelC Φ) ∧
      logLik Φ (modelCov (fun a l => W l a) (sigmaPrimal Φ D d ^ 2)) < logLik Φ (of (levelC Φ)) := by
  have hn0 : n ≠ 0 := by omega
  have hn' : (0 : ℝ) < n := by exact_mod_cast Nat.pos_of_ne_zero hn0
  have hsum : ∀ f : Fin d → ℝ, ∑ l : Comp d d, f l.1 = ∑ l, f l := fun f =>
    Fintype.sum_equiv (Equiv.subtypeUnivEquiv fun l : Fin d => l.2) _ _ fun l => rfl
  have hσ : sigmaPrimal Φ D d = 0 := by
    unfold sigmaPrimal
    have : ∑ a, levelC Φ a a = ∑ l, D.lam l := D.trace_eq
    rw [hsum D.lam, this, sub_self, zero_div]; split <;> rfl
  have hW : ∀ (l : Comp d d) a, weight Φ D d l a = some (D.V a l.1 * Real.sqrt (D.lam l.1 / n)) := by
    intro l a
    unfold weight
    rw [hσ, if_neg (by simpa using (div_pos (hpos l.1) hn').le)]
    simp
  have hcov : modelCov (fun a (l : Comp d d) => D.V a l.1 * Real.sqrt (D.lam l.1 / n)) (sigmaPrimal Φ D d ^ 2) = (1 / n : ℝ) • of (levelC Φ) := by
    ext a b
    simp only [modelCov, hσ, of_apply, Matrix.smul_apply, smul_eq_mul]
    rw [hsum fun l => D.V a l * Real.sqrt (D.lam l / n) * (D.V b l * Real.sqrt (D.lam l / n)), D.spectral a b, mul_sum]
    simp only [ne_eq, OfNat.ofNat_ne_zero, not_false_eq_true, zero_pow, ite_self, add_zero]
    refine sum_congr rfl fun l _ => ?_
    have := Real.mul_self_sqrt (div_pos (hpos l) hn').le
    calc _ = D.V a l * D.V b l * (Real.sqrt (D.lam l / n) * Real.sqrt (D.lam l / n)) := by ring
      _ = _ := by rw [this]; ring
  refine ⟨hσ, _, hW, hcov, ?_⟩
  rw [hcov]
  have h1 := complete_nll Φ D hpos 1 one_pos
  have h1' := complete_det Φ D hpos 1 one_pos
  rw [one_smul] at h1 h1'
  rw [logLik_eq hn0 Φ _ (complete_det Φ D hpos _ (one_div_pos.2 hn')), logLik_eq hn0 Φ _ h1', h1, complete_nll Φ D hpos _ (one_div_pos.2 hn')]
  have h2 := Real.log_lt_sub_one_of_pos hn' (by exact_mod_cast (by omega : n ≠ 1))
  have hdp : (0 : ℝ) < d := by exact_mod_cast Nat.pos_of_ne_zero hd0
  have h3 : Real.log (1 / (n : ℝ)) = - Real.log n := by rw [one_div, Real.log_inv]
  rw [h3, one_div_one_div, Real.log_one]
  have h4 : (d : ℝ) * 1 < d * (-Real.log n + n) := mul_lt_mul_of_pos_left (by linarith) hdp
  nlinarith
end full

section examples

/-- Two points with orthogonal features. -/
def exPhi (a b : ℝ) : Fin 2 → Fin 2 → ℝ := ![![a, 0], ![0, b]]

/-- A decomposition of their kernel matrix. -/
noncomputable def exEig (a b : ℝ) (h : b ^ 2 ≤ a ^ 2) : EigDecomp (levelK 1 (exPhi a b)) where
  lam := ![a ^ 2, b ^ 2]
  V := ![![1, 0], ![0, 1]]
  sorted := by
    intro i j hij
    fin_cases i <;> fin_cases j <;> simp_all
  orth := by
    intro k l
    fin_cases k <;> fin_cases l <;> simp [Fin.sum_univ_two]
  eig := by
    intro i k
    fin_cases i <;> fin_cases k <;> simp [Fin.sum_univ_two, levelK_apply, exPhi, sq]

theorem exEig_comp (l : Comp 2 1) : l.1 = 0 := by
  have := l.2
  exact Fin.ext (by simp; omega)

theorem exEig_sigma (a b : ℝ) (h : b ^ 2 ≤ a ^ 2) : sigma (exEig a b h) 1 = b ^ 2 / 2 := by
  have h1 : ∑ l : Comp 2 1, (exEig a b h).lam l.1 = a ^ 2 := by
    have : ∀ l : Comp 2 1, (exEig a b h).lam l.1 = a ^ 2 := fun l => by rw [exEig_comp l]; rfl
    simp only [this, sum_const, card_univ]
    have : Fintype.card (Comp 2 1) = 1 := card_comp 1 (by omega)
    rw [this, one_smul]
  unfold sigma
  rw [if_neg (by decide), h1, Fin.sum_univ_two, levelK_apply, levelK_apply]
  simp [exPhi, Fin.sum_univ_two]
  ring

/-- Noise: the value computed is a variance (the mean one left out) but is used as a standard deviation. With two points of orthogonal features of lengths 2 and 1 and
one component, other weights and another noise are strictly more likely than the fitted ones. -/
theorem C133_noise_violated : ∃ H : Comp 2 1 → Fin 2 → ℝ, (∀ l i, hidden (exEig 2 1 (by norm_num)) 1 l i = some (H l i)) ∧
    ∃ (W : Fin 2 → Comp 2 1 → ℝ) (s : ℝ), 0 < s ∧
      logLik (exPhi 2 1) (modelCov (fun a l => ∑ i, exPhi 2 1 i a * H l i) (sigma (exEig 2 1 (by norm_num)) 1 ^ 2)) < logLik (exPhi 2 1) (modelCov W s) := by
  have hσ := exEig_sigma 2 1 (by norm_num)
  obtain ⟨H, hH, h⟩ := C133_most_likely_partial (by decide) (exPhi 2 1) (exEig 2 1 (by norm_num)) 1 (by decide)
    (fun l => by rw [exEig_comp l]; simp [exEig]) (by rw [hσ]; norm_num) (fun l => by rw [exEig_comp l, hσ]; simp [exEig]; norm_num)
  refine ⟨H, hH, ?_⟩
  by_contra hno
  have := h.1 fun W s hs => not_lt.1 fun hlt => hno ⟨W, s, hs, hlt⟩
  rw [hσ] at this
  norm_num at this

/-- `C133_most_likely_partial`: with lengths 2 and √2 the noise is one and the fit is the most likely one. -/
example : sigma (exEig 2 (Real.sqrt 2) (by norm_num)) 1 = 1 ∧ ∃ H : Comp 2 1 → Fin 2 → ℝ, (∀ l i, hidden (exEig 2 (Real.sqrt 2) (by norm_num)) 1 l i = some (H l i)) ∧
    ∀ (W : Fin 2 → Comp 2 1 → ℝ) (s : ℝ), 0 < s → logLik (exPhi 2 (Real.sqrt 2)) (modelCov W s)
      ≤ logLik (exPhi 2 (Real.sqrt 2)) (modelCov (fun a l => ∑ i, exPhi 2 (Real.sqrt 2) i a * H l i) (sigma (exEig 2 (Real.sqrt 2) (by norm_num)) 1 ^ 2)) := by
  have hσ : sigma (exEig 2 (Real.sqrt 2) (by norm_num)) 1 = 1 := by rw [exEig_sigma]; norm_num
  obtain ⟨H, hH, h⟩ := C133_most_likely_partial (by decide) (exPhi 2 (Real.sqrt 2)) (exEig 2 (Real.sqrt 2) (by norm_num)) 1 (by decide)
    (fun l => by rw [exEig_comp l]; simp [exEig]) (by rw [hσ]; norm_num) (fun l => by rw [exEig_comp l, hσ]; simp [exEig]; norm_num)
  exact ⟨hσ, H, hH, h.2 (by rw [hσ]; norm_num)⟩

/-- `C133_gap`: with lengths 2 and 1, the mean variance left out is twice the variance used: `log 2` is what separates both from `1`. -/
example : ∃ (W : Fin 2 → Comp 2 1 → ℝ) (H : Comp 2 1 → Fin 2 → ℝ), logLik (exPhi 2 1) (modelCov W (1 / 2))
    - logLik (exPhi 2 1) (modelCov (fun a l => ∑ i, exPhi 2 1 i a * H l i) (1 / 4)) = 1 - Real.log 2 := by
  have hσ := exEig_sigma 2 1 (by norm_num)
  obtain ⟨H, hH, W, m, _, hm, _, h⟩ := C133_gap (by decide) (exPhi 2 1) (exEig 2 1 (by norm_num)) 1 (by decide)
    (fun l => by rw [exEig_comp l]; simp [exEig]) (by rw [hσ]; norm_num) (fun l => by rw [exEig_comp l, hσ]; simp [exEig]; norm_num)
  have h1 : ∑ l : Comp 2 1, (exEig 2 1 (by norm_num)).lam l.1 = 4 := by
    have : ∀ l : Comp 2 1, (exEig 2 1 (by norm_num)).lam l.1 = 4 := fun l => by rw [exEig_comp l]; simp [exEig]; norm_num
    simp only [this, sum_const, card_univ]
    have : Fintype.card (Comp 2 1) = 1 := card_comp 1 (by omega)
    rw [this, one_smul]
  rw [h1] at hm
  simp [Fin.sum_univ_two, exPhi] at hm
  have hm' : m = 1 / 2 := by linarith
  rw [hσ, hm'] at h
  norm_num at h
  exact ⟨W, H, by rw [← h]; norm_num⟩

/-- Two points with three features, of which one is kept. -/
example (D : EigDecomp (levelC (fun (i : Fin 2) (a : Fin 3) => ((i.1 : ℝ) + 1) * (a.1 + 1) ^ (i.1 + 1)))) := C133_primal_noise_violated _ D 1 (by decide) (by decide) (by decide)

/-- `C133_complete_partial` and `C133_primal_violated`: their hypotheses hold for these two points with both components. -/
example : (∀ l : Comp 2 2, 0 < (exEig 2 1 (by norm_num)).lam l.1) ∧ ∀ D : EigDecomp (levelC (exPhi 2 1)), ∀ l, 0 < D.lam l := by
  have hE : ∀ l : Fin 2, 0 < (exEig 2 1 (by norm_num)).lam l := by
    intro l; fin_cases l <;> simp [exEig]
  refine ⟨fun l => hE l.1, fun D l => ?_⟩
  obtain ⟨_, h⟩ := transfer (by decide) (exPhi 2 1) (exEig 2 1 (by norm_num)) D l (hE l)
  have : D.lam l = _ := h
  rw [this]
  exact div_pos (hE l) (by norm_num)

end examples

end PPCALik
end Kerch
