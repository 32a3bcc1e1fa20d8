import Verif.Model.PPCA
import Verif.Lemmas.KPCA
import Mathlib.Tactic.Linarith
import Mathlib.Tactic.FieldSimp
import Mathlib.Tactic.FinCases
import Mathlib.Algebra.BigOperators.Field
import Mathlib.Algebra.Order.BigOperators.Ring.Finset
set_option linter.unusedSectionVars false
set_option linter.unusedSimpArgs false
/-!
# C90: latent representations of probabilistic PCA
-/
namespace Kerch
namespace PPCA
open Finset

variable {n : ℕ} {K : Fin n → Fin n → ℝ} (D : EigDecomp K) (k : ℕ)

/-- Specification: up to constants, minus twice the logarithm of the posterior density of `h` times the noise variance `σ²`, given the features `φ` of a point, for weights `W`:
`|φ - W h|² + σ² |h|²`. -/
def objective {m c : Type} [Fintype m] [Fintype c] (W : m → c → ℝ) (σ : ℝ) (φ : m → ℝ) (h : c → ℝ) : ℝ :=
  ∑ a, (φ a - ∑ l, W a l * h l) ^ 2 + σ ^ 2 * ∑ l, h l ^ 2

theorem hidden_some (l : Comp n k) (h0 : 0 < D.lam l.1) (h : sigma D k ^ 2 ≤ D.lam l.1 / n) (i : Fin n) :
    hidden D k l i = some (D.V i l.1 * Real.sqrt (1 / n - sigma D k ^ 2 / D.lam l.1)) := by
  have h1 : ¬ (1 / (n : ℝ) - sigma D k ^ 2 / D.lam l.1 < 0) := by
    rw [not_lt, sub_nonneg, div_le_div_iff₀ h0 (by exact_mod_cast Nat.pos_of_ne_zero (by rintro rfl; exact l.1.elim0))]
    rw [le_div_iff₀ (by exact_mod_cast Nat.pos_of_ne_zero (by rintro rfl; exact l.1.elim0))] at h
    linarith
  unfold hidden radicand
  rw [if_neg h0.ne', Option.bind_some, if_neg h1]

/-- Any quadratic with orthogonal weights is minimised at the scaled scores, and only there. -/
theorem quad_min {m c : Type} [Fintype m] [Fintype c] [DecidableEq c] (W : m → c → ℝ) (σ : ℝ) (φ : m → ℝ) (q : c → ℝ) (hq : ∀ l, 0 < q l)
    (hW : ∀ l l', ∑ a, W a l * W a l' = if l = l' then q l - σ ^ 2 else 0) (h : c → ℝ) :
    objective W σ φ h - objective W σ φ (fun l => (∑ a, φ a * W a l) / q l) = ∑ l, q l * (h l - (∑ a, φ a * W a l) / q l) ^ 2 := by
  classical
  have hobj : ∀ g : c → ℝ, objective W σ φ g = ∑ a, φ a ^ 2 + ∑ l, (q l * g l ^ 2 - 2 * g l * ∑ a, φ a * W a l) := by
    intro g
    have e1 : ∑ a, (φ a - ∑ l, W a l * g l) ^ 2 = ∑ a, φ a ^ 2 - 2 * ∑ a, φ a * ∑ l, W a l * g l + ∑ a, (∑ l, W a l * g l) ^ 2 := by
      rw [mul_sum, ← sum_sub_distrib, ← sum_add_distrib]
      exact sum_congr rfl fun a _ => by ring
    have e2 : ∑ a, φ a * ∑ l, W a l * g l = ∑ l, g l * ∑ a, φ a * W a l := by
      simp only [mul_sum]
      rw [sum_comm]
      exact sum_congr rfl fun l _ => sum_congr rfl fun a _ => by ring
    have e3 : ∑ a, (∑ l, W a l * g l) ^ 2 = ∑ l, (q l - σ ^ 2) * g l ^ 2 := by
      have : ∀ a, (∑ l, W a l * g l) ^ 2 = ∑ l, ∑ l', g l * g l' * (W a l * W a l') := by
        intro a
        rw [sq, sum_mul_sum]
        exact sum_congr rfl fun l _ => sum_congr rfl fun l' _ => by ring
      simp only [this]
      rw [sum_comm]
      refine sum_congr rfl fun l _ => ?_
      rw [sum_comm]
      simp only [← mul_sum, hW]
      rw [sum_eq_single l]
      · rw [if_pos rfl]; ring
      · intro l' _ hl'
        rw [if_neg (Ne.symm hl'), mul_zero]
      · simp
    unfold objective
    rw [e1, e2, e3, mul_sum, mul_sum, sub_add, sub_add, sub_eq_add_neg]
    congr 1
    rw [← sum_sub_distrib, ← sum_sub_distrib, ← sum_neg_distrib]
    exact sum_congr rfl fun l _ => by ring
  rw [hobj, hobj, add_sub_add_left_eq_sub, ← sum_sub_distrib]
  refine sum_congr rfl fun l _ => ?_
  have := (hq l).ne'
  field_simp
  ring

/-- After a fit in the dual, the latent representation of any point (features `φ`) computed from its kernel values with the sample is the maximum of the posterior
distribution, and no other one is, whenever the noise does not exceed the components kept. Missing (`_partial`): noise exceeding them
(`C90_scale_violated`), and the primal (`C90_primal_violated`). -/
theorem C90_map_partial {m : Type} [Fintype m] (Φ : Fin n → m → ℝ) (hK : ∀ i j, K i j = ∑ a, Φ i a * Φ j a)
    (hpos : ∀ l : Comp n k, 0 < D.lam l.1) (hσ : ∀ l : Comp n k, sigma D k ^ 2 ≤ D.lam l.1 / n) (φ : m → ℝ) :
    ∃ H : Comp n k → Fin n → ℝ, (∀ l i, hidden D k l i = some (H l i)) ∧
      ∀ h, objective (fun a l => ∑ i, Φ i a * H l i) (sigma D k) φ (hMapDual D k H fun i => ∑ a, φ a * Φ i a)
        ≤ objective (fun a l => ∑ i, Φ i a * H l i) (sigma D k) φ h ∧
        (objective (fun a l => ∑ i, Φ i a * H l i) (sigma D k) φ h
          = objective (fun a l => ∑ i, Φ i a * H l i) (sigma D k) φ (hMapDual D k H fun i => ∑ a, φ a * Φ i a) →
            h = hMapDual D k H fun i => ∑ a, φ a * Φ i a) := by
  classical
  obtain ⟨s, hs⟩ : ∃ s : Comp n k → ℝ, s = fun l => Real.sqrt (1 / n - sigma D k ^ 2 / D.lam l.1) := ⟨_, rfl⟩
  refine ⟨fun l i => D.V i l.1 * s l, fun l i => by rw [hs]; exact hidden_some D k l (hpos l) (hσ l) i, ?_⟩
  have hn : ∀ l : Comp n k, (0 : ℝ) < n := fun l => by exact_mod_cast Nat.pos_of_ne_zero (by rintro rfl; exact l.1.elim0)
  have hs2 : ∀ l, s l * s l = 1 / n - sigma D k ^ 2 / D.lam l.1 := by
    intro l
    rw [hs]
    refine Real.mul_self_sqrt ?_
    have h := hσ l
    rw [sub_nonneg, div_le_div_iff₀ (hpos l) (hn l)]
    rw [le_div_iff₀ (hn l)] at h
    linarith
  obtain ⟨W, hWdef⟩ : ∃ W : m → Comp n k → ℝ, W = fun a l => ∑ i, Φ i a * (D.V i l.1 * s l) := ⟨_, rfl⟩
  have hW : ∀ l l', ∑ a, W a l * W a l' = if l = l' then D.lam l.1 / n - sigma D k ^ 2 else 0 := by
    intro l l'
    have e : ∑ a, W a l * W a l' = (∑ i, D.V i l.1 * ∑ j, K i j * D.V j l'.1) * (s l * s l') := by
      simp only [hWdef, hK]
      have : ∀ a, (∑ i, Φ i a * (D.V i l.1 * s l)) * (∑ i, Φ i a * (D.V i l'.1 * s l')) = ∑ i, ∑ j, Φ i a * Φ j a * (D.V i l.1 * D.V j l'.1 * (s l * s l')) := by
        intro a
        rw [sum_mul_sum]
        exact sum_congr rfl fun i _ => sum_congr rfl fun j _ => by ring
      simp only [this]
      rw [sum_comm, sum_mul]
      refine sum_congr rfl fun i _ => ?_
      rw [sum_comm, mul_sum, sum_mul]
      refine sum_congr rfl fun j _ => ?_
      rw [← sum_mul]
      ring
    rw [e]
    have e2 : ∑ i, D.V i l.1 * ∑ j, K i j * D.V j l'.1 = if l = l' then D.lam l'.1 else 0 := by
      simp only [D.eig]
      have : ∑ i, D.V i l.1 * (D.lam l'.1 * D.V i l'.1) = D.lam l'.1 * ∑ i, D.V i l.1 * D.V i l'.1 := by
        rw [mul_sum]; exact sum_congr rfl fun i _ => by ring
      rw [this, D.orth]
      by_cases h : l = l'
      · rw [if_pos h, if_pos (congrArg Subtype.val h), mul_one]
      · rw [if_neg h, if_neg (fun h' => h (Subtype.ext h')), mul_zero]
    rw [e2]
    by_cases h : l = l'
    · subst h
      rw [if_pos rfl, if_pos rfl, hs2]
      have := (hpos l).ne'
      have := (hn l).ne'
      field_simp
    · rw [if_neg h, if_neg h, zero_mul]
  have hmap : (hMapDual D k (fun l i => D.V i l.1 * s l) fun i => ∑ a, φ a * Φ i a) = fun l => (∑ a, φ a * W a l) / (D.lam l.1 / n) := by
    funext l
    unfold hMapDual
    have : ∑ j, (∑ a, φ a * Φ j a) * (D.V j l.1 * s l) = ∑ a, φ a * W a l := by
      rw [hWdef]
      simp only [sum_mul, mul_sum]
      rw [sum_comm]
      exact sum_congr rfl fun a _ => sum_congr rfl fun j _ => by ring
    rw [this]
    have := (hpos l).ne'
    have := (hn l).ne'
    field_simp
  intro h
  rw [hmap]
  have key := quad_min W (sigma D k) φ (fun l => D.lam l.1 / n) (fun l => div_pos (hpos l) (hn l)) hW h
  rw [hWdef] at key ⊢
  have hterm : ∀ l ∈ (univ : Finset (Comp n k)), 0 ≤ D.lam l.1 / n * (h l - (∑ a, φ a * ∑ i, Φ i a * (D.V i l.1 * s l)) / (D.lam l.1 / n)) ^ 2 :=
    fun l _ => mul_nonneg (div_pos (hpos l) (hn l)).le (sq_nonneg _)
  refine ⟨?_, fun heq => ?_⟩
  · have := sum_nonneg hterm
    linarith
  · have h0 : ∑ l : Comp n k, D.lam l.1 / n * (h l - (∑ a, φ a * ∑ i, Φ i a * (D.V i l.1 * s l)) / (D.lam l.1 / n)) ^ 2 = 0 := by linarith
    funext l
    have := (sum_eq_zero_iff_of_nonneg hterm).1 h0 l (mem_univ l)
    rcases mul_eq_zero.1 this with h1 | h1
    · exact absurd h1 (div_pos (hpos l) (hn l)).ne'
    · exact sub_eq_zero.1 (pow_eq_zero_iff (two_ne_zero) |>.1 h1)

/-- The hypothesis of `C90_map_partial` on the noise is met by every kernel whose values do not exceed one on average on the sample, as normalised kernels do. -/
theorem C90_normalised_partial (hk : k ≤ n) (hpsd : ∀ l, 0 ≤ D.lam l) (htr : ∑ i, K i i ≤ n) (l : Comp n k) : sigma D k ^ 2 ≤ D.lam l.1 / n := by
  have hn : (0 : ℝ) < n := by exact_mod_cast Nat.pos_of_ne_zero (by rintro rfl; exact l.1.elim0)
  by_cases h : k = n
  · unfold sigma
    rw [if_pos h]
    have := div_nonneg (hpsd l.1) hn.le
    simpa using this
  have hkn : k < n := lt_of_le_of_ne hk h
  have hd : (0 : ℝ) < n - k := by
    have : (k : ℝ) < n := by exact_mod_cast hkn
    linarith
  have hsum : ∑ i, K i i - ∑ l : Comp n k, D.lam l.1 = ∑ l ∈ univ.filter (fun l : Fin n => ¬ l.val < k), D.lam l := by
    rw [D.trace_eq, ← sum_filter_add_sum_filter_not univ (fun l : Fin n => l.val < k), ← sum_subtype_eq_sum_filter]
    simp only [subtype_univ]
    exact add_sub_cancel_left _ _
  have hcard : (univ.filter (fun l : Fin n => ¬ l.val < k)).card = n - k := by
    have h1 : (univ.filter (fun l : Fin n => l.val < k)).card = k := by
      rw [Fin.card_filter_val_lt]; omega
    have h2 := card_filter_add_card_filter_not (s := (univ : Finset (Fin n))) (fun l : Fin n => l.val < k)
    rw [card_univ, Fintype.card_fin] at h2
    omega
  have hle : ∑ l' ∈ univ.filter (fun l : Fin n => ¬ l.val < k), D.lam l' ≤ (n - k) * D.lam l.1 := by
    have := sum_le_card_nsmul (univ.filter (fun l : Fin n => ¬ l.val < k)) D.lam (D.lam l.1) (fun l' hl' => D.sorted (by
      have h1 := (mem_filter.1 hl').2
      have h2 := l.2
      exact Fin.le_def.2 (by omega)))
    rw [hcard, nsmul_eq_mul, Nat.cast_sub hk] at this
    exact this
  have hσ : sigma D k ≤ D.lam l.1 / n := by
    unfold sigma
    rw [if_neg h, hsum, div_le_div_iff₀ (mul_pos hn hd) hn]
    nlinarith
  have hσ0 : 0 ≤ sigma D k := by
    unfold sigma
    rw [if_neg h, hsum]
    exact div_nonneg (sum_nonneg fun l _ => hpsd l) (mul_pos hn hd).le
  have h1 : D.lam l.1 / n ≤ 1 := by
    rw [div_le_one hn]
    refine le_trans ?_ htr
    rw [D.trace_eq]
    exact single_le_sum (fun l _ => hpsd l) (mem_univ l.1)
  nlinarith

/-- The decomposition of a multiple of the identity. -/
def exScaled (c : ℝ) : EigDecomp (n := 2) (fun i j => if i = j then c else 0) where
  lam := fun _ => c
  V := fun i j => if i = j then 1 else 0
  sorted := antitone_const
  orth := by intro k l; fin_cases k <;> fin_cases l <;> simp
  eig := by intro i k; fin_cases i <;> fin_cases k <;> simp

theorem sigma_exScaled (c : ℝ) : sigma (exScaled c) 1 = c / 2 := by
  have h : ∑ l : Comp 2 1, (exScaled c).lam l.1 = c := by
    have : (univ : Finset (Comp 2 1)) = {⟨0, by decide⟩} := by decide
    rw [this, sum_singleton]
    rfl
  unfold sigma
  rw [if_neg (by decide), h]
  simp
  ring

/-- Two points with orthogonal features of unit length, one component: the case is within the hypotheses. -/
example : (∀ l : Comp 2 1, 0 < (exScaled 1).lam l.1) ∧ ∀ l : Comp 2 1, sigma (exScaled 1) 1 ^ 2 ≤ (exScaled 1).lam l.1 / (2 : ℕ) :=
  ⟨fun _ => one_pos, fun l => C90_normalised_partial (exScaled 1) 1 (by decide) (fun _ => zero_le_one) (by simp) l⟩

/-- The same points with features twice as long: the parameters of the fitted model are not numbers. -/
theorem C90_scale_violated : ∀ (l : Comp 2 1) (i : Fin 2), hidden (exScaled 4) 1 l i = none := by
  intro l i
  have h4 : (exScaled 4).lam l.1 = 4 := rfl
  unfold hidden radicand
  rw [h4, if_neg (by norm_num), Option.bind_some, sigma_exScaled, if_pos (by norm_num)]

/-- More generally, components kept that are below the squared noise are never numbers. -/
theorem C90_noise_exceeds (l : Comp n k) (h0 : 0 < D.lam l.1) (h : D.lam l.1 / n < sigma D k ^ 2) (i : Fin n) : hidden D k l i = none := by
  have hn : (0 : ℝ) < n := by exact_mod_cast Nat.pos_of_ne_zero (by rintro rfl; exact l.1.elim0)
  unfold hidden radicand
  rw [if_neg h0.ne', Option.bind_some, if_pos]
  rw [sub_neg, div_lt_div_iff₀ hn h0]
  rw [div_lt_iff₀ hn] at h
  linarith

/-- From the features, the latent representation is never computed, whatever the fit. -/
theorem C90_primal_violated {m : Type} [Fintype m] (W : m → Comp n k → ℝ) (H : Comp n k → Fin n → ℝ) (φ : m → ℝ) :
    hMap D k W H (some φ) none = .error .attributeError := rfl

/-- Anything but exactly one argument is refused; kernel values alone are accepted. -/
theorem C90_arguments {m : Type} [Fintype m] (W : m → Comp n k → ℝ) (H : Comp n k → Fin n → ℝ) (φ : m → ℝ) (kx : Fin n → ℝ) :
    hMap D k W H (none : Option (m → ℝ)) none = .error .attributeError ∧ hMap D k W H (some φ) (some kx) = .error .attributeError
      ∧ hMap D k W H (none : Option (m → ℝ)) (some kx) = .ok (hMapDual D k H kx) := ⟨rfl, rfl, rfl⟩

/-- A fit leaves the kernel as it is when it has no bandwidth, or when its bandwidth happens to be the noise found; otherwise the kernel is another one after the fit. -/
theorem C90_bandwidth_violated (bandwidth : Option ℝ) :
    bandwidthAfter D k bandwidth = bandwidth ↔ (bandwidth = none ∨ bandwidth = some (sigma D k)) := by
  cases bandwidth with
  | none => simp [bandwidthAfter]
  | some b => simp [bandwidthAfter, eq_comm]

/-- Fitting as many components as there are points makes the bandwidth null. -/
theorem C90_bandwidth_null_violated (b : ℝ) : bandwidthAfter D n (some b) = some 0 := by simp [bandwidthAfter, sigma]

/-- Specification: the covariance of a linear function of independent standard normal numbers `u`, the coefficient of `u i` in the `j`-th value being the value for the `i`-th
unit vector. -/
def covariance {d : ℕ} (draw : (Fin d → ℝ) → Fin d → ℝ) (j l : Fin d) : ℝ := ∑ i, draw (fun a => if a = i then 1 else 0) j * draw (fun a => if a = i then 1 else 0) l

/-- Draws do not have the covariance of the model: with two features and covariance `[[1, 1], [1, 2]]`, whatever the factor found, the covariance is another one. -/
theorem C90_draw_violated (M B : Fin 2 → Fin 2 → ℝ) (h00 : M 0 0 = 1) (h01 : M 0 1 = 1) (h11 : M 1 1 = 2) (hB : IsCholesky M B) :
    covariance (drawPhi B) 0 0 = 2 ∧ covariance (drawPhi B) 1 1 = 1 := by
  have e01 := hB.lower 0 1 (by decide)
  have f00 := hB.factor 0 0
  have f01 := hB.factor 0 1
  have f11 := hB.factor 1 1
  simp only [Fin.sum_univ_two, e01, h00, h01, h11] at f00 f01 f11
  have d0 := hB.diag 0
  have b00 : B 0 0 = 1 := by nlinarith
  rw [b00] at f01
  have b10 : B 1 0 = 1 := by linarith
  rw [b10] at f11
  constructor <;> simp [covariance, drawPhi, Fin.sum_univ_two, b00, b10, e01] <;> linarith

/-- Draws have the covariance of the model when the features are not correlated. Missing (`_partial`): correlated features, `C90_draw_violated`. -/
theorem C90_draw_partial {d : ℕ} (M B : Fin d → Fin d → ℝ) (hB : IsCholesky M B) (hd : ∀ i j, i ≠ j → M i j = 0) (hpos : ∀ i, 0 < M i i) (j l : Fin d) :
    covariance (drawPhi B) j l = M j l := by
  have hBd : ∀ m (j : Fin d), j.val = m → ∀ i, i ≠ j → B i j = 0 := by
    intro m
    induction m using Nat.strong_induction_on with
    | _ m ih =>
      intro j hj i hij
      rcases lt_or_gt_of_ne hij with h | h
      · exact hB.lower i j h
      · have hrow : ∀ a, a ≠ j → B j a = 0 := by
          intro a ha
          rcases lt_or_gt_of_ne ha with h' | h'
          · exact ih a.val (by rw [← hj]; exact h') a rfl j (Ne.symm ha)
          · exact hB.lower j a h'
        have e1 := hB.factor i j
        have e2 := hB.factor j j
        rw [sum_eq_single j (fun a _ ha => by rw [hrow a ha, mul_zero]) (by simp), hd i j hij] at e1
        rw [sum_eq_single j (fun a _ ha => by rw [hrow a ha, mul_zero]) (by simp)] at e2
        rcases mul_eq_zero.1 e1 with h1 | h1
        · exact h1
        · rw [h1] at e2
          have := hpos j
          rw [← e2] at this
          simp at this
  have hB' : ∀ i j, i ≠ j → B i j = 0 := fun i j h => hBd j.val j rfl i h
  have hdraw : ∀ i a, drawPhi B (fun b => if b = i then 1 else 0) a = B i a := by
    intro i a
    simp [drawPhi]
  unfold covariance
  simp only [hdraw]
  rw [← hB.factor j l]
  refine sum_congr rfl fun i _ => ?_
  by_cases h1 : i = j
  · by_cases h2 : i = l
    · rw [← h1, ← h2]
    · rw [hB' i l h2, hB' l i (Ne.symm h2), mul_zero, mul_zero]
  · rw [hB' i j h1, hB' j i (Ne.symm h1), zero_mul, zero_mul]

example : IsCholesky (d := 2) (fun i j => if i = j then 4 else 0) (fun i j => if i = j then 2 else 0) where
  lower := by intro i j h; simp [h.ne]
  diag := by intro i; simp
  factor := by intro i j; fin_cases i <;> fin_cases j <;> norm_num [Fin.sum_univ_two]

example : IsCholesky (d := 2) ![![1, 1], ![1, 2]] ![![1, 0], ![1, 1]] where
  lower := by intro i j h; fin_cases i <;> fin_cases j <;> simp_all
  diag := by intro i; fin_cases i <;> simp
  factor := by intro i j; fin_cases i <;> fin_cases j <;> norm_num [Fin.sum_univ_two]

end PPCA
end Kerch
