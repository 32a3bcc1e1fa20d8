import Mathlib.Algebra.BigOperators.Field
import Mathlib.Tactic.Ring
import Mathlib.Tactic.FieldSimp
import Mathlib.Tactic.Linarith
import Mathlib.Tactic.FinCases
import Verif.Model.LSSVMTrain
import Verif.Props.LSSVM
/-!
# C91 (loss of a LS-SVM), C92 (centred dual variables), C93 (LS-SVM without bias), C94 (ridge regression)
-/
set_option linter.unusedSectionVars false
set_option linter.unusedSimpArgs false
namespace Kerch
namespace LSTrain
open Finset LSSVM

/-! ## Specifications -/

/-- Specification of the training objective: mean squared norm of the weights plus gamma times the mean squared error. -/
noncomputable def Objective {n f d : ℕ} (Φ : Fin n → Fin f → ℝ) (γ : ℝ) (Y : Fin n → Fin d → ℝ) (W : Fin f → Fin d → ℝ) (b : Fin d → ℝ) : ℝ :=
  (∑ a, ∑ c, W a c ^ 2) / n + γ * ((∑ i, ∑ c, (∑ a, Φ i a * W a c + b c - Y i c) ^ 2) / (n * d))

/-- Specification: regularised least squares without bias. -/
def RidgeNB {n f : ℕ} (Φ : Fin n → Fin f → ℝ) (γ : ℝ) (y : Fin n → ℝ) (w : Fin f → ℝ) : ℝ := ∑ i, (y i - ∑ j, Φ i j * w j) ^ 2 + γ * ∑ j, w j ^ 2

/-- The weights of dual variables: `W = Φᵀ H`. -/
def weights {n f d : ℕ} (Φ : Fin n → Fin f → ℝ) (H : Fin n → Fin d → ℝ) : Fin f → Fin d → ℝ := fun a c => ∑ i, Φ i a * H i c

/-! ## Helpers -/

theorem gram_mul {n f d : ℕ} (Φ : Fin n → Fin f → ℝ) (H : Fin n → Fin d → ℝ) (i : Fin n) (c : Fin d) :
    ∑ j, gramOf Φ i j * H j c = ∑ a, Φ i a * weights Φ H a c := by
  simp only [gramOf, weights, sum_mul, mul_sum]
  rw [sum_comm]
  exact sum_congr rfl fun a _ => sum_congr rfl fun j _ => by ring

theorem objective_columns {n f d : ℕ} (hn : 0 < n) (hd : 0 < d) (Φ : Fin n → Fin f → ℝ) (γ : ℝ) (hγ : 0 < γ) (Y : Fin n → Fin d → ℝ) (W : Fin f → Fin d → ℝ)
    (b : Fin d → ℝ) :
    Objective Φ γ Y W b = γ / (n * d) * ∑ c, Ridge Φ (d / γ) (fun i => Y i c) (fun a => W a c) (b c) := by
  have hn' : (n : ℝ) ≠ 0 := by exact_mod_cast hn.ne'
  have hd' : (d : ℝ) ≠ 0 := by exact_mod_cast hd.ne'
  simp only [Objective, Ridge, sum_add_distrib]
  rw [sum_comm (f := fun a c => W a c ^ 2), sum_comm (f := fun i c => (∑ a, Φ i a * W a c + b c - Y i c) ^ 2), ← mul_sum]
  have : ∑ c, ∑ i, (∑ a, Φ i a * W a c + b c - Y i c) ^ 2 = ∑ c, ∑ i, (Y i c - (∑ a, Φ i a * W a c + b c)) ^ 2 :=
    sum_congr rfl fun c _ => sum_congr rfl fun i _ => by ring
  rw [this]
  field_simp
  ring

/-- Minimality of the solutions of the system without bias. -/
theorem ridgeNB_min {n f : ℕ} (Φ : Fin n → Fin f → ℝ) (γ : ℝ) (hγ : 0 ≤ γ) (y h : Fin n → ℝ) (hs : ∀ i, ∑ j, gramOf Φ i j * h j + γ * h i = y i)
    (w' : Fin f → ℝ) : RidgeNB Φ γ y (fun a => ∑ i, Φ i a * h i) ≤ RidgeNB Φ γ y w' := by
  obtain ⟨w, hw⟩ : ∃ w : Fin f → ℝ, w = fun a => ∑ i, Φ i a * h i := ⟨_, rfl⟩
  rw [← hw]
  have hwa : ∀ a, w a = ∑ i, Φ i a * h i := fun a => by rw [hw]
  have hk : ∀ i, ∑ j, gramOf Φ i j * h j = ∑ a, Φ i a * w a := by
    intro i
    simp only [gramOf, hwa, sum_mul, mul_sum]
    rw [sum_comm]
    exact sum_congr rfl fun a _ => sum_congr rfl fun j _ => by ring
  have hr : ∀ i, y i - ∑ a, Φ i a * w a = γ * h i := fun i => by rw [← hs i, hk i]; ring
  obtain ⟨u, hu⟩ : ∃ u : Fin f → ℝ, u = fun a => w' a - w a := ⟨_, rfl⟩
  have hua : ∀ a, w' a = w a + u a := fun a => by rw [hu]; ring
  have he : ∀ i, y i - ∑ a, Φ i a * w' a = γ * h i - ∑ a, Φ i a * u a := by
    intro i
    rw [← hr i]
    simp only [hua, mul_add, sum_add_distrib]
    ring
  have hcross : ∑ i, h i * ∑ a, Φ i a * u a = ∑ a, w a * u a := by
    simp only [hwa, sum_mul, mul_sum]
    rw [sum_comm]
    exact sum_congr rfl fun a _ => sum_congr rfl fun i _ => by ring
  have e1 : RidgeNB Φ γ y w' = RidgeNB Φ γ y w + ∑ i, (∑ a, Φ i a * u a) ^ 2 + γ * ∑ a, u a ^ 2 := by
    simp only [RidgeNB, he, hr]
    have a1 : ∑ i, (γ * h i - ∑ a, Φ i a * u a) ^ 2 = ∑ i, (γ * h i) ^ 2 - 2 * γ * ∑ i, h i * ∑ a, Φ i a * u a + ∑ i, (∑ a, Φ i a * u a) ^ 2 := by
      rw [mul_sum, ← sum_sub_distrib, ← sum_add_distrib]
      exact sum_congr rfl fun i _ => by ring
    have a2 : ∑ a, w' a ^ 2 = ∑ a, w a ^ 2 + 2 * ∑ a, w a * u a + ∑ a, u a ^ 2 := by
      rw [mul_sum, ← sum_add_distrib, ← sum_add_distrib]
      exact sum_congr rfl fun a _ => by rw [hua a]; ring
    rw [a1, a2, hcross]
    ring
  rw [e1]
  have p1 : 0 ≤ ∑ i, (∑ a, Φ i a * u a) ^ 2 := sum_nonneg fun _ _ => sq_nonneg _
  have p2 : 0 ≤ γ * ∑ a, u a ^ 2 := mul_nonneg hγ (sum_nonneg fun _ _ => sq_nonneg _)
  linarith

/-! ## C91 -/

/-- **C91**, dual: the loss of dual variables is the training objective of the weights they stand for, for all features, targets, gamma, variables and numbers
of outputs. In particular the regularisation is the squared norm of the weights. -/
theorem C91_dual_objective_partial {n f d : ℕ} (Φ : Fin n → Fin f → ℝ) (γ : ℝ) (Y H : Fin n → Fin d → ℝ) (b : Fin d → ℝ) :
    lossDual (gramOf Φ) γ Y H b = Objective Φ γ Y (weights Φ H) b ∧ regDual (gramOf Φ) H = ∑ a, ∑ c, weights Φ H a c ^ 2 := by
  have hr : regDual (gramOf Φ) H = ∑ a, ∑ c, weights Φ H a c ^ 2 := by
    rw [sum_comm]
    refine sum_congr rfl fun c _ => ?_
    have : ∀ j, ∑ k, H j c * gramOf Φ j k * H k c = H j c * ∑ a, Φ j a * weights Φ H a c := by
      intro j
      rw [← gram_mul, mul_sum]
      exact sum_congr rfl fun k _ => by ring
    simp only [this, mul_sum]
    rw [sum_comm]
    refine sum_congr rfl fun a _ => ?_
    rw [sq]
    nth_rw 2 [weights]
    rw [sum_mul]
    exact sum_congr rfl fun j _ => by ring
  refine ⟨?_, hr⟩
  simp only [lossDual, Objective, total, mse, outDual, hr, gram_mul]
  ring

/-- **C91**, dual: the loss at gamma is minimised, over all weights and biases, by the solutions of the system of `solve` taken at `dim_output / gamma`. -/
theorem C91_minimiser_partial {n f d : ℕ} (hn : 0 < n) (hd : 0 < d) (Φ : Fin n → Fin f → ℝ) (γ : ℝ) (hγ : 0 < γ) (Y H : Fin n → Fin d → ℝ) (b : Fin d → ℝ)
    (hs : ∀ c, DualSol (gramOf Φ) (d / γ) (fun i => Y i c) (fun i => H i c) (b c)) (W' : Fin f → Fin d → ℝ) (b' : Fin d → ℝ) :
    lossDual (gramOf Φ) γ Y H b ≤ Objective Φ γ Y W' b' := by
  rw [(C91_dual_objective_partial Φ γ Y H b).1, objective_columns hn hd Φ γ hγ, objective_columns hn hd Φ γ hγ]
  have hn' : (0 : ℝ) < n := by exact_mod_cast hn
  have hd' : (0 : ℝ) < d := by exact_mod_cast hd
  refine mul_le_mul_of_nonneg_left (sum_le_sum fun c _ => ?_) (by positivity)
  exact (C50_dual_partial Φ (d / γ) (by positivity) _ _ _ (hs c)).2 _ _

/-- **C91**, partial: `solve` minimises the loss when `gamma² = dim_output`, e.g. for one output and the default `gamma = 1`. -/
theorem C91_solve_partial {n f d : ℕ} (hn : 0 < n) (hd : 0 < d) (Φ : Fin n → Fin f → ℝ) (γ : ℝ) (hγ : 0 < γ) (hg : γ * γ = d) (Y H : Fin n → Fin d → ℝ)
    (b : Fin d → ℝ) (hs : ∀ c, DualSol (gramOf Φ) γ (fun i => Y i c) (fun i => H i c) (b c)) (W' : Fin f → Fin d → ℝ) (b' : Fin d → ℝ) :
    lossDual (gramOf Φ) γ Y H b ≤ Objective Φ γ Y W' b' := by
  refine C91_minimiser_partial hn hd Φ γ hγ Y H b (fun c => ?_) W' b'
  have : (d : ℝ) / γ = γ := by rw [← hg]; field_simp
  rw [this]
  exact hs c

/-- **C91** violated for every other gamma (one output): gamma multiplies the norm of the weights in `solve` and the error in `loss`. For the points `-1, 1` with
targets `-1, 1` the solution of `solve` has a larger loss than other dual variables. -/
theorem C91_gamma_violated (γ : ℝ) (hγ : 0 < γ) (h1 : γ ≠ 1) :
    let Φ : Fin 2 → Fin 1 → ℝ := fun i _ => if i = 0 then -1 else 1
    let Y : Fin 2 → Fin 1 → ℝ := fun i _ => if i = 0 then -1 else 1
    (∃ h b, DualSol (gramOf Φ) γ (fun i => Y i 0) h b) ∧
    ∃ H' b', ∀ h b, DualSol (gramOf Φ) γ (fun i => Y i 0) h b →
      lossDual (gramOf Φ) γ Y H' b' < lossDual (gramOf Φ) γ Y (fun i _ => h i) (fun _ => b) := by
  intro Φ Y
  have h2 : 2 + γ ≠ 0 := by positivity
  have h3 : 1 + 2 * γ ≠ 0 := by positivity
  refine ⟨⟨fun i => if i = 0 then -1 / (2 + γ) else 1 / (2 + γ), 0, ?_, ?_⟩,
    fun i _ => if i = 0 then -γ / (1 + 2 * γ) else γ / (1 + 2 * γ), fun _ => 0, ?_⟩
  · intro i
    fin_cases i <;> simp [Φ, Y, gramOf, Fin.sum_univ_two] <;> field_simp <;> ring
  · simp [Fin.sum_univ_two]; ring
  · intro h b hs
    obtain ⟨e, e2⟩ := hs
    have e0 := e 0
    have e1 := e 1
    simp [Φ, Y, gramOf, Fin.sum_univ_two] at e0 e1 e2
    have hb : b = 0 := by nlinarith
    have hh : h 0 = -h 1 := by linarith
    have ht : h 1 = 1 / (2 + γ) := by
      rw [eq_div_iff h2]
      rw [hh, hb] at e1
      linarith
    have key : ∀ t : ℝ, lossDual (gramOf Φ) γ Y (fun i _ => if i = 0 then -t else t) (fun _ => 0) = 2 * t ^ 2 + γ * (2 * t - 1) ^ 2 := by
      intro t
      simp [lossDual, total, regDual, mse, outDual, Φ, Y, gramOf, Fin.sum_univ_two]
      ring
    have hH : (fun (i : Fin 2) (_ : Fin 1) => h i) = fun i _ => if i = 0 then -(1 / (2 + γ)) else 1 / (2 + γ) := by
      funext i _
      fin_cases i
      · simpa [ht] using hh
      · simpa using ht
    have hH' : (fun (i : Fin 2) (_ : Fin 1) => if i = 0 then -γ / (1 + 2 * γ) else γ / (1 + 2 * γ)) =
        fun i _ => if i = 0 then -(γ / (1 + 2 * γ)) else γ / (1 + 2 * γ) := by
      funext i _; rw [neg_div]
    rw [hH', hH, hb, key, key]
    have : 2 * (1 / (2 + γ)) ^ 2 + γ * (2 * (1 / (2 + γ)) - 1) ^ 2 - (2 * (γ / (1 + 2 * γ)) ^ 2 + γ * (2 * (γ / (1 + 2 * γ)) - 1) ^ 2) =
        2 * (1 + 2 * γ) * ((1 - γ) * (1 + γ) / ((2 + γ) * (1 + 2 * γ))) ^ 2 := by
      field_simp; ring
    have hpos : 0 < 2 * (1 + 2 * γ) * ((1 - γ) * (1 + γ) / ((2 + γ) * (1 + 2 * γ))) ^ 2 := by
      have : (1 - γ) * (1 + γ) / ((2 + γ) * (1 + 2 * γ)) ≠ 0 :=
        div_ne_zero (mul_ne_zero (sub_ne_zero.2 h1.symm) (by positivity)) (mul_ne_zero h2 h3)
      positivity
    linarith

/-- **C91**, primal: what the regularisation of weights is, for all sizes: with one output the square of the sum, for square weights the trace of the square,
otherwise (more than one feature) an error. -/
theorem C91_reg_primal {f d : ℕ} :
    (∀ W : Fin f → Fin 1 → ℝ, regPrimal W = .ok ((∑ i, W i 0) ^ 2)) ∧
    (∀ W : Fin f → Fin f → ℝ, regPrimal W = .ok (∑ i, ∑ j, W i j * W j i)) ∧
    (∀ W : Fin f → Fin d → ℝ, (∃ e, regPrimal W = .error e) ↔ f ≠ d ∧ d ≠ 1 ∧ f ≠ 1) := by
  refine ⟨fun W => ?_, fun W => ?_, fun W => ?_⟩
  · unfold regPrimal
    by_cases h : f = 1
    · subst h
      simp [sq]
    · rw [dif_neg h, dif_pos rfl]
      simp only [Fin.cast_eq_self, sq, sum_mul_sum]
  · simp [regPrimal]
  · unfold regPrimal
    by_cases h : f = d
    · simp [h]
    · rw [dif_neg h]
      by_cases h2 : d = 1
      · simp [h2]
      · rw [dif_neg h2]
        by_cases h3 : f = 1
        · simp [h3]
        · simp [h, h2, h3]

/-- **C91**, partial: the primal loss is the training objective for square symmetric weights (and for a single weight). -/
theorem C91_primal_objective_partial {n f : ℕ} (Φ : Fin n → Fin f → ℝ) (γ : ℝ) (Y : Fin n → Fin f → ℝ) (W : Fin f → Fin f → ℝ) (hW : ∀ i j, W i j = W j i)
    (b : Fin f → ℝ) : lossPrimal Φ γ Y W b = .ok (Objective Φ γ Y W b) := by
  have hr : ∑ i, ∑ j, W i j * W j i = ∑ a, ∑ c, W a c ^ 2 := sum_congr rfl fun i _ => sum_congr rfl fun j _ => by rw [hW j i]; ring
  simp only [lossPrimal, (C91_reg_primal (d := f)).2.1 W, Objective, total, mse, outPrimal, hr]
  refine congrArg Except.ok ?_
  ring

/-- **C91** violated: with one output, as soon as there are two features there are non-zero weights without any regularisation, whence a loss that differs from
the objective; with as many outputs as features (at least two) the regularisation may be negative. -/
theorem C91_reg_violated (f : ℕ) :
    (∃ W : Fin (f + 2) → Fin 1 → ℝ, regPrimal W = .ok 0 ∧ 0 < ∑ a, ∑ c, W a c ^ 2) ∧
    (∃ W : Fin (f + 2) → Fin (f + 2) → ℝ, ∃ r < 0, regPrimal W = .ok r) := by
  constructor
  · refine ⟨fun i _ => if i = 0 then 1 else if i = 1 then -1 else 0, ?_, ?_⟩
    · rw [(C91_reg_primal (d := 1)).1]
      refine congrArg Except.ok ?_
      have : (∑ i : Fin (f + 2), if i = 0 then (1 : ℝ) else if i = 1 then -1 else 0) = 0 := by
        rw [Fin.sum_univ_succ, Fin.sum_univ_succ]
        simp [Fin.ext_iff]
      rw [this]; norm_num
    · rw [Fin.sum_univ_succ]
      have : 0 ≤ ∑ i : Fin (f + 1), ∑ c : Fin 1, (if (i.succ : Fin (f + 2)) = 0 then (1 : ℝ) else if i.succ = 1 then -1 else 0) ^ 2 :=
        sum_nonneg fun _ _ => sum_nonneg fun _ _ => sq_nonneg _
      simp only [if_pos, univ_unique, sum_const, card_singleton] at this ⊢
      simp at this ⊢
      linarith
  · refine ⟨fun i j => if i = 0 ∧ j = 1 then 1 else if i = 1 ∧ j = 0 then -1 else 0, -2, by norm_num, ?_⟩
    rw [(C91_reg_primal (d := 1)).2.1]
    refine congrArg Except.ok ?_
    rw [Fin.sum_univ_succ, Fin.sum_univ_succ]
    simp only [Fin.sum_univ_succ (n := f + 1), Fin.sum_univ_succ (n := f)]
    simp [Fin.ext_iff]
    norm_num

/-! ## C92 -/

/-- **C92**, partial: with one output the step leaves dual variables that sum to zero, the nearest ones; variables that already do are left as they are. -/
theorem C92_center_partial {n : ℕ} (hn : 0 < n) (D : Fin 1 → Fin n → ℝ) :
    ∃ D', center D = .ok D' ∧ ∑ i, D' 0 i = 0 ∧ (∑ i, D 0 i = 0 → D' = D) ∧
      ∀ E : Fin n → ℝ, ∑ i, E i = 0 → ∑ i, (D 0 i - D' 0 i) ^ 2 ≤ ∑ i, (D 0 i - E i) ^ 2 := by
  have hn' : (n : ℝ) ≠ 0 := by exact_mod_cast hn.ne'
  obtain ⟨m, hm⟩ : ∃ m, m = (1 / (n : ℝ)) * ∑ l, D 0 l := ⟨_, rfl⟩
  have hmn : (n : ℝ) * m = ∑ l, D 0 l := by rw [hm]; field_simp
  have hs : ∑ i, (D 0 i - m) = 0 := by
    rw [sum_sub_distrib, sum_const, card_univ, Fintype.card_fin, nsmul_eq_mul, hmn, sub_self]
  refine ⟨fun k i => D k i - m, ?_, hs, ?_, ?_⟩
  · rw [center, dif_pos rfl, hm]
    rfl
  · intro h0
    have : m = 0 := by rw [hm, h0, mul_zero]
    funext k i
    rw [this, sub_zero]
  · intro E hE
    have e : ∀ i, D 0 i - E i = m + (D 0 i - m - E i) := fun i => by ring
    have c0 : ∑ i, (D 0 i - m - E i) = 0 := by rw [sum_sub_distrib, hs, hE, sub_zero]
    have : ∑ i, (D 0 i - E i) ^ 2 = ∑ i, (D 0 i - (D 0 i - m)) ^ 2 + ∑ i, (D 0 i - m - E i) ^ 2 + 2 * m * ∑ i, (D 0 i - m - E i) := by
      rw [mul_sum, ← sum_add_distrib, ← sum_add_distrib]
      exact sum_congr rfl fun i _ => by ring
    rw [this, c0, mul_zero, add_zero]
    exact le_add_of_nonneg_right (sum_nonneg fun _ _ => sq_nonneg _)

/-- **C92**: the step raises exactly when there are several outputs, not as many as points. -/
theorem C92_refused {d n : ℕ} (D : Fin d → Fin n → ℝ) : (∃ e, center D = .error e) ↔ d ≠ 1 ∧ d ≠ n := by
  unfold center
  by_cases h : d = 1
  · simp [h]
  · rw [dif_neg h]
    by_cases h2 : d = n
    · simp [h2]
    · simp [h, h2]

/-- **C92** violated: with as many outputs as points (at least two) the mean of an output is subtracted from a point: there are dual variables, even already
centred for all outputs but one, that are not centred afterwards. -/
theorem C92_violated (n : ℕ) : ∃ D : Fin (n + 2) → Fin (n + 2) → ℝ, ∃ D', center D = .ok D' ∧ ∑ i, D' 0 i ≠ 0 ∧ ∑ i, D 1 i = 0 ∧ ∑ i, D' 1 i ≠ 0 := by
  have hn : ((n : ℝ) + 2) ≠ 0 := by positivity
  refine ⟨fun k _ => if k = 0 then 1 else 0, fun k i => (if k = 0 then 1 else 0) - if i = 0 then 1 else 0, ?_, ?_, ?_, ?_⟩
  · rw [center, dif_neg (by omega), dif_pos rfl]
    refine congrArg Except.ok ?_
    funext k i
    simp only [Fin.cast_eq_self, sum_const, card_univ, Fintype.card_fin, nsmul_eq_mul]
    congr 1
    split
    · push_cast; field_simp
    · simp
  · simp only [if_pos, sum_sub_distrib, sum_const, card_univ, Fintype.card_fin, sum_ite_eq', mem_univ]
    simp
    have : (n : ℝ) + 2 - 1 = n + 1 := by ring
    rw [this]; positivity
  · simp
  · have h10 : (1 : Fin (n + 2)) ≠ 0 := by simp
    simp only [if_neg h10, sum_sub_distrib, sum_ite_eq', mem_univ, if_true, sum_const_zero]
    norm_num


/-! ## C93 -/

/-- **C93**, partial: without bias the outputs of a fitted model are those of the model with bias less the bias, for all kernels and points; they are optimal for the
problem without bias whenever the bias found is zero. -/
theorem C93_partial {n f : ℕ} (Φ : Fin n → Fin f → ℝ) (γ : ℝ) (hγ : 0 ≤ γ) (y h : Fin n → ℝ) (b : ℝ) (hs : DualSol (gramOf Φ) γ y h b) :
    (∀ kx, out false kx h b = out true kx h b - b) ∧
    (b = 0 → ∀ w', RidgeNB Φ γ y (fun a => ∑ i, Φ i a * h i) ≤ RidgeNB Φ γ y w') := by
  refine ⟨fun kx => by simp [out], fun hb w' => ?_⟩
  refine ridgeNB_min Φ γ hγ y h (fun i => ?_) w'
  have := hs.1 i
  rw [hb] at this
  linarith

/-- **C93** violated: with a constant target the fitted model without bias predicts zero everywhere, for every kernel, gamma and sample: all of the target is left to a
bias that is not used. -/
theorem C93_constant_violated {n : ℕ} (hn : 0 < n) (K : Fin n → Fin n → ℝ) (hK : PSDMat K) (γ : ℝ) (hγ : 0 < γ) (v : ℝ) :
    (∃ h b, DualSol K γ (fun _ => v) h b) ∧ ∀ h b, DualSol K γ (fun _ => v) h b → ∀ kx, out false kx h b = 0 := by
  have : Nonempty (Fin n) := ⟨⟨0, hn⟩⟩
  have h0 : DualSol K γ (fun _ => v) (fun _ => 0) v := ⟨fun i => by simp, by simp⟩
  refine ⟨⟨_, _, h0⟩, fun h b hs kx => ?_⟩
  obtain ⟨e, -⟩ := C50_unique_partial K hK γ hγ _ h _ b v hs h0
  simp [out, e]

/-- **C93** violated: those predictions are not optimal for the problem without bias, e.g. for two equal points. -/
theorem C93_suboptimal_violated (γ : ℝ) (hγ : 0 < γ) :
    let Φ : Fin 2 → Fin 1 → ℝ := fun _ _ => 1
    ∃ w', ∀ h b, DualSol (gramOf Φ) γ (fun _ => 1) h b → RidgeNB Φ γ (fun _ => 1) w' < RidgeNB Φ γ (fun _ => 1) (fun a => ∑ i, Φ i a * h i) := by
  intro Φ
  refine ⟨fun _ => 2 / (2 + γ), fun h b hs => ?_⟩
  have e2 : h 0 + h 1 = 0 := by simpa [Fin.sum_univ_two] using hs.2
  have : (2 : ℝ) + γ ≠ 0 := by positivity
  simp [RidgeNB, Φ, Fin.sum_univ_two, e2]
  have e : (1 - 2 / (2 + γ)) ^ 2 + (1 - 2 / (2 + γ)) ^ 2 + γ * (2 / (2 + γ)) ^ 2 = 2 * γ / (2 + γ) := by field_simp; ring
  have l : 2 * γ / (2 + γ) < 2 := by rw [div_lt_iff₀ (by positivity)]; linarith
  linarith

/-! ## C94 -/

/-- **C94**, partial (dual): the solution minimises `gamma Σ (y - w·φ)² + |w|²` over all weights, for all features, targets and gamma. -/
theorem C94_dual_partial {n f : ℕ} (Φ : Fin n → Fin f → ℝ) (γ : ℝ) (hγ : 0 < γ) (y h : Fin n → ℝ) (hs : RidgeDual (gramOf Φ) γ y h) (w' : Fin f → ℝ) :
    γ * ∑ i, (y i - ∑ a, Φ i a * ∑ j, Φ j a * h j) ^ 2 + ∑ a, (∑ j, Φ j a * h j) ^ 2 ≤ γ * ∑ i, (y i - ∑ a, Φ i a * w' a) ^ 2 + ∑ a, w' a ^ 2 := by
  have := ridgeNB_min Φ (1 / γ) (by positivity) y h hs w'
  simp only [RidgeNB] at this
  have h2 := mul_le_mul_of_nonneg_left this hγ.le
  have e : γ * (1 / γ) = 1 := by field_simp
  rw [mul_add, mul_add, ← mul_assoc, ← mul_assoc, e, one_mul, one_mul] at h2
  exact h2

/-- **C94**, primal: the solution is the number of points times the minimiser at `gamma / n`, for all features, targets and gamma. -/
theorem C94_primal_partial {n f : ℕ} (hn : 0 < n) (Φ : Fin n → Fin f → ℝ) (γ : ℝ) (hγ : 0 < γ) (y : Fin n → ℝ) (w : Fin f → ℝ) (hs : RidgePrimal Φ γ y w)
    (w' : Fin f → ℝ) : RidgeNB Φ (n / γ) y (fun a => w a / n) ≤ RidgeNB Φ (n / γ) y w' := by
  have hn' : (n : ℝ) ≠ 0 := by exact_mod_cast hn.ne'
  have hnp : (0 : ℝ) < n := by exact_mod_cast hn
  obtain ⟨v, hv⟩ : ∃ v : Fin f → ℝ, v = fun a => w a / n := ⟨_, rfl⟩
  rw [← hv]
  have hwv : ∀ a, w a = n * v a := fun a => by rw [hv]; field_simp
  obtain ⟨u, hu⟩ : ∃ u : Fin f → ℝ, u = fun a => w' a - v a := ⟨_, rfl⟩
  have hua : ∀ a, w' a = v a + u a := fun a => by rw [hu]; ring
  -- normal equations
  have hne : ∀ j, ∑ i, Φ i j * (y i - ∑ a, Φ i a * v a) = n / γ * v j := by
    intro j
    have h1 := hs j
    have e : ∑ l, ((1 / (n : ℝ)) * ∑ a, Φ a j * Φ a l) * w l = ∑ i, Φ i j * ∑ a, Φ i a * v a := by
      simp only [mul_sum, sum_mul]
      rw [sum_comm]
      refine sum_congr rfl fun i _ => sum_congr rfl fun l _ => ?_
      rw [hwv l]; field_simp
    rw [e, hwv j] at h1
    have : ∑ i, Φ i j * (y i - ∑ a, Φ i a * v a) = ∑ i, Φ i j * y i - ∑ i, Φ i j * ∑ a, Φ i a * v a := by
      rw [← sum_sub_distrib]; exact sum_congr rfl fun i _ => by ring
    rw [this, ← h1]; ring
  have hcross : ∑ i, (y i - ∑ a, Φ i a * v a) * ∑ a, Φ i a * u a = n / γ * ∑ a, v a * u a := by
    rw [mul_sum]
    simp only [mul_sum]
    rw [sum_comm]
    refine sum_congr rfl fun a _ => ?_
    rw [← mul_assoc, ← hne a, sum_mul]
    exact sum_congr rfl fun i _ => by ring
  have e1 : RidgeNB Φ (n / γ) y w' = RidgeNB Φ (n / γ) y v + ∑ i, (∑ a, Φ i a * u a) ^ 2 + n / γ * ∑ a, u a ^ 2 := by
    simp only [RidgeNB]
    have a1 : ∑ i, (y i - ∑ a, Φ i a * w' a) ^ 2 = ∑ i, (y i - ∑ a, Φ i a * v a) ^ 2 - 2 * ∑ i, (y i - ∑ a, Φ i a * v a) * ∑ a, Φ i a * u a
        + ∑ i, (∑ a, Φ i a * u a) ^ 2 := by
      rw [mul_sum, ← sum_sub_distrib, ← sum_add_distrib]
      refine sum_congr rfl fun i _ => ?_
      have : ∑ a, Φ i a * w' a = ∑ a, Φ i a * v a + ∑ a, Φ i a * u a := by
        rw [← sum_add_distrib]; exact sum_congr rfl fun a _ => by rw [hua a]; ring
      rw [this]; ring
    have a2 : ∑ a, w' a ^ 2 = ∑ a, v a ^ 2 + 2 * ∑ a, v a * u a + ∑ a, u a ^ 2 := by
      rw [mul_sum, ← sum_add_distrib, ← sum_add_distrib]
      exact sum_congr rfl fun a _ => by rw [hua a]; ring
    rw [a1, a2, hcross]
    ring
  rw [e1]
  have p1 : 0 ≤ ∑ i, (∑ a, Φ i a * u a) ^ 2 := sum_nonneg fun _ _ => sq_nonneg _
  have p2 : 0 ≤ n / γ * ∑ a, u a ^ 2 := mul_nonneg (by positivity) (sum_nonneg fun _ _ => sq_nonneg _)
  linarith

/-- **C94** violated: on two equal points with equal targets the unique solutions in primal and in dual predict differently, for every gamma. -/
theorem C94_violated (γ : ℝ) (hγ : 0 < γ) :
    let Φ : Fin 2 → Fin 1 → ℝ := fun _ _ => 1
    let y : Fin 2 → ℝ := fun _ => 1
    (∃ h, RidgeDual (gramOf Φ) γ y h) ∧ (∃ w, RidgePrimal Φ γ y w) ∧
    ∀ h w, RidgeDual (gramOf Φ) γ y h → RidgePrimal Φ γ y w →
      ∑ i, gramOf Φ 0 i * h i < 1 ∧ ∑ a, Φ 0 a * w a ≠ ∑ i, gramOf Φ 0 i * h i := by
  intro Φ y
  have h2 : 2 + 1 / γ ≠ 0 := by positivity
  have h1 : 1 + 1 / γ ≠ 0 := by positivity
  have hg : 0 < 1 / γ := by positivity
  refine ⟨⟨fun _ => 1 / (2 + 1 / γ), fun i => ?_⟩, ⟨fun _ => 2 / (1 + 1 / γ), fun j => ?_⟩, fun h w hd hp => ?_⟩
  · simp only [gramOf, Φ, y, Fin.sum_univ_two, Finset.univ_unique, sum_const, card_singleton, one_smul, mul_one, one_mul]
    rw [card_univ, Fintype.card_fin, two_smul, mul_one_div, ← add_div, ← add_div, div_eq_one_iff_eq h2]
    ring
  · simp [Φ, y, Fin.sum_univ_two]
    have : 1 + γ⁻¹ ≠ 0 := by simpa using h1
    field_simp
  · have d0 := hd 0
    have d1 := hd 1
    have p0 := hp 0
    simp [gramOf, Φ, y, Fin.sum_univ_two] at d0 d1 p0 ⊢
    obtain ⟨g, hgg⟩ : ∃ g, g = γ⁻¹ := ⟨_, rfl⟩
    have hgp : 0 < g := by rw [hgg]; positivity
    rw [← hgg] at d0 d1 p0
    have hs : (h 0 + h 1) * (2 + g) = 2 := by linarith
    have hw : w 0 * (1 + g) = 2 := by linarith
    constructor
    · nlinarith
    · intro he
      rw [he] at hw
      nlinarith

/-- A case of the hypotheses: two points, one feature, several solutions. -/
example : RidgeDual (gramOf (fun (i : Fin 2) (_ : Fin 1) => (i : ℝ))) 1 (fun i => 2 * (i : ℝ)) (fun i => (i : ℝ)) := by
  intro i
  fin_cases i <;> norm_num [gramOf, Fin.sum_univ_two]

example : RidgePrimal (fun (i : Fin 2) (_ : Fin 1) => (i : ℝ)) 2 (fun i => (i : ℝ)) (fun _ => 1) := by
  intro j
  norm_num [Fin.sum_univ_two]

example : DualSol (gramOf (fun (i : Fin 2) (_ : Fin 1) => (i : ℝ))) 1 (fun i => 3 * (i : ℝ)) (fun i => if i = 0 then -1 else 1) 1 := by
  refine ⟨fun i => ?_, by norm_num [Fin.sum_univ_two]⟩
  fin_cases i <;> norm_num [gramOf, Fin.sum_univ_two]

/-! ## Cases by name -/

/-- Two points, one feature, targets `0` and `3`. -/
theorem two_dual : DualSol (gramOf (fun (i : Fin 2) (_ : Fin 1) => (i : ℝ))) 1 (fun i => 3 * (i : ℝ)) (fun i => if i = 0 then -1 else 1) 1 := by
  refine ⟨fun i => ?_, by norm_num [Fin.sum_univ_two]⟩
  fin_cases i <;> norm_num [gramOf, Fin.sum_univ_two]

example (W' : Fin 1 → Fin 1 → ℝ) (b' : Fin 1 → ℝ) :
    lossDual (gramOf (fun (i : Fin 2) (_ : Fin 1) => (i : ℝ))) 1 (fun i (_ : Fin 1) => 3 * (i : ℝ)) (fun i _ => if i = 0 then -1 else 1) (fun _ => 1)
      ≤ Objective (fun (i : Fin 2) (_ : Fin 1) => (i : ℝ)) 1 (fun i (_ : Fin 1) => 3 * (i : ℝ)) W' b' :=
  C91_minimiser_partial (by norm_num) (by norm_num) _ 1 one_pos _ _ _ (fun _ => by simpa using two_dual) W' b'

example (W' : Fin 1 → Fin 1 → ℝ) (b' : Fin 1 → ℝ) :
    lossDual (gramOf (fun (i : Fin 2) (_ : Fin 1) => (i : ℝ))) 1 (fun i (_ : Fin 1) => 3 * (i : ℝ)) (fun i _ => if i = 0 then -1 else 1) (fun _ => 1)
      ≤ Objective (fun (i : Fin 2) (_ : Fin 1) => (i : ℝ)) 1 (fun i (_ : Fin 1) => 3 * (i : ℝ)) W' b' :=
  C91_solve_partial (by norm_num) (by norm_num) _ 1 one_pos (by norm_num) _ _ _ (fun _ => two_dual) W' b'

example := C91_gamma_violated 2 (by norm_num) (by norm_num)

/-- A symmetric weight. -/
example : lossPrimal (fun (i j : Fin 2) => (i + j : ℝ)) 3 (fun i (_ : Fin 2) => (i : ℝ)) (fun (i j : Fin 2) => (i * j : ℝ)) (fun _ => 1)
    = .ok (Objective (fun (i j : Fin 2) => (i + j : ℝ)) 3 (fun i (_ : Fin 2) => (i : ℝ)) (fun (i j : Fin 2) => (i * j : ℝ)) (fun _ => 1)) :=
  C91_primal_objective_partial _ 3 _ _ (fun _ _ => mul_comm _ _) _

example : ∃ D', center (fun (_ : Fin 1) => ![1, 2, (6 : ℝ)]) = .ok D' ∧ ∑ i, D' 0 i = 0 :=
  let ⟨D', h, hs, _⟩ := C92_center_partial (by norm_num) (fun _ => ![1, 2, 6])
  ⟨D', h, hs⟩

example : ∀ kx, out false kx (fun i : Fin 2 => if i = 0 then -1 else 1) 1 = out true kx (fun i : Fin 2 => if i = 0 then -1 else 1) 1 - 1 :=
  (C93_partial _ 1 zero_le_one _ _ _ two_dual).1

example : (∃ h b, DualSol (gramOf (fun (i : Fin 2) (_ : Fin 1) => (i : ℝ))) 2 (fun _ => 5) h b) :=
  (C93_constant_violated (by norm_num) _ (psdMat_gram _) 2 (by norm_num) 5).1

example := C93_suboptimal_violated 3 (by norm_num)

example (w' : Fin 1 → ℝ) := C94_dual_partial (fun (i : Fin 2) (_ : Fin 1) => (i : ℝ)) 1 one_pos (fun i => 2 * (i : ℝ)) (fun i => (i : ℝ))
  (fun i => by fin_cases i <;> norm_num [gramOf, Fin.sum_univ_two]) w'

example (w' : Fin 1 → ℝ) := C94_primal_partial (by norm_num) (fun (i : Fin 2) (_ : Fin 1) => (i : ℝ)) 2 (by norm_num) (fun i => (i : ℝ)) (fun _ => 1)
  (fun j => by norm_num [Fin.sum_univ_two]) w'

example := C94_violated 2 (by norm_num)


end LSTrain
end Kerch
