import Verif.Model.Time
import Verif.Lemmas.Overlap
import Verif.Lemmas.Transforms
set_option linter.unusedSectionVars false
set_option linter.unusedSimpArgs false
/-!
# C38, C39: time kernels and vision kernels
-/
namespace Kerch
open Finset

/-! ## C38 -/

/-- The hat kernel of two sets of times, none of a single time, has the documented entries. Missing (`_partial`): single times
(`C38_single_violated`). -/
theorem C38_hat_partial (p : ℝ) (x y : List ℝ) (hx : x.length ≠ 1) (hy : y.length ≠ 1) :
    ∃ M, hatMatrix p x y = .ok M ∧ M.length = x.length ∧ ∀ i (hi : i < x.length) j (hj : j < y.length),
      (M[i]?.bind (·[j]?)) = some (if |x[i] - y[j]| ≤ p + 1 then p + 1 - |x[i] - y[j]| else 0) := by
  refine ⟨_, by rw [hatMatrix, timeMatrix, if_neg (by tauto)], by simp, fun i hi j hj => ?_⟩
  simp only [List.getElem?_map, List.getElem?_eq_getElem hi, Option.map_some, Option.bind_some, List.getElem?_eq_getElem hj, hatKernel]
  congr 1
  split
  · exact max_eq_left (by linarith)
  · exact max_eq_right (by linarith)

/-- On integer times, with an integer lag, these are the documented cases: `p + 1 - |t - s|` within the lag and 0 beyond. -/
theorem C38_hat_integer (p : ℕ) (s t : ℤ) : hatKernel p s t = if |s - t| ≤ (p : ℤ) then (p : ℝ) + 1 - ((|s - t| : ℤ) : ℝ) else 0 := by
  rw [hatKernel]
  have : |(s : ℝ) - t| = ((|s - t| : ℤ) : ℝ) := by push_cast; rfl
  rw [this]
  split
  · rename_i h
    have : ((|s - t| : ℤ) : ℝ) ≤ p := by exact_mod_cast h
    exact max_eq_left (by linarith)
  · rename_i h
    have : (p : ℝ) + 1 ≤ ((|s - t| : ℤ) : ℝ) := by
      have : (p : ℤ) + 1 ≤ |s - t| := by omega
      exact_mod_cast this
    exact max_eq_right (by linarith)

/-- The hat kernel is positive semi-definite, for all real times and lags. -/
theorem C38_hat_psd (p : ℝ) : PSDOn Set.univ (hatKernel p) := by
  intro ι _ t _
  have h := psdMat_overlap (fun i => t i) (fun i => t i + (p + 1))
  have e : (fun i j => hatKernel p (t i) (t j)) = fun i j => max (min (t i + (p + 1)) (t j + (p + 1)) - max (t i) (t j)) 0 := by
    funext i j
    rw [hatKernel, min_add_add_right]
    congr 1
    rcases le_total (t i) (t j) with h | h
    · rw [min_eq_left h, max_eq_right h, abs_of_nonpos (by linarith)]; ring
    · rw [min_eq_right h, max_eq_left h, abs_of_nonneg (by linarith)]; ring
  rw [e]
  exact h

/-- The indicator kernel has the documented entries. -/
theorem C38_indicator_partial (lag : ℝ) (γ : Option ℝ) (x y : List ℝ) (hx : x.length ≠ 1) (hy : y.length ≠ 1) :
    ∃ M, (IndSt.init lag γ).matrix x y = .ok M ∧ M.length = x.length ∧ ∀ i (hi : i < x.length) j (hj : j < y.length),
      (M[i]?.bind (·[j]?)) = some (if |x[i] - y[j]| = 0 then γ.getD (2 * lag + 1) else if |x[i] - y[j]| ≤ lag then 1 else 0) := by
  have h1 : (IndSt.init lag γ).lag = lag := by cases γ <;> rfl
  have h2 : (IndSt.init lag γ).γ = γ.getD (2 * lag + 1) := by cases γ <;> rfl
  have h3 : (IndSt.init lag γ).lagTrainable = false := by cases γ <;> rfl
  refine ⟨_, by rw [IndSt.matrix, if_neg (by simp [h3]), timeMatrix, if_neg (by tauto)], by simp, fun i hi j hj => ?_⟩
  simp only [List.getElem?_map, List.getElem?_eq_getElem hi, Option.map_some, Option.bind_some, List.getElem?_eq_getElem hj, indicatorKernel, h1, h2,
    abs_eq_zero]

/-- Two integer times at distance `k`: the matrix with 2 on the diagonal and 1 at distance `k` is a Gram matrix. -/
theorem psdMat_band {ι : Type} [Fintype ι] (t : ι → ℤ) (k : ℤ) (hk : 0 < k) :
    PSDMat fun i j => (if t i = t j then (2 : ℝ) else 0) + if |t i - t j| = k then 1 else 0 := by
  classical
  let U : Finset ℤ := univ.image t ∪ univ.image fun i => t i - k
  have hU1 : ∀ i, t i ∈ U := fun i => by simp [U]
  have hU2 : ∀ i, t i - k ∈ U := fun i => by simp [U]
  have h := psdMat_gram fun i => fun u : U => (if t i = u.1 then (1 : ℝ) else 0) + if t i - k = u.1 then 1 else 0
  have e : (fun i j => (if t i = t j then (2 : ℝ) else 0) + if |t i - t j| = k then 1 else 0)
      = fun i j => (fun u : U => (if t i = u.1 then (1 : ℝ) else 0) + if t i - k = u.1 then 1 else 0)
          ⬝ᵥ fun u : U => (if t j = u.1 then (1 : ℝ) else 0) + if t j - k = u.1 then 1 else 0 := by
    funext i j
    have hs : ∀ a b : ℤ, a ∈ U → ∑ u : U, (if a = u.1 then (1 : ℝ) else 0) * (if b = u.1 then 1 else 0) = if a = b then 1 else 0 := by
      intro a b ha
      rw [sum_eq_single (⟨a, ha⟩ : U)]
      · simp [eq_comm]
      · intro u _ hu
        rw [if_neg (fun h => hu (by ext; exact h.symm)), zero_mul]
      · simp
    have : ((fun u : U => (if t i = u.1 then (1 : ℝ) else 0) + if t i - k = u.1 then 1 else 0)
          ⬝ᵥ fun u : U => (if t j = u.1 then (1 : ℝ) else 0) + if t j - k = u.1 then 1 else 0)
        = ((if t i = t j then (1 : ℝ) else 0) + if t i = t j - k then 1 else 0) + ((if t i - k = t j then 1 else 0) + if t i - k = t j - k then 1 else 0) := by
      rw [← hs _ _ (hU1 i), ← hs _ _ (hU1 i), ← hs _ _ (hU2 i), ← hs _ _ (hU2 i), ← sum_add_distrib, ← sum_add_distrib, ← sum_add_distrib]
      refine sum_congr rfl fun u _ => ?_
      ring
    rw [this]
    rcases lt_trichotomy (t i) (t j) with h | h | h
    · have h1 : t i ≠ t j := h.ne
      have h2 : |t i - t j| = t j - t i := by rw [abs_of_neg (by omega)]; ring
      rw [if_neg h1, if_neg h1, if_neg (by omega : ¬ t i - k = t j), if_neg (by omega : ¬ t i - k = t j - k), h2]
      by_cases hc : t j - t i = k
      · rw [if_pos hc, if_pos (by omega)]; norm_num
      · rw [if_neg hc, if_neg (by omega)]; norm_num
    · rw [if_pos h, if_pos h, if_neg (by omega : ¬ t i = t j - k), if_neg (by omega : ¬ t i - k = t j), if_pos (by omega : t i - k = t j - k), h, sub_self,
        abs_zero, if_neg (by omega)]
      norm_num
    · have h1 : t i ≠ t j := h.ne'
      have h2 : |t i - t j| = t i - t j := abs_of_pos (by omega)
      rw [if_neg h1, if_neg h1, if_neg (by omega : ¬ t i = t j - k), if_neg (by omega : ¬ t i - k = t j - k), h2]
      by_cases hc : t i - t j = k
      · rw [if_pos hc, if_pos (by omega)]; norm_num
      · rw [if_neg hc, if_neg (by omega)]; norm_num
  rw [e]
  exact h

theorem psdMat_sum {ι κ : Type} [Fintype ι] (s : Finset κ) (M : κ → ι → ι → ℝ) (h : ∀ k ∈ s, PSDMat (M k)) : PSDMat fun i j => ∑ k ∈ s, M k i j := by
  classical
  induction s using Finset.induction_on with
  | empty => simpa using (psdMat_one (ι := ι)).smul (a := 0) le_rfl
  | insert a s ha ih =>
    simp only [sum_insert ha]
    exact (h a (by simp)).add (ih fun k hk => h k (by simp [hk]))

theorem psdMat_same {ι : Type} [Fintype ι] (t : ι → ℤ) : PSDMat fun i j => if t i = t j then (1 : ℝ) else 0 := by
  classical
  have h := psdMat_gram fun i => fun u : (univ.image t : Finset ℤ) => if t i = u.1 then (1 : ℝ) else 0
  have e : (fun i j => if t i = t j then (1 : ℝ) else 0)
      = fun i j => (fun u : (univ.image t : Finset ℤ) => if t i = u.1 then (1 : ℝ) else 0) ⬝ᵥ fun u => if t j = u.1 then (1 : ℝ) else 0 := by
    funext i j
    rw [dotProduct, sum_eq_single (⟨t i, by simp⟩ : (univ.image t : Finset ℤ))]
    · simp [eq_comm]
    · intro u _ hu
      rw [if_neg (fun h => hu (by ext; exact h.symm)), zero_mul]
    · simp
  rw [e]
  exact h

/-- The indicator kernel is positive semi-definite on integer times as soon as `γ` is at least the largest number of other integer times within the lag. -/
theorem C38_indicator_floor (lag γ : ℝ) (hlag : 0 ≤ lag) (hγ : 2 * (⌊lag⌋₊ : ℝ) ≤ γ) : PSDOn (Set.range fun z : ℤ => (z : ℝ)) (indicatorKernel lag γ) := by
  intro ι _ x hx
  choose t ht using hx
  obtain ⟨p, hp⟩ : ∃ p : ℕ, p = ⌊lag⌋₊ := ⟨_, rfl⟩
  rw [← hp] at hγ
  have e : (fun i j => indicatorKernel lag γ (x i) (x j))
      = fun i j => (γ - 2 * p) * (if t i = t j then (1 : ℝ) else 0)
          + ∑ k ∈ Finset.Icc 1 p, ((if t i = t j then (2 : ℝ) else 0) + if |t i - t j| = (k : ℤ) then 1 else 0) := by
    funext i j
    rw [indicatorKernel, ← ht i, ← ht j]
    have hsub : ((t i : ℝ) - t j = 0) ↔ t i = t j := by rw [sub_eq_zero]; exact Int.cast_inj
    have habs : |(t i : ℝ) - t j| = ((|t i - t j| : ℤ) : ℝ) := by push_cast; rfl
    by_cases h : t i = t j
    · rw [if_pos (hsub.2 h)]
      simp only [h, if_true, sub_self, abs_zero, mul_one]
      have : ∀ k ∈ Finset.Icc 1 p, ((2 : ℝ) + if (0 : ℤ) = (k : ℤ) then 1 else 0) = 2 := by
        intro k hk
        rw [if_neg (by have := (Finset.mem_Icc.1 hk).1; omega), add_zero]
      rw [sum_congr rfl this, sum_const, Nat.card_Icc, nsmul_eq_mul]
      push_cast [Nat.add_sub_cancel]
      ring
    · rw [if_neg (fun h' => h (hsub.1 h')), habs]
      simp only [if_neg h, mul_zero, zero_add]
      obtain ⟨q, hq⟩ : ∃ q : ℕ, |t i - t j| = q := ⟨(t i - t j).natAbs, by rw [Int.abs_eq_natAbs]⟩
      have hq0 : 1 ≤ q := by
        have : 0 < |t i - t j| := abs_pos.2 (sub_ne_zero.2 h)
        omega
      simp only [hq, Nat.cast_inj]
      rw [Finset.sum_ite_eq]
      have : (((q : ℤ) : ℝ) ≤ lag) ↔ q ≤ p := by
        rw [hp, Nat.le_floor_iff hlag]; simp
      simp only [this, Finset.mem_Icc, hq0, true_and]
  rw [e]
  refine PSDMat.add ((psdMat_same t).smul (by linarith)) (psdMat_sum _ _ fun k hk => ?_)
  exact psdMat_band t k (by have := (Finset.mem_Icc.1 hk).1; omega)

/-- The indicator kernel with `γ ≥ 2 lag + 1` (the default) is positive semi-definite on integer times, for every non-negative lag. -/
theorem C38_indicator_psd (lag γ : ℝ) (hlag : 0 ≤ lag) (hγ : 2 * lag + 1 ≤ γ) : PSDOn (Set.range fun z : ℤ => (z : ℝ)) (indicatorKernel lag γ) := by
  exact C38_indicator_floor lag γ hlag (by have := Nat.floor_le hlag; linarith)

/-- The default: `gamma = None` at construction. -/
theorem C38_indicator_default (lag : ℝ) (hlag : 0 ≤ lag) :
    PSDOn (Set.range fun z : ℤ => (z : ℝ)) (indicatorKernel (IndSt.init lag none).lag (IndSt.init lag none).γ) :=
  C38_indicator_psd _ _ hlag le_rfl

/-- Violation: whenever one of the two sets has a single time, the evaluation raises. -/
theorem C38_single_violated (p : ℝ) (s : ℝ) (y : List ℝ) :
    hatMatrix p [s] y = .error .assertionError ∧ hatMatrix p y [s] = .error .assertionError := by
  simp [hatMatrix, timeMatrix]

/-- Violation: assigning the lag does not update the default gamma; the kernel is no longer positive semi-definite on integers. -/
theorem C38_assign_violated :
    let s := (IndSt.init 0 none).setLag 1
    ¬ PSDOn (Set.range fun z : ℤ => (z : ℝ)) (indicatorKernel s.lag s.γ) := by
  intro s h
  have h1 := (h (Fin 3) (fun i => ((i.val : ℤ) : ℝ)) fun i => ⟨_, rfl⟩).2 ![2, -3, 2]
  have hs : s.lag = 1 ∧ s.γ = 1 := ⟨rfl, by simp [s, IndSt.setLag, IndSt.init]⟩
  simp only [Fin.sum_univ_three, hs.1, hs.2, indicatorKernel] at h1
  have h3 : (![2, -3, 2] : Fin 3 → ℝ) 2 = 2 := rfl
  norm_num [Fin.isValue, abs_of_nonneg, abs_of_nonpos, h3] at h1

/-- Violation: with a trainable lag and the default gamma the kernel cannot be evaluated. -/
theorem C38_trainable_violated (lag : ℝ) (x y : List ℝ) : (IndSt.init lag none true).matrix x y = .error .typeError := by
  simp [IndSt.init, IndSt.matrix]

/-- Non-vacuity. -/
example : [0, 1, (2 : ℝ)].length ≠ 1 := by decide

/-! ## C39 -/

section C39
variable {d : Type} [Fintype d]

theorem chi2_term_nonneg {a b : ℝ} (ha : 0 ≤ a) (hb : 0 ≤ b) : 0 ≤ 2 * (a * b) / clampEps (a + b) :=
  div_nonneg (by positivity) (EPS_pos.le.trans (le_max_right _ _))

/-- Additive chi-square: symmetric. -/
theorem C39_additive_symm (x y : d → ℝ) : additiveChi2 x y = additiveChi2 y x := by
  unfold additiveChi2
  refine sum_congr rfl fun i _ => ?_
  rw [mul_comm (x i), add_comm (x i)]

/-- On histograms it lies between 0 and half the total mass. -/
theorem C39_additive_bounds (x y : d → ℝ) (hx : ∀ i, 0 ≤ x i) (hy : ∀ i, 0 ≤ y i) :
    0 ≤ additiveChi2 x y ∧ additiveChi2 x y ≤ (∑ i, x i + ∑ i, y i) / 2 := by
  refine ⟨sum_nonneg fun i _ => chi2_term_nonneg (hx i) (hy i), ?_⟩
  rw [← sum_add_distrib, sum_div]
  refine sum_le_sum fun i _ => ?_
  have hc : 0 < clampEps (x i + y i) := EPS_pos.trans_le (le_max_right _ _)
  have hc2 : x i + y i ≤ clampEps (x i + y i) := le_max_left _ _
  rw [div_le_div_iff₀ hc (by norm_num)]
  nlinarith [mul_nonneg (add_nonneg (hx i) (hy i)) (sub_nonneg.2 hc2), sq_nonneg (x i - y i), hx i, hy i]

/-- `k(x, x)` is the mass of `x` when its entries are null or at least `EPS / 2`. Missing (`_partial`): entries between, see
`C39_additive_small_violated`. -/
theorem C39_additive_diagonal_partial (x : d → ℝ) (hx : ∀ i, x i = 0 ∨ EPS / 2 ≤ x i) : additiveChi2 x x = ∑ i, x i := by
  refine sum_congr rfl fun i _ => ?_
  rcases hx i with h | h
  · rw [h]; simp
  · have hp : 0 < x i := (half_pos EPS_pos).trans_le h
    rw [clampEps, max_eq_left (by linarith)]
    field_simp
    ring

/-- Violation: very small entries count less than their mass. -/
theorem C39_additive_small_violated (x : d → ℝ) (hx : ∀ i, 0 ≤ x i) (j : d) (hj : 0 < x j) (hj' : x j < EPS / 2) : additiveChi2 x x < ∑ i, x i := by
  have hle : ∀ i, 2 * (x i * x i) / clampEps (x i + x i) ≤ x i := by
    intro i
    have hc : 0 < clampEps (x i + x i) := EPS_pos.trans_le (le_max_right _ _)
    rw [div_le_iff₀ hc]
    nlinarith [hx i, le_max_left (x i + x i) EPS, show clampEps (x i + x i) = max (x i + x i) EPS from rfl,
      mul_nonneg (hx i) (sub_nonneg.2 (le_max_left (x i + x i) EPS))]
  refine sum_lt_sum (fun i _ => hle i) ⟨j, mem_univ j, ?_⟩
  rw [clampEps, max_eq_right (by linarith), div_lt_iff₀ EPS_pos]
  nlinarith

/-- Skewed chi-square: symmetric. -/
theorem C39_skewed_symm (p : ℝ) (x y : d → ℝ) : skewedChi2 p x y = skewedChi2 p y x := by
  unfold skewedChi2
  refine prod_congr rfl fun i _ => ?_
  rw [mul_comm (Real.sqrt (x i + p)), add_comm (x i) (y i)]

/-- Values in `[0, 1]` when the entries are at least `-p`. -/
theorem C39_skewed_bounds (p : ℝ) (x y : d → ℝ) (hx : ∀ i, 0 ≤ x i + p) (hy : ∀ i, 0 ≤ y i + p) : 0 ≤ skewedChi2 p x y ∧ skewedChi2 p x y ≤ 1 := by
  have hc : ∀ i, 0 < clampEps (x i + y i + 2 * p) := fun i => EPS_pos.trans_le (le_max_right _ _)
  have h0 : ∀ i, 0 ≤ 2 * (Real.sqrt (x i + p) * Real.sqrt (y i + p)) / clampEps (x i + y i + 2 * p) :=
    fun i => div_nonneg (by positivity) (hc i).le
  refine ⟨prod_nonneg fun i _ => h0 i, prod_le_one (fun i _ => h0 i) fun i _ => ?_⟩
  rw [div_le_one (hc i)]
  refine le_trans ?_ (le_max_left _ _)
  have h1 := Real.sq_sqrt (hx i)
  have h2 := Real.sq_sqrt (hy i)
  nlinarith [sq_nonneg (Real.sqrt (x i + p) - Real.sqrt (y i + p))]

/-- `k(x, x) = 1` when the entries exceed `-p` by at least `EPS / 2`. -/
theorem C39_skewed_diagonal (p : ℝ) (x : d → ℝ) (hx : ∀ i, EPS / 2 ≤ x i + p) : skewedChi2 p x x = 1 := by
  refine prod_eq_one fun i _ => ?_
  have hp : 0 < x i + p := (half_pos EPS_pos).trans_le (hx i)
  rw [clampEps, max_eq_left (by linarith [hx i]), Real.mul_self_sqrt hp.le, show x i + x i + 2 * p = 2 * (x i + p) by ring]
  exact div_self (by positivity)

/-- Non-vacuity: an image histogram. -/
example : ∀ i, (![0, 1/2, 1/2] : Fin 3 → ℝ) i = 0 ∨ EPS / 2 ≤ (![0, 1/2, 1/2] : Fin 3 → ℝ) i := by
  intro i
  fin_cases i <;> norm_num [EPS]

/-! ## Cases by name -/

example : ∃ M, hatMatrix 1 [0, 1, 3] [0, (2 : ℝ)] = .ok M ∧ M.length = 3 :=
  let ⟨M, h, hl, _⟩ := C38_hat_partial 1 [0, 1, 3] [0, 2] (by decide) (by decide)
  ⟨M, h, hl⟩

example : ∃ M, (IndSt.init 1 none).matrix [0, 1, 3] [0, (2 : ℝ)] = .ok M ∧ M.length = 3 :=
  let ⟨M, h, hl, _⟩ := C38_indicator_partial 1 none [0, 1, 3] [0, 2] (by decide) (by decide)
  ⟨M, h, hl⟩

example : PSDOn (Set.range fun z : ℤ => (z : ℝ)) (indicatorKernel (1 / 2) 0) :=
  C38_indicator_floor (1 / 2) 0 (by norm_num) (by rw [show ⌊(1 / 2 : ℝ)⌋₊ = 0 from Nat.floor_eq_zero.2 (by norm_num)]; norm_num)

example : PSDOn (Set.range fun z : ℤ => (z : ℝ)) (indicatorKernel 2 5) := C38_indicator_psd 2 5 (by norm_num) (by norm_num)

example := C38_indicator_default 3 (by norm_num)

example : additiveChi2 ![1 / 2, 1 / 2] ![1 / 4, (3 / 4 : ℝ)] ≤ (∑ i, (![1 / 2, 1 / 2] : Fin 2 → ℝ) i + ∑ i, (![1 / 4, 3 / 4] : Fin 2 → ℝ) i) / 2 :=
  (C39_additive_bounds _ _ (fun i => by fin_cases i <;> norm_num) fun i => by fin_cases i <;> norm_num).2

example : additiveChi2 ![0, 1] ![0, (1 : ℝ)] = ∑ i, (![0, 1] : Fin 2 → ℝ) i :=
  C39_additive_diagonal_partial _ fun i => by fin_cases i <;> norm_num [EPS]

example : additiveChi2 (fun _ : Fin 1 => EPS / 4) (fun _ => EPS / 4) < ∑ _ : Fin 1, EPS / 4 :=
  C39_additive_small_violated _ (fun _ => by norm_num [EPS]) 0 (by norm_num [EPS]) (by norm_num [EPS])

example : skewedChi2 1 ![0, 2] ![1, (-1 : ℝ)] ≤ 1 := (C39_skewed_bounds 1 _ _ (fun i => by fin_cases i <;> norm_num) fun i => by fin_cases i <;> norm_num).2

example : skewedChi2 1 ![0, 2] ![0, (2 : ℝ)] = 1 := C39_skewed_diagonal 1 _ fun i => by fin_cases i <;> norm_num [EPS]


end C39
end Kerch
