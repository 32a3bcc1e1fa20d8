import Verif.Lemmas.Subordination
import Verif.Lemmas.Transforms
set_option linter.unusedSectionVars false
set_option linter.unusedSimpArgs false
/-!
# C81, C82: exponential and chi-square kernels are positive semi-definite
-/
namespace Kerch
open Finset

section exponential
variable {d : Type} [Fintype d] [Nonempty d]

/-- **C81**: the Laplacian kernel (exponential kernel of the Euclidean distance) is positive semi-definite, for every dimension, bandwidth and
finite set of points. -/
theorem C81_laplacian (σ : ℝ) :
    ∃ κ : (d → ℝ) → (d → ℝ) → ℝ, (∀ x y, statKernel (.exponential false) .euclidean σ x y = .ok (κ x y)) ∧ PSDOn Set.univ κ := by
  refine ⟨fun x y => Real.exp (Real.sqrt ((1 / σ) ^ 2 * euclidSq x y) * -Real.sqrt (1 / 2)), fun x y => rfl, ?_⟩
  intro ι _ x _
  have h := psdMat_exp_euclid (a := Real.sqrt (1 / 2) * |1 / σ|) (by positivity) x
  refine (funext₂ fun i j => ?_ : (fun i j => Real.exp (Real.sqrt ((1 / σ) ^ 2 * euclidSq (x i) (x j)) * -Real.sqrt (1 / 2))) = _) ▸ h
  rw [Real.sqrt_mul (sq_nonneg _), Real.sqrt_sq_eq_abs]
  congr 1; ring

/-- **C81**: the exponential kernel of the Manhattan distance. -/
theorem C81_manhattan (σ : ℝ) (hσ : 0 < σ) :
    ∃ κ : (d → ℝ) → (d → ℝ) → ℝ, (∀ x y, statKernel (.exponential false) .manhattan σ x y = .ok (κ x y)) ∧ PSDOn Set.univ κ := by
  refine ⟨fun x y => Real.exp (1 / σ * manhattan x y * -Real.sqrt (1 / 2)), fun x y => rfl, ?_⟩
  intro ι _ x _
  have h := psdMat_finprod univ (fun (k : d) i j => Real.exp (-(1 / σ * Real.sqrt (1 / 2) * |x i k - x j k|)))
    fun k _ => psdMat_exp_abs (by positivity) fun i => x i k
  refine (funext₂ fun i j => ?_ : (fun i j => Real.exp (1 / σ * manhattan (x i) (x j) * -Real.sqrt (1 / 2))) = _) ▸ h
  rw [← Real.exp_sum]
  congr 1
  rw [sum_neg_distrib, ← mul_sum, manhattan]; ring

/-- On the line all distances are the same, hence the exponential kernel of the Chebyshev distance is positive semi-definite there. -/
theorem C81_chebyshev_line (σ : ℝ) (hσ : 0 < σ) :
    ∃ κ : (Unit → ℝ) → (Unit → ℝ) → ℝ, (∀ x y, statKernel (.exponential false) .chebyshev σ x y = .ok (κ x y)) ∧ PSDOn Set.univ κ := by
  refine ⟨fun x y => Real.exp (1 / σ * chebyshev x y * -Real.sqrt (1 / 2)), fun x y => rfl, ?_⟩
  intro ι _ x _
  have h := psdMat_exp_abs (a := 1 / σ * Real.sqrt (1 / 2)) (by positivity) fun i => x i ()
  refine (funext₂ fun i j => ?_ : (fun i j => Real.exp (1 / σ * chebyshev (x i) (x j) * -Real.sqrt (1 / 2))) = _) ▸ h
  congr 1
  have : chebyshev (x i) (x j) = |x i () - x j ()| := by simp [chebyshev]
  rw [this]; ring

/-- The squared exponential is positive semi-definite for the Euclidean distance only (`C26_rbf`): with the squared Manhattan distance it is
not, in dimension two and for every bandwidth of at least `4`. -/
theorem C81_squared_manhattan (σ : ℝ) (hσ : 4 ≤ σ) :
    ∃ κ : (Fin 2 → ℝ) → (Fin 2 → ℝ) → ℝ, (∀ x y, statKernel (.exponential true) .manhattan σ x y = .ok (κ x y)) ∧ ¬ PSDOn Set.univ κ := by
  refine ⟨fun x y => Real.exp ((1 / σ * manhattan x y) ^ 2 * -(1 / 2)), fun x y => rfl, ?_⟩
  intro h
  have h4 := (h (Fin 4) ![![1, 1], ![1, -1], ![-1, 1], ![-1, -1]] fun _ => trivial).2 ![1, -1, -1, 1]
  simp only [Fin.sum_univ_four, manhattan, Fin.sum_univ_two, Matrix.cons_val_zero, Matrix.cons_val_one, Matrix.cons_val] at h4
  norm_num at h4
  obtain ⟨q, hq⟩ : ∃ q, q = Real.exp (-(2 / σ ^ 2)) := ⟨_, rfl⟩
  have e1 : Real.exp (-((σ⁻¹ * 2) ^ 2 * (1 / 2))) = q := by rw [hq]; congr 1; field_simp
  have e2 : Real.exp (-((σ⁻¹ * 4) ^ 2 * (1 / 2))) = q ^ 4 := by
    rw [hq, ← Real.exp_nat_mul]; congr 1; field_simp; norm_num
  simp only [e1, e2] at h4
  have hσ2 : 0 < σ ^ 2 := by positivity
  have hle : 2 / σ ^ 2 ≤ 1 / 8 := by rw [div_le_div_iff₀ hσ2 (by norm_num)]; nlinarith
  have hq1 : 7 / 8 ≤ q := by rw [hq]; have := Real.add_one_le_exp (-(2 / σ ^ 2)); linarith
  have hq2 : q < 1 := by rw [hq, Real.exp_lt_one_iff]; have : 0 < 2 / σ ^ 2 := by positivity
                         linarith
  have h5 : 1 + q ^ 4 - 2 * q < 0 := by
    have : 1 + q ^ 4 - 2 * q = (1 - q) * (1 - q * (1 + q + q ^ 2)) := by ring
    rw [this]
    refine mul_neg_of_pos_of_neg (by linarith) ?_
    nlinarith [mul_nonneg (by linarith : 0 ≤ q - 7 / 8) (by linarith : (0:ℝ) ≤ 7 / 8), sq_nonneg q]
  nlinarith

/-- The triangular kernel is positive semi-definite on the line. -/
theorem C81_triangular_line (σ : ℝ) (hσ : 0 < σ) :
    ∃ κ : (Unit → ℝ) → (Unit → ℝ) → ℝ, (∀ x y, statKernel .triangular .manhattan σ x y = .ok (κ x y)) ∧ PSDOn Set.univ κ := by
  refine ⟨fun x y => profile .triangular (1 / σ * manhattan x y), fun x y => rfl, ?_⟩
  intro ι _ x _
  have h := psdMat_overlap (fun i => x i () / σ) (fun i => x i () / σ + 1)
  refine (funext₂ fun i j => ?_ : (fun i j => profile .triangular (1 / σ * manhattan (x i) (x j))) = _) ▸ h
  have hm : 1 / σ * manhattan (x i) (x j) = |x i () / σ - x j () / σ| := by
    rw [← sub_div, abs_div, abs_of_pos hσ]; simp [manhattan]; ring
  rw [hm]
  generalize x i () / σ = s
  generalize x j () / σ = t
  simp only [profile]
  rcases le_total s t with hst | hst
  · rw [abs_of_nonpos (by linarith), min_eq_left (by linarith), max_eq_right hst]
    split
    · rw [max_eq_left (by linarith)]; ring
    · rw [max_eq_right (by linarith)]
  · rw [abs_of_nonneg (by linarith), min_eq_right (by linarith), max_eq_left hst]
    split
    · rw [max_eq_left (by linarith)]; ring
    · rw [max_eq_right (by linarith)]

/-- The uniform kernel is not positive semi-definite, even on the line, for any bandwidth. -/
theorem C81_uniform_line (σ : ℝ) (hσ : 0 < σ) :
    ∃ κ : (Unit → ℝ) → (Unit → ℝ) → ℝ, (∀ x y, statKernel .uniform .manhattan σ x y = .ok (κ x y)) ∧ ¬ PSDOn Set.univ κ := by
  refine ⟨fun x y => profile .uniform (1 / σ * manhattan x y), fun x y => rfl, ?_⟩
  intro h
  have h3 := (h (Fin 3) ![fun _ => 0, fun _ => σ, fun _ => 2 * σ] fun _ => trivial).2 ![1, -1, 1]
  have hne : σ ≠ 0 := hσ.ne'
  have a1 : |σ| = σ := abs_of_pos hσ
  have a3 : |σ - 2 * σ| = σ := by rw [abs_of_neg (by linarith)]; ring
  have a4 : |2 * σ - σ| = σ := by rw [abs_of_pos (by linarith)]; ring
  have a2 : |2 * σ| = 2 * σ := abs_of_pos (by linarith)
  have n1 : ¬ (1 / σ * (2 * σ) ≤ 1) := by
    have : 1 / σ * (2 * σ) = 2 := by field_simp
    rw [this]; norm_num
  have n2 : 1 / σ * σ ≤ 1 := by
    have : 1 / σ * σ = 1 := by field_simp
    rw [this]
  simp only [Fin.sum_univ_three, manhattan, profile, Matrix.cons_val_zero, Matrix.cons_val_one, Matrix.cons_val, univ_unique, sum_singleton,
    sub_self, zero_sub, sub_zero, abs_neg, abs_zero, mul_zero, a1, a2, a3, a4, if_neg n1, if_pos n2, if_pos zero_le_one] at h3
  norm_num at h3

end exponential

section chi
variable {d : Type} [Fintype d]

/-- Histograms: entries null, or not smaller than half of the guard of the divisions. -/
def Histogram (x : d → ℝ) : Prop := ∀ k, x k = 0 ∨ EPS / 2 ≤ x k

/-- **C82**: the additive chi-square kernel is positive semi-definite on histograms. Missing (`_partial`): entries between `0` and `EPS / 2`
(`C82_small_violated`). -/
theorem C82_additive_partial : PSDOn {x : d → ℝ | Histogram x} additiveChi2 := by
  intro ι _ x hx
  refine psdMat_finsum univ (fun (k : d) i j => 2 * (x i k * x j k) / clampEps (x i k + x j k)) fun k _ => ?_
  have h := ((psdMat_cauchy (fun i => if x i k = 0 then 1 else x i k) (fun i => by
    rcases hx i k with h | h
    · simp [h]
    · have := EPS_pos
      have h0 : x i k ≠ 0 := by intro h0; rw [h0] at h; linarith
      rw [if_neg h0]; linarith)).scale fun i => x i k).smul (a := 2) (by norm_num)
  refine (funext₂ fun i j => ?_ : (fun i j => 2 * (x i k * x j k) / clampEps (x i k + x j k)) = _) ▸ h
  by_cases hi : x i k = 0
  · simp [hi]
  by_cases hj : x j k = 0
  · simp [hj]
  have hi2 := (hx i k).resolve_left hi
  have hj2 := (hx j k).resolve_left hj
  rw [if_neg hi, if_neg hj]
  have : clampEps (x i k + x j k) = x i k + x j k := max_eq_left (by linarith)
  rw [this]; ring

/-- **C82 is violated** for entries below the guard: two points with entries `EPS / 4` and `3 EPS / 4`. -/
theorem C82_small_violated : ¬ PSDOn {x : Unit → ℝ | ∀ k, 0 ≤ x k} additiveChi2 := by
  intro h
  have hE := EPS_pos
  have h2 := (h (Fin 2) ![fun _ => EPS / 4, fun _ => 3 * EPS / 4] (by
    intro i k; fin_cases i <;> simp <;> linarith)).2 ![3, -1]
  have c1 : clampEps (EPS / 4 + EPS / 4) = EPS := max_eq_right (by linarith)
  have c2 : clampEps (EPS / 4 + 3 * EPS / 4) = EPS := by unfold clampEps; rw [max_eq_right (by linarith)]
  have c3 : clampEps (3 * EPS / 4 + EPS / 4) = EPS := by unfold clampEps; rw [max_eq_right (by linarith)]
  have c4 : clampEps (3 * EPS / 4 + 3 * EPS / 4) = 3 * EPS / 2 := by unfold clampEps; rw [max_eq_left (by linarith)]; ring
  simp only [Fin.sum_univ_two, additiveChi2, univ_unique, sum_singleton, Matrix.cons_val_zero, Matrix.cons_val_one, c1, c2, c3, c4] at h2
  have hne := hE.ne'
  field_simp at h2
  norm_num at h2
  linarith

/-- **C82**: the skewed chi-square kernel is positive semi-definite as soon as the shifted entries are not smaller than half of the guard. -/
theorem C82_skewed_partial (p : ℝ) : PSDOn {x : d → ℝ | ∀ k, EPS / 2 ≤ x k + p} (skewedChi2 p) := by
  intro ι _ x hx
  refine psdMat_finprod univ (fun (k : d) i j => 2 * (Real.sqrt (x i k + p) * Real.sqrt (x j k + p)) / clampEps (x i k + x j k + 2 * p)) fun k _ => ?_
  have hE := EPS_pos
  have h := ((psdMat_cauchy (fun i => x i k + p) (fun i => by have := hx i k; linarith)).scale fun i => Real.sqrt (x i k + p)).smul
    (a := 2) (by norm_num)
  refine (funext₂ fun i j => ?_ :
    (fun i j => 2 * (Real.sqrt (x i k + p) * Real.sqrt (x j k + p)) / clampEps (x i k + x j k + 2 * p)) = _) ▸ h
  have hi := hx i k
  have hj := hx j k
  have : clampEps (x i k + x j k + 2 * p) = (x i k + p) + (x j k + p) := by unfold clampEps; rw [max_eq_left (by linarith)]; ring
  rw [this]; ring

/-- Three histograms with null and non-null entries. -/
example : ∀ i, (![![1, 0], ![1 / 2, 1 / 2], ![0, 3]] : Fin 3 → Fin 2 → ℝ) i ∈ {x : Fin 2 → ℝ | Histogram x} := by
  intro i k
  have : EPS ≤ 1 := by unfold EPS; norm_num
  fin_cases i <;> fin_cases k <;> simp <;> linarith

end chi
end Kerch
