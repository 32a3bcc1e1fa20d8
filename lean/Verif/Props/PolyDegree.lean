import Verif.Model.PolyDegree
import Verif.Lemmas.PolyDegree
set_option linter.unusedSectionVars false
set_option linter.unusedSimpArgs false
/-!
# C145: the polynomial kernel of any degree
-/
namespace Kerch
namespace Degree
open Finset

variable {d : Type} [Fintype d]

/-- The points whose coordinates are not negative. -/
def orthant (d : Type) : Set (d → ℝ) := {x | ∀ k, 0 ≤ x k}

theorem dot_nonneg {x y : d → ℝ} (hx : x ∈ orthant d) (hy : y ∈ orthant d) : 0 ≤ x ⬝ᵥ y := sum_nonneg fun k _ => mul_nonneg (hx k) (hy k)

theorem powVal_nonneg {b α : ℝ} (hb : 0 ≤ b) (h : b ≠ 0 ∨ 0 ≤ α) : Autograd.powVal b α = some (b ^ α) := by
  unfold Autograd.powVal
  rw [if_neg fun h' => absurd h'.1 (not_lt.2 hb), if_neg fun h' => ?_]
  rcases h with h | h
  · exact h h'.1
  · exact absurd h'.2 (not_lt.2 h)

/-- **C145** (partial) Values: with `α ≥ 0` and points whose product is at least `-β` the value is the power; with a natural degree that is so for all points. -/
theorem C145_values_partial (α β : ℝ) (hα : 0 ≤ α) (x y : d → ℝ) (h : 0 ≤ x ⬝ᵥ y + β ∨ ∃ n : ℕ, α = n) :
    polyPow α β x y = some ((x ⬝ᵥ y + β) ^ α) ∧ ∀ n : ℕ, α = n → polyPow α β x y = some (polyKernel n β x y) := by
  have h1 : polyPow α β x y = some ((x ⬝ᵥ y + β) ^ α) := by
    unfold polyPow
    rcases h with h | ⟨n, h⟩
    · exact powVal_nonneg h (Or.inr hα)
    · unfold Autograd.powVal
      rw [if_neg fun h' => h'.2 ⟨n, by rw [h]; rfl⟩, if_neg fun h' => absurd h'.2 (not_lt.2 hα)]
  refine ⟨h1, fun n hn => ?_⟩
  rw [h1, hn, Real.rpow_natCast]
  rfl

/-- **C145** violated: with a degree that is not an integer, whatever `β`, every point but the origin has another with which its value is not a number. -/
theorem C145_nan_violated (α β : ℝ) (hα : ∀ z : ℤ, α ≠ z) (x : d → ℝ) (hx : x ≠ 0) : ∃ y, polyPow α β x y = none := by
  have h0 : 0 < x ⬝ᵥ x := lt_of_le_of_ne (sum_nonneg fun k _ => mul_self_nonneg _) fun h => hx (dotProduct_self_eq_zero.1 h.symm)
  refine ⟨(-(|β| + 1) / (x ⬝ᵥ x)) • x, ?_⟩
  unfold polyPow Autograd.powVal
  rw [dotProduct_smul, smul_eq_mul, div_mul_cancel₀ _ h0.ne', if_pos]
  refine ⟨?_, fun ⟨z, hz⟩ => hα z hz.symm⟩
  have := le_abs_self β
  linarith

theorem psd_natural (n : ℕ) {β : ℝ} (hβ : 0 ≤ β) (Z : Set (d → ℝ)) : PSDOn Z fun x y : d → ℝ => (x ⬝ᵥ y + β) ^ (n : ℝ) := by
  intro ι _ x _
  have h : PSDMat fun i j => x i ⬝ᵥ x j + β := by
    have := (psdMat_gram x).add (psdMat_one.smul hβ)
    simpa using this
  simpa only [Real.rpow_natCast] using h.pow n

/-- **C145** violated: with `β > 0`, between points whose coordinates are not negative, all values exist; they are positive semi-definite only if the degree is natural. -/
theorem C145_degree_violated [Nonempty d] (α β : ℝ) (hβ : 0 < β) :
    ∃ κ : (d → ℝ) → (d → ℝ) → ℝ, (∀ x ∈ orthant d, ∀ y ∈ orthant d, polyPow α β x y = some (κ x y)) ∧ (PSDOn (orthant d) κ ↔ ∃ n : ℕ, α = n) := by
  classical
  refine ⟨fun x y => (x ⬝ᵥ y + β) ^ α, fun x hx y hy => ?_, fun h => ?_, ?_⟩
  · have := dot_nonneg hx hy
    exact powVal_nonneg (by linarith) (Or.inl (by linarith))
  · by_contra hn
    push Not at hn
    obtain ⟨k, δ, hδ, hk⟩ := power_not_psd hn
    obtain ⟨a⟩ := (inferInstance : Nonempty d)
    obtain ⟨s, hs⟩ : ∃ s, s = Real.sqrt (δ / 2 * β) := ⟨_, rfl⟩
    have hs2 : s * s = δ / 2 * β := by rw [hs]; exact Real.mul_self_sqrt (by positivity)
    have h1 := (h (Fin (k + 1)) (fun i => Pi.single a (s * i.1)) fun i l => by
      by_cases hl : l = a
      · subst hl; rw [Pi.single_eq_same, hs]; positivity
      · rw [Pi.single_eq_of_ne hl]).smul (a := (β ^ α)⁻¹) (by positivity)
    refine hk (δ / 2) (by positivity) (by linarith) ((funext₂ fun i j => ?_ : (fun i j : Fin (k + 1) => (1 + δ / 2 * ((i.1 : ℝ) * j.1)) ^ α) = _) ▸ h1)
    have e : (Pi.single a (s * (i.1 : ℝ)) : d → ℝ) ⬝ᵥ Pi.single a (s * (j.1 : ℝ)) + β = β * (1 + δ / 2 * (i.1 * j.1)) := by
      rw [single_dotProduct, Pi.single_eq_same]
      linear_combination (i.1 * j.1 : ℝ) * hs2
    simp only
    rw [e, Real.mul_rpow hβ.le (by positivity), inv_mul_cancel_left₀ (Real.rpow_pos_of_pos hβ α).ne']
  · rintro ⟨n, rfl⟩
    exact psd_natural n hβ.le _

/-- **C145** violated: the same with `β = 0`, from two coordinates on. -/
theorem C145_homogeneous_violated {a b : d} (hab : a ≠ b) (α : ℝ) (hα : 0 ≤ α) :
    ∃ κ : (d → ℝ) → (d → ℝ) → ℝ, (∀ x ∈ orthant d, ∀ y ∈ orthant d, polyPow α 0 x y = some (κ x y)) ∧ (PSDOn (orthant d) κ ↔ ∃ n : ℕ, α = n) := by
  classical
  refine ⟨fun x y => (x ⬝ᵥ y + 0) ^ α, fun x hx y hy => ?_, fun h => ?_, ?_⟩
  · exact powVal_nonneg (by simpa using dot_nonneg hx hy) (Or.inr hα)
  · by_contra hn
    push Not at hn
    obtain ⟨k, δ, hδ, hk⟩ := power_not_psd hn
    obtain ⟨s, hs⟩ : ∃ s, s = Real.sqrt (δ / 2) := ⟨_, rfl⟩
    have hs2 : s * s = δ / 2 := by rw [hs]; exact Real.mul_self_sqrt (by positivity)
    have h1 := h (Fin (k + 1)) (fun i => Pi.single a 1 + Pi.single b (s * i.1)) fun i l => by
      have q1 : (0 : ℝ) ≤ (Pi.single a 1 : d → ℝ) l := by
        by_cases hl : l = a
        · subst hl; simp
        · rw [Pi.single_eq_of_ne hl]
      have q2 : (0 : ℝ) ≤ (Pi.single b (s * (i.1 : ℝ)) : d → ℝ) l := by
        by_cases hl : l = b
        · subst hl; rw [Pi.single_eq_same, hs]; positivity
        · rw [Pi.single_eq_of_ne hl]
      exact add_nonneg q1 q2
    refine hk (δ / 2) (by positivity) (by linarith) ((funext₂ fun i j => ?_ : (fun i j : Fin (k + 1) => (1 + δ / 2 * ((i.1 : ℝ) * j.1)) ^ α) = _) ▸ h1)
    have e : (Pi.single a 1 + Pi.single b (s * (i.1 : ℝ)) : d → ℝ) ⬝ᵥ (Pi.single a 1 + Pi.single b (s * (j.1 : ℝ))) + 0 = 1 + δ / 2 * (i.1 * j.1) := by
      rw [add_dotProduct, single_dotProduct, single_dotProduct]
      simp only [Pi.add_apply, Pi.single_eq_same, Pi.single_eq_of_ne hab, Pi.single_eq_of_ne hab.symm]
      linear_combination (i.1 * j.1 : ℝ) * hs2
    simp only
    rw [e]
  · rintro ⟨n, rfl⟩
    exact psd_natural n le_rfl _

/-- **C145** With `β = 0` and one coordinate every degree will do. -/
theorem C145_line (hd : Fintype.card d = 1) (α : ℝ) (hα : 0 ≤ α) :
    ∃ κ : (d → ℝ) → (d → ℝ) → ℝ, (∀ x ∈ orthant d, ∀ y ∈ orthant d, polyPow α 0 x y = some (κ x y)) ∧ PSDOn (orthant d) κ := by
  refine ⟨fun x y => (x ⬝ᵥ y + 0) ^ α, fun x hx y hy => powVal_nonneg (by simpa using dot_nonneg hx hy) (Or.inr hα), ?_⟩
  intro ι _ x hx
  obtain ⟨a, ha⟩ := Fintype.card_eq_one_iff.1 hd
  have hu : (univ : Finset d) = {a} := by ext k; simp [ha k]
  have e : (fun i j => (x i ⬝ᵥ x j + 0) ^ α) = fun i j => (x i a ^ α) * (x j a ^ α) * 1 := by
    funext i j
    rw [dotProduct, hu, sum_singleton, add_zero, mul_one, Real.mul_rpow (hx i a) (hx j a)]
  rw [e]
  exact psdMat_one.scale _

/-- **C145** Two points never show it: with `α, β ≥ 0` the matrix of two points whose coordinates are not negative is positive semi-definite. -/
theorem C145_pairs (α β : ℝ) (hα : 0 ≤ α) (hβ : 0 ≤ β) (x : Fin 2 → d → ℝ) (hx : ∀ i, x i ∈ orthant d) : PSDMat fun i j => (x i ⬝ᵥ x j + β) ^ α := by
  have hn : ∀ i j, 0 ≤ x i ⬝ᵥ x j + β := fun i j => add_nonneg (dot_nonneg (hx i) (hx j)) hβ
  have hc : x 0 ⬝ᵥ x 1 = x 1 ⬝ᵥ x 0 := dotProduct_comm _ _
  have hcs : (x 0 ⬝ᵥ x 1 + β) ^ 2 ≤ (x 0 ⬝ᵥ x 0 + β) * (x 1 ⬝ᵥ x 1 + β) := by
    have h : PSDMat fun i j => x i ⬝ᵥ x j + β := by
      have := (psdMat_gram x).add (psdMat_one.smul hβ)
      simpa using this
    have h1 := h.2 ![x 0 ⬝ᵥ x 1 + β, -(x 0 ⬝ᵥ x 0 + β)]
    have h2 := h.2 ![1, 0]
    have h3 := h.2 ![-1, 1]
    simp [Fin.sum_univ_two, ← hc] at h1 h2 h3
    rcases h2.lt_or_eq with h4 | h4
    · have : 0 ≤ (x 0 ⬝ᵥ x 0 + β) * ((x 0 ⬝ᵥ x 0 + β) * (x 1 ⬝ᵥ x 1 + β) - (x 0 ⬝ᵥ x 1 + β) ^ 2) := by nlinarith
      have := nonneg_of_mul_nonneg_right this h4
      linarith
    · have := h.zero_row (i := 0) (by simpa using h4.symm) 1
      rw [this, ← h4]; simp
  have hp : ((x 0 ⬝ᵥ x 1 + β) ^ α) ^ 2 ≤ (x 0 ⬝ᵥ x 0 + β) ^ α * (x 1 ⬝ᵥ x 1 + β) ^ α := by
    rw [← Real.mul_rpow (hn 0 0) (hn 1 1), ← Real.rpow_natCast, ← Real.rpow_mul (hn 0 1), mul_comm α, Real.rpow_mul (hn 0 1), Real.rpow_natCast]
    exact Real.rpow_le_rpow (sq_nonneg _) hcs hα
  constructor
  · intro i j; simp only; rw [dotProduct_comm]
  · intro c
    simp only [Fin.sum_univ_two, ← hc]
    have p0 := Real.rpow_nonneg (hn 0 0) α
    have p1 := Real.rpow_nonneg (hn 1 1) α
    have p2 := Real.rpow_nonneg (hn 0 1) α
    generalize (x 0 ⬝ᵥ x 0 + β) ^ α = u at *
    generalize (x 1 ⬝ᵥ x 1 + β) ^ α = v at *
    generalize (x 0 ⬝ᵥ x 1 + β) ^ α = w at *
    have hw : w ≤ Real.sqrt u * Real.sqrt v := by
      rw [← Real.sqrt_mul p0]; exact Real.le_sqrt_of_sq_le hp
    have su := Real.mul_self_sqrt p0
    have sv := Real.mul_self_sqrt p1
    have hab : -(|c 0| * |c 1|) * w ≤ c 0 * c 1 * w := by
      refine mul_le_mul_of_nonneg_right ?_ p2
      rw [← abs_mul]; exact neg_abs_le _
    have h5 : |c 0| * |c 1| * w ≤ |c 0| * |c 1| * (Real.sqrt u * Real.sqrt v) := mul_le_mul_of_nonneg_left hw (by positivity)
    have h6 : 0 ≤ (|c 0| * Real.sqrt u - |c 1| * Real.sqrt v) ^ 2 := sq_nonneg _
    have h7 : |c 0| ^ 2 = c 0 ^ 2 := sq_abs _
    have h8 : |c 1| ^ 2 = c 1 ^ 2 := sq_abs _
    have h9 : (|c 0| * Real.sqrt u - |c 1| * Real.sqrt v) ^ 2 = c 0 ^ 2 * u + c 1 ^ 2 * v - 2 * (|c 0| * |c 1| * (Real.sqrt u * Real.sqrt v)) := by
      calc _ = |c 0| ^ 2 * (Real.sqrt u * Real.sqrt u) + |c 1| ^ 2 * (Real.sqrt v * Real.sqrt v) - 2 * (|c 0| * |c 1| * (Real.sqrt u * Real.sqrt v)) := by ring
        _ = _ := by rw [h7, h8, su, sv]
    nlinarith

/-- **C145** violated: with a natural degree and all points, `β ≥ 0` is needed as well (unless the kernel is constant). -/
theorem C145_beta_violated [Nonempty d] (n : ℕ) (β : ℝ) : PSDOn Set.univ (polyKernel (d := d) n β) ↔ n = 0 ∨ 0 ≤ β := by
  classical
  constructor
  · intro h
    by_contra hn
    push Not at hn
    obtain ⟨a⟩ := (inferInstance : Nonempty d)
    have h2 := (h (Fin 2) ![0, Pi.single a (Real.sqrt (-β))] fun _ => trivial).zero_row (i := 1) (by
      simp [polyKernel, Real.mul_self_sqrt (show 0 ≤ -β by linarith), hn.1]) 0
    simp [polyKernel] at h2
    exact absurd h2.1 hn.2.ne
  · rintro (rfl | hβ)
    · intro ι _ x _
      simpa [polyKernel] using psdMat_one (ι := ι)
    · have := psd_natural (d := d) n hβ Set.univ
      simp only [Real.rpow_natCast] at this
      exact this

/-- The square root of the product of points of the plane, and degree one and a half with `β = 1` on the line. -/
example := C145_homogeneous_violated (d := Fin 2) (a := 0) (b := 1) (by decide) (1 / 2) (by norm_num)
example := C145_degree_violated (d := Unit) (3 / 2) 1 one_pos
example : ∃ y, polyPow (3 / 2) 1 (fun _ : Unit => (1 : ℝ)) y = none := by
  refine C145_nan_violated _ _ (fun z h => ?_) _ (fun h => one_ne_zero (congrFun h ()))
  have h2 : (3 : ℝ) = ((2 * z : ℤ) : ℝ) := by push_cast; linarith
  have h3 : (3 : ℤ) = 2 * z := by exact_mod_cast h2
  omega
example := C145_pairs (d := Fin 2) (1 / 2) 0 (by norm_num) le_rfl ![![1, 0], ![1, 1]] (by
  intro i k; fin_cases i <;> fin_cases k <;> simp)
example := C145_values_partial (d := Fin 2) (1 / 2) 1 (by norm_num) ![1, 2] ![3, 4] (Or.inl (by norm_num [Matrix.vec2_dotProduct]))
example := C145_line (d := Unit) (by simp) (1 / 2) (by norm_num)

end Degree
end Kerch
