import Verif.Props.PSDStat
import Verif.Props.PSDMore
import Verif.Props.PSD
set_option linter.unusedSectionVars false
set_option linter.unusedSimpArgs false
/-!
# C144: for which distance and dimension each of the statistics kernels is positive semi-definite
-/
namespace Kerch
namespace PSDTable
open Finset PSDStat

variable {d : Type} [Fintype d] [Nonempty d]

/-! ### The specification -/

/-- The cases: kernel, distance and number of coordinates. -/
def Good : StatKind → DistKind → ℕ → Prop
  | .exponential true, .euclidean, _ => True
  | .exponential false, .euclidean, _ => True
  | .exponential false, .manhattan, _ => True
  | .exponential false, .chebyshev, n => n ≤ 2
  | .exponential true, _, n => n = 1
  | .logistic, .euclidean, _ => True
  | .logistic, _, n => n = 1
  | .silverman, .euclidean, n => n ≤ 3
  | .silverman, _, n => n = 1
  | .triangular, _, n => n = 1
  | _, _, _ => False

/-! ### Values -/

/-- The value of a distance that has one. -/
noncomputable def dOf (D : DistKind) (σ : ℝ) (x y : d → ℝ) : ℝ :=
  match distSigma D σ x y with
  | .ok u => u
  | .error _ => 0

theorem dOf_ok (D : DistKind) (hD : ∀ p, D ≠ .minkowski p) (σ : ℝ) (x y : d → ℝ) : distSigma D σ x y = .ok (dOf D σ x y) := by
  cases D with
  | minkowski p => exact absurd rfl (hD p)
  | _ => rfl

theorem dOf_eq {D : DistKind} {σ u : ℝ} {x y : d → ℝ} (h : distSigma D σ x y = .ok u) : dOf D σ x y = u := by simp only [dOf, h]

theorem stat_ok (s : StatKind) (D : DistKind) (hD : ∀ p, D ≠ .minkowski p) (σ : ℝ) (x y : d → ℝ) : statKernel s D σ x y = .ok (profile s (dOf D σ x y)) := by
  cases s with
  | exponential b =>
    cases b with
    | false => simp only [statKernel]; rw [dOf_ok D hD]; rfl
    | true =>
      cases D with
      | euclidean =>
        simp only [statKernel, sqDistSigma, dOf, distSigma, profile, Except.map]
        rw [Real.sq_sqrt (mul_nonneg (sq_nonneg _) (show 0 ≤ euclidSq x y from sum_nonneg fun i _ => mul_self_nonneg _))]
      | manhattan => rfl
      | chebyshev => rfl
      | minkowski p => exact absurd rfl (hD p)
  | _ => simp only [statKernel]; rw [dOf_ok D hD]; rfl

/-- The kernel is given by its values. -/
theorem unique {s : StatKind} {D : DistKind} (hD : ∀ p, D ≠ .minkowski p) {σ : ℝ} {P : ((d → ℝ) → (d → ℝ) → ℝ) → Prop}
    (h : ∃ κ, (∀ x y, statKernel s D σ x y = .ok (κ x y)) ∧ P κ) : P fun x y => profile s (dOf D σ x y) := by
  obtain ⟨κ, h1, h2⟩ := h
  have : κ = fun x y => profile s (dOf D σ x y) := by
    funext x y
    have := (h1 x y).symm.trans (stat_ok s D hD σ x y)
    injection this
  rwa [← this]

/-! ### One coordinate -/

theorem dOf_one (hd : Fintype.card d = 1) (D : DistKind) (hD : ∀ p, D ≠ .minkowski p) {σ : ℝ} (hσ : 0 < σ) (a : d) (x y : d → ℝ) :
    dOf D σ x y = |x a / σ - y a / σ| := by
  classical
  have h1 : ∀ x : d → ℝ, x = onAxis a (x a) := fun x => funext fun k => by
    have : k = a := (Fintype.card_eq_one_iff.1 hd).elim fun z hz => (hz k).trans (hz a).symm
    simp [onAxis, this]
  refine dOf_eq ?_
  rw [h1 x, h1 y, axis_dist a D hD hσ]
  simp [onAxis]

theorem one_psd (hd : Fintype.card d = 1) (s : StatKind) (hs : (∃ b, s = .exponential b) ∨ s = .logistic ∨ s = .silverman ∨ s = .triangular) (D : DistKind)
    (hD : ∀ p, D ≠ .minkowski p) {σ : ℝ} (hσ : 0 < σ) : PSDOn Set.univ fun x y : d → ℝ => profile s (dOf D σ x y) := by
  obtain ⟨a⟩ := (inferInstance : Nonempty d)
  have hE : ∀ p, DistKind.euclidean ≠ .minkowski p := fun p => by simp
  have hM : ∀ p, DistKind.manhattan ≠ .minkowski p := fun p => by simp
  have e : ∀ x y : d → ℝ, dOf D σ x y = dOf .euclidean σ x y := fun x y => by rw [dOf_one hd D hD hσ a, dOf_one hd .euclidean hE hσ a]
  simp only [e]
  rcases hs with ⟨b, rfl⟩ | rfl | rfl | rfl
  · cases b with
    | false => exact unique hE (C81_laplacian σ)
    | true => exact unique hE (C26_rbf σ)
  · exact unique hE (C97_logistic σ)
  · exact unique hE (C97_silverman (by omega) σ)
  · intro ι _ x _
    have h := unique hM (C81_triangular_line σ hσ) ι (fun i _ => x i a) fun _ => trivial
    refine (funext₂ fun i j => ?_ : (fun i j => profile .triangular (dOf .euclidean σ (x i) (x j))) = _) ▸ h
    simp only
    rw [dOf_one hd .euclidean hE hσ a, dOf_one (by simp) .manhattan hM hσ ()]

/-! ### The plane -/

/-- A point of the plane whose Chebyshev or Manhattan distances are the largest of the differences of two numbers. -/
noncomputable def plane [DecidableEq d] (D : DistKind) (a b : d) (u v : ℝ) : d → ℝ := fun k =>
  match D with
  | .manhattan => if k = a then (u + v) / 2 else if k = b then (u - v) / 2 else 0
  | _ => if k = a then u else if k = b then v else 0

theorem half_sum (s t : ℝ) : |(s + t) / 2| + |(s - t) / 2| = max |s| |t| := by
  rcases abs_cases ((s + t) / 2) with ⟨h1, _⟩ | ⟨h1, _⟩ <;> rcases abs_cases ((s - t) / 2) with ⟨h2, _⟩ | ⟨h2, _⟩ <;> rcases abs_cases s with ⟨h3, _⟩ | ⟨h3, _⟩ <;>
    rcases abs_cases t with ⟨h4, _⟩ | ⟨h4, _⟩ <;> rw [h1, h2, h3, h4] <;>
    first
    | rw [max_eq_left (by linarith)]; linarith
    | rw [max_eq_right (by linarith)]; linarith

theorem plane_dist [DecidableEq d] (D : DistKind) (hD : D = .manhattan ∨ D = .chebyshev) {a b : d} (hab : a ≠ b) {σ : ℝ} (u v u' v' : ℝ) :
    dOf D σ (plane D a b u v) (plane D a b u' v') = 1 / σ * max |u - u'| |v - v'| := by
  rcases hD with rfl | rfl
  · refine dOf_eq ?_
    simp only [distSigma, manhattan]
    rw [← Finset.add_sum_erase _ _ (mem_univ a), ← Finset.add_sum_erase _ _ (mem_erase.2 ⟨hab.symm, mem_univ b⟩), Finset.sum_eq_zero, add_zero]
    · simp only [plane, if_true, if_neg hab.symm]
      rw [← half_sum]
      congr 4 <;> ring
    · intro k hk
      rw [mem_erase, mem_erase] at hk
      simp [plane, hk.1, hk.2.1]
  · refine dOf_eq ?_
    simp only [distSigma]
    congr 2
    unfold chebyshev
    refine le_antisymm (Finset.sup'_le _ _ fun k _ => ?_) (max_le ?_ ?_)
    · by_cases ha : k = a
      · simp [plane, ha]
      · by_cases hb : k = b
        · simp [plane, ha, hb, hab.symm]
        · simp [plane, ha, hb]
    · have := Finset.le_sup' (fun k => |plane .chebyshev a b u v k - plane .chebyshev a b u' v' k|) (mem_univ a)
      refine le_trans (le_of_eq ?_) this
      simp [plane]
    · have := Finset.le_sup' (fun k => |plane .chebyshev a b u v k - plane .chebyshev a b u' v' k|) (mem_univ b)
      refine le_trans (le_of_eq ?_) this
      simp [plane, hab.symm]

/-- Four points of the plane: a profile that decreases more elsewhere than from the origin is not positive semi-definite. -/
theorem plane_not_psd (D : DistKind) (hD : D = .manhattan ∨ D = .chebyshev) {a b : d} (hab : a ≠ b) {σ : ℝ} (hσ : 0 < σ) (p : ℝ → ℝ) {x t : ℝ} (hx : 0 ≤ x) (ht : 0 ≤ t)
    (h : p 0 - p t < p x - p (x + t)) : ¬ PSDOn Set.univ fun y z : d → ℝ => p (dOf D σ y z) := by
  classical
  intro hp
  have h4 := (hp (Fin 4) ![plane D a b 0 0, plane D a b (σ * t) (-(σ * t)), plane D a b (σ * x) (σ * x), plane D a b (σ * (x + t)) (σ * (x - t))]
    fun _ => trivial).2 ![1, -1, -1, 1]
  have hA : ∀ r, 0 ≤ r → |σ * r| = σ * r := fun r hr => abs_of_nonneg (mul_nonneg hσ.le hr)
  have m0 : 1 / σ * max |0| |(0 : ℝ)| = 0 := by simp
  simp only [Fin.sum_univ_four, Matrix.cons_val_zero, Matrix.cons_val_one, Matrix.cons_val, plane_dist D hD hab] at h4
  have key : ∀ u v r : ℝ, 0 ≤ r → (|u| = σ * r ∧ |v| ≤ σ * r) ∨ (|v| = σ * r ∧ |u| ≤ σ * r) → 1 / σ * max |u| |v| = r := by
    intro u v r hr h
    rcases h with ⟨h1, h2⟩ | ⟨h1, h2⟩
    · rw [h1, max_eq_left h2]; field_simp
    · rw [h1, max_eq_right h2]; field_simp
  have hxt : |σ * (x - t)| ≤ σ * (x + t) := by
    rw [abs_mul, abs_of_pos hσ]
    exact mul_le_mul_of_nonneg_left (abs_le.2 ⟨by linarith, by linarith⟩) hσ.le
  have e00 : ∀ u v : ℝ, 1 / σ * max |u - u| |v - v| = 0 := fun u v => by simp
  have eht : ∀ u v u' v' : ℝ, u - u' = σ * t ∨ u - u' = -(σ * t) → v - v' = σ * t ∨ v - v' = -(σ * t) → 1 / σ * max |u - u'| |v - v'| = t := by
    intro u v u' v' h1 h2
    refine key _ _ _ ht (Or.inl ⟨?_, ?_⟩)
    · rcases h1 with h1 | h1 <;> rw [h1] <;> [skip; rw [abs_neg]] <;> exact hA t ht
    · refine le_of_eq ?_
      rcases h2 with h2 | h2 <;> rw [h2] <;> [skip; rw [abs_neg]] <;> exact hA t ht
  have ehx : ∀ u v u' v' : ℝ, u - u' = σ * x ∨ u - u' = -(σ * x) → v - v' = σ * x ∨ v - v' = -(σ * x) → 1 / σ * max |u - u'| |v - v'| = x := by
    intro u v u' v' h1 h2
    refine key _ _ _ hx (Or.inl ⟨?_, ?_⟩)
    · rcases h1 with h1 | h1 <;> rw [h1] <;> [skip; rw [abs_neg]] <;> exact hA x hx
    · refine le_of_eq ?_
      rcases h2 with h2 | h2 <;> rw [h2] <;> [skip; rw [abs_neg]] <;> exact hA x hx
  have exl : ∀ u v u' v' : ℝ, u - u' = σ * (x + t) ∨ u - u' = -(σ * (x + t)) → v - v' = σ * (x - t) ∨ v - v' = -(σ * (x - t)) →
      1 / σ * max |u - u'| |v - v'| = x + t := by
    intro u v u' v' h1 h2
    refine key _ _ _ (by linarith) (Or.inl ⟨?_, ?_⟩)
    · rcases h1 with h1 | h1 <;> rw [h1] <;> [skip; rw [abs_neg]] <;> exact hA (x + t) (by linarith)
    · rcases h2 with h2 | h2 <;> rw [h2] <;> [skip; rw [abs_neg]] <;> exact hxt
  have exr : ∀ u v u' v' : ℝ, v - v' = σ * (x + t) ∨ v - v' = -(σ * (x + t)) → u - u' = σ * (x - t) ∨ u - u' = -(σ * (x - t)) →
      1 / σ * max |u - u'| |v - v'| = x + t := by
    intro u v u' v' h1 h2
    refine key _ _ _ (by linarith) (Or.inr ⟨?_, ?_⟩)
    · rcases h1 with h1 | h1 <;> rw [h1] <;> [skip; rw [abs_neg]] <;> exact hA (x + t) (by linarith)
    · rcases h2 with h2 | h2 <;> rw [h2] <;> [skip; rw [abs_neg]] <;> exact hxt
  rw [e00, e00, e00, e00,
    eht 0 0 (σ * t) (-(σ * t)) (Or.inr (by ring)) (Or.inl (by ring)), eht (σ * t) (-(σ * t)) 0 0 (Or.inl (by ring)) (Or.inr (by ring)),
    ehx 0 0 (σ * x) (σ * x) (Or.inr (by ring)) (Or.inr (by ring)), ehx (σ * x) (σ * x) 0 0 (Or.inl (by ring)) (Or.inl (by ring)),
    exl 0 0 (σ * (x + t)) (σ * (x - t)) (Or.inr (by ring)) (Or.inr (by ring)), exl (σ * (x + t)) (σ * (x - t)) 0 0 (Or.inl (by ring)) (Or.inl (by ring)),
    exr (σ * t) (-(σ * t)) (σ * x) (σ * x) (Or.inr (by ring)) (Or.inr (by ring)), exr (σ * x) (σ * x) (σ * t) (-(σ * t)) (Or.inl (by ring)) (Or.inl (by ring)),
    ehx (σ * t) (-(σ * t)) (σ * (x + t)) (σ * (x - t)) (Or.inr (by ring)) (Or.inr (by ring)),
    ehx (σ * (x + t)) (σ * (x - t)) (σ * t) (-(σ * t)) (Or.inl (by ring)) (Or.inl (by ring)),
    eht (σ * x) (σ * x) (σ * (x + t)) (σ * (x - t)) (Or.inr (by ring)) (Or.inl (by ring)),
    eht (σ * (x + t)) (σ * (x - t)) (σ * x) (σ * x) (Or.inl (by ring)) (Or.inr (by ring))] at h4
  linarith

theorem exp_pi_quarter : Real.sqrt 2 - 1 < Real.exp (-(Real.pi / 4)) := by
  have hp := Real.pi_lt_d2
  have h1 : (0.9 : ℝ) ≤ Real.exp (-(Real.pi / 32)) := by
    have := Real.add_one_le_exp (-(Real.pi / 32)); linarith
  have h2 : Real.exp (-(Real.pi / 4)) = Real.exp (-(Real.pi / 32)) ^ 8 := by rw [← Real.exp_nat_mul]; congr 1; push_cast; ring
  have h3 : (0.9 : ℝ) ^ 8 ≤ Real.exp (-(Real.pi / 32)) ^ 8 := pow_le_pow_left₀ (by norm_num) h1 8
  have h4 : Real.sqrt 2 < 1.42 := by rw [Real.sqrt_lt' (by norm_num)]; norm_num
  rw [h2]
  refine lt_of_lt_of_le ?_ h3
  norm_num at h4 ⊢
  linarith

/-- The profiles that are flat at the origin. -/
theorem flat_not_psd (s : StatKind) (hs : s = .exponential true ∨ s = .logistic ∨ s = .silverman) (D : DistKind) (hD : D = .manhattan ∨ D = .chebyshev) {a b : d} (hab : a ≠ b)
    {σ : ℝ} (hσ : 0 < σ) : ¬ PSDOn Set.univ fun x y : d → ℝ => profile s (dOf D σ x y) := by
  rcases hs with rfl | rfl | rfl
  · -- `e^{-t²/2} = 4/5`
    obtain ⟨t, ht, ht2⟩ : ∃ t : ℝ, 0 ≤ t ∧ t ^ 2 = 2 * Real.log (5 / 4) :=
      ⟨Real.sqrt (2 * Real.log (5 / 4)), Real.sqrt_nonneg _, Real.sq_sqrt (mul_nonneg (by norm_num) (Real.log_nonneg (by norm_num)))⟩
    have hE : Real.exp (-Real.log (5 / 4)) = 4 / 5 := by rw [Real.exp_neg, Real.exp_log (by norm_num)]; norm_num
    refine plane_not_psd D hD hab hσ _ ht ht ?_
    simp only [profile]
    rw [ht2, show (t + t) ^ 2 = 4 * t ^ 2 by ring, ht2, show 2 * Real.log (5 / 4) * -(1 / 2) = -Real.log (5 / 4) by ring,
      show 4 * (2 * Real.log (5 / 4)) * -(1 / 2) = ((4 : ℕ) : ℝ) * -Real.log (5 / 4) by push_cast; ring, Real.exp_nat_mul, hE]
    norm_num
  · have ht : 0 ≤ Real.log 2 := Real.log_nonneg (by norm_num)
    refine plane_not_psd D hD hab hσ _ ht ht ?_
    simp only [profile]
    rw [Real.exp_neg, Real.exp_neg, Real.exp_neg, Real.exp_add, Real.exp_log (by norm_num), Real.exp_zero]
    norm_num
  · have h2 : Real.sqrt (1 / 2) * Real.sqrt 2 = 1 := by rw [← Real.sqrt_mul (by norm_num)]; norm_num
    have hp := Real.pi_pos
    have ht : 0 ≤ Real.sqrt 2 * (Real.pi / 4) := by positivity
    refine plane_not_psd D hD hab hσ _ ht ht ?_
    rw [Silverman.profile_silv, Silverman.profile_silv, Silverman.profile_silv, mul_zero, mul_add, ← mul_assoc, h2, one_mul]
    have s2 : 0 < Real.sqrt 2 := by positivity
    have s22 : Real.sqrt 2 * Real.sqrt 2 = 2 := Real.mul_self_sqrt (by norm_num)
    have hy := exp_pi_quarter
    have hy1 : Real.exp (-(Real.pi / 4)) < 1 := Real.exp_zero ▸ Real.exp_lt_exp.2 (by linarith : -(Real.pi / 4) < 0)
    have e1 : Silverman.silv (Real.pi / 4) = Real.exp (-(Real.pi / 4)) * Real.sqrt 2 := by
      unfold Silverman.silv; rw [Real.sin_pi_div_four, Real.cos_pi_div_four]; ring
    have e2 : Silverman.silv (Real.pi / 4 + Real.pi / 4) = Real.exp (-(Real.pi / 4)) ^ 2 := by
      unfold Silverman.silv
      rw [show Real.pi / 4 + Real.pi / 4 = Real.pi / 2 by ring, Real.sin_pi_div_two, Real.cos_pi_div_two, sq, ← Real.exp_add]
      rw [show -(Real.pi / 4) + -(Real.pi / 4) = -(Real.pi / 2) by ring]; ring
    have e0 : Silverman.silv 0 = 1 := by simp [Silverman.silv]
    rw [e1, e2, e0]
    have : 1 + Real.exp (-(Real.pi / 4)) ^ 2 < 2 * (Real.exp (-(Real.pi / 4)) * Real.sqrt 2) := by nlinarith
    nlinarith

/-! ### The triangular kernel -/

/-- Signs that alternate along one of the directions of a grid. -/
def sgn4 (i : Fin 4 × Fin 4) : ℤ := if i.2.val % 2 = 0 then 1 else -1

/-- The largest of the differences. -/
def far (i j : Fin 4 × Fin 4) : ℕ := max ((i.1.val - j.1.val) + (j.1.val - i.1.val)) ((i.2.val - j.2.val) + (j.2.val - i.2.val))

theorem cell0 : ∑ i, ∑ j, sgn4 i * sgn4 j * (if far i j = 0 then 1 else 0) = 16 := by decide +kernel
theorem cell1 : ∑ i, ∑ j, sgn4 i * sgn4 j * (if far i j = 1 then 1 else 0) = -36 := by decide +kernel

theorem abs_diff (a b : ℕ) : |(a : ℝ) - b| = (((a - b) + (b - a) : ℕ) : ℝ) := by
  rcases le_total a b with h | h
  · rw [Nat.sub_eq_zero_of_le h, zero_add, Nat.cast_sub h, abs_of_nonpos (by simpa using h)]; ring
  · rw [Nat.sub_eq_zero_of_le h, add_zero, Nat.cast_sub h, abs_of_nonneg (by simpa using h)]

theorem triangular_not_psd (D : DistKind) (hD : D = .manhattan ∨ D = .chebyshev) {a b : d} (hab : a ≠ b) {σ : ℝ} (hσ : 0 < σ) :
    ¬ PSDOn Set.univ fun x y : d → ℝ => profile .triangular (dOf D σ x y) := by
  classical
  intro h
  have h16 := (h (Fin 4 × Fin 4) (fun i => plane D a b (σ / 2 * i.1.val) (σ / 2 * i.2.val)) fun _ => trivial).2 fun i => (sgn4 i : ℝ)
  have hM : ∀ i j : Fin 4 × Fin 4, profile .triangular (dOf D σ (plane D a b (σ / 2 * i.1.val) (σ / 2 * i.2.val)) (plane D a b (σ / 2 * j.1.val) (σ / 2 * j.2.val))) =
      (if far i j = 0 then 1 else 0) + (if far i j = 1 then 1 else 0) * (1 / 2) := by
    intro i j
    have e : 1 / σ * max |σ / 2 * (i.1.val : ℝ) - σ / 2 * j.1.val| |σ / 2 * (i.2.val : ℝ) - σ / 2 * j.2.val| = (far i j : ℝ) / 2 := by
      rw [← mul_sub, ← mul_sub, abs_mul, abs_mul, abs_of_pos (by positivity : 0 < σ / 2), ← mul_max_of_nonneg _ _ (by positivity), abs_diff, abs_diff, ← Nat.cast_max]
      unfold far
      field_simp
    rw [plane_dist D hD hab, e]
    generalize far i j = m
    rcases m with _ | _ | m
    · simp [profile]
    · norm_num [profile]
    · have h1 : (1 : ℝ) ≤ ((m + 1 + 1 : ℕ) : ℝ) / 2 := by push_cast; have : (0 : ℝ) ≤ m := by positivity
                                                          linarith
      simp only [profile, if_neg (show ¬ m + 1 + 1 = 0 by omega), if_neg (show ¬ m + 1 + 1 = 1 by omega)]
      split
      · next h2 => rw [le_antisymm h2 h1]; simp
      · simp
  simp only [hM] at h16
  have e : ∑ i, ∑ j, (sgn4 i : ℝ) * sgn4 j * ((if far i j = 0 then 1 else 0) + (if far i j = 1 then 1 else 0) * (1 / 2)) =
      ((∑ i, ∑ j, sgn4 i * sgn4 j * (if far i j = 0 then 1 else 0) : ℤ) : ℝ) + ((∑ i, ∑ j, sgn4 i * sgn4 j * (if far i j = 1 then 1 else 0) : ℤ) : ℝ) * (1 / 2) := by
    push_cast
    rw [sum_mul, ← sum_add_distrib]
    refine sum_congr rfl fun i _ => ?_
    rw [sum_mul, ← sum_add_distrib]
    exact sum_congr rfl fun j _ => by ring
  rw [e, cell0, cell1] at h16
  norm_num at h16

/-! ### The exponential kernel of the Chebyshev distance -/

theorem chebyshev_two (hd : Fintype.card d = 2) {a b : d} (hab : a ≠ b) (x y : d → ℝ) :
    chebyshev x y = |((x a + x b) / 2) - ((y a + y b) / 2)| + |((x a - x b) / 2) - ((y a - y b) / 2)| := by
  classical
  have h2 : ∀ k, k = a ∨ k = b := by
    intro k
    have : ({a, b} : Finset d) = univ := Finset.eq_univ_of_card _ (by rw [card_pair hab, hd])
    have hk := this ▸ mem_univ k
    simpa using hk
  have : chebyshev x y = max |x a - y a| |x b - y b| := by
    unfold chebyshev
    refine le_antisymm (Finset.sup'_le _ _ fun k _ => ?_) (max_le ?_ ?_)
    · rcases h2 k with rfl | rfl
      · exact le_max_left _ _
      · exact le_max_right _ _
    · exact Finset.le_sup' (fun k => |x k - y k|) (mem_univ a)
    · exact Finset.le_sup' (fun k => |x k - y k|) (mem_univ b)
  rw [this, ← half_sum]
  congr 2 <;> ring

theorem chebyshev_plane (hd : Fintype.card d = 2) {σ : ℝ} (hσ : 0 < σ) : PSDOn Set.univ fun x y : d → ℝ => profile (.exponential false) (dOf .chebyshev σ x y) := by
  obtain ⟨a, b, hab⟩ : ∃ a b : d, a ≠ b := Fintype.exists_pair_of_one_lt_card (by omega)
  intro ι _ x _
  have h1 := psdMat_exp_abs (a := 1 / σ * Real.sqrt (1 / 2)) (by positivity) fun i => (x i a + x i b) / 2
  have h2 := psdMat_exp_abs (a := 1 / σ * Real.sqrt (1 / 2)) (by positivity) fun i => (x i a - x i b) / 2
  refine (funext₂ fun i j => ?_ : (fun i j => profile (.exponential false) (dOf .chebyshev σ (x i) (x j))) = _) ▸ h1.mul h2
  rw [dOf_eq (u := 1 / σ * chebyshev (x i) (x j)) rfl, chebyshev_two hd hab]
  simp only [profile]
  rw [← Real.exp_add]
  congr 1; ring

/-- The points of a square, and two points above and below its centre. -/
def sixPt : Fin 6 → Fin 3 → ℤ := ![![0, 0, 1], ![0, 0, -1], ![1, 1, 0], ![1, -1, 0], ![-1, 1, 0], ![-1, -1, 0]]

/-- Their distances. -/
def sixDist (i j : Fin 6) : ℕ := (univ.sup fun k => (sixPt i k - sixPt j k).natAbs)

/-- The weights. -/
def sixW : Fin 6 → ℤ := ![2, 2, -1, -1, -1, -1]

theorem six_le : ∀ i j, sixDist i j ≤ 2 := by decide +kernel
theorem six0 : ∑ i, ∑ j, sixW i * sixW j * (if sixDist i j = 0 then 1 else 0) = 12 := by decide +kernel
theorem six1 : ∑ i, ∑ j, sixW i * sixW j * (if sixDist i j = 1 then 1 else 0) = -32 := by decide +kernel
theorem six2 : ∑ i, ∑ j, sixW i * sixW j * (if sixDist i j = 2 then 1 else 0) = 20 := by decide +kernel

theorem chebyshev_space (hd : 3 ≤ Fintype.card d) {σ : ℝ} (hσ : 0 < σ) : ¬ PSDOn Set.univ fun x y : d → ℝ => profile (.exponential false) (dOf .chebyshev σ x y) := by
  intro h
  obtain ⟨e⟩ : Nonempty (Fin 3 ↪ d) := Function.Embedding.nonempty_of_card_le (by simpa using hd)
  -- the scale at which the profile is `4/5`
  obtain ⟨t, ht⟩ : ∃ t : ℝ, t = σ * (Real.sqrt 2 * Real.log (5 / 4)) := ⟨_, rfl⟩
  have hl : 0 < Real.log (5 / 4) := Real.log_pos (by norm_num)
  have ht0 : 0 < t := by rw [ht]; positivity
  have h2 : Real.sqrt 2 * Real.sqrt (1 / 2) = 1 := by rw [← Real.sqrt_mul (by norm_num)]; norm_num
  have hE : Real.exp (-Real.log (5 / 4)) = 4 / 5 := by rw [Real.exp_neg, Real.exp_log (by norm_num)]; norm_num
  have h6 := (h (Fin 6) (fun i => Function.extend e (fun k => t * sixPt i k) 0) fun _ => trivial).2 fun i => (sixW i : ℝ)
  have hc : ∀ i j, chebyshev (Function.extend e (fun k => t * sixPt i k) 0) (Function.extend e (fun k => t * sixPt j k) (0 : d → ℝ)) = t * sixDist i j := by
    intro i j
    have hk : ∀ k : Fin 3, |Function.extend e (fun k => t * (sixPt i k : ℝ)) 0 (e k) - Function.extend e (fun k => t * (sixPt j k : ℝ)) (0 : d → ℝ) (e k)| =
        t * ((sixPt i k - sixPt j k).natAbs : ℝ) := by
      intro k
      rw [e.injective.extend_apply, e.injective.extend_apply, ← mul_sub, abs_mul, abs_of_pos ht0, Nat.cast_natAbs]
      push_cast; rfl
    unfold chebyshev
    refine le_antisymm (Finset.sup'_le _ _ fun k _ => ?_) ?_
    · by_cases hr : ∃ l, e l = k
      · obtain ⟨l, rfl⟩ := hr
        rw [hk]
        refine mul_le_mul_of_nonneg_left ?_ ht0.le
        exact_mod_cast Finset.le_sup (f := fun k => (sixPt i k - sixPt j k).natAbs) (mem_univ l)
      · rw [Function.extend_apply' _ _ _ hr, Function.extend_apply' _ _ _ hr]
        simp only [Pi.zero_apply, sub_self, abs_zero]
        positivity
    · obtain ⟨l, _, hl⟩ := Finset.exists_mem_eq_sup (univ : Finset (Fin 3)) univ_nonempty fun k => (sixPt i k - sixPt j k).natAbs
      unfold sixDist
      rw [hl, ← hk]
      exact Finset.le_sup' (fun k => |Function.extend e (fun k => t * (sixPt i k : ℝ)) 0 k - Function.extend e (fun k => t * (sixPt j k : ℝ)) (0 : d → ℝ) k|) (mem_univ (e l))
  have hM : ∀ i j, profile (.exponential false) (dOf .chebyshev σ (Function.extend e (fun k => t * sixPt i k) 0) (Function.extend e (fun k => t * sixPt j k) (0 : d → ℝ))) =
      (if sixDist i j = 0 then 1 else 0) + (if sixDist i j = 1 then 1 else 0) * (4 / 5) + (if sixDist i j = 2 then 1 else 0) * (16 / 25) := by
    intro i j
    rw [dOf_eq (u := 1 / σ * (t * sixDist i j)) (by simp only [distSigma]; rw [hc])]
    have e1 : 1 / σ * (t * (sixDist i j : ℝ)) * -Real.sqrt (1 / 2) = (sixDist i j : ℕ) * -Real.log (5 / 4) := by
      rw [ht]
      have : 1 / σ * (σ * (Real.sqrt 2 * Real.log (5 / 4)) * (sixDist i j : ℝ)) * -Real.sqrt (1 / 2) =
        (Real.sqrt 2 * Real.sqrt (1 / 2)) * ((sixDist i j : ℝ) * -Real.log (5 / 4)) := by field_simp
      rw [this, h2, one_mul]
    simp only [profile]
    rw [e1, Real.exp_nat_mul, hE]
    have h3 := six_le i j
    generalize sixDist i j = m at h3
    interval_cases m <;> norm_num
  simp only [hM] at h6
  have es : ∑ i, ∑ j, (sixW i : ℝ) * sixW j * ((if sixDist i j = 0 then 1 else 0) + (if sixDist i j = 1 then 1 else 0) * (4 / 5) + (if sixDist i j = 2 then 1 else 0) * (16 / 25)) =
      ((∑ i, ∑ j, sixW i * sixW j * (if sixDist i j = 0 then 1 else 0) : ℤ) : ℝ) + ((∑ i, ∑ j, sixW i * sixW j * (if sixDist i j = 1 then 1 else 0) : ℤ) : ℝ) * (4 / 5) +
      ((∑ i, ∑ j, sixW i * sixW j * (if sixDist i j = 2 then 1 else 0) : ℤ) : ℝ) * (16 / 25) := by
    push_cast
    rw [sum_mul, sum_mul, ← sum_add_distrib, ← sum_add_distrib]
    refine sum_congr rfl fun i _ => ?_
    rw [sum_mul, sum_mul, ← sum_add_distrib, ← sum_add_distrib]
    exact sum_congr rfl fun j _ => by ring
  rw [es, six0, six1, six2] at h6
  norm_num at h6

/-! ### The theorem -/

/-- **C144** The statistics kernels have a value for the Euclidean, Manhattan and Chebyshev distances, and it is positive semi-definite exactly in the cases of `Good`, for every
dimension and bandwidth. -/
theorem C144_table (s : StatKind) (D : DistKind) (hD : ∀ p, D ≠ .minkowski p) (σ : ℝ) (hσ : 0 < σ) :
    ∃ κ : (d → ℝ) → (d → ℝ) → ℝ, (∀ x y, statKernel s D σ x y = .ok (κ x y)) ∧ (PSDOn Set.univ κ ↔ Good s D (Fintype.card d)) := by
  refine ⟨fun x y => profile s (dOf D σ x y), stat_ok s D hD σ, ?_⟩
  have hpos : 0 < Fintype.card d := Fintype.card_pos
  -- more than one coordinate
  have pair : Fintype.card d ≠ 1 → ∃ a b : d, a ≠ b := fun h => Fintype.exists_pair_of_one_lt_card (by omega)
  have one : ∀ s : StatKind, ((∃ b, s = .exponential b) ∨ s = .logistic ∨ s = .silverman ∨ s = .triangular) →
      (∀ a b : d, a ≠ b → ¬ PSDOn Set.univ fun x y : d → ℝ => profile s (dOf D σ x y)) → (PSDOn Set.univ (fun x y : d → ℝ => profile s (dOf D σ x y)) ↔ Fintype.card d = 1) :=
    fun s hs hn => ⟨fun h => by_contra fun h1 => (pair h1).elim fun a h2 => h2.elim fun b hab => hn a b hab h, fun h => one_psd h s hs D hD hσ⟩
  have none : ∀ s : StatKind, (s = .epanechnikov ∨ s = .quartic ∨ s = .triweight ∨ s = .tricube ∨ s = .uniform) →
      (PSDOn Set.univ (fun x y : d → ℝ => profile s (dOf D σ x y)) ↔ False) := fun s hs => iff_false_intro (unique hD (C97_support_violated s hs D hD σ hσ))
  cases s with
  | epanechnikov => exact none _ (by simp)
  | quartic => exact none _ (by simp)
  | triweight => exact none _ (by simp)
  | tricube => exact none _ (by simp)
  | uniform => exact none _ (by simp)
  | triangular =>
    refine one _ (by simp) fun a b hab => ?_
    cases D with
    | euclidean => exact unique hD (C97_triangular_violated a b hab σ hσ)
    | manhattan => exact triangular_not_psd _ (by simp) hab hσ
    | chebyshev => exact triangular_not_psd _ (by simp) hab hσ
    | minkowski p => exact absurd rfl (hD p)
  | silverman =>
    cases D with
    | euclidean =>
      refine ⟨fun h => ?_, fun h => unique hD (C97_silverman h σ)⟩
      by_contra h4
      exact unique hD (C97_silverman_violated (d := d) (by simp only [Good] at h4; omega) σ hσ) h
    | manhattan => exact one _ (by simp) fun a b hab => flat_not_psd _ (by simp) _ (by simp) hab hσ
    | chebyshev => exact one _ (by simp) fun a b hab => flat_not_psd _ (by simp) _ (by simp) hab hσ
    | minkowski p => exact absurd rfl (hD p)
  | logistic =>
    cases D with
    | euclidean => exact iff_of_true (unique hD (C97_logistic σ)) trivial
    | manhattan => exact one _ (by simp) fun a b hab => flat_not_psd _ (by simp) _ (by simp) hab hσ
    | chebyshev => exact one _ (by simp) fun a b hab => flat_not_psd _ (by simp) _ (by simp) hab hσ
    | minkowski p => exact absurd rfl (hD p)
  | exponential q =>
    cases q with
    | true =>
      cases D with
      | euclidean => exact iff_of_true (unique hD (C26_rbf σ)) trivial
      | manhattan => exact one _ (by simp) fun a b hab => flat_not_psd _ (by simp) _ (by simp) hab hσ
      | chebyshev => exact one _ (by simp) fun a b hab => flat_not_psd _ (by simp) _ (by simp) hab hσ
      | minkowski p => exact absurd rfl (hD p)
    | false =>
      cases D with
      | euclidean => exact iff_of_true (unique hD (C81_laplacian σ)) trivial
      | manhattan => exact iff_of_true (unique hD (C81_manhattan σ hσ)) trivial
      | chebyshev =>
        constructor
        · intro h
          by_contra h3
          exact chebyshev_space (d := d) (by simp only [Good] at h3; omega) hσ h
        · intro h
          simp only [Good] at h
          rcases (by omega : Fintype.card d = 1 ∨ Fintype.card d = 2) with h1 | h1
          · exact one_psd h1 _ (by simp) _ hD hσ
          · exact chebyshev_plane h1 hσ
      | minkowski p => exact absurd rfl (hD p)

/-- **C144** With the Minkowski distance no kernel has a value. -/
theorem C144_minkowski (s : StatKind) (p σ : ℝ) (x y : d → ℝ) : statKernel s (.minkowski p) σ x y = .error .attributeError := by
  cases s with
  | exponential b => cases b <;> rfl
  | _ => rfl

/-- The Silverman kernel in three and in four dimensions, the exponential kernel of the Chebyshev distance in the plane and in space. -/
example : Good .silverman .euclidean 3 ∧ ¬ Good .silverman .euclidean 4 ∧ Good (.exponential false) .chebyshev 2 ∧ ¬ Good (.exponential false) .chebyshev 3 := by
  simp only [Good]; omega
example := C144_table (d := Fin 3) (.exponential false) .chebyshev (by simp) 2 two_pos

end PSDTable
end Kerch
