import Verif.Lemmas.PSDStat
import Verif.Lemmas.Silverman
import Mathlib.Analysis.Real.Pi.Bounds
import Mathlib.Analysis.Complex.ExponentialBounds
set_option linter.unusedSectionVars false
set_option linter.unusedSimpArgs false
/-!
# C97: which of the other kernels are positive semi-definite
-/
namespace Kerch
namespace PSDStat
open Finset

section
variable {d : Type} [Fintype d] [Nonempty d]

/-- **C97**: the logistic kernel of the Euclidean distance is positive semi-definite, for every dimension, bandwidth and finite set of points. -/
theorem C97_logistic (σ : ℝ) :
    ∃ κ : (d → ℝ) → (d → ℝ) → ℝ, (∀ x y, statKernel .logistic .euclidean σ x y = .ok (κ x y)) ∧ PSDOn Set.univ κ := by
  refine ⟨fun x y => profile .logistic (Real.sqrt ((1 / σ) ^ 2 * euclidSq x y)), fun x y => rfl, ?_⟩
  intro ι _ x _
  refine (funext₂ fun i j => ?_ : (fun i j => profile .logistic (Real.sqrt ((1 / σ) ^ 2 * euclidSq (x i) (x j)))) = _) ▸ psdMat_sech (1 / σ) x
  generalize Real.sqrt ((1 / σ) ^ 2 * euclidSq (x i) (x j)) = u
  have e : Real.exp u + Real.exp (-u) + 2 = 4 * Real.cosh (u / 2) ^ 2 := by
    have h1 : Real.exp u = Real.exp (u / 2) ^ 2 := by rw [sq, ← Real.exp_add]; congr 1; ring
    have h2 : Real.exp (-u) = Real.exp (-(u / 2)) ^ 2 := by rw [sq, ← Real.exp_add]; congr 1; ring
    have h3 : Real.exp (u / 2) * Real.exp (-(u / 2)) = 1 := by rw [← Real.exp_add, add_neg_cancel, Real.exp_zero]
    rw [Real.cosh_eq, h1, h2]
    nlinarith [h3]
  have hc := (Real.cosh_pos (u / 2)).ne'
  simp only [profile]
  rw [e]
  field_simp

/-- On the line, all distances are the same. -/
theorem line_dist (D : DistKind) (hD : ∀ p, D ≠ .minkowski p) {σ : ℝ} (hσ : 0 < σ) (x y : Unit → ℝ) :
    distSigma D σ x y = .ok |x () / σ - y () / σ| := by
  have e : |x () / σ - y () / σ| = 1 / σ * |x () - y ()| := by rw [← sub_div, abs_div, abs_of_pos hσ]; ring
  cases D with
  | euclidean =>
    simp only [distSigma, euclidSq, univ_unique, PUnit.default_eq_unit, sum_singleton]
    rw [e, ← abs_mul_abs_self, Real.sqrt_mul (sq_nonneg _), Real.sqrt_sq (by positivity), Real.sqrt_mul_self (abs_nonneg _)]
  | manhattan => simp only [distSigma, manhattan, univ_unique, PUnit.default_eq_unit, sum_singleton]; rw [e]
  | chebyshev => simp only [distSigma]; rw [e]; simp [chebyshev]
  | minkowski p => exact absurd rfl (hD p)

/-- **C97**: with any distance, Silverman's kernel is positive semi-definite on the line, for every bandwidth. -/
theorem C97_silverman_line (D : DistKind) (hD : ∀ p, D ≠ .minkowski p) (σ : ℝ) (hσ : 0 < σ) :
    ∃ κ : (Unit → ℝ) → (Unit → ℝ) → ℝ, (∀ x y, statKernel .silverman D σ x y = .ok (κ x y)) ∧ PSDOn Set.univ κ := by
  refine ⟨fun x y => profile .silverman |x () / σ - y () / σ|, fun x y => by simp only [statKernel]; rw [line_dist D hD hσ]; rfl, ?_⟩
  intro ι _ x _
  have h := (psdMat_silverman (a := Real.sqrt (1 / 2)) (by positivity) fun i => x i () / σ).smul (a := Real.sqrt 2 / 2) (by positivity)
  refine (funext₂ fun i j => ?_ : (fun i j => profile .silverman |x i () / σ - x j () / σ|) = _) ▸ h
  simp only [profile]
  rw [Real.sin_add, show (0.25 : ℝ) * Real.pi = Real.pi / 4 by ring, Real.sin_pi_div_four, Real.cos_pi_div_four]
  ring

/-! ### Kernels of bounded support -/

/-- Alternating signs. -/
def sgn (i : Fin 10) : ℤ := if i.val % 2 = 0 then 1 else -1

/-- Pairs at distance `k`. -/
def apart (k : ℕ) (i j : Fin 10) : ℤ := if (i.val - j.val) + (j.val - i.val) = k then 1 else 0

theorem count0 : ∑ i, ∑ j, sgn i * sgn j * apart 0 i j = 10 := by decide
theorem count1 : ∑ i, ∑ j, sgn i * sgn j * apart 1 i j = -18 := by decide
theorem count2 : ∑ i, ∑ j, sgn i * sgn j * apart 2 i j = 16 := by decide

/-- Ten points at the same distance from one another and alternating signs. -/
theorem not_psd (p : ℝ → ℝ) (δ : ℝ) (hδ : 0 < δ) (h0 : p 0 = 1) (hfar : ∀ k : ℕ, 3 ≤ k → p (k * δ) = 0) (hneg : 10 - 18 * p δ + 16 * p (2 * δ) < 0) {σ : ℝ}
    (hσ : 0 < σ) : ¬ PSDOn Set.univ fun x y : Unit → ℝ => p |x () / σ - y () / σ| := by
  intro h
  have h10 := (h (Fin 10) (fun i _ => i.val * δ * σ) fun _ => trivial).2 fun i => (sgn i : ℝ)
  have hM : ∀ i j : Fin 10, p |(i.val * δ * σ) / σ - (j.val * δ * σ) / σ| = apart 0 i j + apart 1 i j * p δ + apart 2 i j * p (2 * δ) := by
    intro i j
    obtain ⟨k, hk⟩ : ∃ k, k = (i.val - j.val) + (j.val - i.val) := ⟨_, rfl⟩
    have e : |(i.val * δ * σ) / σ - (j.val * δ * σ) / σ| = k * δ := by
      rw [mul_div_assoc, div_self hσ.ne', mul_one, mul_div_assoc, div_self hσ.ne', mul_one, ← sub_mul, abs_mul, abs_of_pos hδ]
      congr 1
      rcases le_total i.val j.val with hij | hij
      · have hr : (i.val : ℝ) ≤ j.val := by exact_mod_cast hij
        rw [hk, Nat.sub_eq_zero_of_le hij, zero_add, Nat.cast_sub hij, abs_of_nonpos (by linarith)]; ring
      · have hr : (j.val : ℝ) ≤ i.val := by exact_mod_cast hij
        rw [hk, Nat.sub_eq_zero_of_le hij, add_zero, Nat.cast_sub hij, abs_of_nonneg (by linarith)]
    rw [e]
    simp only [apart, ← hk]
    rcases k with _ | _ | _ | k
    · simp [h0]
    · simp
    · simp
    · rw [hfar _ (by omega)]; simp
  simp only [hM] at h10
  have e : ∑ i : Fin 10, ∑ j : Fin 10, (sgn i : ℝ) * sgn j * (apart 0 i j + apart 1 i j * p δ + apart 2 i j * p (2 * δ)) =
      ((∑ i, ∑ j, sgn i * sgn j * apart 0 i j : ℤ) : ℝ) + ((∑ i, ∑ j, sgn i * sgn j * apart 1 i j : ℤ) : ℝ) * p δ +
      ((∑ i, ∑ j, sgn i * sgn j * apart 2 i j : ℤ) : ℝ) * p (2 * δ) := by
    push_cast
    rw [sum_mul, sum_mul, ← sum_add_distrib, ← sum_add_distrib]
    refine sum_congr rfl fun i _ => ?_
    rw [sum_mul, sum_mul, ← sum_add_distrib, ← sum_add_distrib]
    exact sum_congr rfl fun j _ => by ring
  rw [e, count0, count1, count2] at h10
  push_cast at h10
  linarith

/-- The points of a line in a space of any dimension. -/
noncomputable def onAxis {d : Type} [DecidableEq d] (a : d) (t : ℝ) : d → ℝ := fun i => if i = a then t else 0

theorem axis_dist {d : Type} [Fintype d] [Nonempty d] [DecidableEq d] (a : d) (D : DistKind) (hD : ∀ p, D ≠ .minkowski p) {σ : ℝ} (hσ : 0 < σ) (s t : ℝ) :
    distSigma D σ (onAxis a s) (onAxis a t) = .ok |s / σ - t / σ| := by
  rw [← line_dist D hD hσ (fun _ => s) (fun _ => t)]
  have hz : ∀ i, i ≠ a → onAxis a s i - onAxis a t i = 0 := fun i hi => by simp [onAxis, hi]
  have ha : onAxis a s a - onAxis a t a = s - t := by simp [onAxis]
  cases D with
  | euclidean =>
    simp only [distSigma, euclidSq, univ_unique, PUnit.default_eq_unit, sum_singleton]
    rw [Finset.sum_eq_single a (fun i _ hi => by rw [hz i hi, zero_mul]) (by simp), ha]
  | manhattan =>
    simp only [distSigma, manhattan, univ_unique, PUnit.default_eq_unit, sum_singleton]
    rw [Finset.sum_eq_single a (fun i _ hi => by rw [hz i hi, abs_zero]) (by simp), ha]
  | chebyshev =>
    simp only [distSigma]
    congr 2
    have h1 : chebyshev (fun _ : Unit => s) (fun _ => t) = |s - t| := by simp [chebyshev]
    rw [h1]
    refine le_antisymm (Finset.sup'_le _ _ fun i _ => ?_) ?_
    · by_cases hi : i = a
      · rw [hi, ha]
      · rw [hz i hi, abs_zero]; exact abs_nonneg _
    · rw [← ha]; exact Finset.le_sup' (fun i => |onAxis a s i - onAxis a t i|) (mem_univ a)
  | minkowski p => exact absurd rfl (hD p)

theorem support_line (s : StatKind) (hs : s = .epanechnikov ∨ s = .quartic ∨ s = .triweight ∨ s = .tricube ∨ s = .uniform) (D : DistKind)
    (hD : ∀ p, D ≠ .minkowski p) (σ : ℝ) (hσ : 0 < σ) :
    ∃ κ : (Unit → ℝ) → (Unit → ℝ) → ℝ, (∀ x y, statKernel s D σ x y = .ok (κ x y)) ∧ ¬ PSDOn Set.univ κ := by
  refine ⟨fun x y => profile s |x () / σ - y () / σ|, fun x y => ?_, ?_⟩
  · rcases hs with rfl | rfl | rfl | rfl | rfl <;> (simp only [statKernel]; rw [line_dist D hD hσ]; rfl)
  · have hk : ∀ {δ : ℝ} (_ : 9 / 25 < δ) {k : ℕ} (_ : 3 ≤ k), ¬ ((k : ℝ) * δ ≤ 1) := by
      intro δ hd k hk
      have : (3 : ℝ) ≤ k := by exact_mod_cast hk
      nlinarith
    rcases hs with rfl | rfl | rfl | rfl | rfl
    · exact not_psd (profile .epanechnikov) (9 / 20) (by norm_num) (by norm_num [profile])
        (fun k h => by simp only [profile]; rw [if_neg (hk (by norm_num) h)]) (by norm_num [profile]) hσ
    · exact not_psd (profile .quartic) (9 / 20) (by norm_num) (by norm_num [profile])
        (fun k h => by simp only [profile]; rw [if_neg (hk (by norm_num) h)]) (by norm_num [profile]) hσ
    · exact not_psd (profile .triweight) (37 / 100) (by norm_num) (by norm_num [profile])
        (fun k h => by simp only [profile]; rw [if_neg (hk (by norm_num) h)]) (by norm_num [profile]) hσ
    · exact not_psd (profile .tricube) (9 / 20) (by norm_num) (by norm_num [profile])
        (fun k h => by simp only [profile]; rw [if_neg (hk (by norm_num) h)]) (by norm_num [profile]) hσ
    · exact not_psd (profile .uniform) (9 / 10) (by norm_num) (by norm_num [profile])
        (fun k h => by simp only [profile]; rw [if_neg (hk (by norm_num) h)]) (by norm_num [profile]) hσ

/-- **C97** does not hold for the kernels of bounded support but the triangular one: Epanechnikov, quartic, triweight, tricube and uniform kernels are not
positive semi-definite, in any dimension, for any distance and any bandwidth. -/
theorem C97_support_violated (s : StatKind) (hs : s = .epanechnikov ∨ s = .quartic ∨ s = .triweight ∨ s = .tricube ∨ s = .uniform) (D : DistKind)
    (hD : ∀ p, D ≠ .minkowski p) (σ : ℝ) (hσ : 0 < σ) :
    ∃ κ : (d → ℝ) → (d → ℝ) → ℝ, (∀ x y, statKernel s D σ x y = .ok (κ x y)) ∧ ¬ PSDOn Set.univ κ := by
  classical
  obtain ⟨a⟩ := (inferInstance : Nonempty d)
  have he : ∀ x y : d → ℝ, ∃ r, statKernel s D σ x y = .ok r := by
    intro x y
    cases D with
    | minkowski p => exact absurd rfl (hD p)
    | _ => rcases hs with rfl | rfl | rfl | rfl | rfl <;> exact ⟨_, rfl⟩
  choose κ hκ using he
  obtain ⟨κ₁, h1, hn⟩ := support_line s hs D hD σ hσ
  refine ⟨κ, hκ, fun h => hn fun ι _ x _ => ?_⟩
  have e : (fun i j => κ₁ (x i) (x j)) = fun i j => κ (onAxis a (x i ())) (onAxis a (x j ())) := by
    funext i j
    have a1 := hκ (onAxis a (x i ())) (onAxis a (x j ()))
    have a2 := h1 (x i) (x j)
    have a3 : statKernel s D σ (onAxis a (x i ())) (onAxis a (x j ())) = statKernel s D σ (x i) (x j) := by
      rcases hs with rfl | rfl | rfl | rfl | rfl <;> (simp only [statKernel]; rw [axis_dist a D hD hσ, line_dist D hD hσ])
    rw [a3, a2] at a1
    injection a1
  rw [e]
  exact h ι (fun i => onAxis a (x i ())) fun _ => trivial

/-! ### The triangular kernel in the plane, the Silverman kernel -/

/-- Alternating signs on a square grid. -/
def sgn2 (i : Fin 8 × Fin 8) : ℤ := if (i.1.val + i.2.val) % 2 = 0 then 1 else -1

/-- Square of the distance on the grid. -/
def sq2 (i j : Fin 8 × Fin 8) : ℕ := ((i.1.val - j.1.val) + (j.1.val - i.1.val)) ^ 2 + ((i.2.val - j.2.val) + (j.2.val - i.2.val)) ^ 2

/-- Pairs whose squared distance is `m`. -/
def apart2 (m : ℕ) (i j : Fin 8 × Fin 8) : ℤ := if sq2 i j = m then 1 else 0

theorem grid0 : ∑ i, ∑ j, sgn2 i * sgn2 j * apart2 0 i j = 64 := by decide +kernel
theorem grid1 : ∑ i, ∑ j, sgn2 i * sgn2 j * apart2 1 i j = -224 := by decide +kernel

theorem abs_diff_sq (a b : ℕ) : ((a : ℝ) - b) * (a - b) = (((a - b) + (b - a) : ℕ) : ℝ) ^ 2 := by
  rcases le_total a b with h | h
  · rw [Nat.sub_eq_zero_of_le h, zero_add, Nat.cast_sub h]; ring
  · rw [Nat.sub_eq_zero_of_le h, add_zero, Nat.cast_sub h]; ring

/-- **C97** does not hold for the triangular kernel either as soon as the points have two coordinates (on the line it does, `C81_triangular_line`): with the
Euclidean distance it is not positive semi-definite, whatever the bandwidth. -/
theorem C97_triangular_violated {d : Type} [Fintype d] [Nonempty d] (a b : d) (hab : a ≠ b) (σ : ℝ) (hσ : 0 < σ) :
    ∃ κ : (d → ℝ) → (d → ℝ) → ℝ, (∀ x y, statKernel .triangular .euclidean σ x y = .ok (κ x y)) ∧ ¬ PSDOn Set.univ κ := by
  classical
  refine ⟨fun x y => profile .triangular (Real.sqrt ((1 / σ) ^ 2 * euclidSq x y)), fun x y => rfl, fun h => ?_⟩
  obtain ⟨s, hs⟩ : ∃ s, s = Real.sqrt (1 / 2) := ⟨_, rfl⟩
  have hs2 : s * s = 1 / 2 := by rw [hs]; exact Real.mul_self_sqrt (by norm_num)
  have hs0 : 0 ≤ s := by rw [hs]; exact Real.sqrt_nonneg _
  obtain ⟨pt, hpt⟩ : ∃ pt : Fin 8 × Fin 8 → d → ℝ, pt = fun i k => if k = a then i.1.val * s * σ else if k = b then i.2.val * s * σ else 0 := ⟨_, rfl⟩
  have hd : ∀ i j, (1 / σ) ^ 2 * euclidSq (pt i) (pt j) = (sq2 i j : ℝ) / 2 := by
    intro i j
    have e : euclidSq (pt i) (pt j) = (i.1.val * s * σ - j.1.val * s * σ) * (i.1.val * s * σ - j.1.val * s * σ) +
        (i.2.val * s * σ - j.2.val * s * σ) * (i.2.val * s * σ - j.2.val * s * σ) := by
      unfold euclidSq
      rw [← Finset.add_sum_erase _ _ (mem_univ a), ← Finset.add_sum_erase _ _ (mem_erase.2 ⟨hab.symm, mem_univ b⟩), Finset.sum_eq_zero, add_zero]
      · simp [hpt, hab.symm]
      · intro k hk
        rw [mem_erase, mem_erase] at hk
        simp [hpt, hk.1, hk.2.1]
    rw [e, sq2]
    push_cast
    have e1 := abs_diff_sq i.1.val j.1.val
    have e2 := abs_diff_sq i.2.val j.2.val
    push_cast at e1 e2
    rw [← e1, ← e2]
    field_simp
    linear_combination (2 * ((i.1.val : ℝ) - j.1.val) ^ 2 + 2 * ((i.2.val : ℝ) - j.2.val) ^ 2) * hs2
  have hM : ∀ i j, profile .triangular (Real.sqrt ((1 / σ) ^ 2 * euclidSq (pt i) (pt j))) = apart2 0 i j + apart2 1 i j * (1 - s) := by
    intro i j
    rw [hd]
    simp only [apart2]
    rcases sq2 i j with _ | _ | m
    · simp [profile]
    · have h1 : s ≤ 1 := by nlinarith
      simp [profile]
      have : Real.sqrt 2⁻¹ = s := by rw [hs]; norm_num
      rw [Real.sqrt_inv] at this
      rw [this, if_pos h1]
    · have h1 : (1 : ℝ) ≤ Real.sqrt (((m + 1 + 1 : ℕ) : ℝ) / 2) := by
        rw [Real.one_le_sqrt, le_div_iff₀ (by norm_num)]
        push_cast; have := Nat.cast_nonneg (α := ℝ) m; linarith
      simp only [profile]
      simp only [Nat.add_eq_zero_iff, if_neg, show ¬ (m + 1 + 1 = 0) by omega, show ¬ (m + 1 + 1 = 1) by omega, if_false]
      split
      · next h2 => rw [le_antisymm h2 h1]; simp
      · simp
  have h64 := (h (Fin 8 × Fin 8) pt fun _ => trivial).2 fun i => (sgn2 i : ℝ)
  simp only [hM] at h64
  have e : ∑ i, ∑ j, (sgn2 i : ℝ) * sgn2 j * (apart2 0 i j + apart2 1 i j * (1 - s)) =
      ((∑ i, ∑ j, sgn2 i * sgn2 j * apart2 0 i j : ℤ) : ℝ) + ((∑ i, ∑ j, sgn2 i * sgn2 j * apart2 1 i j : ℤ) : ℝ) * (1 - s) := by
    push_cast
    rw [sum_mul, ← sum_add_distrib]
    refine sum_congr rfl fun i _ => ?_
    rw [sum_mul, ← sum_add_distrib]
    exact sum_congr rfl fun j _ => by ring
  rw [e, grid0, grid1] at h64
  push_cast at h64
  nlinarith

/-- **C97**: with the Euclidean distance, Silverman's kernel is positive semi-definite up to three dimensions, for every bandwidth. -/
theorem C97_silverman {d : Type} [Fintype d] [Nonempty d] (hd : Fintype.card d ≤ 3) (σ : ℝ) :
    ∃ κ : (d → ℝ) → (d → ℝ) → ℝ, (∀ x y, statKernel .silverman .euclidean σ x y = .ok (κ x y)) ∧ PSDOn Set.univ κ :=
  ⟨_, fun x y => rfl, Silverman.silverman_psd hd σ⟩

/-- **C97** does not hold for the Silverman kernel beyond: from four coordinates on it is not positive semi-definite, whatever the bandwidth. -/
theorem C97_silverman_violated {d : Type} [Fintype d] [Nonempty d] (hd : 4 ≤ Fintype.card d) (σ : ℝ) (hσ : 0 < σ) :
    ∃ κ : (d → ℝ) → (d → ℝ) → ℝ, (∀ x y, statKernel .silverman .euclidean σ x y = .ok (κ x y)) ∧ ¬ PSDOn Set.univ κ :=
  ⟨_, fun x y => rfl, Silverman.silverman_not_psd hd hσ⟩

/-- The theorems apply in the plane, in three and in four dimensions. -/
example := C97_triangular_violated (0 : Fin 2) 1 (by decide) 1 one_pos
example := C97_silverman (d := Fin 3) (by simp) 2
example := C97_silverman_violated (d := Fin 4) (by simp) 1 one_pos

/-! ### The sigmoid kernel -/

/-- **C97** does not hold for the sigmoid kernel: it is positive semi-definite only if constant, whatever `b`. -/
theorem C97_sigmoid_violated (a b : ℝ) : PSDOn Set.univ (sigmoidKernel (d := d) a b) ↔ a = 0 := by
  constructor
  · intro h
    by_contra ha
    obtain ⟨k0⟩ := (inferInstance : Nonempty d)
    classical
    have hdot : ∀ x y : ℝ, (Pi.single k0 x : d → ℝ) ⬝ᵥ Pi.single k0 y = x * y := fun x y => by simp
    have h2 : ∀ x y : ℝ, ∀ c1 c2 : ℝ, 0 ≤ c1 ^ 2 * Real.sigmoid (a * x ^ 2 + b) + 2 * c1 * c2 * Real.sigmoid (a * (x * y) + b) +
        c2 ^ 2 * Real.sigmoid (a * y ^ 2 + b) := by
      intro x y c1 c2
      have := (h (Fin 2) ![Pi.single k0 x, Pi.single k0 y] fun _ => trivial).2 ![c1, c2]
      simp only [Fin.sum_univ_two, Matrix.cons_val_zero, Matrix.cons_val_one, sigmoidKernel, hdot] at this
      rw [mul_comm y x] at this
      rw [sq x, sq y]
      refine this.trans (le_of_eq ?_)
      ring
    rcases lt_or_gt_of_ne ha with hneg | hpos
    · have := h2 1 (-1) 1 (-1)
      have hlt : Real.sigmoid (a + b) < Real.sigmoid (-a + b) := Real.sigmoid_strictMono (by linarith)
      norm_num at this
      linarith
    · -- points near to and far from the origin
      have hb1 : Real.sigmoid b < 1 := Real.sigmoid_lt_one b
      have hb0 : 0 < Real.sigmoid b := Real.sigmoid_pos b
      obtain ⟨m, hm⟩ : ∃ m, m = (Real.sigmoid b + 1) / 2 := ⟨_, rfl⟩
      have hm1 : m < 1 := by rw [hm]; linarith
      have hm0 : Real.sigmoid b < m := by rw [hm]; linarith
      obtain ⟨t, ht⟩ : ∃ t : ℝ, m < Real.sigmoid (t + b) ^ 2 := by
        have hlim : Filter.Tendsto (fun t : ℝ => Real.sigmoid (t + b) ^ 2) Filter.atTop (nhds (1 ^ 2)) :=
          ((Real.tendsto_sigmoid_atTop.comp (Filter.tendsto_atTop_add_const_right _ b Filter.tendsto_id))).pow 2
        rw [one_pow] at hlim
        exact (hlim.eventually (lt_mem_nhds hm1)).exists
      obtain ⟨δ, hδ0, hδ⟩ : ∃ δ : ℝ, 0 < δ ∧ Real.sigmoid (a * δ ^ 2 + b) < m := by
        have hc : Filter.Tendsto (fun δ : ℝ => Real.sigmoid (a * δ ^ 2 + b)) (nhds 0) (nhds (Real.sigmoid (a * 0 ^ 2 + b))) :=
          ((by fun_prop : Continuous fun δ : ℝ => Real.sigmoid (a * δ ^ 2 + b)).tendsto 0)
        have hev := hc.eventually (gt_mem_nhds (by simpa using hm0))
        have hev2 := (hev.filter_mono (nhdsWithin_le_nhds (s := Set.Ioi 0))).and self_mem_nhdsWithin
        obtain ⟨δ, h1, h2⟩ := hev2.exists
        exact ⟨δ, h2, h1⟩
      have e1 : a * (δ * (t / (a * δ))) = t := by field_simp
      obtain ⟨A, hA⟩ : ∃ A, A = Real.sigmoid (a * δ ^ 2 + b) := ⟨_, rfl⟩
      obtain ⟨B, hB⟩ : ∃ B, B = Real.sigmoid (a * (t / (a * δ)) ^ 2 + b) := ⟨_, rfl⟩
      obtain ⟨C, hC⟩ : ∃ C, C = Real.sigmoid (t + b) := ⟨_, rfl⟩
      have hq := h2 δ (t / (a * δ)) B (-C)
      rw [e1, ← hA, ← hB, ← hC] at hq
      have hB0 : 0 < B := by rw [hB]; exact Real.sigmoid_pos _
      have hB1 : B < 1 := by rw [hB]; exact Real.sigmoid_lt_one _
      have hA0 : 0 < A := by rw [hA]; exact Real.sigmoid_pos _
      have hAm : A < m := by rw [hA]; exact hδ
      have hCm : m < C ^ 2 := by rw [hC]; exact ht
      have hfac : B ^ 2 * A + 2 * B * -C * C + (-C) ^ 2 * B = B * (A * B - C ^ 2) := by ring
      rw [hfac] at hq
      have : A * B - C ^ 2 < 0 := by nlinarith
      exact absurd hq (not_le.2 (mul_neg_of_pos_of_neg hB0 this))
  · rintro rfl
    intro ι _ x _
    have := (psdMat_one (ι := ι)).smul (Real.sigmoid_pos b).le
    refine (funext₂ fun i j => ?_ : (fun i j => sigmoidKernel 0 b (x i) (x j)) = _) ▸ this
    simp [sigmoidKernel]

/-! ## Non-vacuity -/

example : ∃ κ : (Fin 3 → ℝ) → (Fin 3 → ℝ) → ℝ, (∀ x y, statKernel .quartic .chebyshev 3 x y = .ok (κ x y)) ∧ ¬ PSDOn Set.univ κ :=
  C97_support_violated .quartic (by simp) .chebyshev (by simp) 3 (by norm_num)
example : ¬ PSDOn Set.univ (sigmoidKernel (d := Fin 2) 1 0) := by rw [C97_sigmoid_violated]; norm_num

end
end PSDStat
end Kerch
