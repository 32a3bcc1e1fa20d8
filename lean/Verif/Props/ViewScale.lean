import Verif.Model.ViewScale
import Mathlib.Tactic.Ring
import Mathlib.Tactic.Linarith
import Mathlib.Tactic.FieldSimp
/-!
# C73 (kernel and features of a view), C74 (scaled quantities of a view agree)
-/
set_option linter.unusedSectionVars false
set_option linter.unusedSimpArgs false
namespace Kerch
open ViewScale

variable {X d n m : Type} [Fintype d] [Fintype n]

/-- The kernel is the inner product of the features. -/
def InnerOf (k : X → X → ℝ) (φ : X → d → ℝ) : Prop := ∀ x y, k x y = ∑ f, φ x f * φ y f

theorem construct_ok {kappa : ℝ} {s : St} (h : construct kappa = .ok s) : 0 ≤ kappa ∧ s = ⟨kappa, Real.sqrt kappa⟩ := by
  unfold construct at h
  split at h
  · simp at h
  · next hh => exact ⟨not_lt.mp hh, by cases h; rfl⟩

theorem run_kappaSqrt (s : St) (vs : List ℝ) : (s.run vs).kappaSqrt = s.kappaSqrt := by
  induction vs generalizing s with
  | nil => rfl
  | cons v t ih => exact ih _

theorem run_kappa (s : St) (vs : List ℝ) : (s.run vs).kappa = vs.getLastD s.kappa := by
  induction vs generalizing s with
  | nil => rfl
  | cons v t ih =>
    show ((s.setKappa v).run t).kappa = _
    rw [ih]
    cases t <;> rfl

/-- C73 holds as long as `kappa` is not assigned: for every kernel that is the inner product of its features, so is the view. -/
theorem C73_constructed_partial (kappa : ℝ) (s : St) (h : construct kappa = .ok s) (k₀ : X → X → ℝ) (φ : X → d → ℝ) (hk : InnerOf k₀ φ) :
    InnerOf (s.k k₀) (s.phi φ) ∧ ∀ x y, s.k k₀ x y = kappa * k₀ x y := by
  obtain ⟨h0, rfl⟩ := construct_ok h
  refine ⟨?_, fun _ _ => rfl⟩
  intro x y
  show kappa * k₀ x y = ∑ f, (Real.sqrt kappa * φ x f) * (Real.sqrt kappa * φ y f)
  rw [hk, Finset.mul_sum]
  apply Finset.sum_congr rfl
  intro f _
  have := Real.mul_self_sqrt h0
  linear_combination (-(φ x f * φ y f)) * this

/-- Which scalings are accepted at construction. -/
theorem C73_refused (kappa : ℝ) : (∃ s, construct kappa = .ok s) ↔ 0 ≤ kappa := by
  constructor
  · rintro ⟨s, h⟩
    exact (construct_ok h).1
  · intro h
    exact ⟨_, by unfold construct; rw [if_neg (not_lt.mpr h)]⟩

/-- C73 fails after assignments, exactly when the last value assigned is not the one given at construction (and the kernel is not zero): the features keep the
first scaling. -/
theorem C73_assigned_violated (kappa : ℝ) (s : St) (h : construct kappa = .ok s) (vs : List ℝ) (k₀ : X → X → ℝ) (φ : X → d → ℝ) (hk : InnerOf k₀ φ)
    (x y : X) (hxy : k₀ x y ≠ 0) : InnerOf ((s.run vs).k k₀) ((s.run vs).phi φ) ↔ vs.getLastD kappa = kappa := by
  obtain ⟨h0, rfl⟩ := construct_ok h
  have hs := run_kappaSqrt ⟨kappa, Real.sqrt kappa⟩ vs
  have hv := run_kappa ⟨kappa, Real.sqrt kappa⟩ vs
  obtain ⟨s', hs'⟩ : ∃ s', s' = St.run ⟨kappa, Real.sqrt kappa⟩ vs := ⟨_, rfl⟩
  rw [← hs'] at hs hv ⊢
  have key : ∀ a b, (∑ f, s'.phi φ a f * s'.phi φ b f) = kappa * k₀ a b := by
    intro a b
    rw [hk, Finset.mul_sum]
    apply Finset.sum_congr rfl
    intro f _
    show s'.kappaSqrt * φ a f * (s'.kappaSqrt * φ b f) = _
    rw [hs]
    have := Real.mul_self_sqrt h0
    linear_combination (φ a f * φ b f) * this
  constructor
  · intro hi
    have h1 := hi x y
    rw [key] at h1
    have h2 : s'.kappa * k₀ x y = kappa * k₀ x y := h1
    rw [← hv]
    exact mul_right_cancel₀ hxy h2
  · intro hl a b
    rw [key]
    show s'.kappa * k₀ a b = _
    rw [hv, hl]

/-- C74, kernel matrices: `K` is the kernel of the view on the sample and, before any assignment, the inner products of `phi()`. -/
theorem C74_K_partial (kappa : ℝ) (s : St) (h : construct kappa = .ok s) (k₀ : X → X → ℝ) (φ : X → d → ℝ) (hk : InnerOf k₀ φ) (pts : n → X) :
    s.K k₀ pts = matK (s.phiSample φ pts) ∧ ∀ i j, s.K k₀ pts i j = s.k k₀ (pts i) (pts j) := by
  constructor
  · ext i j
    exact ((C73_constructed_partial kappa s h k₀ φ hk).1 (pts i) (pts j))
  · intro i j
    rfl

/-- C74 fails for the covariance: `c()` is `kappa` times `C`, so that both agree only for `kappa = 1` or a zero matrix. -/
theorem C74_C_violated (kappa : ℝ) (s : St) (h : construct kappa = .ok s) (φ : X → d → ℝ) (pts : n → X) :
    s.c φ pts = kappa • s.C φ pts ∧ (s.c φ pts = s.C φ pts ↔ kappa = 1 ∨ s.C φ pts = 0) := by
  obtain ⟨h0, rfl⟩ := construct_ok h
  have h1 : St.c ⟨kappa, Real.sqrt kappa⟩ φ pts = kappa • St.C ⟨kappa, Real.sqrt kappa⟩ φ pts := by
    unfold St.c St.C matC
    rw [smul_comm]
    congr 1
    ext f g
    show (∑ i, (Real.sqrt kappa * φ (pts i) f) * (Real.sqrt kappa * φ (pts i) g)) = kappa * ∑ i, φ (pts i) f * φ (pts i) g
    rw [Finset.mul_sum]
    apply Finset.sum_congr rfl
    intro i _
    have := Real.mul_self_sqrt h0
    linear_combination (φ (pts i) f * φ (pts i) g) * this
  refine ⟨h1, ?_⟩
  rw [h1]
  constructor
  · intro he
    by_cases hk1 : kappa = 1
    · exact Or.inl hk1
    · right
      have : (kappa - 1) • St.C ⟨kappa, Real.sqrt kappa⟩ φ pts = 0 := by rw [sub_smul, one_smul, he, sub_self]
      rcases smul_eq_zero.mp this with h2 | h2
      · exact absurd (by linarith) hk1
      · exact h2
  · rintro (rfl | h2)
    · rw [one_smul]
    · rw [h2, smul_zero]

/-- C74 fails for the two outputs: with the weights derived from the hidden variables, the primal output is `√kappa` times the dual one at every point. -/
theorem C74_output_violated (kappa : ℝ) (s : St) (h : construct kappa = .ok s) (k₀ : X → X → ℝ) (φ : X → d → ℝ) (hk : InnerOf k₀ φ) (pts : n → X)
    (H : Matrix n m ℝ) (x : X) :
    s.phiwPrimal φ (s.weight φ pts H) x = Real.sqrt kappa • s.phiwDual k₀ pts H x ∧
    (s.phiwPrimal φ (s.weight φ pts H) x = s.phiwDual k₀ pts H x ↔ kappa = 1 ∨ s.phiwDual k₀ pts H x = 0) := by
  obtain ⟨h0, rfl⟩ := construct_ok h
  have h1 : St.phiwPrimal ⟨kappa, Real.sqrt kappa⟩ φ (St.weight ⟨kappa, Real.sqrt kappa⟩ φ pts H) x =
      Real.sqrt kappa • St.phiwDual ⟨kappa, Real.sqrt kappa⟩ k₀ pts H x := by
    funext j
    show (∑ f, (Real.sqrt kappa * φ x f) * ∑ i, φ (pts i) f * H i j) = Real.sqrt kappa * ∑ i, k₀ x (pts i) * H i j
    simp only [Finset.mul_sum]
    rw [Finset.sum_comm]
    apply Finset.sum_congr rfl
    intro i _
    rw [hk, Finset.sum_mul, Finset.mul_sum]
    apply Finset.sum_congr rfl
    intro f _
    ring
  refine ⟨h1, ?_⟩
  rw [h1]
  constructor
  · intro he
    by_cases hk1 : kappa = 1
    · exact Or.inl hk1
    · right
      have : (Real.sqrt kappa - 1) • St.phiwDual ⟨kappa, Real.sqrt kappa⟩ k₀ pts H x = 0 := by rw [sub_smul, one_smul, he, sub_self]
      rcases smul_eq_zero.mp this with h2 | h2
      · exact absurd ((Real.sqrt_eq_one).mp (by linarith)) hk1
      · exact h2
  · rintro (rfl | h2)
    · rw [Real.sqrt_one, one_smul]
    · rw [h2, smul_zero]

/-! ## non-vacuity -/

example : InnerOf (fun x y : ℝ => x * y) (fun x (_ : Unit) => x) := by intro x y; simp
example : ∃ s, construct 4 = .ok s := (C73_refused 4).mpr (by norm_num)
example : ∃ s, construct 4 = .ok s ∧ ¬ InnerOf ((s.run [9]).k fun x y : ℝ => x * y) ((s.run [9]).phi fun x (_ : Unit) => x) := by
  obtain ⟨s, hs⟩ := (C73_refused 4).mpr (by norm_num)
  refine ⟨s, hs, ?_⟩
  rw [C73_assigned_violated 4 s hs [9] _ _ (by intro x y; simp) 1 1 (by norm_num)]
  norm_num

end Kerch
