import Verif.Model.Draw
import Verif.Props.KPCA
import Mathlib.Probability.Distributions.Gaussian.Multivariate
import Mathlib.LinearAlgebra.Matrix.Determinant.Basic
import Mathlib.LinearAlgebra.Matrix.NonsingularInverse
import Mathlib.LinearAlgebra.Matrix.ToLinearEquiv
/-!
# C106: correlations, projectors and draws of a KPCA level
-/
set_option linter.unusedSectionVars false
set_option linter.unusedSimpArgs false
namespace Kerch
namespace Draw
open Finset KPCA MeasureTheory ProbabilityTheory

/-! ## Helper lemmas -/

section
variable {m : ℕ} {A : Type} [Fintype A]

/-- Gaussian vectors: the law of the values of linear forms on independent standard normal numbers. -/
theorem law_linear (W : Fin m → A → ℝ) :
    (Measure.pi fun _ : A => gaussianReal 0 1).map (fun h => WithLp.toLp 2 fun j => ∑ l, h l * W j l) = multivariateGaussian 0 (Matrix.of fun i j => ∑ l, W i l * W j l) := by
  classical
  have hS : (Matrix.of fun i j => ∑ l, W i l * W j l).PosSemidef := by
    have : (Matrix.of fun i j => ∑ l, W i l * W j l) = Matrix.of W * (Matrix.of W).conjTranspose := by
      ext i j
      simp [Matrix.mul_apply]
    rw [this]
    exact Matrix.posSemidef_self_mul_conjTranspose _
  have hm : Measurable fun h : A → ℝ => (WithLp.toLp 2 fun j => ∑ l, h l * W j l : EuclideanSpace ℝ (Fin m)) := by fun_prop
  have i1 : IsProbabilityMeasure ((Measure.pi fun _ : A => gaussianReal 0 1).map fun h => (WithLp.toLp 2 fun j => ∑ l, h l * W j l : EuclideanSpace ℝ (Fin m))) :=
    Measure.isProbabilityMeasure_map hm.aemeasurable
  refine Measure.ext_of_charFun (funext fun t => ?_)
  rw [charFun_multivariateGaussian hS]
  have h1 := charFun_stdGaussian (E := EuclideanSpace ℝ A) (WithLp.toLp 2 fun l => ∑ j, t j * W j l)
  rw [← map_pi_eq_stdGaussian, charFun_apply, integral_map (by fun_prop) (Measurable.aestronglyMeasurable (by fun_prop))] at h1
  rw [charFun_apply, integral_map hm.aemeasurable (Measurable.aestronglyMeasurable (by fun_prop))]
  refine Eq.trans ?_ (h1.trans ?_)
  · refine integral_congr_ae (Filter.Eventually.of_forall fun h => ?_)
    simp only [PiLp.inner_apply, RCLike.inner_apply, conj_trivial]
    congr 3
    simp_rw [mul_sum, sum_mul]
    rw [sum_comm]
    exact sum_congr rfl fun l _ => sum_congr rfl fun j _ => by ring
  · congr 1
    rw [← Complex.ofReal_pow, EuclideanSpace.real_norm_sq_eq]
    have : t.ofLp ⬝ᵥ (Matrix.of fun i j => ∑ l, W i l * W j l).mulVec t.ofLp = ∑ l, (∑ j, t j * W j l) ^ 2 := by
      obtain ⟨v, hv⟩ : ∃ v : A → ℝ, v = fun l => ∑ j, t j * W j l := ⟨_, rfl⟩
      have hv' : ∀ l, ∑ j, t j * W j l = v l := fun l => by rw [hv]
      simp only [dotProduct, Matrix.mulVec, Matrix.of_apply, hv']
      have e : ∀ i, ∑ j, (∑ l, W i l * W j l) * t j = ∑ l, W i l * v l := by
        intro i
        rw [hv]
        simp_rw [mul_sum, sum_mul]
        rw [sum_comm]
        exact sum_congr rfl fun l _ => sum_congr rfl fun j _ => by ring
      simp_rw [e, mul_sum, ← mul_assoc]
      rw [sum_comm]
      exact sum_congr rfl fun l _ => by rw [← sum_mul, hv', sq]
    simp only [inner_zero_right, Complex.ofReal_zero, zero_mul, zero_sub]
    rw [this]
    push_cast
    ring

theorem kept_injective {M : Fin m → Fin m → ℝ} (D : EigDecomp M) (k : ℕ) (a b : D.Kept k) : a = b ↔ a.1 = b.1 := Subtype.ext_iff

/-! ## Correlations and projectors -/

/-- **C106**. After a fit, in primal as in dual, the correlation of the parameters is the identity. -/
theorem C106_correlation {M : Fin m → Fin m → ℝ} (D : EigDecomp M) (k : ℕ) (a b : D.Kept k) :
    (a = b → correlation (solU D k) a b = 1) ∧ (a ≠ b → correlation (solU D k) a b = 0) := by
  unfold correlation solU
  rw [D.orth a.1 b.1]
  constructor
  · rintro rfl; rw [if_pos rfl]
  · intro h; rw [if_neg fun h' => h ((kept_injective D k a b).2 h')]

/-- Whenever the correlation is the identity, the projector is symmetric and gives the orthogonal projection on the span of the components. -/
theorem C106_projector (U : A → Fin m → ℝ) (hU : ∀ a b, (a = b → correlation U a b = 1) ∧ (a ≠ b → correlation U a b = 0)) :
    (∀ i j, projector U i j = projector U j i) ∧ ∀ v : Fin m → ℝ, IsProjection U v fun i => ∑ j, projector U i j * v j := by
  classical
  refine ⟨fun i j => sum_congr rfl fun a _ => mul_comm _ _, fun v => ⟨⟨fun a => ∑ j, U a j * v j, fun i => ?_⟩, fun b => ?_⟩⟩
  · unfold projector
    simp_rw [sum_mul]
    rw [sum_comm]
    exact sum_congr rfl fun a _ => sum_congr rfl fun j _ => by ring
  · simp_rw [sub_mul]
    rw [sum_sub_distrib, sub_eq_zero]
    have e : ∀ i, ∑ j, projector U i j * v j = ∑ a, (∑ j, U a j * v j) * U a i := by
      intro i
      unfold projector
      simp_rw [sum_mul]
      rw [sum_comm]
      exact sum_congr rfl fun a _ => sum_congr rfl fun j _ => by ring
    obtain ⟨f, hf⟩ : ∃ f : A → ℝ, f = fun a => ∑ j, U a j * v j := ⟨_, rfl⟩
    have hf' : ∀ a, ∑ j, U a j * v j = f a := fun a => by rw [hf]
    simp_rw [e, hf', sum_mul]
    rw [sum_comm]
    have : ∀ a, ∑ j, f a * U a j * U b j = if a = b then f a else 0 := by
      intro a
      have e2 : ∑ j, f a * U a j * U b j = f a * correlation U a b := by
        unfold correlation
        rw [mul_sum]
        exact sum_congr rfl fun j _ => by ring
      rw [e2]
      by_cases h : a = b
      · rw [(hU a b).1 h, if_pos h, mul_one]
      · rw [(hU a b).2 h, if_neg h, mul_zero]
    simp_rw [this]
    rw [sum_ite_eq' univ b f, if_pos (mem_univ b), ← hf']
    exact sum_congr rfl fun j _ => mul_comm _ _

/-- The trace of the projector is the number of components. -/
theorem C106_trace (U : A → Fin m → ℝ) (hU : ∀ a b, (a = b → correlation U a b = 1) ∧ (a ≠ b → correlation U a b = 0)) :
    ∑ i, projector U i i = Fintype.card A := by
  unfold projector
  rw [sum_comm]
  rw [show (∑ a, ∑ i, U a i * U a i) = ∑ _a : A, (1 : ℝ) from sum_congr rfl fun a _ => (hU a a).1 rfl]
  simp

/-- The criterion documented for it to be a projector, its determinant being one, is that of the identity: among the projectors, none other meets it. With fewer components than entries
the determinant is null. -/
theorem C106_determinant_violated (U : A → Fin m → ℝ) (hU : ∀ a b, (a = b → correlation U a b = 1) ∧ (a ≠ b → correlation U a b = 0)) :
    ((Matrix.of (projector U)).det = 1 ↔ ∀ i j, projector U i j = if i = j then 1 else 0) ∧ (Fintype.card A < m → (Matrix.of (projector U)).det = 0) := by
  classical
  have hid : Matrix.of (projector U) * Matrix.of (projector U) = Matrix.of (projector U) := by
    ext i l
    simp only [Matrix.mul_apply, Matrix.of_apply, projector]
    have : ∀ j, (∑ a, U a i * U a j) * ∑ b, U b j * U b l = ∑ a, ∑ b, U a i * U b l * (U a j * U b j) := by
      intro j
      rw [sum_mul_sum]
      exact sum_congr rfl fun a _ => sum_congr rfl fun b _ => by ring
    simp_rw [this]
    rw [sum_comm]
    refine sum_congr rfl fun a _ => ?_
    rw [sum_comm]
    have e : ∀ b, ∑ j, U a i * U b l * (U a j * U b j) = if b = a then U a i * U b l else 0 := by
      intro b
      rw [← mul_sum]
      by_cases h : b = a
      · rw [if_pos h]
        have := (hU a b).1 h.symm
        unfold correlation at this
        rw [this, mul_one]
      · rw [if_neg h]
        have := (hU a b).2 (Ne.symm h)
        unfold correlation at this
        rw [this, mul_zero]
    simp_rw [e]
    rw [sum_ite_eq' univ a fun b => U a i * U b l, if_pos (mem_univ a)]
  have hone : (Matrix.of (projector U)).det ≠ 0 → Matrix.of (projector U) = 1 := by
    intro h
    have hu : IsUnit (Matrix.of (projector U)).det := isUnit_iff_ne_zero.2 h
    calc Matrix.of (projector U) = (Matrix.of (projector U))⁻¹ * (Matrix.of (projector U) * Matrix.of (projector U)) := by
          rw [← Matrix.mul_assoc, Matrix.nonsing_inv_mul _ hu, Matrix.one_mul]
      _ = 1 := by rw [hid, Matrix.nonsing_inv_mul _ hu]
  refine ⟨⟨fun h i j => ?_, fun h => ?_⟩, fun hlt => ?_⟩
  · have := hone (by rw [h]; norm_num)
    have := congrFun (congrFun this i) j
    rwa [Matrix.of_apply, Matrix.one_apply] at this
  · have : Matrix.of (projector U) = 1 := by
      ext i j
      rw [Matrix.of_apply, h i j, Matrix.one_apply]
    rw [this, Matrix.det_one]
  · by_contra h
    have h1 := hone h
    have ht := C106_trace U hU
    have : ∑ i, projector U i i = m := by
      have e : ∀ i, projector U i i = 1 := fun i => by
        have := congrFun (congrFun h1 i) i
        rwa [Matrix.of_apply, Matrix.one_apply_eq] at this
      simp [e]
    rw [this] at ht
    have : m = Fintype.card A := by exact_mod_cast ht
    omega

/-- Parameters of which the determinant of the projector is one without it being a projector. -/
theorem C106_unity_violated : ∃ U : Fin 2 → Fin 2 → ℝ, (Matrix.of (projector U)).det = 1 ∧ ∃ i, ∑ j, projector U i j * projector U j i ≠ projector U i i := by
  refine ⟨fun a i => if a = i then (if a = 0 then 2 else 1 / 2) else 0, ?_, 0, ?_⟩
  · rw [Matrix.det_fin_two]
    simp [projector, Fin.sum_univ_two]
    norm_num
  · simp [projector, Fin.sum_univ_two]
    norm_num

/-! ## Draws -/

/-- The law of `num` independent draws, `draw` being what is computed from one row of standard normal numbers. -/
noncomputable def lawOf {I : Type} [Fintype I] (num : ℕ) (draw : (I → ℝ) → Fin m → ℝ) : Measure (Fin num → EuclideanSpace ℝ (Fin m)) :=
  (Measure.pi fun _ : Fin num => Measure.pi fun _ : I => gaussianReal 0 1).map fun H r => WithLp.toLp 2 (draw (H r))

theorem lawOf_linear {I : Type} [Fintype I] (num : ℕ) (draw : (I → ℝ) → Fin m → ℝ) (W : Fin m → I → ℝ) (hd : ∀ h j, draw h j = ∑ l, h l * W j l)
    (S : Matrix (Fin m) (Fin m) ℝ) (hS : ∀ i j, S i j = ∑ l, W i l * W j l) : lawOf num draw = Measure.pi fun _ => multivariateGaussian 0 S := by
  have e : (fun h => (WithLp.toLp 2 (draw h) : EuclideanSpace ℝ (Fin m))) = fun h => WithLp.toLp 2 fun j => ∑ l, h l * W j l := by
    funext h; congr 1; funext j; exact hd h j
  have e2 : S = Matrix.of fun i j => ∑ l, W i l * W j l := by ext i j; exact hS i j
  have hm : Measurable fun h : I → ℝ => (WithLp.toLp 2 (draw h) : EuclideanSpace ℝ (Fin m)) := by rw [e]; fun_prop
  have := Measure.pi_map_pi (μ := fun _ : Fin num => Measure.pi fun _ : I => gaussianReal 0 1) (f := fun _ h => (WithLp.toLp 2 (draw h) : EuclideanSpace ℝ (Fin m)))
    (hμ := fun _ => by have := Measure.isProbabilityMeasure_map (μ := Measure.pi fun _ : I => gaussianReal 0 1) hm.aemeasurable; infer_instance) (fun _ => hm.aemeasurable)
  unfold lawOf
  rw [this, e, law_linear, e2]

end

section
variable {n d : ℕ}

theorem full_sum {M : Fin n → Fin n → ℝ} (D : EigDecomp M) (k : ℕ) (hfull : ∀ l : Fin n, ¬ (l.val < k ∧ EPS ≤ D.lam l) → D.lam l = 0) (f : Fin n → ℝ) :
    ∑ l : D.Kept k, D.lam l.1 * f l.1 = ∑ l, D.lam l * f l := by
  rw [D.sum_kept k fun l => D.lam l * f l]
  refine sum_congr rfl fun l _ => ?_
  by_cases h : l.val < k ∧ EPS ≤ D.lam l
  · rw [if_pos h]
  · rw [if_neg h, hfull l h, zero_mul]

/-- **C106** (draws of features). `draw_phi(num)` returns independent Gaussian vectors, of null mean, of which the covariance is that of the data in the directions kept and null
in the others; whatever `posterior`. -/
theorem C106_draw_phi (Φ : Fin n → Fin d → ℝ) (D : EigDecomp (levelC Φ)) (k num : ℕ) (posterior : Bool) :
    ∃ S : Matrix (Fin d) (Fin d) ℝ, lawOf num (drawPhi D k posterior) = (Measure.pi fun _ => multivariateGaussian 0 S) ∧ S.PosSemidef
      ∧ ∀ l i, ∑ j, S i j * D.V j l = if l.val < k ∧ EPS ≤ D.lam l then ∑ j, levelC Φ i j * D.V j l else 0 := by
  classical
  have hs : ∀ l : D.Kept k, Real.sqrt (D.lam l.1) * Real.sqrt (D.lam l.1) = D.lam l.1 := fun l => Real.mul_self_sqrt (D.lam_pos l).le
  refine ⟨Matrix.of fun i j => ∑ l : D.Kept k, D.V i l.1 * Real.sqrt (D.lam l.1) * (D.V j l.1 * Real.sqrt (D.lam l.1)), ?_, ?_, fun l i => ?_⟩
  · exact lawOf_linear num _ (fun j (l : D.Kept k) => D.V j l.1 * Real.sqrt (D.lam l.1)) (fun h j => rfl) _ fun i j => rfl
  · have : (Matrix.of fun i j => ∑ l : D.Kept k, D.V i l.1 * Real.sqrt (D.lam l.1) * (D.V j l.1 * Real.sqrt (D.lam l.1)))
        = (Matrix.of fun i (l : D.Kept k) => D.V i l.1 * Real.sqrt (D.lam l.1)) * (Matrix.of fun i (l : D.Kept k) => D.V i l.1 * Real.sqrt (D.lam l.1)).conjTranspose := by
      ext i j
      simp [Matrix.mul_apply]
    rw [this]
    exact Matrix.posSemidef_self_mul_conjTranspose _
  · simp only [Matrix.of_apply, sum_mul]
    rw [sum_comm]
    have e : ∀ a : D.Kept k, ∑ j, D.V i a.1 * Real.sqrt (D.lam a.1) * (D.V j a.1 * Real.sqrt (D.lam a.1)) * D.V j l = (fun a => if a = l then D.lam a * D.V i a else 0) a.1 := by
      intro a
      have e1 : ∀ j, D.V i a.1 * Real.sqrt (D.lam a.1) * (D.V j a.1 * Real.sqrt (D.lam a.1)) * D.V j l = D.V i a.1 * D.lam a.1 * (D.V j a.1 * D.V j l) := by
        intro j
        calc _ = D.V i a.1 * (Real.sqrt (D.lam a.1) * Real.sqrt (D.lam a.1)) * (D.V j a.1 * D.V j l) := by ring
          _ = _ := by rw [hs a]
      simp_rw [e1]
      rw [← mul_sum, D.orth a.1 l]
      by_cases h : a.1 = l
      · simp only [if_pos h]; ring
      · simp only [if_neg h]; ring
    simp_rw [e]
    rw [D.sum_kept k fun a => if a = l then D.lam a * D.V i a else 0]
    have e3 : ∀ a, (if a.val < k ∧ EPS ≤ D.lam a then (if a = l then D.lam a * D.V i a else 0) else 0)
        = if a = l then (if l.val < k ∧ EPS ≤ D.lam l then D.lam l * D.V i l else 0) else 0 := by
      intro a
      by_cases h : a = l
      · rw [h]; simp
      · simp [h]
    simp_rw [e3]
    rw [sum_ite_eq' univ l fun _ => if l.val < k ∧ EPS ≤ D.lam l then D.lam l * D.V i l else 0, if_pos (mem_univ l)]
    by_cases h : l.val < k ∧ EPS ≤ D.lam l
    · rw [if_pos h, if_pos h, D.eig i l]
    · rw [if_neg h, if_neg h]

/-- When nothing is discarded the draws have the covariance of the features. -/
theorem C106_draw_phi_complete (Φ : Fin n → Fin d → ℝ) (D : EigDecomp (levelC Φ)) (k num : ℕ) (posterior : Bool)
    (hfull : ∀ l : Fin d, ¬ (l.val < k ∧ EPS ≤ D.lam l) → D.lam l = 0) :
    lawOf num (drawPhi D k posterior) = Measure.pi fun _ => multivariateGaussian 0 (Matrix.of (levelC Φ)) := by
  have hs : ∀ l : D.Kept k, Real.sqrt (D.lam l.1) * Real.sqrt (D.lam l.1) = D.lam l.1 := fun l => Real.mul_self_sqrt (D.lam_pos l).le
  refine lawOf_linear num _ (fun j (l : D.Kept k) => D.V j l.1 * Real.sqrt (D.lam l.1)) (fun h j => rfl) _ fun i j => ?_
  rw [Matrix.of_apply, D.spectral i j]
  have e : ∀ l : D.Kept k, D.V i l.1 * Real.sqrt (D.lam l.1) * (D.V j l.1 * Real.sqrt (D.lam l.1)) = D.lam l.1 * (fun l => D.V i l * D.V j l) l.1 := by
    intro l
    calc _ = (Real.sqrt (D.lam l.1) * Real.sqrt (D.lam l.1)) * (D.V i l.1 * D.V j l.1) := by ring
      _ = _ := by rw [hs l]
  rw [sum_congr rfl fun l _ => e l, full_sum D k hfull fun l => D.V i l * D.V j l]
  exact sum_congr rfl fun l _ => by ring

theorem kMap_eq {M : Fin n → Fin n → ℝ} (E : EigDecomp M) (k : ℕ) (h : E.Kept k → ℝ) (j : Fin n) : kMap E k h j = ∑ l, h l * (E.V j l.1 * E.lam l.1) := by
  rw [kMap]
  simp_rw [sum_mul]
  rw [sum_comm]
  refine sum_congr rfl fun l _ => ?_
  have := E.eig j l.1
  calc ∑ i, h l * E.V i l.1 * M i j = h l * ∑ i, M j i * E.V i l.1 := by
        rw [mul_sum]; exact sum_congr rfl fun i _ => by rw [E.symm i j]; ring
    _ = _ := by rw [this]; ring

/-- Draws of kernel values are Gaussian vectors of null mean, of which the covariance is the square of the kernel matrix when nothing is discarded. -/
theorem C106_draw_k (Φ : Fin n → Fin d → ℝ) (κ : ℝ) (E : EigDecomp (levelK κ Φ)) (k num : ℕ) (posterior : Bool)
    (hfull : ∀ l : Fin n, ¬ (l.val < k ∧ EPS ≤ E.lam l) → E.lam l = 0) :
    lawOf num (drawK E k posterior) = Measure.pi fun _ => multivariateGaussian 0 (Matrix.of (levelK κ Φ) * Matrix.of (levelK κ Φ)) := by
  refine lawOf_linear num _ (fun j (l : E.Kept k) => E.V j l.1 * E.lam l.1) (fun h j => kMap_eq E k h j) _ fun i j => ?_
  have e : ∀ l : E.Kept k, E.V i l.1 * E.lam l.1 * (E.V j l.1 * E.lam l.1) = E.lam l.1 * (fun l => E.lam l * E.V i l * E.V j l) l.1 := fun l => by ring
  rw [sum_congr rfl fun l _ => e l, full_sum E k hfull fun l => E.lam l * E.V i l * E.V j l]
  simp only [Matrix.mul_apply, Matrix.of_apply]
  have e2 : ∀ a, levelK κ Φ i a * levelK κ Φ a j = ∑ l, E.lam l * E.V i l * (levelK κ Φ j a * E.V a l) := by
    intro a
    rw [E.spectral i a, sum_mul, E.symm a j]
    exact sum_congr rfl fun l _ => by ring
  simp_rw [e2]
  rw [sum_comm]
  refine sum_congr rfl fun l _ => ?_
  rw [← mul_sum, E.eig j l]
  ring

/-- Specification: the kernel values, with the factor of the level, between the points of the sample and a point of features `φ`. -/
def kernelValues (κ : ℝ) (Φ : Fin n → Fin d → ℝ) (φ : Fin d → ℝ) (j : Fin n) : ℝ := κ * ∑ a, φ a * Φ j a

/-- The kernel values of the features drawn by `draw_phi` have as covariance the square of the kernel matrix divided by the number of points. -/
theorem C106_draw_values (Φ : Fin n → Fin d → ℝ) (κ : ℝ) (D : EigDecomp (levelC Φ)) (k num : ℕ) (posterior : Bool)
    (hfull : ∀ l : Fin d, ¬ (l.val < k ∧ EPS ≤ D.lam l) → D.lam l = 0) :
    lawOf num (fun h => kernelValues κ Φ (drawPhi D k posterior h))
      = Measure.pi fun _ => multivariateGaussian 0 ((1 / (n : ℝ)) • (Matrix.of (levelK κ Φ) * Matrix.of (levelK κ Φ))) := by
  have hs : ∀ l : D.Kept k, Real.sqrt (D.lam l.1) * Real.sqrt (D.lam l.1) = D.lam l.1 := fun l => Real.mul_self_sqrt (D.lam_pos l).le
  refine lawOf_linear num _ (fun j (l : D.Kept k) => κ * ∑ a, D.V a l.1 * Real.sqrt (D.lam l.1) * Φ j a) (fun h j => ?_) _ fun i j => ?_
  · unfold kernelValues drawPhi phiMap
    simp_rw [sum_mul, mul_sum]
    rw [sum_comm]
    exact sum_congr rfl fun l _ => sum_congr rfl fun a _ => by ring
  · have e : ∀ l : D.Kept k, (κ * ∑ a, D.V a l.1 * Real.sqrt (D.lam l.1) * Φ i a) * (κ * ∑ b, D.V b l.1 * Real.sqrt (D.lam l.1) * Φ j b)
        = D.lam l.1 * (fun l => κ ^ 2 * ∑ a, ∑ b, Φ i a * Φ j b * (D.V a l * D.V b l)) l.1 := by
      intro l
      have f : ∀ j, ∑ a, D.V a l.1 * Real.sqrt (D.lam l.1) * Φ j a = Real.sqrt (D.lam l.1) * ∑ a, Φ j a * D.V a l.1 := by
        intro j; rw [mul_sum]; exact sum_congr rfl fun a _ => by ring
      rw [f, f]
      calc _ = (Real.sqrt (D.lam l.1) * Real.sqrt (D.lam l.1)) * (κ ^ 2 * ((∑ a, Φ i a * D.V a l.1) * ∑ b, Φ j b * D.V b l.1)) := by ring
        _ = _ := by
          rw [hs l, sum_mul_sum]
          simp only
          congr 2
          exact sum_congr rfl fun a _ => sum_congr rfl fun b _ => by ring
    rw [sum_congr rfl fun l _ => e l, full_sum D k hfull fun l => κ ^ 2 * ∑ a, ∑ b, Φ i a * Φ j b * (D.V a l * D.V b l)]
    have e4 : ∑ l, D.lam l * (κ ^ 2 * ∑ a, ∑ b, Φ i a * Φ j b * (D.V a l * D.V b l)) = κ ^ 2 * ∑ a, ∑ b, Φ i a * Φ j b * levelC Φ a b := by
      simp_rw [mul_sum]
      rw [sum_comm]
      refine sum_congr rfl fun a _ => ?_
      rw [sum_comm]
      refine sum_congr rfl fun b _ => ?_
      rw [D.spectral a b, mul_sum, mul_sum]
      exact sum_congr rfl fun l _ => by ring
    rw [e4]
    simp only [Matrix.smul_apply, Matrix.mul_apply, Matrix.of_apply, smul_eq_mul, levelK_apply, levelC_apply]
    have e5 : ∀ c, κ * (∑ a, Φ i a * Φ c a) * (κ * ∑ b, Φ c b * Φ j b) = κ ^ 2 * ∑ a, ∑ b, Φ i a * Φ j b * (Φ c a * Φ c b) := by
      intro c
      calc _ = κ ^ 2 * ((∑ a, Φ i a * Φ c a) * ∑ b, Φ c b * Φ j b) := by ring
        _ = _ := by
          rw [sum_mul_sum]
          congr 1
          exact sum_congr rfl fun a _ => sum_congr rfl fun b _ => by ring
    simp_rw [e5]
    rw [← mul_sum, sum_comm]
    have e6 : ∀ a, ∑ c, ∑ b, Φ i a * Φ j b * (Φ c a * Φ c b) = ∑ b, Φ i a * Φ j b * ∑ c, Φ c a * Φ c b := by
      intro a
      rw [sum_comm]
      exact sum_congr rfl fun b _ => by rw [mul_sum]
    simp_rw [e6]
    simp_rw [mul_sum]
    refine sum_congr rfl fun a _ => sum_congr rfl fun b _ => sum_congr rfl fun c _ => by ring

/-- The covariance is determined by the law. -/
theorem cov_unique (S T : Matrix (Fin n) (Fin n) ℝ) (hS : S.PosSemidef) (hT : T.PosSemidef)
    (h : (Measure.pi fun _ : Fin 1 => multivariateGaussian 0 S) = Measure.pi fun _ : Fin 1 => multivariateGaussian 0 T) : S = T := by
  have h1 : ∀ S : Matrix (Fin n) (Fin n) ℝ, (Measure.pi fun _ : Fin 1 => multivariateGaussian 0 S).map (Function.eval 0) = multivariateGaussian 0 S := fun S =>
    (measurePreserving_eval (fun _ : Fin 1 => multivariateGaussian 0 S) 0).map_eq
  have h2 : multivariateGaussian 0 S = multivariateGaussian 0 T := by rw [← h1 S, ← h1 T, h]
  ext i j
  rw [← covariance_eval_multivariateGaussian (μ := 0) hS i j, h2, covariance_eval_multivariateGaussian hT i j]

theorem levelK_posSemidef (κ : ℝ) (Φ : Fin n → Fin d → ℝ) : (Matrix.of (levelK κ Φ) * Matrix.of (levelK κ Φ)).PosSemidef := by
  have : Matrix.of (levelK κ Φ) = (Matrix.of (levelK κ Φ)).conjTranspose := by
    ext i j
    simp only [Matrix.conjTranspose_apply, Matrix.of_apply, star_trivial, levelK_apply]
    congr 1
    exact sum_congr rfl fun a _ => mul_comm _ _
  conv => rw [show Matrix.of (levelK κ Φ) * Matrix.of (levelK κ Φ) = Matrix.of (levelK κ Φ) * (Matrix.of (levelK κ Φ)).conjTranspose from by rw [← this]]
  exact Matrix.posSemidef_self_mul_conjTranspose _

/-- Draws in dual do not follow the model drawn from in primal: with several points, and whenever the kernel matrix is not null, the kernel values drawn by `draw_k` and those of the
features drawn by `draw_phi` have different laws (the covariance of the former is greater by the number of points). -/
theorem C106_draw_violated (Φ : Fin n → Fin d → ℝ) (κ : ℝ) (D : EigDecomp (levelC Φ)) (E : EigDecomp (levelK κ Φ)) (k k' : ℕ) (posterior : Bool)
    (hD : ∀ l : Fin d, ¬ (l.val < k ∧ EPS ≤ D.lam l) → D.lam l = 0) (hE : ∀ l : Fin n, ¬ (l.val < k' ∧ EPS ≤ E.lam l) → E.lam l = 0)
    (hn : 1 < n) (i j : Fin n) (hK : levelK κ Φ i j ≠ 0) :
    lawOf 1 (drawK E k' posterior) ≠ lawOf 1 fun h => kernelValues κ Φ (drawPhi D k posterior h) := by
  intro h
  rw [C106_draw_k Φ κ E k' 1 posterior hE, C106_draw_values Φ κ D k 1 posterior hD] at h
  have hp := levelK_posSemidef κ Φ
  have := cov_unique _ _ hp (hp.smul (by positivity)) h
  have := congrFun (congrFun this i) i
  simp only [Matrix.smul_apply, Matrix.mul_apply, Matrix.of_apply, smul_eq_mul] at this
  have hpos : 0 < ∑ c, levelK κ Φ i c * levelK κ Φ c i := by
    have e : ∀ c, levelK κ Φ i c * levelK κ Φ c i = levelK κ Φ i c * levelK κ Φ i c := fun c => by rw [E.symm c i]
    simp_rw [e]
    exact lt_of_lt_of_le (mul_self_pos.2 hK) (single_le_sum (f := fun c => levelK κ Φ i c * levelK κ Φ i c) (fun c _ => mul_self_nonneg _) (mem_univ j))
  have hn' : (1 : ℝ) < n := by exact_mod_cast hn
  have : (n : ℝ) * (∑ c, levelK κ Φ i c * levelK κ Φ c i) = ∑ c, levelK κ Φ i c * levelK κ Φ c i := by
    conv_lhs => rw [this]
    field_simp
  nlinarith

/-- `h` takes the features or the kernel values, and refuses both or none. -/
theorem C106_arguments {F K H : Type} (hphi : F → H) (hk : K → H) (φ : F) (k : K) :
    hCall hphi hk (some φ) none = .ok (hphi φ) ∧ hCall hphi hk none (some k) = .ok (hk k) ∧ hCall hphi hk (some φ) (some k) = .error .attributeError
      ∧ hCall hphi hk (none : Option F) none = .error .attributeError := ⟨rfl, rfl, rfl, rfl⟩

end

/-! ## Non-vacuity -/

/-- Two points on the axes: nothing is discarded, the draws have the identity as covariance. -/
example : ∃ D : EigDecomp (levelC exΦ), lawOf 3 (drawPhi D 2 true) = Measure.pi fun _ => multivariateGaussian 0 (Matrix.of (levelC exΦ)) := by
  have h : ∃ D : EigDecomp (levelC exΦ), ∀ l : Fin 2, ¬ (l.val < 2 ∧ EPS ≤ D.lam l) → D.lam l = 0 := by
    rw [exC]
    refine ⟨eigId 2, fun l hl => absurd ⟨l.2, ?_⟩ hl⟩
    show EPS ≤ 1
    norm_num [EPS]
  obtain ⟨D, hD⟩ := h
  exact ⟨D, C106_draw_phi_complete exΦ D 2 3 true hD⟩

theorem exK : levelK (1 / 2) exΦ = fun i j => if i = j then 1 else 0 := by
  funext i j
  rw [levelK_apply]
  fin_cases i <;> fin_cases j <;> simp [exΦ, Fin.sum_univ_two]

/-- For the same two points, draws in dual and in primal have different laws. -/
example : ∃ (D : EigDecomp (levelC exΦ)) (E : EigDecomp (levelK (1 / 2) exΦ)), lawOf 1 (drawK E 2 false) ≠ lawOf 1 fun h => kernelValues (1 / 2) exΦ (drawPhi D 2 false h) := by
  have h : ∀ {M : Fin 2 → Fin 2 → ℝ}, (M = fun i j => if i = j then 1 else 0) → ∃ D : EigDecomp M, ∀ l : Fin 2, ¬ (l.val < 2 ∧ EPS ≤ D.lam l) → D.lam l = 0 := by
    rintro M rfl
    refine ⟨eigId 2, fun l hl => absurd ⟨l.2, ?_⟩ hl⟩
    show EPS ≤ 1
    norm_num [EPS]
  obtain ⟨D, hD⟩ := h exC
  obtain ⟨E, hE⟩ := h exK
  exact ⟨D, E, C106_draw_violated exΦ (1 / 2) D E 2 2 false hD hE (by norm_num) 0 0 (by rw [exK]; simp)⟩

/-- One component of two entries: the projector has a null determinant. -/
example : (Matrix.of (projector fun (_ : Fin 1) (i : Fin 2) => if i = 0 then (1 : ℝ) else 0)).det = 0 :=
  (C106_determinant_violated (fun (_ : Fin 1) (i : Fin 2) => if i = 0 then (1 : ℝ) else 0) (by
    intro a b
    refine ⟨fun _ => by simp [correlation], fun h => absurd (Subsingleton.elim a b) h⟩)).2 (by simp)

end Draw
end Kerch
