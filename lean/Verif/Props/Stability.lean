import Verif.Props.Growth
import Verif.Props.Regular
import Verif.Props.Tuning
import Mathlib.Analysis.InnerProductSpace.PiL2
import Mathlib.Analysis.SpecialFunctions.Trigonometric.Deriv
import Mathlib.Analysis.Calculus.MeanValue
import Mathlib.Tactic.FinCases
set_option linter.unusedSectionVars false
set_option linter.unusedSimpArgs false
/-!
# C136: small changes of the data

The model is the one of Model/KernelFun (`statKernel`), Model/LSSVM (`DualSol`, `outDual`) and Model/KPCA (`EigDecomp`, eigenvalues divided by the number of points); what is defined
here are constants of the specification.
-/
namespace Kerch
namespace Stability
open Finset LSSVM Regular

/-! ## Helper lemmas -/

section quad
variable {ι : Type} [Fintype ι]

theorem psd_cauchy {M : ι → ι → ℝ} (hM : PSDMat M) (c e : ι → ℝ) :
    (∑ i, ∑ j, c i * e j * M i j) ^ 2 ≤ (∑ i, ∑ j, c i * c j * M i j) * ∑ i, ∑ j, e i * e j * M i j := by
  have hq : ∀ t : ℝ, 0 ≤ (∑ i, ∑ j, e i * e j * M i j) * (t * t) + 2 * (∑ i, ∑ j, c i * e j * M i j) * t + ∑ i, ∑ j, c i * c j * M i j := by
    intro t
    have h := hM.2 fun i => c i + t * e i
    have e1 : ∑ i, ∑ j, e i * c j * M i j = ∑ i, ∑ j, c i * e j * M i j := by
      rw [sum_comm]
      exact sum_congr rfl fun i _ => sum_congr rfl fun j _ => by rw [hM.1 j i]; ring
    have e2 : ∑ i, ∑ j, (c i + t * e i) * (c j + t * e j) * M i j
        = ∑ i, ∑ j, c i * c j * M i j + t * ∑ i, ∑ j, c i * e j * M i j + t * ∑ i, ∑ j, e i * c j * M i j + t * t * ∑ i, ∑ j, e i * e j * M i j := by
      simp only [mul_sum, ← sum_add_distrib]
      exact sum_congr rfl fun i _ => sum_congr rfl fun j _ => by ring
    rw [e2, e1] at h
    linarith
  have := discrim_le_zero hq
  unfold discrim at this
  nlinarith
end quad

section dist
variable {d : Type} [Fintype d] [Nonempty d]

theorem sqrt_euclidSq (x y : d → ℝ) : Real.sqrt (euclidSq x y) = Dist.dist (WithLp.toLp 2 x : EuclideanSpace ℝ d) (WithLp.toLp 2 y) := by
  rw [EuclideanSpace.dist_eq]
  congr 1
  exact sum_congr rfl fun i _ => by rw [Real.dist_eq, sq_abs]; ring

theorem dist_triangle' {D : DistKind} {x y z : d → ℝ} {a b c : ℝ} (h1 : dist D x y = .ok a) (h2 : dist D y z = .ok b) (h3 : dist D x z = .ok c) : c ≤ a + b := by
  cases D with
  | euclidean =>
    rw [← Except.ok.inj h1, ← Except.ok.inj h2, ← Except.ok.inj h3, sqrt_euclidSq, sqrt_euclidSq, sqrt_euclidSq]
    exact dist_triangle _ _ _
  | manhattan =>
    rw [← Except.ok.inj h1, ← Except.ok.inj h2, ← Except.ok.inj h3]
    unfold manhattan
    rw [← sum_add_distrib]
    exact sum_le_sum fun i _ => abs_sub_le _ _ _
  | chebyshev =>
    rw [← Except.ok.inj h1, ← Except.ok.inj h2, ← Except.ok.inj h3]
    unfold chebyshev
    refine sup'_le _ _ fun i _ => (abs_sub_le _ (y i) _).trans (add_le_add ?_ ?_)
    · exact le_sup' (f := fun i => |x i - y i|) (mem_univ i)
    · exact le_sup' (f := fun i => |y i - z i|) (mem_univ i)
  | minkowski p => cases h1

theorem dist_comm' {D : DistKind} (x y : d → ℝ) : dist D x y = dist D y x := by
  cases D with
  | euclidean => unfold dist; simp only; rw [sqrt_euclidSq, sqrt_euclidSq, dist_comm]
  | manhattan => unfold dist manhattan; simp only [abs_sub_comm]
  | chebyshev => unfold dist chebyshev; simp only [abs_sub_comm]
  | minkowski p => rfl

theorem dist_change {D : DistKind} {x y x' y' : d → ℝ} {a b u v : ℝ} (hx : dist D x x' = .ok a) (hy : dist D y y' = .ok b) (h : dist D x y = .ok u) (h' : dist D x' y' = .ok v) :
    |u - v| ≤ a + b := by
  have hD : ∀ p, D ≠ .minkowski p := by rintro p rfl; cases hx
  obtain ⟨w, hw⟩ := C25_dist_defined D hD x' y
  have t1 := dist_triangle' hx hw h
  have t2 := dist_triangle' hw hy h'
  have t3 := dist_triangle' (by rw [dist_comm']; exact hx) h hw
  have t4 := dist_triangle' h' (by rw [dist_comm']; exact hy) hw
  rw [abs_le]; constructor <;> linarith
end dist

/-- Specification: how steep a statistics kernel is, as a function of the scaled distance. -/
def slope : StatKind → ℝ
  | .epanechnikov => 2
  | .quartic => 4
  | .triweight => 6
  | .tricube => 9
  | _ => 1

theorem pow_sub_le (m : ℕ) (x y : ℝ) (hx : 0 ≤ x) (hx1 : x ≤ 1) (hy : 0 ≤ y) (hy1 : y ≤ 1) : |x ^ m - y ^ m| ≤ m * |x - y| := by
  induction m with
  | zero => simp
  | succ m ih =>
    have e : x ^ (m + 1) - y ^ (m + 1) = x * (x ^ m - y ^ m) + (x - y) * y ^ m := by ring
    rw [e]
    refine (abs_add_le _ _).trans ?_
    rw [abs_mul, abs_mul, abs_of_nonneg hx, abs_of_nonneg (pow_nonneg hy m)]
    have h1 : x * |x ^ m - y ^ m| ≤ 1 * |x ^ m - y ^ m| := mul_le_mul_of_nonneg_right hx1 (abs_nonneg _)
    have h2 : |x - y| * y ^ m ≤ |x - y| * 1 := mul_le_mul_of_nonneg_left (pow_le_one₀ hy hy1) (abs_nonneg _)
    push_cast
    linarith

/-- Profiles of bounded support. -/
theorem cut_lip (f : ℝ → ℝ) (hf1 : f 1 = 0) (L : ℝ) (hf : ∀ x y, 0 ≤ x → x ≤ 1 → 0 ≤ y → y ≤ 1 → |f x - f y| ≤ L * |x - y|) (hL : 0 ≤ L) (u v : ℝ) (hu : 0 ≤ u) (hv : 0 ≤ v) :
    |(if u ≤ 1 then f u else 0) - (if v ≤ 1 then f v else 0)| ≤ L * |u - v| := by
  have e : ∀ w : ℝ, (if w ≤ 1 then f w else 0) = f (min w 1) := by
    intro w
    split
    · rename_i h; rw [min_eq_left h]
    · rename_i h; rw [min_eq_right (not_le.1 h).le, hf1]
  rw [e, e]
  refine (hf _ _ (le_min hu zero_le_one) (min_le_right _ _) (le_min hv zero_le_one) (min_le_right _ _)).trans (mul_le_mul_of_nonneg_left ?_ hL)
  exact abs_min_sub_min_le_max u 1 v 1 |>.trans (by simp)

theorem smooth_lip (f f' : ℝ → ℝ) (hf : ∀ x, HasDerivAt f (f' x) x) (hb : ∀ x, 0 ≤ x → |f' x| ≤ 1) (u v : ℝ) (hu : 0 ≤ u) (hv : 0 ≤ v) : |f u - f v| ≤ 1 * |u - v| := by
  have := (convex_Ici (0 : ℝ)).norm_image_sub_le_of_norm_hasDerivWithin_le (f := f) (f' := f') (C := 1) (fun x _ => (hf x).hasDerivWithinAt) (fun x hx => hb x hx) hv hu
  simpa [Real.norm_eq_abs] using this

theorem profile_lip (s : StatKind) (hs : s ≠ .uniform) (u v : ℝ) (hu : 0 ≤ u) (hv : 0 ≤ v) : |profile s u - profile s v| ≤ slope s * |u - v| := by
  have sq2 : ∀ x : ℝ, 0 ≤ x → x ≤ 1 → 0 ≤ 1 - x ^ 2 ∧ 1 - x ^ 2 ≤ 1 := fun x h0 h1 => ⟨by nlinarith, by nlinarith [sq_nonneg x]⟩
  have cu3 : ∀ x : ℝ, 0 ≤ x → x ≤ 1 → 0 ≤ 1 - x ^ 3 ∧ 1 - x ^ 3 ≤ 1 := fun x h0 h1 => ⟨by linarith [pow_le_one₀ (n := 3) h0 h1], by linarith [pow_nonneg h0 3]⟩
  have b2 : ∀ x y : ℝ, 0 ≤ x → x ≤ 1 → 0 ≤ y → y ≤ 1 → |(1 - x ^ 2) - (1 - y ^ 2)| ≤ 2 * |x - y| := by
    intro x y h1 h2 h3 h4
    have := pow_sub_le 2 x y h1 h2 h3 h4
    rw [show (1 - x ^ 2) - (1 - y ^ 2) = -(x ^ 2 - y ^ 2) by ring, abs_neg]
    exact_mod_cast this
  have b3 : ∀ x y : ℝ, 0 ≤ x → x ≤ 1 → 0 ≤ y → y ≤ 1 → |(1 - x ^ 3) - (1 - y ^ 3)| ≤ 3 * |x - y| := by
    intro x y h1 h2 h3 h4
    have := pow_sub_le 3 x y h1 h2 h3 h4
    rw [show (1 - x ^ 3) - (1 - y ^ 3) = -(x ^ 3 - y ^ 3) by ring, abs_neg]
    exact_mod_cast this
  cases s with
  | epanechnikov => exact cut_lip (fun u => 1 - u ^ 2) (by norm_num) 2 b2 (by norm_num) u v hu hv
  | quartic =>
    refine cut_lip (fun u => (1 - u ^ 2) ^ 2) (by norm_num) 4 (fun x y h1 h2 h3 h4 => ?_) (by norm_num) u v hu hv
    have := pow_sub_le 2 _ _ (sq2 x h1 h2).1 (sq2 x h1 h2).2 (sq2 y h3 h4).1 (sq2 y h3 h4).2
    have := b2 x y h1 h2 h3 h4
    push_cast at *
    linarith
  | triweight =>
    refine cut_lip (fun u => (1 - u ^ 2) ^ 3) (by norm_num) 6 (fun x y h1 h2 h3 h4 => ?_) (by norm_num) u v hu hv
    have := pow_sub_le 3 _ _ (sq2 x h1 h2).1 (sq2 x h1 h2).2 (sq2 y h3 h4).1 (sq2 y h3 h4).2
    have := b2 x y h1 h2 h3 h4
    push_cast at *
    linarith
  | tricube =>
    refine cut_lip (fun u => (1 - u ^ 3) ^ 3) (by norm_num) 9 (fun x y h1 h2 h3 h4 => ?_) (by norm_num) u v hu hv
    have := pow_sub_le 3 _ _ (cu3 x h1 h2).1 (cu3 x h1 h2).2 (cu3 y h3 h4).1 (cu3 y h3 h4).2
    have := b3 x y h1 h2 h3 h4
    push_cast at *
    linarith
  | triangular =>
    refine cut_lip (fun u => 1 - u) (by norm_num) 1 (fun x y _ _ _ _ => ?_) (by norm_num) u v hu hv
    rw [show (1 - x) - (1 - y) = -(x - y) by ring, abs_neg, one_mul]
  | uniform => exact absurd rfl hs
  | silverman =>
    obtain ⟨r, hr⟩ : ∃ r, r = Real.sqrt (1 / 2) := ⟨_, rfl⟩
    have hr0 : 0 ≤ r := hr ▸ Real.sqrt_nonneg _
    have hr2 : r ^ 2 = 1 / 2 := by rw [hr, Real.sq_sqrt (by norm_num)]
    refine smooth_lip (fun u => Real.exp (-(Real.sqrt (1 / 2) * u)) * Real.sin (0.25 * Real.pi + Real.sqrt (1 / 2) * u))
      (fun u => -r * Real.exp (-(r * u)) * Real.sin (0.25 * Real.pi + r * u) + Real.exp (-(r * u)) * (Real.cos (0.25 * Real.pi + r * u) * r)) ?_ ?_ u v hu hv
    · intro x
      rw [← hr]
      have h1 : HasDerivAt (fun u => -(r * u)) (-r) x := (((hasDerivAt_id x).const_mul r).neg).congr_deriv (by ring)
      have h2 : HasDerivAt (fun u => 0.25 * Real.pi + r * u) r x := (((hasDerivAt_id x).const_mul r).const_add (0.25 * Real.pi)).congr_deriv (by ring)
      exact (h1.exp.mul h2.sin).congr_deriv (by ring)
    · intro x hx
      have hE : Real.exp (-(r * x)) ≤ 1 := Real.exp_le_one_iff.2 (by nlinarith)
      have hE0 := Real.exp_pos (-(r * x))
      obtain ⟨S, hS⟩ : ∃ S, S = Real.sin (0.25 * Real.pi + r * x) := ⟨_, rfl⟩
      obtain ⟨C, hC⟩ : ∃ C, C = Real.cos (0.25 * Real.pi + r * x) := ⟨_, rfl⟩
      have hSC : S ^ 2 + C ^ 2 = 1 := by rw [hS, hC]; exact Real.sin_sq_add_cos_sq _
      rw [← hS, ← hC, show -r * Real.exp (-(r * x)) * S + Real.exp (-(r * x)) * (C * r) = Real.exp (-(r * x)) * (r * (C - S)) by ring, abs_mul, abs_of_pos hE0]
      have h1 : |r * (C - S)| ≤ 1 := by
        rw [← sq_le_one_iff_abs_le_one, mul_pow, hr2]
        nlinarith [sq_nonneg (C + S)]
      nlinarith [abs_nonneg (r * (C - S))]
  | logistic =>
    refine smooth_lip (fun u => 4 / (Real.exp u + Real.exp (-u) + 2)) (fun u => -(4 * (Real.exp u - Real.exp (-u))) / (Real.exp u + Real.exp (-u) + 2) ^ 2) ?_ ?_ u v hu hv
    · intro x
      have hne : Real.exp x + Real.exp (-x) + 2 ≠ 0 := by positivity
      have h1 : HasDerivAt (fun u => Real.exp u + Real.exp (-u) + 2) (Real.exp x - Real.exp (-x)) x := by
        exact (((Real.hasDerivAt_exp x).add ((hasDerivAt_neg x).exp)).add_const 2).congr_deriv (by ring)
      exact ((hasDerivAt_const x (4 : ℝ)).div h1 hne).congr_deriv (by ring)
    · intro x _
      have ha := Real.exp_pos x
      have hb := Real.exp_pos (-x)
      generalize Real.exp x = a at *
      generalize Real.exp (-x) = b at *
      rw [abs_div, abs_of_pos (by positivity : 0 < (a + b + 2) ^ 2), div_le_one (by positivity), abs_neg, abs_le]
      constructor <;> nlinarith
  | exponential b =>
    cases b with
    | false =>
      refine smooth_lip (fun u => Real.exp (u * -Real.sqrt (1 / 2))) (fun u => Real.exp (u * -Real.sqrt (1 / 2)) * (1 * -Real.sqrt (1 / 2))) ?_ ?_ u v hu hv
      · intro x
        exact ((hasDerivAt_id x).mul_const _).exp
      · intro x hx
        have hr : Real.sqrt (1 / 2) ≤ 1 := Real.sqrt_le_one.2 (by norm_num)
        have hr0 := Real.sqrt_nonneg (1 / 2)
        have hE : Real.exp (x * -Real.sqrt (1 / 2)) ≤ 1 := Real.exp_le_one_iff.2 (by nlinarith)
        have hE0 := Real.exp_pos (x * -Real.sqrt (1 / 2))
        rw [abs_mul, abs_of_pos hE0, one_mul, abs_neg, abs_of_nonneg hr0]
        nlinarith
    | true =>
      refine smooth_lip (fun u => Real.exp (u ^ 2 * -(1 / 2))) (fun u => Real.exp (u ^ 2 * -(1 / 2)) * -u) ?_ ?_ u v hu hv
      · intro x
        exact ((((hasDerivAt_id x).pow 2).mul_const (-(1 / 2) : ℝ)).exp).congr_deriv (by simp; ring)
      · intro x hx
        have hE0 := Real.exp_pos (x ^ 2 * -(1 / 2))
        rw [abs_mul, abs_of_pos hE0, abs_neg, abs_of_nonneg hx]
        have h1 : x ≤ Real.exp (x ^ 2 * (1 / 2)) := by
          have := Real.add_one_le_exp (x ^ 2 * (1 / 2))
          nlinarith [sq_nonneg (x - 1)]
        have h2 : Real.exp (x ^ 2 * -(1 / 2)) * Real.exp (x ^ 2 * (1 / 2)) = 1 := by rw [← Real.exp_add]; simp
        nlinarith

/-! ## C136 -/

section values
variable {d : Type} [Fintype d] [Nonempty d]

/-- **C136** (values): moving both points changes the value of a statistics kernel by at most its slope times the distances moved, divided by the bandwidth. -/
theorem C136_values_partial (s : StatKind) (hs : s ≠ .uniform) (D : DistKind) (σ : ℝ) (hσ : 0 < σ) (x y x' y' : d → ℝ) (a b : ℝ) (hx : dist D x x' = .ok a) (hy : dist D y y' = .ok b) :
    ∃ v v', statKernel s D σ x y = .ok v ∧ statKernel s D σ x' y' = .ok v' ∧ |v - v'| ≤ slope s * ((a + b) / σ) := by
  have hD : ∀ p, D ≠ .minkowski p := by rintro p rfl; cases hx
  obtain ⟨u, hu⟩ := C25_dist_defined D hD x y
  obtain ⟨w, hw⟩ := C25_dist_defined D hD x' y'
  refine ⟨_, _, statKernel_eq s hσ hu, statKernel_eq s hσ hw, ?_⟩
  refine (profile_lip s hs _ _ (div_nonneg (dist_nonneg' hu) hσ.le) (div_nonneg (dist_nonneg' hw) hσ.le)).trans (mul_le_mul_of_nonneg_left ?_ ?_)
  · rw [← sub_div, abs_div, abs_of_pos hσ]
    exact (div_le_div_iff_of_pos_right hσ).2 (dist_change hx hy hu hw)
  · cases s <;> simp [slope]

/-- The uniform kernel jumps: some points move as little as wanted and the value goes from 1 to 0. -/
theorem C136_uniform_violated (σ : ℝ) (hσ : 0 < σ) (ε : ℝ) (hε : 0 < ε) :
    ∃ x y x' : Fin 1 → ℝ, dist .manhattan x x' = .ok ε ∧ statKernel .uniform .manhattan σ x y = .ok 1 ∧ statKernel .uniform .manhattan σ x' y = .ok 0 := by
  have h1 : dist .manhattan (fun _ : Fin 1 => σ) (fun _ => 0) = .ok σ := by simp [dist, manhattan, abs_of_pos hσ]
  have h2 : dist .manhattan (fun _ : Fin 1 => σ + ε) (fun _ => 0) = .ok (σ + ε) := by simp [dist, manhattan, abs_of_pos (add_pos hσ hε)]
  refine ⟨fun _ => σ, fun _ => 0, fun _ => σ + ε, ?_, ?_, ?_⟩
  · simp [dist, manhattan, abs_of_pos hε]
  · rw [statKernel_eq _ hσ h1]
    simp [profile, div_self hσ.ne']
  · rw [statKernel_eq _ hσ h2]
    have : ¬ (σ + ε) / σ ≤ 1 := by rw [div_le_one hσ]; linarith
    simp [profile, this]
end values

section fits
variable {n : Type} [Fintype n]

theorem DualSol.sub {K : n → n → ℝ} {γ : ℝ} {y y' h h' : n → ℝ} {b b' : ℝ} (hs : DualSol K γ y h b) (hs' : DualSol K γ y' h' b') :
    DualSol K γ (fun i => y i - y' i) (fun i => h i - h' i) (b - b') := by
  refine ⟨fun i => ?_, by rw [sum_sub_distrib, hs.2, hs'.2, sub_zero]⟩
  have h1 := hs.1 i
  have h2 := hs'.1 i
  simp only [mul_sub, sum_sub_distrib]
  linarith

/-- What the targets give to the solution. -/
theorem energy {K : n → n → ℝ} {γ : ℝ} {y h : n → ℝ} {b : ℝ} (hs : DualSol K γ y h b) : ∑ i, y i * h i = Norm2 K h + γ * ∑ i, h i ^ 2 := by
  have : ∀ i, y i * h i = (∑ j, h i * h j * K i j) + γ * h i ^ 2 + b * h i := by
    intro i
    rw [← hs.1 i, add_mul, add_mul, sum_mul]
    congr 2
    · exact sum_congr rfl fun j _ => by ring
    · ring
  simp only [this, sum_add_distrib, ← mul_sum, hs.2, Norm2]
  ring

/-- **C136** (targets): changing the targets changes the fitted values and the residuals by no more, in total. -/
theorem C136_targets (K : n → n → ℝ) (hK : PSDMat K) (γ : ℝ) (hγ : 0 < γ) (y y' h h' : n → ℝ) (b b' : ℝ) (hs : DualSol K γ y h b) (hs' : DualSol K γ y' h' b') :
    ∑ i, (outDual (K i) h b - outDual (K i) h' b') ^ 2 + ∑ i, ((y i - outDual (K i) h b) - (y' i - outDual (K i) h' b')) ^ 2 ≤ ∑ i, (y i - y' i) ^ 2 := by
  have hd := DualSol.sub hs hs'
  have h1 := (C121_residual K γ y h b hs).1
  have h2 := (C121_residual K γ y' h' b' hs').1
  have he := energy hd
  have hN : 0 ≤ Norm2 K fun i => h i - h' i := hK.2 _
  have e1 : ∀ i, (outDual (K i) h b - outDual (K i) h' b') ^ 2 + ((y i - outDual (K i) h b) - (y' i - outDual (K i) h' b')) ^ 2
      = (y i - y' i) ^ 2 - 2 * γ * ((y i - y' i) * (h i - h' i)) + 2 * γ * (γ * (h i - h' i) ^ 2) := by
    intro i
    have a1 : outDual (K i) h b = y i - γ * h i := by linarith [h1 i]
    have a2 : outDual (K i) h' b' = y' i - γ * h' i := by linarith [h2 i]
    rw [a1, a2]; ring
  rw [← sum_add_distrib, sum_congr rfl fun i _ => e1 i]
  simp only [sum_add_distrib, sum_sub_distrib, ← mul_sum] at he ⊢
  rw [he]
  nlinarith

variable {X : Type}

/-- The squared distance in the feature space from a point to the mean of the sample. -/
noncomputable def spread [Nonempty n] (κ : X → X → ℝ) (pts : n → X) (x : X) : ℝ :=
  κ x x - 2 * ((∑ i, κ x (pts i)) / Fintype.card n) + (∑ i, ∑ j, κ (pts i) (pts j)) / (Fintype.card n) ^ 2

/-- **C136** (targets, at any point): beyond the change of the mean of the targets, predictions change by at most the distance to the mean of the sample in the feature space, times the total change of the targets
over `2 sqrt(gamma)`. -/
theorem C136_prediction [Nonempty n] (κ : X → X → ℝ) (hκ : PSDOn Set.univ κ) (pts : n → X) (γ : ℝ) (hγ : 0 < γ) (y y' h h' : n → ℝ) (b b' : ℝ)
    (hs : DualSol (fun i j => κ (pts i) (pts j)) γ y h b) (hs' : DualSol (fun i j => κ (pts i) (pts j)) γ y' h' b') (x : X) :
    (outDual (fun i => κ x (pts i)) h b - outDual (fun i => κ x (pts i)) h' b' - mean fun i => y i - y' i) ^ 2
      ≤ spread κ pts x * ((∑ i, (y i - y' i) ^ 2) / (4 * γ)) := by
  have hd := DualSol.sub hs hs'
  obtain ⟨g, hg⟩ : ∃ g : n → ℝ, g = fun i => h i - h' i := ⟨_, rfl⟩
  obtain ⟨t, ht⟩ : ∃ t : n → ℝ, t = fun i => y i - y' i := ⟨_, rfl⟩
  rw [← hg, ← ht] at hd
  have hy : ∀ i, y i - y' i = t i := fun i => (congrFun ht i).symm
  simp only [hy]
  obtain ⟨N, hN⟩ : ∃ N : ℝ, N = Fintype.card n := ⟨_, rfl⟩
  have hN0 : N ≠ 0 := by rw [hN]; exact_mod_cast Fintype.card_ne_zero
  have hsym : ∀ u v, κ u v = κ v u := fun u v => (hκ Bool (fun c => if c then u else v) fun _ => trivial).1 true false
  -- the bias
  have hb : b - b' = mean t - (∑ i, ∑ j, κ (pts i) (pts j) * g j) / N := by
    have h1 : ∑ i, t i = ∑ i, ∑ j, κ (pts i) (pts j) * g j + N * (b - b') := by
      rw [← sum_congr rfl fun i _ => hd.1 i]
      simp only [sum_add_distrib, ← mul_sum, hd.2, sum_const, card_univ, nsmul_eq_mul, mul_zero, add_zero, hN]
    unfold mean
    rw [h1, ← hN]
    field_simp
    ring
  have hout : outDual (fun i => κ x (pts i)) h b - outDual (fun i => κ x (pts i)) h' b' - mean t = ∑ j, κ x (pts j) * g j - (∑ i, ∑ j, κ (pts i) (pts j) * g j) / N := by
    have : outDual (fun i => κ x (pts i)) h b - outDual (fun i => κ x (pts i)) h' b' = ∑ j, κ x (pts j) * g j + (b - b') := by
      unfold outDual
      rw [hg]
      simp only [mul_sub, sum_sub_distrib]
      ring
    rw [this, hb]; ring
  rw [hout]
  -- Cauchy-Schwarz between `x - mean` and `∑ g_j pts_j`
  have hP := hκ (Option n) (fun o => o.elim x pts) fun _ => trivial
  have hC := psd_cauchy hP (fun o => o.elim 1 fun _ => -(1 / N)) (fun o => o.elim 0 g)
  simp only [Fintype.sum_option, Option.elim_none, Option.elim_some, zero_mul, mul_zero, zero_add, one_mul, mul_one] at hC
  have c1 : ∑ j, g j * κ x (pts j) + ∑ i, ∑ j, -(1 / N) * g j * κ (pts i) (pts j) = ∑ j, κ x (pts j) * g j - (∑ i, ∑ j, κ (pts i) (pts j) * g j) / N := by
    rw [sub_eq_add_neg]
    congr 1
    · exact sum_congr rfl fun _ _ => mul_comm _ _
    · rw [sum_div, ← sum_neg_distrib]
      refine sum_congr rfl fun i _ => ?_
      rw [sum_div, ← sum_neg_distrib]
      exact sum_congr rfl fun j _ => by ring
  have c2 : κ x x + ∑ j, -(1 / N) * κ x (pts j) + ∑ i, (-(1 / N) * κ (pts i) x + ∑ j, -(1 / N) * -(1 / N) * κ (pts i) (pts j)) = spread κ pts x := by
    unfold spread
    rw [← hN, sum_add_distrib, ← mul_sum, ← mul_sum]
    have : ∑ i, κ (pts i) x = ∑ i, κ x (pts i) := sum_congr rfl fun i _ => hsym _ _
    rw [this]
    simp only [← mul_sum]
    field_simp
    ring
  rw [c1, c2] at hC
  have hS : 0 ≤ spread κ pts x := by
    rw [← c2]
    have := hP.2 (fun o => o.elim 1 fun _ => -(1 / N))
    simpa only [Fintype.sum_option, Option.elim_none, Option.elim_some, one_mul, mul_one] using this
  refine hC.trans (mul_le_mul_of_nonneg_left ?_ hS)
  -- the norm of the change
  have he := energy hd
  have hNn : ∑ i, ∑ j, g i * g j * κ (pts i) (pts j) = Norm2 (fun i j => κ (pts i) (pts j)) g := rfl
  rw [sum_const_zero, zero_add, hNn, le_div_iff₀ (by positivity)]
  have hq : 0 ≤ ∑ i, (t i - 2 * γ * g i) ^ 2 := sum_nonneg fun _ _ => sq_nonneg _
  have e : ∑ i, (t i - 2 * γ * g i) ^ 2 = ∑ i, t i ^ 2 - 4 * γ * ∑ i, t i * g i + 4 * γ * (γ * ∑ i, g i ^ 2) := by
    simp only [mul_sum, ← sum_sub_distrib, ← sum_add_distrib]
    exact sum_congr rfl fun i _ => by ring
  rw [e, he] at hq
  nlinarith

/-- **C136** (kernel): if no value of the kernel matrix changes by more than `δ`, the dual variables change by at most `card * δ / gamma` times their size. -/
theorem C136_dual (K K' : n → n → ℝ) (hK : PSDMat K) (γ : ℝ) (hγ : 0 < γ) (y h h' : n → ℝ) (b b' : ℝ) (hs : DualSol K γ y h b) (hs' : DualSol K' γ y h' b') (δ : ℝ)
    (hδ : ∀ i j, |K i j - K' i j| ≤ δ) : γ ^ 2 * ∑ i, (h i - h' i) ^ 2 ≤ (Fintype.card n * δ) ^ 2 * ∑ i, h' i ^ 2 := by
  have hd : DualSol K γ (fun i => ∑ j, (K' i j - K i j) * h' j) (fun i => h i - h' i) (b - b') := by
    refine ⟨fun i => ?_, by rw [sum_sub_distrib, hs.2, hs'.2, sub_zero]⟩
    have h1 := hs.1 i
    have h2 := hs'.1 i
    simp only [mul_sub, sub_mul, sum_sub_distrib]
    linarith
  have h3 := (C121_bound K hK γ hγ _ _ _ hd 0).2.2
  refine h3.trans ?_
  have h4 : ∀ i, ((∑ j, (K' i j - K i j) * h' j) - 0) ^ 2 ≤ Fintype.card n * δ ^ 2 * ∑ j, h' j ^ 2 := by
    intro i
    rw [sub_zero]
    refine (sum_mul_sq_le_sq_mul_sq _ _ _).trans (mul_le_mul_of_nonneg_right ?_ (sum_nonneg fun _ _ => sq_nonneg _))
    calc ∑ j, (K' i j - K i j) ^ 2 ≤ ∑ _j : n, δ ^ 2 := sum_le_sum fun j _ => by
          rw [← sq_abs, abs_sub_comm]
          exact pow_le_pow_left₀ (abs_nonneg _) (hδ i j) 2
      _ = _ := by simp
  refine (sum_le_sum fun i _ => h4 i).trans (le_of_eq ?_)
  simp only [sum_const, card_univ, nsmul_eq_mul]
  ring
end fits

section spectrum
variable {n : ℕ}

/-- A decomposition of the matrix with `ε` added on its diagonal. -/
def shift {M : Fin n → Fin n → ℝ} (D : EigDecomp M) (ε : ℝ) : EigDecomp fun i j => M i j + if i = j then ε else 0 where
  lam := fun l => D.lam l + ε
  V := D.V
  sorted := fun _ _ h => add_le_add_left (D.sorted h) ε
  orth := D.orth
  eig := by
    intro i k
    simp only [add_mul, sum_add_distrib, D.eig i k, ite_mul, zero_mul, sum_ite_eq, mem_univ, if_true]

theorem weyl {M M' : Fin n → Fin n → ℝ} (D : EigDecomp M) (D' : EigDecomp M') (δ : ℝ) (hδ : ∀ i j, |M i j - M' i j| ≤ δ) (l : Fin n) : D.lam l ≤ D'.lam l + n * δ := by
  refine Growth.compare (m := 0) D (shift D' (n * δ)) l l (fun r => r.elim0) (fun b a => if b = a then 1 else 0) (by simp) ?_
  intro u _ _
  have hJ : ∀ b, ∑ a, (if b = a then (1 : ℝ) else 0) * u a = u b := fun b => by simp
  simp only [hJ]
  refine ⟨?_, trivial⟩
  have hsplit : Growth.quad (fun i j => M' i j + if i = j then (n : ℝ) * δ else 0) u = Growth.quad M' u + n * δ * ∑ i, u i ^ 2 := by
    unfold Growth.quad
    simp only [mul_add, add_mul, sum_add_distrib, mul_ite, ite_mul, mul_zero, zero_mul, sum_ite_eq, mem_univ, if_true]
    rw [mul_sum]
    congr 1
    exact sum_congr rfl fun i _ => by ring
  rw [hsplit]
  have hdiff : Growth.quad M u - Growth.quad M' u = ∑ i, ∑ j, u i * (M i j - M' i j) * u j := by
    unfold Growth.quad
    rw [← sum_sub_distrib]
    refine sum_congr rfl fun i _ => ?_
    rw [← sum_sub_distrib]
    exact sum_congr rfl fun j _ => by ring
  have hb : ∑ i, ∑ j, u i * (M i j - M' i j) * u j ≤ ∑ i : Fin n, ∑ j : Fin n, δ * ((u i ^ 2 + u j ^ 2) / 2) := by
    refine sum_le_sum fun i _ => sum_le_sum fun j _ => ?_
    have h1 := hδ i j
    have h2 : u i * (M i j - M' i j) * u j ≤ |M i j - M' i j| * |u i * u j| := by
      rw [← abs_mul]
      refine le_trans (le_of_eq ?_) (le_abs_self _)
      ring
    have h3 : |u i * u j| ≤ (u i ^ 2 + u j ^ 2) / 2 := by
      rw [abs_le]; constructor <;> nlinarith [sq_nonneg (u i - u j), sq_nonneg (u i + u j)]
    exact h2.trans (mul_le_mul h1 h3 (abs_nonneg _) ((abs_nonneg _).trans h1))
  have he : ∑ i : Fin n, ∑ j : Fin n, δ * ((u i ^ 2 + u j ^ 2) / 2) = n * δ * ∑ i, u i ^ 2 := by
    simp only [← mul_sum, ← sum_div, sum_add_distrib, sum_const, card_univ, Fintype.card_fin, nsmul_eq_mul]
    ring
  linarith

/-- **C136** (variances): if no value of the kernel matrix changes by more than `δ`, no explained variance (`vals`, the eigenvalues divided by the number of points) does. -/
theorem C136_variances {M M' : Fin n → Fin n → ℝ} (D : EigDecomp M) (D' : EigDecomp M') (δ : ℝ) (hδ : ∀ i j, |M i j - M' i j| ≤ δ) (l : Fin n) :
    |1 / (n : ℝ) * D.lam l - 1 / (n : ℝ) * D'.lam l| ≤ δ := by
  have hn : (0 : ℝ) < n := by
    have : 0 < n := lt_of_le_of_lt (Nat.zero_le _) l.2
    exact_mod_cast this
  have h1 := weyl D D' δ hδ l
  have h2 := weyl D' D δ (fun i j => by rw [abs_sub_comm]; exact hδ i j) l
  rw [← mul_sub, abs_mul, abs_of_pos (by positivity), one_div, inv_mul_le_iff₀ hn, abs_le]
  constructor <;> linarith

/-- **C136** (data): moving each point by at most `ε` changes each explained variance by at most `2 slope ε / σ`. -/
theorem C136_data_partial {d : Type} [Fintype d] [Nonempty d] (s : StatKind) (hs : s ≠ .uniform) (D : DistKind) (σ : ℝ) (hσ : 0 < σ) (x x' : Fin n → d → ℝ) (ε : ℝ)
    (hx : ∀ i, ∃ a, dist D (x i) (x' i) = .ok a ∧ a ≤ ε) {M M' : Fin n → Fin n → ℝ} (hM : ∀ i j, statKernel s D σ (x i) (x j) = .ok (M i j))
    (hM' : ∀ i j, statKernel s D σ (x' i) (x' j) = .ok (M' i j)) (E : EigDecomp M) (E' : EigDecomp M') (l : Fin n) :
    |1 / (n : ℝ) * E.lam l - 1 / (n : ℝ) * E'.lam l| ≤ slope s * (2 * ε / σ) := by
  refine C136_variances E E' _ (fun i j => ?_) l
  obtain ⟨a, ha, ha'⟩ := hx i
  obtain ⟨b, hb, hb'⟩ := hx j
  obtain ⟨v, v', h1, h2, h3⟩ := C136_values_partial s hs D σ hσ _ _ _ _ a b ha hb
  rw [hM] at h1
  rw [hM'] at h2
  rw [Except.ok.inj h1, Except.ok.inj h2]
  refine h3.trans (mul_le_mul_of_nonneg_left ((div_le_div_iff_of_pos_right hσ).2 (by linarith)) ?_)
  cases s <;> simp [slope]

/-- The components themselves do not follow: for any `ε` there are matrices that close of which the first components are orthogonal. -/
theorem C136_components_violated (ε : ℝ) (hε : 0 < ε) (hε1 : ε < 1) :
    let M : Fin 2 → Fin 2 → ℝ := fun i j => if i = j then (if i = 0 then 1 else 1 - ε) else 0
    let M' : Fin 2 → Fin 2 → ℝ := fun i j => if i = j then (if i = 0 then 1 - ε else 1) else 0
    PSDMat M ∧ PSDMat M' ∧ (∀ i j, |M i j - M' i j| ≤ ε) ∧ ∀ (D : EigDecomp M) (D' : EigDecomp M'), ∑ i, D.V i 0 * D'.V i 0 = 0 := by
  intro M M'
  have hd : ∀ a b : ℝ, 0 ≤ a → 0 ≤ b → PSDMat (ι := Fin 2) (fun i j => if i = j then (if i = 0 then a else b) else 0) := by
    intro a b ha hb
    refine ⟨fun i j => by fin_cases i <;> fin_cases j <;> simp, fun c => ?_⟩
    simp [Fin.sum_univ_two]
    nlinarith [mul_nonneg ha (sq_nonneg (c 0)), mul_nonneg hb (sq_nonneg (c 1))]
  refine ⟨hd 1 (1 - ε) zero_le_one (by linarith), hd (1 - ε) 1 (by linarith) zero_le_one, ?_, ?_⟩
  · intro i j
    fin_cases i <;> fin_cases j <;> simp [M, M', abs_of_pos hε, hε.le]
  · intro D D'
    have key : ∀ (N : Fin 2 → Fin 2 → ℝ) (E : EigDecomp N) (p q : Fin 2) (a b : ℝ), p ≠ q → b < a → N p p = a → N q q = b → N p q = 0 → N q p = 0 → E.V q 0 = 0 := by
      intro N E p q a b hpq hab h1 h2 h3 h4
      have hu : ∀ f : Fin 2 → ℝ, ∑ i, f i = f p + f q := by
        intro f
        rw [Fin.sum_univ_two]
        fin_cases p <;> fin_cases q <;> simp_all [add_comm]
      have e1 := E.eig p 0
      have e2 := E.eig q 0
      have e3 := E.eig p 1
      have e4 := E.eig q 1
      rw [hu] at e1 e2 e3 e4
      rw [h1, h3] at e1 e3
      rw [h2, h4] at e2 e4
      have o1 := E.orth 0 0
      have o2 := E.orth 1 1
      have o3 := E.orth 0 1
      rw [hu] at o1 o2 o3
      simp at o1 o2 o3
      have hs := E.sorted (show (0 : Fin 2) ≤ 1 by decide)
      by_contra hne
      have l0 : E.lam 0 = b := by
        have : (b - E.lam 0) * E.V q 0 = 0 := by linarith
        rcases mul_eq_zero.1 this with h | h
        · linarith
        · exact absurd h hne
      have hp0 : E.V p 0 = 0 := by
        have : (a - b) * E.V p 0 = 0 := by rw [l0] at e1; linarith
        rcases mul_eq_zero.1 this with h | h
        · linarith
        · exact h
      have hq1 : E.V q 1 = 0 := by
        rw [hp0, zero_mul, zero_add] at o3
        rcases mul_eq_zero.1 o3 with h | h
        · exact absurd h hne
        · exact h
      have hp1 : E.V p 1 ≠ 0 := by
        intro h
        rw [h, hq1] at o2
        norm_num at o2
      have l1 : E.lam 1 = a := by
        have : (a - E.lam 1) * E.V p 1 = 0 := by linarith
        rcases mul_eq_zero.1 this with h | h
        · linarith
        · exact absurd h hp1
      rw [l0, l1] at hs
      linarith
    have k1 := key M D 0 1 1 (1 - ε) (by decide) (by linarith) (by simp [M]) (by simp [M]) (by simp [M]) (by simp [M])
    have k2 := key M' D' 1 0 1 (1 - ε) (by decide) (by linarith) (by simp [M']) (by simp [M']) (by simp [M']) (by simp [M'])
    rw [Fin.sum_univ_two, k1, k2]
    ring
end spectrum

/-! ## Examples -/

/-- `C136_values_partial`: the Gaussian kernel of bandwidth 2, a point moved by 1 along a coordinate. -/
example : ∃ v v', statKernel (.exponential true) .manhattan 2 (fun _ : Fin 1 => 3) (fun _ => 0) = .ok v ∧ statKernel (.exponential true) .manhattan 2 (fun _ : Fin 1 => 4) (fun _ => 0) = .ok v' ∧
    |v - v'| ≤ 1 / 2 := by
  obtain ⟨v, v', h1, h2, h3⟩ := C136_values_partial (.exponential true) (by simp) .manhattan 2 (by norm_num) (fun _ : Fin 1 => 3) (fun _ => 0) (fun _ => 4) (fun _ => 0) 1 0
    (by simp [dist, manhattan]; norm_num) (by simp [dist, manhattan])
  exact ⟨v, v', h1, h2, h3.trans (by simp [slope])⟩

/-- Two points of the line with the linear kernel, and targets 0 and 3: the solution with `gamma = 1`. -/
theorem exSol : DualSol (fun i j : Fin 2 => ((![0, 1] : Fin 2 → ℝ) i) * (![0, 1] : Fin 2 → ℝ) j) 1 ![0, 3] ![-1, 1] 1 := by
  constructor
  · intro i; fin_cases i <;> simp <;> norm_num
  · simp
/-- The same with targets 0 and 6. -/
theorem exSol' : DualSol (fun i j : Fin 2 => ((![0, 1] : Fin 2 → ℝ) i) * (![0, 1] : Fin 2 → ℝ) j) 1 ![0, 6] ![-2, 2] 2 := by
  constructor
  · intro i; fin_cases i <;> simp <;> norm_num
  · simp

/-- `C136_targets`: the fitted values change from (1, 2) to (2, 4), the residuals from (-1, 1) to (-2, 2): `1 + 4 + 1 + 1` is at most `9`. -/
example : (1 : ℝ) + 4 + (1 + 1) ≤ 9 := by
  have h := C136_targets _ (psdMat_rank_one (![0, 1] : Fin 2 → ℝ)) 1 one_pos _ _ _ _ _ _ exSol exSol'
  simp [outDual, Fin.sum_univ_two] at h
  norm_num at h ⊢

/-- `C136_prediction` at the point 5: predictions 1 + 5 and 2 + 10. -/
example : ((6 : ℝ) - 12 - (-(3 / 2))) ^ 2 ≤ (5 - 1 / 2) ^ 2 * (9 / 4) := by
  have hκ : PSDOn Set.univ fun x y : ℝ => x * y := fun ι _ x _ => psdMat_rank_one x
  have h := C136_prediction (fun x y : ℝ => x * y) hκ (![0, 1] : Fin 2 → ℝ) 1 one_pos _ _ _ _ _ _ exSol exSol' 5
  simp [outDual, Fin.sum_univ_two, spread, mean] at h
  norm_num at h ⊢

/-- `C136_dual`: both points moved, from (0, 1) to (0, 1/2). -/
example (h' : Fin 2 → ℝ) (b' : ℝ) (hs' : DualSol (fun i j : Fin 2 => ((![0, 1 / 2] : Fin 2 → ℝ) i) * (![0, 1 / 2] : Fin 2 → ℝ) j) 1 ![0, 3] h' b') :
    1 ^ 2 * ∑ i, ((![-1, 1] : Fin 2 → ℝ) i - h' i) ^ 2 ≤ (2 * (3 / 4)) ^ 2 * ∑ i, h' i ^ 2 := by
  have := C136_dual _ _ (psdMat_rank_one (![0, 1] : Fin 2 → ℝ)) 1 one_pos _ _ _ _ _ exSol hs' (3 / 4) (by
    intro i j
    fin_cases i <;> fin_cases j <;> simp <;> norm_num [abs_of_pos])
  simpa using this

/-- `C136_variances`: two matrices of eigenvalues (4, 1) and (4, 2). -/
noncomputable def exDiag (a : ℝ) (ha : a ≤ 4) : EigDecomp (n := 2) (fun i j => if i = j then (if i = 0 then 4 else a) else 0) where
  lam := ![4, a]
  V := fun i j => if i = j then 1 else 0
  sorted := by intro i j h; fin_cases i <;> fin_cases j <;> simp_all
  orth := by intro i j; fin_cases i <;> fin_cases j <;> simp
  eig := by intro i j; fin_cases i <;> fin_cases j <;> simp
example : |1 / ((2 : ℕ) : ℝ) * (exDiag 1 (by norm_num)).lam 1 - 1 / ((2 : ℕ) : ℝ) * (exDiag 2 (by norm_num)).lam 1| ≤ 1 :=
  C136_variances (exDiag 1 (by norm_num)) (exDiag 2 (by norm_num)) 1 (by
    intro i j
    fin_cases i <;> fin_cases j <;> norm_num) 1

/-- `C136_data_partial`: the triangular kernel on any two samples of the line with points moved by at most a tenth of the bandwidth. -/
example (x x' : Fin 3 → Fin 1 → ℝ) (h : ∀ i, ∃ a, dist .manhattan (x i) (x' i) = .ok a ∧ a ≤ 1 / 10) {M M' : Fin 3 → Fin 3 → ℝ}
    (hM : ∀ i j, statKernel .triangular .manhattan 1 (x i) (x j) = .ok (M i j)) (hM' : ∀ i j, statKernel .triangular .manhattan 1 (x' i) (x' j) = .ok (M' i j))
    (E : EigDecomp M) (E' : EigDecomp M') : |1 / ((3 : ℕ) : ℝ) * E.lam 0 - 1 / ((3 : ℕ) : ℝ) * E'.lam 0| ≤ 1 / 5 := by
  have := C136_data_partial .triangular (by simp) .manhattan 1 one_pos x x' (1 / 10) h hM hM' E E' 0
  refine this.trans (le_of_eq ?_)
  simp only [slope]
  norm_num
end Stability
end Kerch
