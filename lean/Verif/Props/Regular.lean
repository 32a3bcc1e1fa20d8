import Mathlib.Topology.Algebra.Order.Field
import Mathlib.Topology.Instances.Real.Lemmas
import Verif.Model.LSSVMTrain
import Verif.Props.LSSVM
import Verif.Props.LSSVMTrain
/-!
# C121 and C122: what gamma and the units of the targets do to a fitted LS-SVM
-/
set_option linter.unusedSectionVars false
set_option linter.unusedSimpArgs false
namespace Kerch
namespace Regular
open Finset LSSVM LSTrain Filter Topology

variable {n : Type} [Fintype n]

/-! ## Specification -/

/-- The error of an affine function of the kernel on the training data. -/
def Err2 (K : n → n → ℝ) (y h : n → ℝ) (b : ℝ) : ℝ := ∑ i, (y i - (∑ j, K i j * h j + b)) ^ 2

/-- The squared norm of the function, a measure of its roughness. -/
def Norm2 (K : n → n → ℝ) (h : n → ℝ) : ℝ := ∑ i, ∑ j, h i * h j * K i j

/-- The mean of the targets. -/
noncomputable def mean (y : n → ℝ) : ℝ := (1 / (Fintype.card n : ℝ)) * ∑ i, y i

/-! ## Lemmas -/

theorem norm2_eq (K : n → n → ℝ) (h : n → ℝ) : Norm2 K h = ∑ i, h i * ∑ j, K i j * h j :=
  sum_congr rfl fun i _ => by rw [mul_sum]; exact sum_congr rfl fun j _ => by ring

/-- What any other function costs more than the solution. -/
theorem excess (K : n → n → ℝ) (hK : PSDMat K) (γ : ℝ) (y h : n → ℝ) (b : ℝ) (hs : DualSol K γ y h b) (h' : n → ℝ) (b' : ℝ) :
    Err2 K y h' b' + γ * Norm2 K h' = Err2 K y h b + γ * Norm2 K h +
      (∑ i, (∑ j, K i j * (h' j - h j) + (b' - b)) ^ 2 + γ * Norm2 K (fun i => h' i - h i)) := by
  obtain ⟨h1, h2⟩ := hs
  obtain ⟨u, hu⟩ : ∃ u : n → ℝ, u = fun i => h' i - h i := ⟨_, rfl⟩
  have hu' : ∀ i, h' i = h i + u i := fun i => by rw [hu]; ring
  have hu'' : ∀ i, h' i - h i = u i := fun i => by rw [hu]
  obtain ⟨p, hp⟩ : ∃ p : n → ℝ, p = fun i => ∑ j, K i j * u j := ⟨_, rfl⟩
  have hp' : ∀ i, ∑ j, K i j * u j = p i := fun i => by rw [hp]
  have hk : ∀ i, ∑ j, K i j * h' j = ∑ j, K i j * h j + p i := by
    intro i
    rw [← hp' i, ← sum_add_distrib]
    exact sum_congr rfl fun j _ => by rw [hu' j]; ring
  have hsym : ∑ i, u i * ∑ j, K i j * h j = ∑ i, h i * p i := by
    simp only [← hp', mul_sum]
    rw [sum_comm]
    exact sum_congr rfl fun i _ => sum_congr rfl fun j _ => by rw [hK.1 j i]; ring
  have e1 : Err2 K y h' b' = Err2 K y h b - 2 * γ * ∑ i, h i * p i + ∑ i, (p i + (b' - b)) ^ 2 := by
    have : ∀ i, (y i - (∑ j, K i j * h' j + b')) ^ 2 =
        (y i - (∑ j, K i j * h j + b)) ^ 2 - 2 * γ * (h i * p i) - 2 * γ * (b' - b) * h i + (p i + (b' - b)) ^ 2 := by
      intro i
      rw [hk i, ← h1 i]
      ring
    simp only [Err2, this, sum_add_distrib, sum_sub_distrib, ← mul_sum, h2]
    ring
  have e2 : Norm2 K h' = Norm2 K h + 2 * ∑ i, h i * p i + Norm2 K u := by
    rw [norm2_eq, norm2_eq, norm2_eq]
    have : ∀ i, h' i * ∑ j, K i j * h' j = h i * ∑ j, K i j * h j + u i * ∑ j, K i j * h j + h i * p i + u i * ∑ j, K i j * u j := by
      intro i
      rw [hk i, hu' i, hp' i]
      ring
    simp only [this, sum_add_distrib, hsym]
    ring
  have e3 : (fun i => h' i - h i) = u := funext hu''
  rw [e1, e2]
  simp only [e3, hu'', hp']
  ring

theorem best (K : n → n → ℝ) (hK : PSDMat K) (γ : ℝ) (hγ : 0 ≤ γ) (y h : n → ℝ) (b : ℝ) (hs : DualSol K γ y h b) (h' : n → ℝ) (b' : ℝ) :
    Err2 K y h b + γ * Norm2 K h ≤ Err2 K y h' b' + γ * Norm2 K h' := by
  rw [excess K hK γ y h b hs h' b']
  have h1 : 0 ≤ ∑ i, (∑ j, K i j * (h' j - h j) + (b' - b)) ^ 2 := sum_nonneg fun i _ => sq_nonneg _
  have h2 : 0 ≤ γ * Norm2 K (fun i => h' i - h i) := mul_nonneg hγ (hK.2 _)
  linarith

/-! ## C121 -/

/-- **C121** What is left at each training point is gamma times its dual variable; what is left sums to zero, whence the outputs on the training points have the mean of the
targets. -/
theorem C121_residual (K : n → n → ℝ) (γ : ℝ) (y h : n → ℝ) (b : ℝ) (hs : DualSol K γ y h b) :
    (∀ i, y i - outDual (K i) h b = γ * h i) ∧ ∑ i, (y i - outDual (K i) h b) = 0 ∧ mean (fun i => outDual (K i) h b) = mean y := by
  have h1 : ∀ i, y i - outDual (K i) h b = γ * h i := fun i => by rw [← hs.1 i, outDual]; ring
  have h2 : ∑ i, (y i - outDual (K i) h b) = 0 := by simp only [h1, ← mul_sum, hs.2, mul_zero]
  refine ⟨h1, h2, ?_⟩
  rw [sum_sub_distrib] at h2
  rw [mean, mean, ← sub_eq_zero.1 h2]

/-- **C121** A greater gamma gives a smoother function, which fits the training data no better: for all kernels, data and pairs of values. -/
theorem C121_monotone (K : n → n → ℝ) (hK : PSDMat K) (γ γ' : ℝ) (hγ : 0 < γ) (hle : γ ≤ γ') (y h h' : n → ℝ) (b b' : ℝ) (hs : DualSol K γ y h b)
    (hs' : DualSol K γ' y h' b') : Err2 K y h b ≤ Err2 K y h' b' ∧ Norm2 K h' ≤ Norm2 K h := by
  have a1 := best K hK γ hγ.le y h b hs h' b'
  have a2 := best K hK γ' (hγ.le.trans hle) y h' b' hs' h b
  rcases hle.eq_or_lt with rfl | hlt
  · have e1 := excess K hK γ y h b hs h' b'
    have e2 := excess K hK γ y h' b' hs' h b
    have h1 : 0 ≤ ∑ i, (∑ j, K i j * (h' j - h j) + (b' - b)) ^ 2 := sum_nonneg fun i _ => sq_nonneg _
    have h2 : 0 ≤ Norm2 K (fun i => h' i - h i) := hK.2 _
    have h3 : 0 ≤ γ * Norm2 K (fun i => h' i - h i) := mul_nonneg hγ.le h2
    have h1' : 0 ≤ ∑ i, (∑ j, K i j * (h j - h' j) + (b - b')) ^ 2 := sum_nonneg fun i _ => sq_nonneg _
    have h2' : 0 ≤ Norm2 K (fun i => h i - h' i) := hK.2 _
    have h3' : 0 ≤ γ * Norm2 K (fun i => h i - h' i) := mul_nonneg hγ.le h2'
    have z : ∑ i, (∑ j, K i j * (h' j - h j) + (b' - b)) ^ 2 = 0 := by linarith
    have z' : ∀ i, ∑ j, K i j * (h' j - h j) + (b' - b) = 0 := fun i => by
      have := (sum_eq_zero_iff_of_nonneg fun i _ => sq_nonneg _).1 z i (mem_univ i)
      exact pow_eq_zero_iff (by norm_num) |>.1 this
    have ee : Err2 K y h' b' = Err2 K y h b := by
      refine sum_congr rfl fun i _ => ?_
      have := z' i
      have e : ∑ j, K i j * (h' j - h j) = ∑ j, K i j * h' j - ∑ j, K i j * h j := by
        rw [← sum_sub_distrib]; exact sum_congr rfl fun j _ => by ring
      rw [e] at this
      have : ∑ j, K i j * h' j + b' = ∑ j, K i j * h j + b := by linarith
      rw [this]
    refine ⟨ee.ge, ?_⟩
    have : γ * Norm2 K h' ≤ γ * Norm2 K h := by linarith
    exact le_of_mul_le_mul_left this hγ
  · have hn : Norm2 K h' ≤ Norm2 K h := by
      have : (γ' - γ) * (Norm2 K h' - Norm2 K h) ≤ 0 := by nlinarith
      by_contra hc
      have := mul_pos (sub_pos.2 hlt) (sub_pos.2 (not_le.1 hc))
      linarith
    refine ⟨?_, hn⟩
    have := mul_le_mul_of_nonneg_left hn hγ.le
    linarith

/-- **C121** The fit is never worse than the constant one, and the smoothness is bounded by gamma. -/
theorem C121_bound (K : n → n → ℝ) (hK : PSDMat K) (γ : ℝ) (hγ : 0 < γ) (y h : n → ℝ) (b : ℝ) (hs : DualSol K γ y h b) (v : ℝ) :
    Err2 K y h b ≤ ∑ i, (y i - v) ^ 2 ∧ γ * Norm2 K h ≤ ∑ i, (y i - v) ^ 2 ∧ γ ^ 2 * ∑ i, h i ^ 2 ≤ ∑ i, (y i - v) ^ 2 := by
  have a := best K hK γ hγ.le y h b hs (fun _ => 0) v
  have e : Err2 K y (fun _ => 0) v + γ * Norm2 K (fun _ => 0) = ∑ i, (y i - v) ^ 2 := by simp [Err2, Norm2]
  rw [e] at a
  have h1 : 0 ≤ Err2 K y h b := sum_nonneg fun i _ => sq_nonneg _
  have h2 : 0 ≤ γ * Norm2 K h := mul_nonneg hγ.le (hK.2 _)
  have h3 : Err2 K y h b = γ ^ 2 * ∑ i, h i ^ 2 := by
    rw [mul_sum]
    refine sum_congr rfl fun i _ => ?_
    rw [← mul_pow, ← (C121_residual K γ y h b hs).1 i, outDual]
  refine ⟨by linarith, by linarith, by linarith⟩

/-- **C121** If the data can be fitted exactly at all, the error is at most gamma times the smoothness of any exact fit, ... -/
theorem C121_interpolates (K : n → n → ℝ) (hK : PSDMat K) (γ : ℝ) (hγ : 0 < γ) (y h : n → ℝ) (b : ℝ) (hs : DualSol K γ y h b) (h₀ : n → ℝ) (b₀ : ℝ)
    (h0 : ∀ i, ∑ j, K i j * h₀ j + b₀ = y i) : Err2 K y h b ≤ γ * Norm2 K h₀ := by
  have a := best K hK γ hγ.le y h b hs h₀ b₀
  have e : Err2 K y h₀ b₀ = 0 := sum_eq_zero fun i _ => by rw [h0 i]; ring
  have h2 : 0 ≤ γ * Norm2 K h := mul_nonneg hγ.le (hK.2 _)
  linarith

/-- ... whence with gamma decreasing to zero the outputs tend to the targets. -/
theorem C121_vanishing (K : n → n → ℝ) (hK : PSDMat K) (y : n → ℝ) (h : ℝ → n → ℝ) (b : ℝ → ℝ) (hs : ∀ γ > 0, DualSol K γ y (h γ) (b γ)) (h₀ : n → ℝ) (b₀ : ℝ)
    (h0 : ∀ i, ∑ j, K i j * h₀ j + b₀ = y i) (i : n) : Tendsto (fun γ => outDual (K i) (h γ) (b γ)) (𝓝[>] 0) (𝓝 (y i)) := by
  have hb : ∀ γ > 0, |outDual (K i) (h γ) (b γ) - y i| ≤ Real.sqrt (γ * Norm2 K h₀) := by
    intro γ hγ
    refine Real.abs_le_sqrt ?_
    refine le_trans ?_ (C121_interpolates K hK γ hγ y (h γ) (b γ) (hs γ hγ) h₀ b₀ h0)
    have := single_le_sum (f := fun i => (y i - (∑ j, K i j * h γ j + b γ)) ^ 2) (fun i _ => sq_nonneg _) (mem_univ i)
    refine le_trans (le_of_eq ?_) this
    simp only [outDual]
    ring
  have hl : Tendsto (fun γ : ℝ => Real.sqrt (γ * Norm2 K h₀)) (𝓝[>] 0) (𝓝 0) := by
    have : Tendsto (fun γ : ℝ => Real.sqrt (γ * Norm2 K h₀)) (𝓝 0) (𝓝 (Real.sqrt (0 * Norm2 K h₀))) :=
      (Real.continuous_sqrt.comp (continuous_id.mul continuous_const)).tendsto 0
    rw [zero_mul, Real.sqrt_zero] at this
    exact this.mono_left nhdsWithin_le_nhds
  rw [tendsto_iff_norm_sub_tendsto_zero]
  refine squeeze_zero' (Eventually.of_forall fun γ => norm_nonneg _) ?_ hl
  filter_upwards [self_mem_nhdsWithin] with γ hγ
  rw [Real.norm_eq_abs]
  exact hb γ hγ

/-- **C121** With gamma increasing without bound the output at every point, of the sample or not, tends to the mean of the targets. -/
theorem C121_dominating [Nonempty n] (K : n → n → ℝ) (hK : PSDMat K) (y : n → ℝ) (h : ℝ → n → ℝ) (b : ℝ → ℝ) (hs : ∀ γ > 0, DualSol K γ y (h γ) (b γ))
    (kx : n → ℝ) : Tendsto (fun γ => outDual kx (h γ) (b γ)) atTop (𝓝 (mean y)) := by
  have hc : (Fintype.card n : ℝ) ≠ 0 := by exact_mod_cast Fintype.card_ne_zero
  obtain ⟨V, hV⟩ : ∃ V, V = ∑ i, (y i - 0) ^ 2 := ⟨_, rfl⟩
  have hh : ∀ i, Tendsto (fun γ => h γ i) atTop (𝓝 0) := by
    intro i
    have hb : ∀ γ > 0, |h γ i| ≤ Real.sqrt V / γ := by
      intro γ hγ
      have a := (C121_bound K hK γ hγ y (h γ) (b γ) (hs γ hγ) 0).2.2
      have b1 := single_le_sum (f := fun i => h γ i ^ 2) (fun i _ => sq_nonneg _) (mem_univ i)
      have b2 : (γ * h γ i) ^ 2 ≤ V := by
        rw [mul_pow, hV]
        exact (mul_le_mul_of_nonneg_left b1 (sq_nonneg γ)).trans a
      have b3 := Real.abs_le_sqrt b2
      rw [abs_mul, abs_of_pos hγ] at b3
      rw [le_div_iff₀ hγ]
      linarith
    have hl : Tendsto (fun γ : ℝ => Real.sqrt V / γ) atTop (𝓝 0) := tendsto_const_nhds.div_atTop tendsto_id
    rw [tendsto_iff_norm_sub_tendsto_zero]
    refine squeeze_zero' (Eventually.of_forall fun γ => norm_nonneg _) ?_ hl
    filter_upwards [eventually_gt_atTop 0] with γ hγ
    rw [Real.norm_eq_abs, sub_zero]
    exact hb γ hγ
  have hk : ∀ k : n → ℝ, Tendsto (fun γ => ∑ i, k i * h γ i) atTop (𝓝 0) := by
    intro k
    have : Tendsto (fun γ => ∑ i, k i * h γ i) atTop (𝓝 (∑ i, k i * 0)) := tendsto_finset_sum _ fun i _ => (hh i).const_mul (k i)
    simpa using this
  have hb : ∀ γ > 0, b γ = mean y - (1 / (Fintype.card n : ℝ)) * ∑ i, ∑ j, K i j * h γ j := by
    intro γ hγ
    have := (C121_residual K γ y (h γ) (b γ) (hs γ hγ)).2.2
    rw [← this, mean]
    simp only [outDual, sum_add_distrib, sum_const, card_univ, nsmul_eq_mul]
    field_simp
    ring
  have hB : Tendsto b atTop (𝓝 (mean y)) := by
    have : Tendsto (fun γ => mean y - (1 / (Fintype.card n : ℝ)) * ∑ i, ∑ j, K i j * h γ j) atTop
        (𝓝 (mean y - (1 / (Fintype.card n : ℝ)) * ∑ _i : n, 0)) :=
      (tendsto_finset_sum _ fun i _ => hk (K i)).const_mul _ |>.const_sub _
    simp only [sum_const_zero, mul_zero, sub_zero] at this
    refine this.congr' ?_
    filter_upwards [eventually_gt_atTop 0] with γ hγ
    exact (hb γ hγ).symm
  simpa [outDual] using (hk kx).add hB

/-- **C121** For a ridge regression gamma is the weight of the error instead: a greater gamma fits the training data at least as well, with a rougher function. -/
theorem C121_ridge {n : ℕ} (K : Fin n → Fin n → ℝ) (hK : PSDMat K) (γ γ' : ℝ) (hγ : 0 < γ) (hle : γ ≤ γ') (y h h' : Fin n → ℝ) (hs : RidgeDual K γ y h)
    (hs' : RidgeDual K γ' y h') : Err2 K y h' 0 ≤ Err2 K y h 0 ∧ Norm2 K h ≤ Norm2 K h' := by
  have ex : ∀ (c : ℝ) (h h' : Fin n → ℝ), 0 < c → RidgeDual K c y h →
      Err2 K y h 0 + 1 / c * Norm2 K h + ∑ i, (∑ j, K i j * (h' j - h j)) ^ 2 + 1 / c * Norm2 K (fun i => h' i - h i) = Err2 K y h' 0 + 1 / c * Norm2 K h' := by
    intro c h h' hc hs
    obtain ⟨u, hu⟩ : ∃ u : Fin n → ℝ, u = fun i => h' i - h i := ⟨_, rfl⟩
    have hu'' : ∀ i, h' i - h i = u i := fun i => by rw [hu]
    have hu' : ∀ i, h' i = h i + u i := fun i => by rw [hu]; ring
    have e3 : (fun i => h' i - h i) = u := funext hu''
    obtain ⟨p, hp⟩ : ∃ p : Fin n → ℝ, p = fun i => ∑ j, K i j * u j := ⟨_, rfl⟩
    have hp' : ∀ i, ∑ j, K i j * u j = p i := fun i => by rw [hp]
    have hk : ∀ i, ∑ j, K i j * h' j = ∑ j, K i j * h j + p i := by
      intro i
      rw [← hp' i, ← sum_add_distrib]
      exact sum_congr rfl fun j _ => by rw [hu' j]; ring
    have hsym : ∑ i, u i * ∑ j, K i j * h j = ∑ i, h i * p i := by
      simp only [← hp', mul_sum]
      rw [sum_comm]
      exact sum_congr rfl fun i _ => sum_congr rfl fun j _ => by rw [hK.1 j i]; ring
    have e1 : Err2 K y h' 0 = Err2 K y h 0 - 2 * (1 / c) * ∑ i, h i * p i + ∑ i, p i ^ 2 := by
      have : ∀ i, (y i - (∑ j, K i j * h' j + 0)) ^ 2 = (y i - (∑ j, K i j * h j + 0)) ^ 2 - 2 * (1 / c) * (h i * p i) + p i ^ 2 := by
        intro i
        rw [hk i, ← hs i]
        ring
      simp only [Err2, this, sum_add_distrib, sum_sub_distrib, ← mul_sum]
    have e2 : Norm2 K h' = Norm2 K h + 2 * ∑ i, h i * p i + Norm2 K u := by
      rw [norm2_eq, norm2_eq, norm2_eq]
      have : ∀ i, h' i * ∑ j, K i j * h' j = h i * ∑ j, K i j * h j + u i * ∑ j, K i j * h j + h i * p i + u i * ∑ j, K i j * u j := by
        intro i
        rw [hk i, hu' i, hp' i]
        ring
      simp only [this, sum_add_distrib, hsym]
      ring
    rw [e1, e2]
    simp only [e3, hu'', hp']
    ring
  have hγ' := hγ.trans_le hle
  have a1 := ex γ h h' hγ hs
  have a2 := ex γ' h' h hγ' hs'
  obtain ⟨q, hq⟩ : ∃ q, q = ∑ i, (∑ j, K i j * (h' j - h j)) ^ 2 := ⟨_, rfl⟩
  have hq0 : 0 ≤ q := hq ▸ sum_nonneg fun i _ => sq_nonneg _
  have hq' : ∑ i, (∑ j, K i j * (h j - h' j)) ^ 2 = q := by
    rw [hq]
    refine sum_congr rfl fun i _ => ?_
    have : ∑ j, K i j * (h j - h' j) = -∑ j, K i j * (h' j - h j) := by
      rw [← sum_neg_distrib]; exact sum_congr rfl fun j _ => by ring
    rw [this]; ring
  have hN : 0 ≤ Norm2 K (fun i => h' i - h i) := hK.2 _
  have hN' : Norm2 K (fun i => h i - h' i) = Norm2 K (fun i => h' i - h i) :=
    sum_congr rfl fun i _ => sum_congr rfl fun j _ => by ring
  rw [hq', hN'] at a2
  rw [← hq] at a1
  have i1 : 0 < 1 / γ := by positivity
  have i2 : 0 < 1 / γ' := by positivity
  have i3 : 1 / γ' ≤ 1 / γ := one_div_le_one_div_of_le hγ hle
  have m1 : 0 ≤ 1 / γ * Norm2 K (fun i => h' i - h i) := mul_nonneg i1.le hN
  have m2 : 0 ≤ 1 / γ' * Norm2 K (fun i => h' i - h i) := mul_nonneg i2.le hN
  rcases i3.eq_or_lt with he | hlt
  · rw [he] at a2
    have q0 : q = 0 := by linarith
    have z : ∀ i, ∑ j, K i j * (h' j - h j) = 0 := fun i => by
      have := (sum_eq_zero_iff_of_nonneg fun i _ => sq_nonneg _).1 (hq.symm.trans q0) i (mem_univ i)
      exact pow_eq_zero_iff (by norm_num) |>.1 this
    have ee : Err2 K y h' 0 = Err2 K y h 0 := by
      refine sum_congr rfl fun i _ => ?_
      have := z i
      have e : ∑ j, K i j * (h' j - h j) = ∑ j, K i j * h' j - ∑ j, K i j * h j := by
        rw [← sum_sub_distrib]; exact sum_congr rfl fun j _ => by ring
      rw [e, sub_eq_zero] at this
      rw [this]
    refine ⟨ee.le, ?_⟩
    have : 1 / γ * Norm2 K h ≤ 1 / γ * Norm2 K h' := by linarith
    exact le_of_mul_le_mul_left this i1
  · have hn : Norm2 K h ≤ Norm2 K h' := by
      by_contra hc
      have := mul_pos (sub_pos.2 hlt) (sub_pos.2 (not_le.1 hc))
      nlinarith
    refine ⟨?_, hn⟩
    have := mul_le_mul_of_nonneg_left hn i2.le
    linarith

/-! ## C122 -/

/-- **C122** Targets in other units, with another origin, in dual: the outputs are in these units and from that origin, at all points, of the sample or not. -/
theorem C122_dual [Nonempty n] (K : n → n → ℝ) (hK : PSDMat K) (γ : ℝ) (hγ : 0 < γ) (c t : ℝ) (y h h' : n → ℝ) (b b' : ℝ) (hs : DualSol K γ y h b)
    (hs' : DualSol K γ (fun i => c * y i + t) h' b') (kx : n → ℝ) : outDual kx h' b' = c * outDual kx h b + t := by
  have h0 : DualSol K γ (fun i => c * y i + t) (fun i => c * h i) (c * b + t) := by
    refine ⟨fun i => ?_, by rw [← mul_sum, hs.2, mul_zero]⟩
    beta_reduce
    rw [← hs.1 i]
    have : ∑ j, K i j * (c * h j) = c * ∑ j, K i j * h j := by rw [mul_sum]; exact sum_congr rfl fun j _ => by ring
    rw [this]; ring
  obtain ⟨rfl, rfl⟩ := C50_unique_partial K hK γ hγ _ _ _ _ _ hs' h0
  have : ∑ i, kx i * (c * h i) = c * ∑ i, kx i * h i := by rw [mul_sum]; exact sum_congr rfl fun j _ => by ring
  simp only [outDual, this]
  ring

/-- **C122** The outputs for a sum of targets are the sums of the outputs. -/
theorem C122_sum [Nonempty n] (K : n → n → ℝ) (hK : PSDMat K) (γ : ℝ) (hγ : 0 < γ) (y₁ y₂ h₁ h₂ h' : n → ℝ) (b₁ b₂ b' : ℝ) (hs₁ : DualSol K γ y₁ h₁ b₁)
    (hs₂ : DualSol K γ y₂ h₂ b₂) (hs' : DualSol K γ (fun i => y₁ i + y₂ i) h' b') (kx : n → ℝ) : outDual kx h' b' = outDual kx h₁ b₁ + outDual kx h₂ b₂ := by
  have h0 : DualSol K γ (fun i => y₁ i + y₂ i) (fun i => h₁ i + h₂ i) (b₁ + b₂) := by
    refine ⟨fun i => ?_, by rw [sum_add_distrib, hs₁.2, hs₂.2, add_zero]⟩
    beta_reduce
    rw [← hs₁.1 i, ← hs₂.1 i]
    simp only [mul_add, sum_add_distrib]
    ring
  obtain ⟨rfl, rfl⟩ := C50_unique_partial K hK γ hγ _ _ _ _ _ hs' h0
  simp only [outDual, mul_add, sum_add_distrib]
  ring

/-- **C122** In primal, as soon as the system has one solution only: likewise. -/
theorem C122_primal {d : Type} [Fintype d] (Φ : n → d → ℝ) (γ c t : ℝ) (y : n → ℝ) (w w' : d → ℝ) (b b' : ℝ) (hs : PrimalSol Φ γ y w b)
    (hs' : PrimalSol Φ γ (fun i => c * y i + t) w' b') (hu : ∀ v β, PrimalSol Φ γ (fun _ => 0) v β → v = 0 ∧ β = 0) (φ : d → ℝ) :
    outPrimal φ w' b' = c * outPrimal φ w b + t := by
  have hz := hu (fun l => w' l - c * w l) (b' - (c * b + t)) ⟨fun j => ?_, ?_⟩
  · obtain ⟨z1, z2⟩ := hz
    have e : ∀ l, w' l = c * w l := fun l => sub_eq_zero.1 (congrFun z1 l)
    simp only [outPrimal, e, sub_eq_zero.1 z2]
    have : ∑ j, φ j * (c * w j) = c * ∑ j, φ j * w j := by rw [mul_sum]; exact sum_congr rfl fun j _ => by ring
    rw [this]; ring
  · have a := hs.1 j
    have a' := hs'.1 j
    simp only [mul_sub, sum_sub_distrib, mul_zero, sum_const_zero]
    have e1 : ∀ l, ((1 / (Fintype.card n : ℝ)) * ∑ a, Φ a j * Φ a l) * (c * w l) = c * (((1 / (Fintype.card n : ℝ)) * ∑ a, Φ a j * Φ a l) * w l) := fun l => by ring
    have e2 : ∑ a, Φ a j * (c * y a + t) = c * ∑ a, Φ a j * y a + (∑ a, Φ a j) * t := by
      rw [mul_sum, sum_mul, ← sum_add_distrib]; exact sum_congr rfl fun a _ => by ring
    simp only [e1, ← mul_sum]
    rw [e2, ← a] at a'
    linarith
  · have a := hs.2
    have a' := hs'.2
    simp only [mul_sub, sum_sub_distrib, sum_const_zero]
    have e1 : ∀ l, (∑ a, Φ a l) * (c * w l) = c * ((∑ a, Φ a l) * w l) := fun l => by ring
    have e2 : ∑ a, (c * y a + t) = c * ∑ a, y a + (Fintype.card n : ℝ) * t := by
      rw [sum_add_distrib, ← mul_sum, sum_const, card_univ, nsmul_eq_mul]
    simp only [e1, ← mul_sum]
    rw [e2, ← a] at a'
    linarith

/-- **C122** A ridge regression has no bias: its outputs follow the units of the targets. -/
theorem C122_ridge {n : ℕ} (K : Fin n → Fin n → ℝ) (hK : PSDMat K) (γ : ℝ) (hγ : 0 < γ) (c : ℝ) (y h h' : Fin n → ℝ) (hs : RidgeDual K γ y h)
    (hs' : RidgeDual K γ (fun i => c * y i) h') (kx : Fin n → ℝ) : ∑ i, kx i * h' i = c * ∑ i, kx i * h i := by
  have hz : ∀ i, ∑ j, K i j * (h' j - c * h j) + 1 / γ * (h' i - c * h i) = 0 := by
    intro i
    have a := hs i
    have a' := hs' i
    have e : ∑ j, K i j * (h' j - c * h j) = ∑ j, K i j * h' j - c * ∑ j, K i j * h j := by
      rw [mul_sum, ← sum_sub_distrib]; exact sum_congr rfl fun j _ => by ring
    rw [e]
    linear_combination a' - c * a
  have hq : Norm2 K (fun i => h' i - c * h i) + 1 / γ * ∑ i, (h' i - c * h i) ^ 2 = 0 := by
    rw [norm2_eq, mul_sum, ← sum_add_distrib]
    refine sum_eq_zero fun i _ => ?_
    linear_combination (h' i - c * h i) * hz i
  have h1 : 0 ≤ Norm2 K (fun i => h' i - c * h i) := hK.2 _
  have h2 : 0 ≤ ∑ i, (h' i - c * h i) ^ 2 := sum_nonneg fun i _ => sq_nonneg _
  have hg : 0 < 1 / γ := by positivity
  have h3 : ∑ i, (h' i - c * h i) ^ 2 = 0 := by nlinarith [mul_nonneg hg.le h2]
  have e : ∀ i, h' i = c * h i := fun i => by
    have := (sum_eq_zero_iff_of_nonneg fun i _ => sq_nonneg _).1 h3 i (mem_univ i)
    exact sub_eq_zero.1 (pow_eq_zero_iff (by norm_num) |>.1 this)
  simp only [e, mul_sum]
  exact sum_congr rfl fun i _ => by ring

/-! ## Examples -/

/-- Two points with the identity as kernel matrix: the hypotheses of `C121_*` and `C122_dual` are met for every gamma. -/
example : PSDMat (ι := Fin 2) (fun i j => if i = j then 1 else 0) ∧
    (∀ γ : ℝ, 0 < γ → DualSol (n := Fin 2) (fun i j => if i = j then 1 else 0) γ ![1, -1] ![1 / (1 + γ), -1 / (1 + γ)] 0) ∧
    Err2 (n := Fin 2) (fun i j => if i = j then 1 else 0) ![1, -1] ![1 / 2, -1 / 2] 0 = 1 / 2 := by
  refine ⟨⟨fun i j => by fin_cases i <;> fin_cases j <;> simp, fun c => ?_⟩, fun γ hγ => ⟨fun i => ?_, ?_⟩, ?_⟩
  · simp only [Fin.sum_univ_two]
    norm_num
    nlinarith [sq_nonneg (c 0), sq_nonneg (c 1)]
  · have : 1 + γ ≠ 0 := by positivity
    fin_cases i <;> simp [Fin.sum_univ_two] <;> field_simp <;> ring
  · simp [Fin.sum_univ_two]; ring
  · norm_num [Err2, Fin.sum_univ_two]

example : RidgeDual (n := 2) (fun i j => if i = j then 1 else 0) 1 ![2, -2] ![1, -1] ∧ RidgeDual (n := 2) (fun i j => if i = j then 1 else 0) (1 / 3) ![2, -2] ![1 / 2, -1 / 2] := by
  constructor <;> intro i <;> fin_cases i <;> norm_num [Fin.sum_univ_two]

end Regular
end Kerch

/-! ## The theorems applied to two points -/

namespace Kerch
namespace Regular
open LSSVM LSTrain Filter Topology

/-- The kernel of two points far apart. -/
def eye : Fin 2 → Fin 2 → ℝ := fun i j => if i = j then 1 else 0

theorem eye_psd : PSDMat eye := by
  refine ⟨fun i j => by fin_cases i <;> fin_cases j <;> simp [eye], fun c => ?_⟩
  simp only [Fin.sum_univ_two, eye]
  norm_num
  nlinarith [sq_nonneg (c 0), sq_nonneg (c 1)]

/-- The fit of the targets `t`, `-t`. -/
theorem eye_sol (t γ : ℝ) (hγ : 0 < γ) : DualSol eye γ ![t, -t] ![t / (1 + γ), -t / (1 + γ)] 0 := by
  have : 1 + γ ≠ 0 := by positivity
  refine ⟨fun i => ?_, ?_⟩
  · fin_cases i <;> simp [eye, Fin.sum_univ_two] <;> field_simp <;> ring
  · simp [Fin.sum_univ_two]; ring

theorem eye_ridge (t γ : ℝ) (hγ : 0 < γ) : RidgeDual eye γ ![t, -t] ![t / (1 / γ + 1), -t / (1 / γ + 1)] := by
  have : 1 + γ ≠ 0 := by positivity
  intro i
  fin_cases i <;> simp [eye, Fin.sum_univ_two] <;> field_simp <;> ring

example := C121_residual eye 1 _ _ 0 (eye_sol 1 1 one_pos)
example := C121_monotone eye eye_psd 1 2 one_pos one_le_two _ _ _ 0 0 (eye_sol 1 1 one_pos) (eye_sol 1 2 two_pos)
example := C121_bound eye eye_psd 1 one_pos _ _ 0 (eye_sol 3 1 one_pos) 1
example := C121_interpolates eye eye_psd 1 one_pos _ _ 0 (eye_sol 3 1 one_pos) ![3, -3] 0 (by intro i; fin_cases i <;> simp [eye, Fin.sum_univ_two])
example := C121_vanishing eye eye_psd ![3, -3] _ _ (fun γ hγ => eye_sol 3 γ hγ) ![3, -3] 0 (by intro i; fin_cases i <;> simp [eye, Fin.sum_univ_two]) 0
example := C121_dominating eye eye_psd ![3, -3] _ _ (fun γ hγ => eye_sol 3 γ hγ) ![1 / 2, 1 / 3]
example := C121_ridge eye eye_psd 1 2 one_pos one_le_two _ _ _ (eye_ridge 3 1 one_pos) (eye_ridge 3 2 two_pos)
example := C122_sum eye eye_psd 1 one_pos _ _ _ _ _ 0 0 0 (eye_sol 3 1 one_pos) (eye_sol 4 1 one_pos)
  (by convert eye_sol 7 1 one_pos using 2; rename_i i; fin_cases i <;> norm_num) ![1 / 2, 1 / 3]
example := C122_ridge eye eye_psd 2 two_pos 5 ![3, -3] _ _ (eye_ridge 3 2 two_pos)
  (by convert eye_ridge 15 2 two_pos using 2; rename_i i; fin_cases i <;> norm_num) ![1 / 2, 1 / 3]
end Regular
end Kerch
