import Verif.Props.Influence
import Verif.Props.RidgeBias
import Mathlib.LinearAlgebra.Matrix.PosDef
/-!
# C160: how much each target counts in a ridge regression
-/
set_option linter.unusedSectionVars false
set_option linter.unusedSimpArgs false
namespace Kerch
namespace RidgeInf
open Finset LSSVM LSTrain Influence Matrix

variable {m : ℕ}

/-! ## Specification -/

/-- The fits to the targets that are one at a single point and zero elsewhere. -/
def UnitFits (K : Fin m → Fin m → ℝ) (γ : ℝ) (H : Fin m → Fin m → ℝ) : Prop := ∀ i, RidgeDual K γ (unitTarget i) (H i)

/-- How much the target of the `i`-th point counts at a point with the kernel values `kx`: the output there of the fit to the target that is one at `i` only. -/
def countsAt (H : Fin m → Fin m → ℝ) (kx : Fin m → ℝ) (i : Fin m) : ℝ := out false kx (H i) 0

/-! ## Lemmas -/

theorem countsAt_eq (H : Fin m → Fin m → ℝ) (kx : Fin m → ℝ) (i : Fin m) : countsAt H kx i = ∑ j, kx j * H i j := by
  simp [countsAt, out]

theorem pair {K : Fin m → Fin m → ℝ} (hK : ∀ i j, K i j = K j i) {γ : ℝ} {y h y' h' : Fin m → ℝ} (hs : RidgeDual K γ y h) (hs' : RidgeDual K γ y' h') :
    ∑ i, y i * h' i = ∑ i, h i * y' i := by
  have e1 : ∀ i, y i * h' i = ∑ j, K i j * h j * h' i + 1 / γ * h i * h' i := fun i => by rw [← hs i, add_mul, sum_mul]
  have e2 : ∀ i, h i * y' i = ∑ j, K i j * h' j * h i + 1 / γ * h i * h' i := fun i => by
    rw [← hs' i, mul_add, mul_sum]
    congr 1
    · exact sum_congr rfl fun j _ => by ring
    · ring
  simp only [e1, e2, sum_add_distrib]
  congr 1
  rw [sum_comm]
  exact sum_congr rfl fun i _ => sum_congr rfl fun j _ => by rw [hK]; ring

theorem unit_left (f : Fin m → ℝ) (i : Fin m) : ∑ j, unitTarget i j * f j = f i := by simp [unitTarget]

theorem fit_at {K : Fin m → Fin m → ℝ} (hK : ∀ i j, K i j = K j i) {γ : ℝ} {H : Fin m → Fin m → ℝ} (hW : UnitFits K γ H) {y h : Fin m → ℝ} (hs : RidgeDual K γ y h) (i : Fin m) :
    h i = ∑ j, y j * H i j := by
  rw [pair hK hs (hW i), unit_sum h i]

theorem unit_symm {K : Fin m → Fin m → ℝ} (hK : ∀ i j, K i j = K j i) {γ : ℝ} {H : Fin m → Fin m → ℝ} (hW : UnitFits K γ H) (i j : Fin m) : H i j = H j i := by
  have := fit_at hK hW (hW j) i
  rw [this, unit_left]

/-- What a fit leaves of the targets. -/
theorem rest {K : Fin m → Fin m → ℝ} {γ : ℝ} {y h : Fin m → ℝ} (hs : RidgeDual K γ y h) (i : Fin m) : ∑ j, K i j * h j = y i - 1 / γ * h i := by
  have := hs i
  linarith

/-- The squares of the outputs, and the cost. -/
theorem shrinks {K : Fin m → Fin m → ℝ} (hK : PSDMat K) {γ : ℝ} (hγ : 0 < γ) {y h : Fin m → ℝ} (hs : RidgeDual K γ y h) :
    ∑ i, (∑ j, K i j * h j) ^ 2 ≤ ∑ i, y i * ∑ j, K i j * h j := by
  have e : ∀ i, y i * ∑ j, K i j * h j - (∑ j, K i j * h j) ^ 2 = 1 / γ * ∑ j, h i * h j * K i j := by
    intro i
    have : y i * ∑ j, K i j * h j - (∑ j, K i j * h j) ^ 2 = 1 / γ * (h i * ∑ j, K i j * h j) := by
      have h1 := hs i
      have : y i = ∑ j, K i j * h j + 1 / γ * h i := h1.symm
      rw [this]; ring
    rw [this, mul_sum]
    congr 1
    exact sum_congr rfl fun j _ => by ring
  have h2 : ∑ i, (y i * ∑ j, K i j * h j - (∑ j, K i j * h j) ^ 2) = 1 / γ * ∑ i, ∑ j, h i * h j * K i j := by
    rw [mul_sum]
    exact sum_congr rfl fun i _ => e i
  have h3 : 0 ≤ 1 / γ * ∑ i, ∑ j, h i * h j * K i j := mul_nonneg (by positivity) (hK.2 h)
  rw [sum_sub_distrib] at h2
  linarith

/-! ## Properties -/

/-- **C160** Every target can be fitted, in one way. -/
theorem C160_exists (K : Fin m → Fin m → ℝ) (hK : PSDMat K) (γ : ℝ) (hγ : 0 < γ) :
    (∀ y, ∃! h, RidgeDual K γ y h) ∧ ∃ H, UnitFits K γ H := by
  have hinj : ∀ h, RidgeDual K γ (fun _ => 0) h → h = fun _ => 0 := by
    intro h hs
    have h1 : ∑ i, h i * (∑ j, K i j * h j + 1 / γ * h i) = 0 := by
      simp only [RidgeDual] at hs
      simp only [hs, mul_zero, sum_const_zero]
    have h2 : ∑ i, h i * (∑ j, K i j * h j + 1 / γ * h i) = ∑ i, ∑ j, h i * h j * K i j + 1 / γ * ∑ i, h i ^ 2 := by
      simp only [mul_add, sum_add_distrib, mul_sum]
      congr 1
      · exact sum_congr rfl fun i _ => sum_congr rfl fun j _ => by ring
      · exact sum_congr rfl fun i _ => by ring
    have h3 := hK.2 h
    have h4 : 0 ≤ ∑ i, h i ^ 2 := sum_nonneg fun i _ => sq_nonneg _
    have h5 : 0 < 1 / γ := by positivity
    have h6 : ∑ i, h i ^ 2 = 0 := by
      rcases h4.eq_or_lt with h | h
      · exact h.symm
      · have := mul_pos h5 h
        linarith
    funext i
    have := (sum_eq_zero_iff_of_nonneg fun i _ => sq_nonneg (h i)).mp h6 i (mem_univ i)
    exact pow_eq_zero_iff two_ne_zero |>.mp this
  let f : (Fin m → ℝ) →ₗ[ℝ] (Fin m → ℝ) :=
    { toFun := fun h i => ∑ j, K i j * h j + 1 / γ * h i
      map_add' := fun u v => by
        funext i
        simp only [Pi.add_apply, mul_add, sum_add_distrib]; ring
      map_smul' := fun c u => by
        funext i
        simp only [Pi.smul_apply, smul_eq_mul, RingHom.id_apply, mul_add, mul_sum]
        congr 1
        · exact sum_congr rfl fun j _ => by ring
        · ring }
  have fi : Function.Injective f := by
    rw [injective_iff_map_eq_zero]
    intro h hf
    exact hinj h fun i => congrFun hf i
  have fs : Function.Surjective f := LinearMap.injective_iff_surjective.mp fi
  have key : ∀ y, ∃! h, RidgeDual K γ y h := by
    intro y
    obtain ⟨h, hh⟩ := fs y
    refine ⟨h, fun i => congrFun hh i, fun g hg => fi ?_⟩
    rw [hh]
    exact funext hg
  refine ⟨key, fun i => (key (unitTarget i)).choose, fun i => (key (unitTarget i)).choose_spec.1⟩

/-- **C160** The output at every point is a weighted sum of the targets, with weights that do not depend on them. -/
theorem C160_weights (K : Fin m → Fin m → ℝ) (hK : ∀ i j, K i j = K j i) (γ : ℝ) {H : Fin m → Fin m → ℝ} (hW : UnitFits K γ H) (y h : Fin m → ℝ) (hs : RidgeDual K γ y h)
    (kx : Fin m → ℝ) (b : ℝ) : out false kx h b = ∑ i, countsAt H kx i * y i := by
  simp only [countsAt_eq, out, Bool.false_eq_true, if_false, add_zero, sum_mul]
  rw [sum_comm]
  refine sum_congr rfl fun j _ => ?_
  rw [fit_at hK hW hs j, mul_sum]
  exact sum_congr rfl fun i _ => by rw [unit_symm hK hW i j]; ring

/-- **C160** Two training points count equally for each other. A point counts for itself at least zero and less than one, at least as much as the squares of what all points count for it together; hence two different points
never count for each other more than one half. -/
theorem C160_training (K : Fin m → Fin m → ℝ) (hK : PSDMat K) (γ : ℝ) (hγ : 0 < γ) {H : Fin m → Fin m → ℝ} (hW : UnitFits K γ H) (i j : Fin m) :
    countsAt H (K i) j = countsAt H (K j) i ∧ 0 ≤ countsAt H (K i) i ∧ countsAt H (K i) i < 1 ∧
      ∑ l, countsAt H (K l) i ^ 2 ≤ countsAt H (K i) i ∧ (i ≠ j → |countsAt H (K i) j| ≤ 1 / 2) := by
  have hg : 0 < 1 / γ := by positivity
  have hr : ∀ a c, countsAt H (K a) c = unitTarget c a - 1 / γ * H c a := fun a c => by rw [countsAt_eq, rest (hW c) a]
  have hsq : ∀ a, ∑ l, countsAt H (K l) a ^ 2 ≤ countsAt H (K a) a := by
    intro a
    have := shrinks hK hγ (hW a)
    rw [unit_left (fun i => ∑ j, K i j * H a j)] at this
    simpa [countsAt_eq] using this
  have hown : ∀ a, countsAt H (K a) a < 1 := by
    intro a
    rw [hr a a]
    have hne : 0 < ∑ l, H a l ^ 2 := by
      refine lt_of_le_of_ne (sum_nonneg fun l _ => sq_nonneg _) fun h0 => ?_
      have hz : ∀ l, H a l = 0 := fun l =>
        pow_eq_zero_iff two_ne_zero |>.mp ((sum_eq_zero_iff_of_nonneg fun l _ => sq_nonneg (H a l)).mp h0.symm l (mem_univ l))
      have := hW a a
      simp [hz, unitTarget] at this
    have e : ∑ l, H a l * unitTarget a l = ∑ l, ∑ c, H a l * H a c * K l c + 1 / γ * ∑ l, H a l ^ 2 := by
      have : ∀ l, H a l * unitTarget a l = ∑ c, H a l * H a c * K l c + 1 / γ * H a l ^ 2 := fun l => by
        rw [← hW a l, mul_add, mul_sum]
        congr 1
        · exact sum_congr rfl fun c _ => by ring
        · ring
      simp only [this, sum_add_distrib, mul_sum]
    rw [unit_sum (H a) a] at e
    have h1 := hK.2 (H a)
    have h2 := mul_pos hg hne
    have h3 : 0 < H a a := by linarith
    have h4 := mul_pos hg h3
    have h5 : unitTarget a a = 1 := by simp [unitTarget]
    rw [h5]
    linarith
  have hnn : 0 ≤ countsAt H (K i) i := (sum_nonneg fun l _ => sq_nonneg (countsAt H (K l) i)).trans (hsq i)
  have hsy : countsAt H (K i) j = countsAt H (K j) i := by
    rw [hr, hr, unit_symm hK.1 hW j i]
    simp [unitTarget, eq_comm]
  refine ⟨hsy, hnn, hown i, hsq i, fun hij => ?_⟩
  have h1 := hsq i
  have h2 : countsAt H (K i) i ^ 2 + countsAt H (K j) i ^ 2 ≤ ∑ l, countsAt H (K l) i ^ 2 := by
    have : ∑ l ∈ ({i, j} : Finset (Fin m)), countsAt H (K l) i ^ 2 ≤ ∑ l, countsAt H (K l) i ^ 2 :=
      sum_le_sum_of_subset_of_nonneg (subset_univ _) fun _ _ _ => sq_nonneg _
    rwa [sum_pair hij] at this
  rw [hsy]
  have h3 : countsAt H (K j) i ^ 2 ≤ (1 / 2 : ℝ) ^ 2 := by nlinarith [sq_nonneg (countsAt H (K i) i - 1 / 2)]
  exact abs_le_of_sq_le_sq h3 (by norm_num)

/-- **C160** The outputs are never greater than the targets, all together. -/
theorem C160_shrinks (K : Fin m → Fin m → ℝ) (hK : PSDMat K) (γ : ℝ) (hγ : 0 < γ) (y h : Fin m → ℝ) (hs : RidgeDual K γ y h) (b : ℝ) :
    ∑ i, out false (K i) h b ^ 2 ≤ ∑ i, y i ^ 2 := by
  have h1 := shrinks hK hγ hs
  simp only [out, Bool.false_eq_true, if_false, add_zero]
  have h2 : 0 ≤ ∑ i, (y i - ∑ j, K i j * h j) ^ 2 := sum_nonneg fun i _ => sq_nonneg _
  have h3 : ∑ i, (y i - ∑ j, K i j * h j) ^ 2 = ∑ i, y i ^ 2 - 2 * ∑ i, y i * ∑ j, K i j * h j + ∑ i, (∑ j, K i j * h j) ^ 2 := by
    rw [mul_sum, ← sum_sub_distrib, ← sum_add_distrib]
    exact sum_congr rfl fun i _ => by ring
  linarith

/-- The cost of dual variables: squared error and norm. -/
theorem cost_min {K : Fin m → Fin m → ℝ} (hK : PSDMat K) {γ : ℝ} (hγ : 0 < γ) {y g : Fin m → ℝ} (hs : RidgeDual K γ y g) (h : Fin m → ℝ) :
    1 / γ * ∑ i, y i * g i ≤ ∑ i, (y i - ∑ j, K i j * h j) ^ 2 + 1 / γ * ∑ i, h i * ∑ j, K i j * h j := by
  have hg : 0 < 1 / γ := by positivity
  set l := 1 / γ with hl
  -- d = h - g
  have ed : ∀ i, ∑ j, K i j * h j = ∑ j, K i j * g j + ∑ j, K i j * (h j - g j) := fun i => by
    rw [← sum_add_distrib]; exact sum_congr rfl fun j _ => by ring
  have e1 : ∀ i, y i - ∑ j, K i j * h j = l * g i - ∑ j, K i j * (h j - g j) := fun i => by
    rw [ed i]; have := hs i; linarith
  have sy : ∑ i, (h i - g i) * ∑ j, K i j * g j = ∑ i, g i * ∑ j, K i j * (h j - g j) := by
    simp only [mul_sum]
    rw [sum_comm]
    exact sum_congr rfl fun i _ => sum_congr rfl fun j _ => by rw [hK.1 j i]; ring
  have p1 := hK.2 fun i => h i - g i
  have e4 : ∑ i, (h i - g i) * ∑ j, K i j * (h j - g j) = ∑ i, ∑ j, (h i - g i) * (h j - g j) * K i j := by
    simp only [mul_sum]
    exact sum_congr rfl fun i _ => sum_congr rfl fun j _ => by ring
  have e5 : ∑ i, h i * ∑ j, K i j * h j = ∑ i, g i * ∑ j, K i j * g j + 2 * ∑ i, g i * ∑ j, K i j * (h j - g j) + ∑ i, (h i - g i) * ∑ j, K i j * (h j - g j) := by
    have : ∀ i, h i * ∑ j, K i j * h j = g i * ∑ j, K i j * g j + (h i - g i) * ∑ j, K i j * g j + g i * ∑ j, K i j * (h j - g j) + (h i - g i) * ∑ j, K i j * (h j - g j) := fun i => by
      rw [ed i]; ring
    simp only [this, sum_add_distrib, sy]
    ring
  have e6 : ∑ i, (y i - ∑ j, K i j * h j) ^ 2 = l ^ 2 * ∑ i, g i ^ 2 - 2 * l * ∑ i, g i * ∑ j, K i j * (h j - g j) + ∑ i, (∑ j, K i j * (h j - g j)) ^ 2 := by
    simp only [e1]
    rw [mul_sum, mul_sum, ← sum_sub_distrib, ← sum_add_distrib]
    exact sum_congr rfl fun i _ => by ring
  have e7 : ∑ i, y i * g i = ∑ i, g i * ∑ j, K i j * g j + l * ∑ i, g i ^ 2 := by
    rw [mul_sum, ← sum_add_distrib]
    exact sum_congr rfl fun i _ => by rw [← hs i]; ring
  have p2 : 0 ≤ ∑ i, (∑ j, K i j * (h j - g j)) ^ 2 := sum_nonneg fun i _ => sq_nonneg _
  have p3 : 0 ≤ l * ∑ i, ∑ j, (h i - g i) * (h j - g j) * K i j := mul_nonneg hg.le p1
  rw [e5, e6, e7, e4]
  linarith

theorem cost_eq {K : Fin m → Fin m → ℝ} {γ : ℝ} {y g : Fin m → ℝ} (hs : RidgeDual K γ y g) :
    ∑ i, (y i - ∑ j, K i j * g j) ^ 2 + 1 / γ * ∑ i, g i * ∑ j, K i j * g j = 1 / γ * ∑ i, y i * g i := by
  rw [mul_sum, mul_sum, ← sum_add_distrib]
  refine sum_congr rfl fun i _ => ?_
  have h1 := hs i
  have : ∑ j, K i j * g j = y i - 1 / γ * g i := by linarith
  rw [this]; ring

/-- **C160** The greater gamma, the more every training point counts for itself (for a LS-SVM it is the opposite, C148). -/
theorem C160_gamma (K : Fin m → Fin m → ℝ) (hK : PSDMat K) (γ γ' : ℝ) (hγ : 0 < γ) (hle : γ ≤ γ') {H H' : Fin m → Fin m → ℝ} (hW : UnitFits K γ H) (hW' : UnitFits K γ' H') (i : Fin m) :
    countsAt H (K i) i ≤ countsAt H' (K i) i := by
  have h1 := cost_min hK (hγ.trans_le hle) (hW' i) (H i)
  have h2 := cost_eq (hW i)
  have h3 : 1 / γ' ≤ 1 / γ := one_div_le_one_div_of_le hγ hle
  have h4 : 0 ≤ ∑ a, H i a * ∑ j, K a j * H i j := by
    have := hK.2 (H i)
    have e : ∑ a, H i a * ∑ j, K a j * H i j = ∑ a, ∑ j, H i a * H i j * K a j := by
      simp only [mul_sum]
      exact sum_congr rfl fun i _ => sum_congr rfl fun j _ => by ring
    rw [e]; exact this
  have h5 := mul_le_mul_of_nonneg_right h3 h4
  rw [unit_left (H' i)] at h1
  rw [unit_left (H i)] at h2
  rw [countsAt_eq, countsAt_eq, rest (hW i) i, rest (hW' i) i]
  linarith

/-- **C160** (leave-one-out) The error at a point of the regression fitted without it is the error of the one fitted with it, divided by one minus what the point counts for itself. -/
theorem C160_leave_out (K : Fin (m + 1) → Fin (m + 1) → ℝ) (hK : PSDMat K) (γ : ℝ) (hγ : 0 < γ) {H : Fin (m + 1) → Fin (m + 1) → ℝ} (hW : UnitFits K γ H) (p : Fin (m + 1))
    (y h : Fin (m + 1) → ℝ) (h' : Fin m → ℝ) (hs : RidgeDual K γ y h)
    (hs' : RidgeDual (fun i j => K (p.succAbove i) (p.succAbove j)) γ (fun i => y (p.succAbove i)) h') (b b' : ℝ) :
    y p - out false (fun j => K p (p.succAbove j)) h' b' = (y p - out false (K p) h b) / (1 - countsAt H (K p) p) := by
  have hlt := (C160_training K hK γ hγ hW p p).2.2.1
  rw [eq_div_iff (by linarith)]
  obtain ⟨q, hq⟩ : ∃ q, q = out false (fun j => K p (p.succAbove j)) h' b' := ⟨_, rfl⟩
  have hq' : q = ∑ j, K p (p.succAbove j) * h' j := by rw [hq]; simp [out]
  have hext : RidgeDual K γ (p.insertNth q fun i => y (p.succAbove i)) (p.insertNth 0 h') := by
    intro i
    rw [Fin.sum_univ_succAbove _ p]
    refine Fin.succAboveCases p ?_ (fun j => ?_) i
    · simp [hq']
    · have := hs' j
      simpa using this
  have e1 := C160_weights K hK.1 γ hW y h hs (K p) b
  have e2 := C160_weights K hK.1 γ hW _ _ hext (K p) b'
  have e3 : out false (K p) (p.insertNth 0 h') b' = q := by
    simp only [out, Bool.false_eq_true, if_false, add_zero]
    rw [Fin.sum_univ_succAbove _ p, hq']
    simp
  rw [e3, Fin.sum_univ_succAbove _ p] at e2
  rw [Fin.sum_univ_succAbove _ p] at e1
  simp only [Fin.insertNth_apply_same, Fin.insertNth_apply_succAbove] at e2
  rw [← hq, e1]
  linarith

/-- **C160** All points together count for themselves no more than there are features. -/
theorem C160_features {f : ℕ} (Φ : Fin m → Fin f → ℝ) (γ : ℝ) (hγ : 0 < γ) {H : Fin m → Fin m → ℝ} (hW : UnitFits (gramOf Φ) γ H) :
    ∑ i, countsAt H (gramOf Φ i) i ≤ f := by
  have hK : PSDMat (gramOf Φ) := psdMat_gram Φ
  let S : Matrix (Fin m) (Fin m) ℝ := Matrix.of fun i j => countsAt H (gramOf Φ i) j
  have hS : S.IsHermitian := by
    ext i j
    simp only [S, Matrix.conjTranspose_apply, Matrix.of_apply, star_trivial]
    exact (C160_training _ hK γ hγ hW j i).1
  have hev : ∀ i, hS.eigenvalues i ≤ 1 ∧ 0 ≤ hS.eigenvalues i := by
    intro i
    let v : Fin m → ℝ := (hS.eigenvectorBasis i : EuclideanSpace ℝ (Fin m))
    have hv : S.mulVec v = hS.eigenvalues i • v := hS.mulVec_eigenvectorBasis i
    have hvn : ∑ j, v j ^ 2 = 1 := by
      have h1 := hS.eigenvectorBasis.orthonormal.1 i
      have h2 := EuclideanSpace.norm_sq_eq (𝕜 := ℝ) (hS.eigenvectorBasis i)
      rw [h1] at h2
      simpa [v] using h2.symm
    obtain ⟨g, hg, -⟩ := (C160_exists _ hK γ hγ).1 v
    have hout : ∀ j, ∑ l, gramOf Φ j l * g l = hS.eigenvalues i * v j := by
      intro j
      have e := C160_weights _ hK.1 γ hW v g hg (gramOf Φ j) 0
      simp only [out, Bool.false_eq_true, if_false, add_zero] at e
      rw [e]
      have := congrFun hv j
      simpa [S, Matrix.mulVec, dotProduct] using this
    have hf := shrinks hK hγ hg
    simp only [hout] at hf
    have e1 : ∑ j, v j * (hS.eigenvalues i * v j) = hS.eigenvalues i := by
      have : ∀ j, v j * (hS.eigenvalues i * v j) = hS.eigenvalues i * v j ^ 2 := fun j => by ring
      simp only [this, ← mul_sum, hvn, mul_one]
    have e2 : ∑ j, (hS.eigenvalues i * v j) ^ 2 = hS.eigenvalues i ^ 2 := by
      simp only [mul_pow, ← mul_sum, hvn, mul_one]
    rw [e1, e2] at hf
    constructor <;> nlinarith [sq_nonneg (hS.eigenvalues i), sq_nonneg (hS.eigenvalues i - 1)]
  have htr : ∑ i, countsAt H (gramOf Φ i) i = ∑ i, hS.eigenvalues i := by
    have := hS.trace_eq_sum_eigenvalues
    simpa [Matrix.trace, S] using this
  have hrank : S.rank ≤ f := by
    let L : Matrix (Fin m) (Fin f) ℝ := Matrix.of fun i a => Φ i a
    let M : Matrix (Fin f) (Fin m) ℝ := Matrix.of fun a j => ∑ l, Φ l a * H j l
    have hLM : S = L * M := by
      ext i j
      simp only [S, L, M, Matrix.mul_apply, Matrix.of_apply, countsAt_eq, gramOf, mul_sum, sum_mul]
      rw [sum_comm]
      exact sum_congr rfl fun a _ => sum_congr rfl fun l _ => by ring
    rw [hLM]
    refine (Matrix.rank_mul_le_left L M).trans ((Matrix.rank_le_card_width L).trans ?_)
    simp
  rw [htr]
  have h1 : ∑ i, hS.eigenvalues i ≤ ∑ i, if hS.eigenvalues i ≠ 0 then (1 : ℝ) else 0 := by
    refine sum_le_sum fun i _ => ?_
    by_cases h : hS.eigenvalues i = 0
    · simp [h]
    · simp [h, (hev i).1]
  refine h1.trans ?_
  rw [← sum_filter, sum_const, nsmul_eq_mul, mul_one]
  have h2 : (univ.filter fun i => hS.eigenvalues i ≠ 0).card = S.rank := by
    rw [hS.rank_eq_card_non_zero_eigs, Fintype.card_subtype]
  rw [h2]
  exact_mod_cast hrank

/-! ## Cases -/

/-- Two points with the same feature: each counts for itself and for the other one third at `γ = 1`. -/
def same : Fin 2 → Fin 1 → ℝ := ![![1], ![1]]
noncomputable def sameFits : Fin 2 → Fin 2 → ℝ := ![![2 / 3, -(1 / 3)], ![-(1 / 3), 2 / 3]]

theorem same_unit : UnitFits (gramOf same) 1 sameFits := by
  intro i j
  fin_cases i <;> fin_cases j <;> simp [gramOf, same, sameFits, unitTarget, Fin.sum_univ_two] <;> norm_num

example : ∃! h, RidgeDual (gramOf same) 1 ![5, 7] h := (C160_exists _ (psdMat_gram same) 1 one_pos).1 _
example (h : Fin 2 → ℝ) (hs : RidgeDual (gramOf same) 1 ![5, 7] h) : out false (gramOf same 0) h 0 = 4 := by
  rw [C160_weights _ (psdMat_gram same).1 1 same_unit _ h hs]
  simp [countsAt_eq, gramOf, same, sameFits, Fin.sum_univ_two]
  norm_num
example : |countsAt sameFits (gramOf same 0) 1| ≤ 1 / 2 := (C160_training _ (psdMat_gram same) 1 one_pos same_unit 0 1).2.2.2.2 (by decide)
example : ∑ i, countsAt sameFits (gramOf same i) i ≤ (1 : ℕ) := C160_features same 1 one_pos same_unit
example (h : Fin 2 → ℝ) (hs : RidgeDual (gramOf same) 1 ![5, 7] h) : ∑ i, out false (gramOf same i) h 0 ^ 2 ≤ ∑ i, (![5, 7] : Fin 2 → ℝ) i ^ 2 :=
  C160_shrinks _ (psdMat_gram same) 1 one_pos _ h hs 0
example (H : Fin 2 → Fin 2 → ℝ) (hW : UnitFits (gramOf same) 2 H) : 1 / 3 ≤ countsAt H (gramOf same 0) 0 := by
  refine le_trans (le_of_eq ?_) (C160_gamma _ (psdMat_gram same) 1 2 one_pos one_le_two same_unit hW 0)
  simp [countsAt_eq, gramOf, same, sameFits, Fin.sum_univ_two]
  norm_num
example (h : Fin 2 → ℝ) (hs : RidgeDual (gramOf same) 1 ![5, 7] h) (h' : Fin 1 → ℝ)
    (hs' : RidgeDual (fun i j => gramOf same ((0 : Fin 2).succAbove i) ((0 : Fin 2).succAbove j)) 1 (fun i => (![5, 7] : Fin 2 → ℝ) ((0 : Fin 2).succAbove i)) h') :=
  C160_leave_out _ (psdMat_gram same) 1 one_pos same_unit 0 _ h h' hs hs' 0 0

end RidgeInf
end Kerch
