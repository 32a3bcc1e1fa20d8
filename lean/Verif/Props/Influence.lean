import Mathlib.Analysis.Matrix.Spectrum
import Verif.Props.Regular
import Verif.Props.Stability
import Verif.Props.LeaveOut
/-!
# C148: how much each target counts in the outputs of a LS-SVM
-/
set_option linter.unusedSectionVars false
set_option linter.unusedSimpArgs false
namespace Kerch
namespace Influence
open Finset LSSVM LSTrain Regular Filter Topology

variable {n : Type} [Fintype n] [DecidableEq n]

/-! ## Specification -/

/-- The targets that are one at `i` and zero elsewhere. -/
def unitTarget (i : n) : n → ℝ := fun j => if j = i then 1 else 0

/-- The solutions for these targets. -/
def UnitSols (K : n → n → ℝ) (γ : ℝ) (H : n → n → ℝ) (B : n → ℝ) : Prop := ∀ i, DualSol K γ (unitTarget i) (H i) (B i)

/-- What the target of the training point `i` contributes at a point with kernel values `kx`: the output of the model fitted to the
targets that are zero except there. -/
def weightAt (H : n → n → ℝ) (B : n → ℝ) (kx : n → ℝ) (i : n) : ℝ := outDual kx (H i) (B i)

/-- Effective number of parameters: by how much the outputs at the training points follow their own targets, in total. -/
def freedom (K : n → n → ℝ) (H : n → n → ℝ) (B : n → ℝ) : ℝ := ∑ i, weightAt H B (K i) i

/-! ## Lemmas -/

theorem unit_sum (f : n → ℝ) (i : n) : ∑ j, f j * unitTarget i j = f i := by simp [unitTarget]

/-- The solution for any targets, put together. -/
theorem combine {K : n → n → ℝ} {γ : ℝ} {H : n → n → ℝ} {B : n → ℝ} (hW : UnitSols K γ H B) (y : n → ℝ) :
    DualSol K γ y (fun j => ∑ i, y i * H i j) (∑ i, y i * B i) := by
  refine ⟨fun a => ?_, ?_⟩
  · have h1 : ∑ j, K a j * ∑ i, y i * H i j = ∑ i, y i * ∑ j, K a j * H i j := by
      simp only [mul_sum]
      rw [sum_comm]
      exact sum_congr rfl fun i _ => sum_congr rfl fun j _ => by ring
    rw [h1, mul_sum, ← sum_add_distrib, ← sum_add_distrib]
    have h2 : ∀ i, y i * ∑ j, K a j * H i j + γ * (y i * H i a) + y i * B i = y i * unitTarget i a := by
      intro i
      rw [← (hW i).1 a]; ring
    simp only [h2]
    simp [unitTarget]
  · rw [sum_comm]
    simp only [← mul_sum, (hW _).2, mul_zero, sum_const_zero]

/-- How the targets enter the quadratic form of the outputs. -/
theorem form {K : n → n → ℝ} {γ : ℝ} {y h : n → ℝ} {b : ℝ} (hs : DualSol K γ y h b) :
    ∑ i, y i * outDual (K i) h b = ∑ i, outDual (K i) h b ^ 2 + γ * Norm2 K h := by
  have h1 := (C121_residual K γ y h b hs).1
  have h2 : ∀ i, y i * outDual (K i) h b = outDual (K i) h b ^ 2 + γ * (h i * ∑ j, K i j * h j + b * h i) := by
    intro i
    have a : y i = outDual (K i) h b + γ * h i := by linarith [h1 i]
    have c : outDual (K i) h b = ∑ j, K i j * h j + b := rfl
    rw [a, add_mul, ← sq]
    congr 1
    rw [c]; ring
  simp only [h2, sum_add_distrib, ← mul_sum, hs.2, mul_zero, add_zero]
  rw [norm2_eq]

/-- The cost of the solution in terms of the targets. -/
theorem cost {K : n → n → ℝ} {γ : ℝ} {y h : n → ℝ} {b : ℝ} (hs : DualSol K γ y h b) :
    Err2 K y h b + γ * Norm2 K h = ∑ i, y i ^ 2 - ∑ i, y i * outDual (K i) h b := by
  have h1 := (C121_residual K γ y h b hs).1
  have h2 : Err2 K y h b = γ * (γ * ∑ i, h i ^ 2) := by
    unfold Err2
    rw [← mul_assoc, mul_sum]
    refine sum_congr rfl fun i _ => ?_
    have := h1 i
    unfold outDual at this
    rw [this]; ring
  have h3 : ∀ i, y i ^ 2 - y i * outDual (K i) h b = γ * (y i * h i) := by
    intro i
    have a : outDual (K i) h b = y i - γ * h i := by linarith [h1 i]
    rw [a]; ring
  rw [h2, ← sum_sub_distrib]
  simp only [h3, ← mul_sum]
  rw [Stability.energy hs]
  ring

/-- The products of targets with outputs do not depend on which of the two is fitted. -/
theorem swap {K : n → n → ℝ} (hK : ∀ i j, K i j = K j i) {γ : ℝ} {y y' h h' : n → ℝ} {b b' : ℝ} (hs : DualSol K γ y h b)
    (hs' : DualSol K γ y' h' b') : ∑ i, y i * outDual (K i) h' b' = ∑ i, y' i * outDual (K i) h b := by
  have h1 := (C121_residual K γ y h b hs).1
  have h1' := (C121_residual K γ y' h' b' hs').1
  have e : ∀ (y y' h h' : n → ℝ) (b b' : ℝ), DualSol K γ y h b → DualSol K γ y' h' b' →
      ∑ i, y i * h' i = ∑ i, ∑ j, h' i * K i j * h j + γ * ∑ i, h i * h' i := by
    intro y y' h h' b b' hs hs'
    have : ∀ i, y i * h' i = ∑ j, h' i * K i j * h j + γ * (h i * h' i) + b * h' i := by
      intro i
      rw [← hs.1 i, add_mul, add_mul, sum_mul]
      congr 2
      · exact sum_congr rfl fun j _ => by ring
      · ring
    simp only [this, sum_add_distrib, ← mul_sum, hs'.2, mul_zero, add_zero]
  have e1 := e y y' h h' b b' hs hs'
  have e2 := e y' y h' h b' b hs' hs
  have e3 : ∑ i, ∑ j, h' i * K i j * h j = ∑ i, ∑ j, h i * K i j * h' j := by
    rw [sum_comm]
    exact sum_congr rfl fun i _ => sum_congr rfl fun j _ => by rw [hK j i]; ring
  have e4 : ∑ i, h i * h' i = ∑ i, h' i * h i := sum_congr rfl fun i _ => mul_comm _ _
  have e5 : ∑ i, y i * h' i = ∑ i, y' i * h i := by rw [e1, e2, e3, e4]
  have f1 : ∀ i, y i * outDual (K i) h' b' = y i * y' i - γ * (y i * h' i) := by
    intro i
    have a : outDual (K i) h' b' = y' i - γ * h' i := by linarith [h1' i]
    rw [a]; ring
  have f2 : ∀ i, y' i * outDual (K i) h b = y i * y' i - γ * (y' i * h i) := by
    intro i
    have a : outDual (K i) h b = y i - γ * h i := by linarith [h1 i]
    rw [a]; ring
  simp only [f1, f2, sum_sub_distrib, ← mul_sum, e5]

theorem unit_out (K : n → n → ℝ) (h : n → ℝ) (b : ℝ) (i : n) : ∑ j, unitTarget i j * outDual (K j) h b = outDual (K i) h b := by
  simp [unitTarget]

/-! ## Properties -/

/-- **C148** There is exactly one solution for each unit target, whatever the data. -/
theorem C148_exists [Nonempty n] (K : n → n → ℝ) (hK : PSDMat K) (γ : ℝ) (hγ : 0 < γ) :
    ∃ H B, UnitSols K γ H B ∧ ∀ H' B', UnitSols K γ H' B' → H' = H ∧ B' = B := by
  choose H B hW using fun i => C50_exists_partial K hK γ hγ (unitTarget i)
  refine ⟨H, B, hW, fun H' B' hW' => ⟨funext fun i => ?_, funext fun i => ?_⟩⟩
  · exact (C50_unique_partial K hK γ hγ _ _ _ _ _ (hW' i) (hW i)).1
  · exact (C50_unique_partial K hK γ hγ _ _ _ _ _ (hW' i) (hW i)).2

/-- **C148** At every point the output is a weighted sum of the targets, with weights that do not depend on the targets and sum up
to one. -/
theorem C148_weights [Nonempty n] (K : n → n → ℝ) (hK : PSDMat K) (γ : ℝ) (hγ : 0 < γ) {H : n → n → ℝ} {B : n → ℝ}
    (hW : UnitSols K γ H B) (kx : n → ℝ) :
    (∀ y h b, DualSol K γ y h b → outDual kx h b = ∑ i, weightAt H B kx i * y i) ∧ ∑ i, weightAt H B kx i = 1 := by
  have key : ∀ y h b, DualSol K γ y h b → outDual kx h b = ∑ i, weightAt H B kx i * y i := by
    intro y h b hs
    obtain ⟨rfl, rfl⟩ := C50_unique_partial K hK γ hγ _ _ _ _ _ hs (combine hW y)
    unfold weightAt outDual
    simp only [mul_sum, add_mul, sum_add_distrib, sum_mul]
    rw [sum_comm]
    congr 1
    · exact sum_congr rfl fun i _ => sum_congr rfl fun j _ => by ring
    · exact sum_congr rfl fun i _ => by ring
  refine ⟨key, ?_⟩
  have h1 := key (fun _ => 1) (fun _ => 0) 1 ⟨fun i => by simp, by simp⟩
  simpa [outDual] using h1.symm

/-- **C148** The influence of two training points on one another is the same. -/
theorem C148_symmetric (K : n → n → ℝ) (hK : PSDMat K) (γ : ℝ) {H : n → n → ℝ} {B : n → ℝ} (hW : UnitSols K γ H B) (i j : n) :
    weightAt H B (K i) j = weightAt H B (K j) i := by
  have := swap hK.1 (hW i) (hW j)
  rw [unit_out, unit_out] at this
  exact this

/-- **C148** Among at least two training points, the output at each of them follows its own target: by at least the share of the
point in the sample, and by less than the change. -/
theorem C148_own [Nonempty n] (K : n → n → ℝ) (hK : PSDMat K) (γ : ℝ) (hγ : 0 < γ) {H : n → n → ℝ} {B : n → ℝ}
    (hW : UnitSols K γ H B) (i : n) :
    1 / (Fintype.card n : ℝ) ≤ weightAt H B (K i) i ∧ weightAt H B (K i) i ≤ 1 ∧
      (1 < Fintype.card n → weightAt H B (K i) i < 1) := by
  have hc : (0 : ℝ) < Fintype.card n := by exact_mod_cast Fintype.card_pos
  obtain ⟨N, hN⟩ : ∃ N : ℝ, N = Fintype.card n := ⟨_, rfl⟩
  rw [← hN] at hc ⊢
  have hi := hW i
  have hres := (C121_residual K γ _ _ _ hi).1 i
  have hone : unitTarget i i = (1 : ℝ) := by simp [unitTarget]
  rw [hone] at hres
  have hen := Stability.energy hi
  have hHi : ∑ j, unitTarget i j * H i j = H i i := by simp [unitTarget]
  rw [hHi] at hen
  have hn2 : 0 ≤ Norm2 K (H i) := hK.2 _
  have hsq : 0 ≤ ∑ j, H i j ^ 2 := sum_nonneg fun j _ => sq_nonneg _
  have hpos : 0 ≤ H i i := by rw [hen]; positivity
  refine ⟨?_, ?_, fun h2 => ?_⟩
  · have hs0 : DualSol K γ (fun j => unitTarget i j - 1 / N) (H i) (B i - 1 / N) := by
      refine ⟨fun j => ?_, hi.2⟩
      have := hi.1 j
      simp only
      linarith
    have hf := form hs0
    have e1 : ∀ j, outDual (K j) (H i) (B i - 1 / N) = outDual (K j) (H i) (B i) - 1 / N := fun j => by unfold outDual; ring
    have hsum := (C121_residual K γ _ _ _ hi).2.1
    have hu : ∑ j, unitTarget i j = (1 : ℝ) := by simp [unitTarget]
    rw [sum_sub_distrib, hu] at hsum
    have e2 : ∑ j, (unitTarget i j - 1 / N) * outDual (K j) (H i) (B i - 1 / N) = weightAt H B (K i) i - 1 / N := by
      simp only [e1, sub_mul, mul_sub, sum_sub_distrib, unit_out, ← mul_sum, ← sum_mul, hu]
      rw [show ∑ j, outDual (K j) (H i) (B i) = 1 by linarith]
      rw [sum_const, card_univ, nsmul_eq_mul, ← hN]
      unfold weightAt
      field_simp
      ring
    rw [e2] at hf
    have h3 : 0 ≤ ∑ j, outDual (K j) (H i) (B i - 1 / N) ^ 2 := sum_nonneg fun j _ => sq_nonneg _
    have h4 : 0 ≤ γ * Norm2 K (H i) := by positivity
    linarith
  · have := mul_nonneg hγ.le hpos
    unfold weightAt
    linarith
  · by_contra hcon
    push Not at hcon
    have hz : H i i = 0 := by
      unfold weightAt at hcon
      nlinarith
    have hz2 : ∑ j, H i j ^ 2 = 0 := by nlinarith
    have hz3 : ∀ j, H i j = 0 := fun j => by
      have := (sum_eq_zero_iff_of_nonneg fun j _ => sq_nonneg (H i j)).1 hz2 j (mem_univ j)
      exact pow_eq_zero_iff (two_ne_zero) |>.1 this
    obtain ⟨j, hj⟩ := Fintype.exists_ne_of_one_lt_card h2 i
    have a1 := hi.1 i
    have a2 := hi.1 j
    simp only [hz3, mul_zero, sum_const_zero, zero_add, unitTarget, if_true, if_neg hj] at a1 a2
    rw [a1] at a2
    exact one_ne_zero a2

/-- **C148** Raising the target of one training point by `t` changes the output there by at least its share of `t` and by at most `t`, and
never in the other direction. -/
theorem C148_raise [Nonempty n] (K : n → n → ℝ) (hK : PSDMat K) (γ : ℝ) (hγ : 0 < γ) (y h h' : n → ℝ) (b b' : ℝ) (i : n) (t : ℝ)
    (ht : 0 ≤ t) (hs : DualSol K γ y h b) (hs' : DualSol K γ (fun j => if j = i then y j + t else y j) h' b') :
    outDual (K i) h b + t / Fintype.card n ≤ outDual (K i) h' b' ∧ outDual (K i) h' b' ≤ outDual (K i) h b + t := by
  obtain ⟨H, B, hW, _⟩ := C148_exists K hK γ hγ
  obtain ⟨hw, _⟩ := C148_weights K hK γ hγ hW (K i)
  obtain ⟨o1, o2, _⟩ := C148_own K hK γ hγ hW i
  rw [hw _ _ _ hs, hw _ _ _ hs']
  have e : ∑ j, weightAt H B (K i) j * (if j = i then y j + t else y j) = ∑ j, weightAt H B (K i) j * y j + weightAt H B (K i) i * t := by
    have : ∀ j, weightAt H B (K i) j * (if j = i then y j + t else y j) =
        weightAt H B (K i) j * y j + weightAt H B (K i) j * t * unitTarget i j := by
      intro j
      by_cases hj : j = i <;> simp [hj, unitTarget, mul_add]
    simp only [this, sum_add_distrib, unit_sum fun j => weightAt H B (K i) j * t]
  rw [e]
  have h1 : t / Fintype.card n = 1 / (Fintype.card n : ℝ) * t := by ring
  rw [h1]
  constructor
  · have := mul_le_mul_of_nonneg_right o1 ht
    linarith
  · have := mul_le_mul_of_nonneg_right o2 ht
    linarith

/-- **C148** The influence of a training point on its own output, and with it the effective number of parameters, decreases as gamma
grows. -/
theorem C148_gamma [Nonempty n] (K : n → n → ℝ) (hK : PSDMat K) (γ γ' : ℝ) (hγ : 0 < γ) (hle : γ ≤ γ') {H H' : n → n → ℝ}
    {B B' : n → ℝ} (hW : UnitSols K γ H B) (hW' : UnitSols K γ' H' B') :
    (∀ i, weightAt H' B' (K i) i ≤ weightAt H B (K i) i) ∧ freedom K H' B' ≤ freedom K H B := by
  have key : ∀ i, weightAt H' B' (K i) i ≤ weightAt H B (K i) i := by
    intro i
    have c1 := cost (hW i)
    have c2 := cost (hW' i)
    rw [unit_out] at c1 c2
    have hb := best K hK γ hγ.le _ _ _ (hW i) (H' i) (B' i)
    have hn2 : 0 ≤ Norm2 K (H' i) := hK.2 _
    have : γ * Norm2 K (H' i) ≤ γ' * Norm2 K (H' i) := mul_le_mul_of_nonneg_right hle hn2
    unfold weightAt
    linarith
  exact ⟨key, sum_le_sum fun i _ => key i⟩

/-- **C148** The effective number of parameters lies between one and the number of points, and is less if there are at least two points. -/
theorem C148_freedom [Nonempty n] (K : n → n → ℝ) (hK : PSDMat K) (γ : ℝ) (hγ : 0 < γ) {H : n → n → ℝ} {B : n → ℝ}
    (hW : UnitSols K γ H B) : 1 ≤ freedom K H B ∧ freedom K H B ≤ Fintype.card n ∧
      (1 < Fintype.card n → freedom K H B < Fintype.card n) := by
  have hc : (Fintype.card n : ℝ) ≠ 0 := by exact_mod_cast Fintype.card_ne_zero
  have ho := C148_own K hK γ hγ hW
  refine ⟨?_, ?_, fun h2 => ?_⟩
  · have : ∑ _i : n, 1 / (Fintype.card n : ℝ) = 1 := by simp [hc]
    rw [← this]
    exact sum_le_sum fun i _ => (ho i).1
  · have : ∑ _i : n, (1 : ℝ) = Fintype.card n := by simp
    rw [← this]
    exact sum_le_sum fun i _ => (ho i).2.1
  · have : ∑ _i : n, (1 : ℝ) = Fintype.card n := by simp
    rw [← this]
    exact sum_lt_sum_of_nonempty univ_nonempty fun i _ => (ho i).2.2 h2

/-- **C148** It is at most one more than the dimension of the features. -/
theorem C148_features [Nonempty n] {d : Type} [Fintype d] (Φ : n → d → ℝ) (γ : ℝ) (hγ : 0 < γ) {H : n → n → ℝ} {B : n → ℝ}
    (hW : UnitSols (gramOf Φ) γ H B) : freedom (gramOf Φ) H B ≤ Fintype.card d + 1 := by
  classical
  have hK : PSDMat (gramOf Φ) := by
    refine ⟨fun i j => sum_congr rfl fun a _ => mul_comm _ _, fun c => ?_⟩
    have : ∑ i, ∑ j, c i * c j * gramOf Φ i j = ∑ a, (∑ i, c i * Φ i a) ^ 2 := by
      calc ∑ i, ∑ j, c i * c j * gramOf Φ i j = ∑ i, ∑ j, ∑ a, (c i * Φ i a) * (c j * Φ j a) :=
            sum_congr rfl fun i _ => sum_congr rfl fun j _ => by
              rw [gramOf, mul_sum]
              exact sum_congr rfl fun a _ => by ring
        _ = ∑ i, ∑ a, ∑ j, (c i * Φ i a) * (c j * Φ j a) := sum_congr rfl fun i _ => sum_comm
        _ = ∑ a, ∑ i, ∑ j, (c i * Φ i a) * (c j * Φ j a) := sum_comm
        _ = _ := sum_congr rfl fun a _ => by rw [sq, sum_mul_sum]
    rw [this]
    exact sum_nonneg fun a _ => sq_nonneg _
  let S : Matrix n n ℝ := Matrix.of fun i j => weightAt H B (gramOf Φ i) j
  have hS : S.IsHermitian := by
    ext i j
    simp only [S, Matrix.conjTranspose_apply, Matrix.of_apply, star_trivial]
    exact C148_symmetric _ hK γ hW j i
  -- every eigenvalue lies between zero and one
  have hev : ∀ i, 0 ≤ hS.eigenvalues i ∧ hS.eigenvalues i ≤ 1 := by
    intro i
    let v : n → ℝ := (hS.eigenvectorBasis i : EuclideanSpace ℝ n)
    have hv : S.mulVec v = hS.eigenvalues i • v := hS.mulVec_eigenvectorBasis i
    have hvn : ∑ j, v j ^ 2 = 1 := by
      have h1 := hS.eigenvectorBasis.orthonormal.1 i
      have h2 := EuclideanSpace.norm_sq_eq (𝕜 := ℝ) (hS.eigenvectorBasis i)
      rw [h1] at h2
      simpa [v] using h2.symm
    have hsol := combine hW v
    have hout : ∀ j, outDual (gramOf Φ j) (fun j => ∑ i, v i * H i j) (∑ i, v i * B i) = hS.eigenvalues i * v j := by
      intro j
      rw [(C148_weights _ hK γ hγ hW (gramOf Φ j)).1 _ _ _ hsol]
      have := congrFun hv j
      simpa [S, Matrix.mulVec, dotProduct] using this
    have hf := form hsol
    simp only [hout] at hf
    have e1 : ∑ j, v j * (hS.eigenvalues i * v j) = hS.eigenvalues i := by
      have : ∀ j, v j * (hS.eigenvalues i * v j) = hS.eigenvalues i * v j ^ 2 := fun j => by ring
      simp only [this, ← mul_sum, hvn, mul_one]
    have e2 : ∑ j, (hS.eigenvalues i * v j) ^ 2 = hS.eigenvalues i ^ 2 := by
      simp only [mul_pow, ← mul_sum, hvn, mul_one]
    rw [e1, e2] at hf
    have hn2 : 0 ≤ γ * Norm2 (gramOf Φ) (fun j => ∑ i, v i * H i j) := mul_nonneg hγ.le (hK.2 _)
    constructor
    · nlinarith [sq_nonneg (hS.eigenvalues i)]
    · nlinarith [sq_nonneg (hS.eigenvalues i - 1)]
  have htr : freedom (gramOf Φ) H B = ∑ i, hS.eigenvalues i := by
    have := hS.trace_eq_sum_eigenvalues
    simpa [Matrix.trace, S, freedom] using this
  have hrank : S.rank ≤ Fintype.card d + 1 := by
    let L : Matrix n (Option d) ℝ := Matrix.of fun i c => c.elim 1 fun a => Φ i a
    let M : Matrix (Option d) n ℝ := Matrix.of fun c j => c.elim (B j) fun a => ∑ l, Φ l a * H j l
    have hLM : S = L * M := by
      ext i j
      simp only [S, L, M, Matrix.mul_apply, Matrix.of_apply, Fintype.sum_option, Option.elim_none, Option.elim_some, one_mul,
        weightAt, outDual, gramOf]
      rw [add_comm]
      congr 1
      simp only [mul_sum, sum_mul]
      rw [sum_comm]
      exact sum_congr rfl fun a _ => sum_congr rfl fun l _ => by ring
    rw [hLM]
    refine (Matrix.rank_mul_le_left L M).trans ((Matrix.rank_le_card_width L).trans ?_)
    simp
  have hcard := hS.rank_eq_card_non_zero_eigs
  rw [htr]
  have h1 : ∑ i, hS.eigenvalues i ≤ ∑ i, if hS.eigenvalues i ≠ 0 then (1 : ℝ) else 0 := by
    refine sum_le_sum fun i _ => ?_
    by_cases h : hS.eigenvalues i = 0
    · simp [h]
    · simp [h, (hev i).2]
  refine h1.trans ?_
  rw [← sum_filter, sum_const, nsmul_eq_mul, mul_one]
  have h2 : (univ.filter fun i => hS.eigenvalues i ≠ 0).card = S.rank := by
    rw [hcard, Fintype.card_subtype]
  rw [h2]
  exact_mod_cast hrank

/-- **C148** As gamma grows without bound only the mean of the targets remains; as it vanishes, each output follows its own target alone, if any
targets can be reached. -/
theorem C148_limits [Nonempty n] (K : n → n → ℝ) (hK : PSDMat K) (H : ℝ → n → n → ℝ) (B : ℝ → n → ℝ)
    (hW : ∀ γ > 0, UnitSols K γ (H γ) (B γ)) :
    Tendsto (fun γ => freedom K (H γ) (B γ)) atTop (𝓝 1) ∧
    ((∀ y : n → ℝ, ∃ (h : n → ℝ) (b : ℝ), ∀ i, ∑ j, K i j * h j + b = y i) →
      Tendsto (fun γ => freedom K (H γ) (B γ)) (𝓝[>] 0) (𝓝 (Fintype.card n))) := by
  have hc : (Fintype.card n : ℝ) ≠ 0 := by exact_mod_cast Fintype.card_ne_zero
  constructor
  · have h1 : (1 : ℝ) = ∑ i : n, mean (unitTarget i) := by
      have : ∀ i : n, mean (unitTarget i) = 1 / Fintype.card n := fun i => by simp [mean, unitTarget]
      simp [this, hc]
    rw [h1]
    exact tendsto_finsetSum _ fun i _ => C121_dominating K hK (unitTarget i) (fun γ => H γ i) (fun γ => B γ i)
      (fun γ hγ => hW γ hγ i) (K i)
  · intro hr
    have h1 : (Fintype.card n : ℝ) = ∑ i : n, unitTarget i i := by simp [unitTarget]
    rw [h1]
    refine tendsto_finsetSum _ fun i _ => ?_
    obtain ⟨h₀, b₀, h0⟩ := hr (unitTarget i)
    exact C121_vanishing K hK (unitTarget i) (fun γ => H γ i) (fun γ => B γ i) (fun γ hγ => hW γ hγ i) h₀ b₀ h0 i

/-- **C148** (leave-one-out) The error at a point of the model that has not seen it is the error of the model that has, divided by one minus the
influence of the point on itself. -/
theorem C148_leave_out {n X : Type} [Fintype n] [DecidableEq n] [Nonempty n] (κ : X → X → ℝ) (pts : n → X) (x₀ : X)
    (hK : PSDMat (LeaveOut.gram κ (LeaveOut.more pts x₀))) (γ : ℝ) (hγ : 0 < γ) {H : Option n → Option n → ℝ} {B : Option n → ℝ}
    (hW : UnitSols (LeaveOut.gram κ (LeaveOut.more pts x₀)) γ H B) (y : n → ℝ) (y₀ : ℝ) (h : Option n → ℝ) (b : ℝ) (h' : n → ℝ) (b' : ℝ)
    (hs : DualSol (LeaveOut.gram κ (LeaveOut.more pts x₀)) γ (LeaveOut.more y y₀) h b) (hs' : DualSol (LeaveOut.gram κ pts) γ y h' b') :
    y₀ - LeaveOut.predict κ pts h' b' x₀ = (y₀ - LeaveOut.predict κ (LeaveOut.more pts x₀) h b x₀) /
      (1 - weightAt H B (LeaveOut.gram κ (LeaveOut.more pts x₀) none) none) := by
  have hlt := (C148_own _ hK γ hγ hW none).2.2 (by simp [Fintype.card_option, Fintype.card_pos])
  rw [eq_div_iff (by linarith)]
  obtain ⟨p, hp⟩ : ∃ p, p = LeaveOut.predict κ pts h' b' x₀ := ⟨_, rfl⟩
  have hext : DualSol (LeaveOut.gram κ (LeaveOut.more pts x₀)) γ (LeaveOut.more y p) (LeaveOut.more h' 0) b' := by
    refine ⟨fun i => ?_, ?_⟩
    · rw [Fintype.sum_option]
      cases i with
      | none => simp [LeaveOut.more, LeaveOut.gram, hp, LeaveOut.predict, outDual]
      | some i => simpa [LeaveOut.more, LeaveOut.gram] using hs'.1 i
    · rw [Fintype.sum_option]
      simpa [LeaveOut.more] using hs'.2
  obtain ⟨hw, _⟩ := C148_weights _ hK γ hγ hW (LeaveOut.gram κ (LeaveOut.more pts x₀) none)
  have e1 := hw _ _ _ hs
  have e2 := hw _ _ _ hext
  rw [Fintype.sum_option] at e1 e2
  have e3 : outDual (LeaveOut.gram κ (LeaveOut.more pts x₀) none) (LeaveOut.more h' 0) b' = p := by
    rw [hp]
    simp [outDual, Fintype.sum_option, LeaveOut.more, LeaveOut.gram, LeaveOut.predict]
  have e4 : LeaveOut.predict κ (LeaveOut.more pts x₀) h b x₀ = outDual (LeaveOut.gram κ (LeaveOut.more pts x₀) none) h b := rfl
  rw [e3] at e2
  rw [← hp, e4]
  simp only [LeaveOut.more, Option.elim_none, Option.elim_some] at e1 e2
  linarith

/-- **C148, violated: outputs are not averages.** The weights may be negative: for targets between zero and one an output can leave this
range, as far as one likes. -/
theorem C148_average_violated (c : ℝ) : ∃ (x : ℝ) (h : Fin 2 → ℝ) (b : ℝ),
    DualSol (fun i j : Fin 2 => (![0, 1] i : ℝ) * ![0, 1] j) 1 ![0, 1] h b ∧ c < outDual (fun j => x * ![0, 1] j) h b := by
  refine ⟨3 * c + 3, ![-1 / 3, 1 / 3], 1 / 3, ⟨fun i => ?_, ?_⟩, ?_⟩
  · fin_cases i <;> simp [Fin.sum_univ_two] <;> norm_num
  · simp [Fin.sum_univ_two]; norm_num
  · simp [outDual, Fin.sum_univ_two]; linarith

/-! ## Concrete cases -/

/-- The solutions for unit targets with the kernel matrix `eye`. -/
theorem eye_unit (γ : ℝ) (hγ : 0 < γ) : UnitSols eye γ (fun i j => (if i = j then 1 else -1) / (2 * (1 + γ))) fun _ => 1 / 2 := by
  have : 1 + γ ≠ 0 := by positivity
  intro i
  refine ⟨fun j => ?_, ?_⟩
  · fin_cases i <;> fin_cases j <;> simp [eye, unitTarget, Fin.sum_univ_two] <;> field_simp <;> ring
  · fin_cases i <;> simp [Fin.sum_univ_two] <;> field_simp <;> ring

example := C148_exists eye eye_psd 1 one_pos
example := C148_weights eye eye_psd 1 one_pos (eye_unit 1 one_pos) ![3, 4]
example := C148_symmetric eye eye_psd 1 (eye_unit 1 one_pos) 0 1
example := C148_own eye eye_psd 1 one_pos (eye_unit 1 one_pos) 0
example := C148_gamma eye eye_psd 1 2 one_pos one_le_two (eye_unit 1 one_pos) (eye_unit 2 two_pos)
example := C148_freedom eye eye_psd 1 one_pos (eye_unit 1 one_pos)
example := C148_limits eye eye_psd _ _ fun γ hγ => eye_unit γ hγ

/-- The features of the points, one coordinate. -/
def line (i : Fin 2) (_ : Fin 1) : ℝ := if i = 0 then -1 else 1

/-- On a line at most two parameters are effective, here five thirds. -/
example : ∃ H B, UnitSols (gramOf line) 1 H B ∧ freedom (gramOf line) H B = 5 / 3 ∧ freedom (gramOf line) H B ≤ (1 : ℕ) + 1 := by
  have hW : UnitSols (gramOf line) 1 (fun i j => if i = j then 1 / 6 else -1 / 6) fun _ => 1 / 2 := by
    intro i
    refine ⟨fun j => ?_, ?_⟩
    · fin_cases i <;> fin_cases j <;> simp [gramOf, line, unitTarget, Fin.sum_univ_two] <;> norm_num
    · fin_cases i <;> simp [Fin.sum_univ_two] <;> norm_num
  refine ⟨_, _, hW, ?_, by simpa using C148_features line 1 one_pos hW⟩
  simp [freedom, weightAt, outDual, gramOf, line, Fin.sum_univ_two]
  norm_num

/-- Leaving out the second of the points `-1` and `1` with targets `0` and `2`. -/
example : ∃ H B h b h' b', DualSol (LeaveOut.gram (fun x y : ℝ => x * y) (LeaveOut.more (fun _ : Fin 1 => -1) 1)) 1
      (LeaveOut.more (fun _ => 0) 2) h b ∧ DualSol (LeaveOut.gram (fun x y : ℝ => x * y) fun _ : Fin 1 => -1) 1 (fun _ => 0) h' b' ∧
    2 - LeaveOut.predict (fun x y => x * y) (fun _ : Fin 1 => -1) h' b' 1 =
      (2 - LeaveOut.predict (fun x y => x * y) (LeaveOut.more (fun _ : Fin 1 => -1) 1) h b 1) /
        (1 - weightAt H B (LeaveOut.gram (fun x y => x * y) (LeaveOut.more (fun _ : Fin 1 => -1) 1) none) none) := by
  have psd : ∀ {m : Type} [Fintype m] (p : m → ℝ), PSDMat (LeaveOut.gram (fun x y : ℝ => x * y) p) := by
    intro m _ p
    refine ⟨fun i j => mul_comm _ _, fun c => ?_⟩
    have : ∑ i, ∑ j, c i * c j * LeaveOut.gram (fun x y : ℝ => x * y) p i j = (∑ i, c i * p i) ^ 2 := by
      rw [sq, sum_mul_sum]
      exact sum_congr rfl fun i _ => sum_congr rfl fun j _ => by simp only [LeaveOut.gram]; ring
    rw [this]
    exact sq_nonneg _
  obtain ⟨H, B, hW, _⟩ := C148_exists _ (psd (LeaveOut.more (fun _ : Fin 1 => (-1 : ℝ)) 1)) 1 one_pos
  obtain ⟨h, b, hs⟩ := C50_exists_partial _ (psd (LeaveOut.more (fun _ : Fin 1 => (-1 : ℝ)) 1)) 1 one_pos (LeaveOut.more (fun _ => 0) 2)
  obtain ⟨h', b', hs'⟩ := C50_exists_partial _ (psd fun _ : Fin 1 => (-1 : ℝ)) 1 one_pos (fun _ => 0)
  exact ⟨H, B, h, b, h', b', hs, hs', C148_leave_out _ _ 1 (psd _) 1 one_pos hW _ 2 h b h' b' hs hs'⟩

/-- Raising one of two targets. -/
example : ∃ h' b', 0 + (2 : ℝ) / 2 ≤ outDual (eye 0) h' b' - outDual (eye 0) ![1 / (1 + 1), -1 / (1 + 1)] 0 := by
  obtain ⟨h', b', hs'⟩ := C50_exists_partial eye eye_psd 1 one_pos fun j => if j = 0 then ![1, -1] j + 2 else ![1, -1] j
  have := (C148_raise eye eye_psd 1 one_pos ![1, -1] _ h' 0 b' 0 2 two_pos.le (eye_sol 1 1 one_pos) hs').1
  refine ⟨h', b', ?_⟩
  simp only [Fintype.card_fin, Nat.cast_ofNat] at this
  linarith

/-- Here one and a half parameters are effective. -/
example : freedom eye (fun i j => (if i = j then 1 else -1) / (2 * (1 + 1))) (fun _ => 1 / 2) = 3 / 2 := by
  simp [freedom, weightAt, outDual, eye, Fin.sum_univ_two]
  norm_num

end Influence
end Kerch
