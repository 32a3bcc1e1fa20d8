import Mathlib.Algebra.BigOperators.Field
import Mathlib.Tactic.Ring
import Mathlib.Tactic.FieldSimp
import Mathlib.Tactic.Linarith
import Mathlib.LinearAlgebra.FiniteDimensional.Basic
import Mathlib.LinearAlgebra.FiniteDimensional.Lemmas
import Verif.Model.LSSVM
import Verif.Lemmas.PSD
/-!
# C66 (kappa) and C50 (LS-SVM)
-/
set_option linter.unusedSectionVars false
set_option linter.unusedSimpArgs false
namespace Kerch
open Finset

/-! ## C66 -/
section
open Kappa
variable {n d m : Type} [Fintype n] [Fintype d] [Fintype m]

theorem kappa_run (κ : ℝ) (vals : List ℝ) : (St.run κ vals).kappa = vals.getLastD κ ∧ (St.run κ vals).kappaSqrt = Real.sqrt κ := by
  unfold St.run
  have : ∀ (vals : List ℝ) (s : St), (vals.foldl St.set s).kappa = vals.getLastD s.kappa ∧ (vals.foldl St.set s).kappaSqrt = s.kappaSqrt := by
    intro vals
    induction vals with
    | nil => exact fun s => ⟨rfl, rfl⟩
    | cons v t ih =>
      intro s
      rw [List.foldl_cons]
      refine ⟨(ih _).1.trans ?_, (ih _).2⟩
      cases t <;> rfl
  exact this vals _

/-- **C66**, partial: whatever is assigned, as long as the factor is (still or again) the one given at construction, `phi` is a feature map of `k`, for all
points: `phi(x) phi(y)ᵀ = k(x, y)`, and `K = k()`. -/
theorem C66_features_partial (κ : ℝ) (hκ : 0 ≤ κ) (vals : List ℝ) (hv : vals.getLastD κ = κ) (Φ : n → d → ℝ) (Ψ : m → d → ℝ) (i : n) (j : m) :
    ∑ a, (St.run κ vals).phi Φ i a * (St.run κ vals).phi Ψ j a = (St.run κ vals).k Φ Ψ i j ∧
    (St.run κ vals).K Φ = (St.run κ vals).k Φ Φ := by
  obtain ⟨h1, h2⟩ := kappa_run κ vals
  refine ⟨?_, rfl⟩
  have hs : Real.sqrt κ * Real.sqrt κ = κ := Real.mul_self_sqrt hκ
  simp only [St.phi, St.k, h1, h2, hv]
  rw [mul_sum]
  refine sum_congr rfl fun a _ => ?_
  calc Real.sqrt κ * Φ i a * (Real.sqrt κ * Ψ j a) = (Real.sqrt κ * Real.sqrt κ) * (Φ i a * Ψ j a) := by ring
    _ = κ * (Φ i a * Ψ j a) := by rw [hs]

/-- **C66** violated by assignments: after `kappa = v` with another non-negative value, `phi` still uses the factor given at construction, so that
`phi(x) phi(x)ᵀ` is `κ/v`-off from `k(x, x)` for every point with non-zero features. -/
theorem C66_assign_violated (κ v : ℝ) (hκ : 0 ≤ κ) (hv : v ≠ κ) (vals : List ℝ) (Φ : n → d → ℝ) (i : n) (hi : ∃ a, Φ i a ≠ 0) :
    ∑ a, (St.run κ (vals ++ [v])).phi Φ i a * (St.run κ (vals ++ [v])).phi Φ i a ≠ (St.run κ (vals ++ [v])).k Φ Φ i i := by
  obtain ⟨h1, h2⟩ := kappa_run κ (vals ++ [v])
  have hl : (vals ++ [v]).getLastD κ = v := by simp [List.getLastD_eq_getLast?]
  have hs : Real.sqrt κ * Real.sqrt κ = κ := Real.mul_self_sqrt hκ
  simp only [St.phi, St.k, h1, h2, hl]
  have e : ∑ a, Real.sqrt κ * Φ i a * (Real.sqrt κ * Φ i a) = κ * ∑ a, Φ i a * Φ i a := by
    rw [mul_sum]
    refine sum_congr rfl fun a _ => ?_
    calc Real.sqrt κ * Φ i a * (Real.sqrt κ * Φ i a) = (Real.sqrt κ * Real.sqrt κ) * (Φ i a * Φ i a) := by ring
      _ = κ * (Φ i a * Φ i a) := by rw [hs]
  rw [e]
  intro h
  obtain ⟨a, ha⟩ := hi
  have hpos : 0 < ∑ a, Φ i a * Φ i a :=
    sum_pos' (fun a _ => mul_self_nonneg _) ⟨a, mem_univ a, mul_self_pos.2 ha⟩
  exact hv (mul_right_cancel₀ hpos.ne' h).symm

/-- **C66**, partial: with the factor 1, `Phi` is `phi()` and `C` is `c()`. -/
theorem C66_one_partial (Φ : n → d → ℝ) : (St.init 1).Phi Φ = (St.init 1).phi Φ ∧ (St.init 1).C Φ = (St.init 1).c Φ := by
  constructor
  · funext i j; simp [St.Phi, St.phi, St.init]
  · funext i j; simp [St.C, St.c, St.phi, St.init]

/-- **C66** violated for all other factors: `C` differs from `c()` by the factor, for all data that is not zero. -/
theorem C66_cov_violated (κ : ℝ) (hκ : 0 ≤ κ) (h1 : κ ≠ 1) (Φ : n → d → ℝ) (j : d) (hj : ∃ i, Φ i j ≠ 0) :
    (St.init κ).c Φ j j = κ * (St.init κ).C Φ j j ∧ (St.init κ).c Φ j j ≠ (St.init κ).C Φ j j := by
  have hs : Real.sqrt κ * Real.sqrt κ = κ := Real.mul_self_sqrt hκ
  have e : (St.init κ).c Φ j j = κ * (St.init κ).C Φ j j := by
    simp only [St.c, St.C, St.phi, St.init]
    have e2 : ∑ a, Real.sqrt κ * Φ a j * (Real.sqrt κ * Φ a j) = κ * ∑ a, Φ a j * Φ a j := by
      rw [mul_sum]
      refine sum_congr rfl fun a _ => ?_
      calc Real.sqrt κ * Φ a j * (Real.sqrt κ * Φ a j) = (Real.sqrt κ * Real.sqrt κ) * (Φ a j * Φ a j) := by ring
        _ = κ * (Φ a j * Φ a j) := by rw [hs]
    rw [e2]; ring
  refine ⟨e, fun h => ?_⟩
  obtain ⟨i, hi⟩ := hj
  have hpos : 0 < (St.init κ).C Φ j j := by
    have : Nonempty n := ⟨i⟩
    have hc : 0 < (1 / (Fintype.card n : ℝ)) := by
      have : 0 < Fintype.card n := Fintype.card_pos
      positivity
    exact mul_pos hc (sum_pos' (fun a _ => mul_self_nonneg _) ⟨i, mem_univ i, mul_self_pos.2 hi⟩)
  rw [e] at h
  exact h1 (mul_right_cancel₀ hpos.ne' (h.trans (one_mul _).symm))

example : ([2, 5, 3] : List ℝ).getLastD 3 = 3 := rfl

end

/-! ## C50 -/
section
open LSSVM
variable {n d : Type} [Fintype n] [Fintype d]

/-- Specification: regularised least squares with an unpenalised bias. -/
def Ridge (Φ : n → d → ℝ) (γ : ℝ) (y : n → ℝ) (w : d → ℝ) (b : ℝ) : ℝ := ∑ i, (y i - (∑ j, Φ i j * w j + b)) ^ 2 + γ * ∑ j, w j ^ 2

/-- The kernel matrix of the features. -/
def gramOf (Φ : n → d → ℝ) : n → n → ℝ := fun i j => ∑ a, Φ i a * Φ j a

/-- **C50**, partial (dual): every solution of the dual system is optimal: with the weights `w = Φᵀ h` its predictions are `w·φ(x) + b` for every point, and
`(w, b)` minimises the regularised least squares problem over all weights and biases. -/
theorem C50_dual_partial (Φ : n → d → ℝ) (γ : ℝ) (hγ : 0 ≤ γ) (y h : n → ℝ) (b : ℝ) (hs : DualSol (gramOf Φ) γ y h b) :
    (∀ φ : d → ℝ, outDual (fun i => ∑ j, φ j * Φ i j) h b = outPrimal φ (fun j => ∑ i, Φ i j * h i) b) ∧
    ∀ w' b', Ridge Φ γ y (fun j => ∑ i, Φ i j * h i) b ≤ Ridge Φ γ y w' b' := by
  constructor
  · intro φ
    simp only [outDual, outPrimal]
    congr 1
    simp_rw [sum_mul, mul_sum]
    rw [sum_comm]
    exact sum_congr rfl fun j _ => sum_congr rfl fun i _ => by ring
  · intro w' b'
    obtain ⟨h1, h2⟩ := hs
    obtain ⟨w, hw⟩ : ∃ w : d → ℝ, w = fun j => ∑ i, Φ i j * h i := ⟨_, rfl⟩
    rw [← hw]
    -- residuals are γ h
    have hres : ∀ i, y i - (∑ j, Φ i j * w j + b) = γ * h i := by
      intro i
      have e : ∑ j, gramOf Φ i j * h j = ∑ j, Φ i j * w j := by
        rw [hw]
        simp_rw [gramOf, sum_mul, mul_sum]
        rw [sum_comm]
        exact sum_congr rfl fun a _ => sum_congr rfl fun j _ => by ring
      have := h1 i
      rw [e] at this
      linarith
    -- compare with w' = w + u, b' = b + c
    obtain ⟨u, hu⟩ : ∃ u : d → ℝ, u = fun j => w' j - w j := ⟨_, rfl⟩
    have hw' : ∀ j, w' j = w j + u j := fun j => by rw [hu]; ring
    have hb' : b' = b + (b' - b) := by ring
    obtain ⟨c, hc⟩ : ∃ c, c = b' - b := ⟨_, rfl⟩
    rw [← hc] at hb'
    have hr' : ∀ i, y i - (∑ j, Φ i j * w' j + b') = γ * h i - (∑ j, Φ i j * u j + c) := by
      intro i
      have : ∑ j, Φ i j * w' j = ∑ j, Φ i j * w j + ∑ j, Φ i j * u j := by
        rw [← sum_add_distrib]
        exact sum_congr rfl fun j _ => by rw [hw' j]; ring
      rw [this, hb', ← hres i]; ring
    have hcross : ∑ i, h i * (∑ j, Φ i j * u j + c) = ∑ j, w j * u j := by
      simp_rw [mul_add]
      rw [sum_add_distrib, ← sum_mul, h2, zero_mul, add_zero, hw]
      simp_rw [mul_sum, sum_mul]
      rw [sum_comm]
      exact sum_congr rfl fun j _ => sum_congr rfl fun i _ => by ring
    have e1 : Ridge Φ γ y w b = ∑ i, (γ * h i) ^ 2 + γ * ∑ j, w j ^ 2 := by
      rw [Ridge]; congr 1; exact sum_congr rfl fun i _ => by rw [hres i]
    have e2 : Ridge Φ γ y w' b' = Ridge Φ γ y w b + (∑ i, (∑ j, Φ i j * u j + c) ^ 2 + γ * ∑ j, u j ^ 2) := by
      have f1 : ∑ i, (y i - (∑ j, Φ i j * w' j + b')) ^ 2
          = ∑ i, (γ * h i) ^ 2 - 2 * γ * ∑ i, h i * (∑ j, Φ i j * u j + c) + ∑ i, (∑ j, Φ i j * u j + c) ^ 2 := by
        rw [mul_sum, ← sum_sub_distrib, ← sum_add_distrib]
        exact sum_congr rfl fun i _ => by rw [hr' i]; ring
      have f2 : ∑ j, w' j ^ 2 = ∑ j, w j ^ 2 + 2 * ∑ j, w j * u j + ∑ j, u j ^ 2 := by
        rw [mul_sum, ← sum_add_distrib, ← sum_add_distrib]
        exact sum_congr rfl fun j _ => by rw [hw' j]; ring
      rw [e1, Ridge, f1, f2, hcross]; ring
    rw [e2]
    have : 0 ≤ ∑ i, (∑ j, Φ i j * u j + c) ^ 2 + γ * ∑ j, u j ^ 2 :=
      add_nonneg (sum_nonneg fun i _ => sq_nonneg _) (mul_nonneg hγ (sum_nonneg fun j _ => sq_nonneg _))
    linarith

/-- **C50**, partial (dual): for every positive semi-definite kernel matrix, `γ > 0` and at least one point, the dual system has at most one solution, so that
`solve` is a function of the data. -/
theorem C50_unique_partial [Nonempty n] (K : n → n → ℝ) (hK : PSDMat K) (γ : ℝ) (hγ : 0 < γ) (y h h' : n → ℝ) (b b' : ℝ) (hs : DualSol K γ y h b)
    (hs' : DualSol K γ y h' b') : h = h' ∧ b = b' := by
  obtain ⟨h1, h2⟩ := hs
  obtain ⟨h1', h2'⟩ := hs'
  obtain ⟨u, hu⟩ : ∃ u : n → ℝ, u = fun i => h i - h' i := ⟨_, rfl⟩
  have hu' : ∀ i, u i = h i - h' i := fun i => by rw [hu]
  have hd : ∀ i, ∑ j, K i j * u j + γ * u i + (b - b') = 0 := by
    intro i
    have : ∑ j, K i j * u j = ∑ j, K i j * h j - ∑ j, K i j * h' j := by
      rw [← sum_sub_distrib]
      exact sum_congr rfl fun j _ => by rw [hu' j]; ring
    rw [this, hu' i]
    linarith [h1 i, h1' i]
  have hsum : ∑ i, u i = 0 := by
    have : ∑ i, u i = ∑ i, h i - ∑ i, h' i := by rw [← sum_sub_distrib]; exact sum_congr rfl fun i _ => hu' i
    rw [this, h2, h2', sub_zero]
  have hq : ∑ i, ∑ j, u i * u j * K i j + γ * ∑ i, u i * u i = 0 := by
    have e : ∑ i, u i * (∑ j, K i j * u j + γ * u i + (b - b')) = 0 := sum_eq_zero fun i _ => by rw [hd i, mul_zero]
    have e2 : ∑ i, u i * (∑ j, K i j * u j + γ * u i + (b - b'))
        = ∑ i, ∑ j, u i * u j * K i j + γ * ∑ i, u i * u i + (∑ i, u i) * (b - b') := by
      rw [mul_sum, sum_mul, ← sum_add_distrib, ← sum_add_distrib]
      refine sum_congr rfl fun i _ => ?_
      have : ∑ j, u i * u j * K i j = u i * ∑ j, K i j * u j := by
        rw [mul_sum]; exact sum_congr rfl fun j _ => by ring
      rw [this]; ring
    rw [e2, hsum, zero_mul, add_zero] at e
    exact e
  have hp := hK.2 u
  have hn : 0 ≤ ∑ i, u i * u i := sum_nonneg fun i _ => mul_self_nonneg _
  have hz : ∑ i, u i * u i = 0 := by nlinarith
  have hui : ∀ i, u i = 0 := fun i =>
    mul_self_eq_zero.1 ((sum_eq_zero_iff_of_nonneg fun i _ => mul_self_nonneg _).1 hz i (mem_univ i))
  refine ⟨funext fun i => by linarith [hui i, hu' i], ?_⟩
  obtain ⟨i⟩ := ‹Nonempty n›
  have := hd i
  rw [hui i, sum_eq_zero fun j _ => by rw [hui j, mul_zero]] at this
  linarith

/-- **C50**, partial (dual): the dual system has a solution for every target. -/
theorem C50_exists_partial [Nonempty n] (K : n → n → ℝ) (hK : PSDMat K) (γ : ℝ) (hγ : 0 < γ) (y : n → ℝ) : ∃ h b, DualSol K γ y h b := by
  let f : ((n → ℝ) × ℝ) →ₗ[ℝ] ((n → ℝ) × ℝ) :=
    { toFun := fun p => (fun i => ∑ j, K i j * p.1 j + γ * p.1 i + p.2, ∑ i, p.1 i)
      map_add' := by
        intro p q
        refine Prod.ext (funext fun i => ?_) ?_
        · simp only [Prod.fst_add, Prod.snd_add, Pi.add_apply, mul_add, sum_add_distrib]; ring
        · simp [sum_add_distrib]
      map_smul' := by
        intro c p
        refine Prod.ext (funext fun i => ?_) ?_
        · simp only [Prod.smul_fst, Prod.smul_snd, Pi.smul_apply, smul_eq_mul, RingHom.id_apply, mul_add, mul_sum]
          congr 1
          congr 1
          · exact sum_congr rfl fun j _ => by ring
          · ring
        · simp [mul_sum] }
  have hinj : Function.Injective f := by
    rw [← LinearMap.ker_eq_bot, LinearMap.ker_eq_bot']
    intro p hp
    have h1 : ∀ i, ∑ j, K i j * p.1 j + γ * p.1 i + p.2 = 0 := fun i => congrFun (congrArg Prod.fst hp) i
    have h2 : ∑ i, p.1 i = 0 := congrArg Prod.snd hp
    have := C50_unique_partial K hK γ hγ (fun _ => 0) p.1 (fun _ => 0) p.2 0 ⟨h1, h2⟩ ⟨fun i => by simp, by simp⟩
    exact Prod.ext this.1 this.2
  obtain ⟨p, hp⟩ := LinearMap.surjective_of_injective hinj (y, 0)
  exact ⟨p.1, p.2, fun i => congrFun (congrArg Prod.fst hp) i, congrArg Prod.snd hp⟩

/-- **C50**, partial: with a single training point the primal and the dual solutions predict the same, for all points. -/
theorem C50_single_partial (Φ : Fin 1 → d → ℝ) (γ : ℝ) (hγ : 0 < γ) (y h : Fin 1 → ℝ) (b b' : ℝ) (w : d → ℝ)
    (hs : DualSol (gramOf Φ) γ y h b) (hp : PrimalSol Φ γ y w b') (φ : d → ℝ) :
    outDual (fun i => ∑ j, φ j * Φ i j) h b = outPrimal φ w b' := by
  obtain ⟨h1, h2⟩ := hs
  obtain ⟨p1, p2⟩ := hp
  simp only [Fin.sum_univ_one, Fintype.card_fin, Nat.cast_one, div_one, one_mul] at h1 h2 p1 p2
  have hb : b = y 0 := by
    have := h1 0
    rw [h2] at this
    linarith
  have hw : ∀ j, w j = 0 := by
    intro j
    have e := p1 j
    have e2 : ∑ l, Φ 0 j * Φ 0 l * w l = Φ 0 j * ∑ l, Φ 0 l * w l := by
      rw [mul_sum]; exact sum_congr rfl fun l _ => by ring
    rw [e2] at e
    have : γ * w j = 0 := by
      have : Φ 0 j * (∑ l, Φ 0 l * w l + b' - y 0) = 0 := by rw [show ∑ l, Φ 0 l * w l + b' - y 0 = 0 by linarith, mul_zero]
      linarith
    exact (mul_eq_zero.1 this).resolve_left hγ.ne'
  have hb' : b' = y 0 := by
    rw [sum_eq_zero fun l _ => by rw [hw l, mul_zero]] at p2
    linarith
  simp only [outDual, outPrimal, Fin.sum_univ_one, h2, mul_zero, zero_add, hb, hb']
  rw [sum_eq_zero fun j _ => by rw [hw j, mul_zero], zero_add]

/-- **C50** violated from two points on, because the covariance in the primal system is divided by the number of points and the other blocks are not: for the
points -1 and 1 with targets -1 and 1 and `γ = 1`, the primal and dual solutions exist, are unique and predict differently: 1 against 2/3 at the point 1. -/
theorem C50_violated :
    let Φ : Fin 2 → Fin 1 → ℝ := fun i _ => if i = 0 then -1 else 1
    let y : Fin 2 → ℝ := fun i => if i = 0 then -1 else 1
    (∃ h b, DualSol (gramOf Φ) 1 y h b) ∧ (∃ w b, PrimalSol Φ 1 y w b) ∧
    (∀ h b, DualSol (gramOf Φ) 1 y h b → outDual (fun i => ∑ j, (fun _ : Fin 1 => (1 : ℝ)) j * Φ i j) h b = 2 / 3) ∧
    (∀ w b, PrimalSol Φ 1 y w b → outPrimal (fun _ => 1) w b = 1) := by
  intro Φ y
  refine ⟨⟨fun i => if i = 0 then -1 / 3 else 1 / 3, 0, ?_, ?_⟩, ⟨fun _ => 1, 0, ?_, ?_⟩, ?_, ?_⟩
  · intro i
    fin_cases i <;> norm_num [Φ, y, gramOf, Fin.sum_univ_two]
  · norm_num [Fin.sum_univ_two]
  · intro j
    fin_cases j
    norm_num [Φ, y, Fin.sum_univ_two]
  · norm_num [Φ, y, Fin.sum_univ_two]
  · rintro h b ⟨h1, h2⟩
    have e0 := h1 0
    have e1 := h1 1
    norm_num [Φ, y, gramOf, Fin.sum_univ_two] at e0 e1 h2
    norm_num [outDual, Φ, Fin.sum_univ_two]
    linarith
  · rintro w b ⟨h1, h2⟩
    have e0 := h1 0
    norm_num [Φ, y, Fin.sum_univ_two] at e0 h2
    norm_num [outPrimal]
    linarith

end
end Kerch
