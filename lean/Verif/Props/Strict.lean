import Verif.Lemmas.Strict
import Verif.Props.PSDTable
import Verif.Props.Regular
import Verif.Props.Nystrom
import Verif.Props.Polynomial
set_option linter.unusedSectionVars false
set_option linter.unusedSimpArgs false
/-!
# C146: kernels that tell all points apart
-/
namespace Kerch
namespace Strict
open Finset PSDTable LSSVM

section
variable {d : Type} [Fintype d] [Nonempty d]

/-! ### Helpers -/

/-- With repetitions: the coefficients of equal points are added. -/
theorem PDOn.psd {X : Type} {κ : X → X → ℝ} (h : PDOn Set.univ κ) (hs : ∀ x y, κ x y = κ y x) : PSDOn Set.univ κ := by
  classical
  intro ι _ x _
  refine ⟨fun i j => hs _ _, fun c => ?_⟩
  have e : ∑ i, ∑ j, c i * c j * κ (x i) (x j) =
      ∑ u : Set.range x, ∑ v : Set.range x, (∑ i with Set.rangeFactorization x i = u, c i) * (∑ j with Set.rangeFactorization x j = v, c j) * κ u v := by
    rw [← sum_fiberwise univ (Set.rangeFactorization x)]
    refine sum_congr rfl fun u _ => ?_
    have h1 : ∀ i ∈ univ.filter (fun i => Set.rangeFactorization x i = u), ∑ j, c i * c j * κ (x i) (x j) = ∑ v : Set.range x, c i * (∑ j with Set.rangeFactorization x j = v, c j) * κ u v := by
      intro i hi
      have hu : x i = u := congrArg Subtype.val (mem_filter.1 hi).2
      rw [← sum_fiberwise univ (Set.rangeFactorization x)]
      refine sum_congr rfl fun v _ => ?_
      rw [mul_sum, sum_mul]
      refine sum_congr rfl fun j hj => ?_
      have hv : x j = v := congrArg Subtype.val (mem_filter.1 hj).2
      rw [hu, hv]
    rw [sum_congr rfl h1, sum_comm]
    exact sum_congr rfl fun v _ => by rw [sum_mul, sum_mul]
  rw [e]
  by_cases hz : (fun u : Set.range x => ∑ i with Set.rangeFactorization x i = u, c i) = 0
  · refine le_of_eq (sum_eq_zero fun u _ => sum_eq_zero fun v _ => ?_).symm
    have := congrFun hz u
    simp only [Pi.zero_apply] at this
    rw [this]; ring
  · exact (h (Set.range x) Subtype.val Subtype.val_injective (fun _ => trivial) _ hz).le

theorem dOf_comm (D : DistKind) (σ : ℝ) (x y : d → ℝ) : dOf D σ x y = dOf D σ y x := by
  cases D with
  | euclidean =>
    simp only [dOf, distSigma]
    congr 2
    exact sum_congr rfl fun k _ => by ring
  | manhattan => simp only [dOf, distSigma, manhattan, abs_sub_comm]
  | chebyshev => simp only [dOf, distSigma, chebyshev, abs_sub_comm]
  | minkowski p => rfl

theorem sqrt_scale {σ : ℝ} (hσ : 0 < σ) (x y : d → ℝ) : Real.sqrt ((1 / σ) ^ 2 * euclidSq x y) = 1 / σ * Real.sqrt (euclidSq x y) := by
  rw [Real.sqrt_mul (sq_nonneg _), Real.sqrt_sq (by positivity)]

theorem rbf_pd {σ : ℝ} (hσ : 0 < σ) : PDOn Set.univ fun x y : d → ℝ => profile (.exponential true) (dOf .euclidean σ x y) := by
  refine (funext₂ fun x y => ?_ : (fun x y : d → ℝ => profile (.exponential true) (dOf .euclidean σ x y)) = _) ▸ gauss (d := d) (s := (1 / σ) ^ 2 / 2) (by positivity)
  simp only [profile, dOf, distSigma]
  rw [Real.sq_sqrt (mul_nonneg (sq_nonneg _) (euclidSq_nn _ _))]
  congr 1; ring

theorem laplace_pd {σ : ℝ} (hσ : 0 < σ) : PDOn Set.univ fun x y : d → ℝ => profile (.exponential false) (dOf .euclidean σ x y) := by
  have e : (fun x y : d → ℝ => profile (.exponential false) (dOf .euclidean σ x y)) = fun x y => Real.exp (-((1 / σ * Real.sqrt (1 / 2)) * Real.sqrt (euclidSq x y))) := by
    funext x y
    simp only [profile, dOf, distSigma]
    rw [sqrt_scale hσ]
    congr 1; ring
  rw [e]
  exact laplace (by positivity) (e ▸ unique (by simp) (C81_laplacian σ))

theorem taxi_pd {e : Type} [Fintype e] [Nonempty e] {σ : ℝ} (hσ : 0 < σ) : PDOn Set.univ fun x y : e → ℝ => profile (.exponential false) (dOf .manhattan σ x y) := by
  have e : (fun x y : e → ℝ => profile (.exponential false) (dOf .manhattan σ x y)) = fun x y => Real.exp (-((1 / σ * Real.sqrt (1 / 2)) * manhattan x y)) := by
    funext x y
    simp only [profile, dOf, distSigma]
    congr 1; ring
  rw [e]
  exact taxi (by positivity) (e ▸ unique (by simp) (C81_manhattan σ hσ))

theorem logistic_pd {σ : ℝ} (hσ : 0 < σ) : PDOn Set.univ fun x y : d → ℝ => profile .logistic (dOf .euclidean σ x y) := by
  refine (funext₂ fun x y => ?_ : (fun x y : d → ℝ => profile .logistic (dOf .euclidean σ x y)) = _) ▸ sech (d := d) (a := 1 / σ) (by positivity)
  simp only [dOf, distSigma]
  generalize Real.sqrt ((1 / σ) ^ 2 * euclidSq x y) = u
  have e : Real.exp u + Real.exp (-u) + 2 = 4 * Real.cosh (u / 2) ^ 2 := by
    have h1 : Real.exp u = Real.exp (u / 2) ^ 2 := by rw [sq, ← Real.exp_add]; congr 1; ring
    have h2 : Real.exp (-u) = Real.exp (-(u / 2)) ^ 2 := by rw [sq, ← Real.exp_add]; congr 1; ring
    have h3 : Real.exp (u / 2) * Real.exp (-(u / 2)) = 1 := by rw [← Real.exp_add, add_neg_cancel, Real.exp_zero]
    rw [Real.cosh_eq, h1, h2]
    nlinarith [h3]
  have hc := (Real.cosh_pos (u / 2)).ne'
  simp only [profile]
  rw [e]
  field_simp

theorem hat_pd {a : d} (hd : Fintype.card d = 1) {σ : ℝ} (hσ : 0 < σ) : PDOn Set.univ fun x y : d → ℝ => profile .triangular (dOf .euclidean σ x y) := by
  have e : (fun x y : d → ℝ => profile .triangular (dOf .euclidean σ x y)) = fun x y => max 0 (1 - |x a / σ - y a / σ|) := by
    funext x y
    rw [dOf_one hd .euclidean (by simp) hσ a]
    simp only [profile]
    split
    · rw [max_eq_right (by linarith)]
    · rw [max_eq_left (by linarith)]
  have hp := one_psd hd .triangular (by simp) .euclidean (by simp) hσ
  rw [e] at hp ⊢
  refine (hat fun ι _ t _ => ?_).comp (fun x : d → ℝ => x a / σ) fun x y hxy => ?_
  · have h1 := hp ι (fun i _ => t i * σ) fun _ => trivial
    simp only [mul_div_cancel_right₀ _ hσ.ne'] at h1
    exact h1
  · funext k
    rw [(Fintype.card_eq_one_iff.1 hd).elim fun z hz => (hz k).trans (hz a).symm]
    exact (div_left_inj' hσ.ne').1 hxy

theorem cheb_pd {σ : ℝ} (hσ : 0 < σ) (hd : Fintype.card d = 2) : PDOn Set.univ fun x y : d → ℝ => profile (.exponential false) (dOf .chebyshev σ x y) := by
  obtain ⟨a, b, hab⟩ : ∃ a b : d, a ≠ b := Fintype.exists_pair_of_one_lt_card (by omega)
  have h := (taxi_pd (e := Fin 2) hσ).comp (fun x : d → ℝ => ![(x a + x b) / 2, (x a - x b) / 2]) fun x y hxy => by
    classical
    have h0 := congrFun hxy 0
    have h1 := congrFun hxy 1
    simp at h0 h1
    have ha : x a = y a := by linarith
    have hb : x b = y b := by linarith
    funext k
    have : ({a, b} : Finset d) = univ := Finset.eq_univ_of_card _ (by rw [card_pair hab, hd])
    have hk := this ▸ mem_univ k
    rcases (by simpa using hk : k = a ∨ k = b) with rfl | rfl
    · exact ha
    · exact hb
  refine (funext₂ fun x y => ?_ : (fun x y : d → ℝ => profile (.exponential false) (dOf .chebyshev σ x y)) = _) ▸ h
  simp only [dOf, distSigma]
  rw [chebyshev_two hd hab]
  simp [manhattan, Fin.sum_univ_two]

theorem good_pd {s : StatKind} {D : DistKind} (hD : ∀ p, D ≠ .minkowski p) {σ : ℝ} (hσ : 0 < σ) (hg : Good s D (Fintype.card d)) :
    PDOn Set.univ fun x y : d → ℝ => profile s (dOf D σ x y) := by
  have hpos : 0 < Fintype.card d := Fintype.card_pos
  obtain ⟨a⟩ := (inferInstance : Nonempty d)
  have one : ∀ s : StatKind, Fintype.card d = 1 → PDOn Set.univ (fun x y : d → ℝ => profile s (dOf .euclidean σ x y)) → PDOn Set.univ fun x y : d → ℝ => profile s (dOf D σ x y) :=
    fun s h1 h => by
      have e : ∀ x y : d → ℝ, dOf D σ x y = dOf .euclidean σ x y := fun x y => by rw [dOf_one h1 D hD hσ a, dOf_one h1 .euclidean (by simp) hσ a]
      simp only [e]
      exact h
  have silv : Fintype.card d ≤ 3 → PDOn Set.univ fun x y : d → ℝ => profile .silverman (dOf .euclidean σ x y) := fun h => silverman h hσ
  cases s with
  | epanechnikov => exact absurd hg (by simp [Good])
  | quartic => exact absurd hg (by simp [Good])
  | triweight => exact absurd hg (by simp [Good])
  | tricube => exact absurd hg (by simp [Good])
  | uniform => exact absurd hg (by simp [Good])
  | triangular => exact one _ hg (hat_pd (a := a) hg hσ)
  | silverman =>
    cases D with
    | euclidean => exact silv hg
    | manhattan => exact one _ hg (silv (by simp only [Good] at hg; omega))
    | chebyshev => exact one _ hg (silv (by simp only [Good] at hg; omega))
    | minkowski p => exact absurd rfl (hD p)
  | logistic =>
    cases D with
    | euclidean => exact logistic_pd hσ
    | manhattan => exact one _ hg (logistic_pd hσ)
    | chebyshev => exact one _ hg (logistic_pd hσ)
    | minkowski p => exact absurd rfl (hD p)
  | exponential q =>
    cases q with
    | true =>
      cases D with
      | euclidean => exact rbf_pd hσ
      | manhattan => exact one _ hg (rbf_pd hσ)
      | chebyshev => exact one _ hg (rbf_pd hσ)
      | minkowski p => exact absurd rfl (hD p)
    | false =>
      cases D with
      | euclidean => exact laplace_pd hσ
      | manhattan => exact taxi_pd hσ
      | chebyshev =>
        simp only [Good] at hg
        rcases (by omega : Fintype.card d = 1 ∨ Fintype.card d = 2) with h1 | h1
        · exact one _ h1 (laplace_pd hσ)
        · exact cheb_pd hσ h1
      | minkowski p => exact absurd rfl (hD p)

/-! ### The theorems -/

/-- **C146** The kernels and distances for which the matrices of all finite sets of points are positive semi-definite are those for which the matrices of pairwise different points are
positive definite. -/
theorem C146_table (s : StatKind) (D : DistKind) (hD : ∀ p, D ≠ .minkowski p) (σ : ℝ) (hσ : 0 < σ) :
    ∃ κ : (d → ℝ) → (d → ℝ) → ℝ, (∀ x y, statKernel s D σ x y = .ok (κ x y)) ∧ (PDOn Set.univ κ ↔ Good s D (Fintype.card d)) := by
  refine ⟨fun x y => profile s (dOf D σ x y), stat_ok s D hD σ, fun h => ?_, good_pd hD hσ⟩
  obtain ⟨κ, h1, h2⟩ := C144_table (d := d) s D hD σ hσ
  have e : κ = fun x y => profile s (dOf D σ x y) := funext₂ fun x y => by
    have := (h1 x y).symm.trans (stat_ok s D hD σ x y)
    injection this
  exact (e ▸ h2).1 (h.psd fun x y => by rw [dOf_comm])
end

section
variable {X n : Type} [Fintype n] {κ : X → X → ℝ}

/-- The kernel matrix of pairwise different points has no null vector. -/
theorem null_zero (h : PDOn Set.univ κ) {x : n → X} (hx : Function.Injective x) {c : n → ℝ} (hc : ∀ i, ∑ j, κ (x i) (x j) * c j = 0) : c = 0 := by
  by_contra h0
  have h1 := h n x hx (fun _ => trivial) c h0
  refine absurd h1 (not_lt.2 (le_of_eq ?_))
  refine sum_eq_zero fun i _ => ?_
  have := congrArg (fun t => c i * t) (hc i)
  simp only [mul_sum, mul_zero] at this
  rw [← this]
  exact sum_congr rfl fun j _ => by ring

/-- **C146** With such a kernel, on pairwise different sample points any targets are reached by exactly one vector of coefficients. -/
theorem C146_targets (h : PDOn Set.univ κ) (x : n → X) (hx : Function.Injective x) (y : n → ℝ) : ∃! c : n → ℝ, ∀ i, ∑ j, κ (x i) (x j) * c j = y i := by
  classical
  have hinj : Function.Injective (Matrix.mulVec (Matrix.of fun i j => κ (x i) (x j))) := by
    rw [← Matrix.coe_mulVecLin, injective_iff_map_eq_zero]
    intro c hc
    refine null_zero h hx fun i => ?_
    have := congrFun hc i
    simpa [Matrix.mulVec, dotProduct] using this
  have hsurj : Function.Surjective (Matrix.mulVec (Matrix.of fun i j => κ (x i) (x j))) := by
    rw [← Matrix.coe_mulVecLin] at hinj ⊢
    exact LinearMap.injective_iff_surjective.1 hinj
  obtain ⟨c, hc⟩ := hsurj y
  refine ⟨c, fun i => ?_, fun c' hc' => hinj ?_⟩
  · have := congrFun hc i
    simpa [Matrix.mulVec, dotProduct] using this
  · rw [hc]
    funext i
    simpa [Matrix.mulVec, dotProduct] using hc' i

open Filter Topology in
/-- **C146** With such a kernel, on pairwise different sample points, the outputs of a LS-SVM tend to any targets given as gamma decreases to zero. -/
theorem C146_fit (h : PDOn Set.univ κ) (hs : ∀ x y, κ x y = κ y x) (x : n → X) (hx : Function.Injective x) (y : n → ℝ) (c : ℝ → n → ℝ) (b : ℝ → ℝ)
    (hsol : ∀ γ > 0, DualSol (fun i j => κ (x i) (x j)) γ y (c γ) (b γ)) (i : n) :
    Tendsto (fun γ => outDual (fun j => κ (x i) (x j)) (c γ) (b γ)) (𝓝[>] 0) (𝓝 (y i)) := by
  obtain ⟨c₀, hc₀, -⟩ := C146_targets h x hx y
  exact Regular.C121_vanishing (fun i j => κ (x i) (x j)) (h.psd hs n x fun _ => trivial) y c b hsol c₀ 0 (fun i => by rw [add_zero]; exact hc₀ i) i

/-- **C146** Centred, the kernel matrix of pairwise different points only has the constant vectors as null vectors: exactly one component is lost. -/
theorem C146_centred [Nonempty n] (h : PDOn Set.univ κ) (hs : ∀ x y, κ x y = κ y x) (x : n → X) (hx : Function.Injective x) :
    ∃ M : n → n → ℝ, ioos κ x [.mean] .sample .sample = .ok M ∧ ∀ c : n → ℝ, (∀ i, ∑ j, M i j * c j = 0) ↔ ∃ t, ∀ i, c i = t := by
  obtain ⟨K, hK⟩ : ∃ K : n → n → ℝ, K = fun i j => κ (x i) (x j) := ⟨_, rfl⟩
  have hKs : ∀ i j, K i j = K j i := fun i j => by rw [hK]; exact hs _ _
  refine ⟨_, ioos_kchain κ x hs [.mean] (by simp) .sample .sample, fun c => ?_⟩
  have hM : ∀ i j : n, kchain κ x [.mean] ((Arg.sample : Arg X).pt x i) ((Arg.sample : Arg X).pt x j) =
      K i j - tmean (K i) - tmean (K j) + tmean fun l => tmean (K l) := fun i j => by rw [hK]; rfl
  simp only [hM]
  have hN : (Fintype.card n : ℝ) ≠ 0 := by exact_mod_cast Fintype.card_ne_zero
  constructor
  · intro h0
    obtain ⟨m, hm⟩ : ∃ m, m = tmean c := ⟨_, rfl⟩
    have hcs : ∑ i, c i = Fintype.card n * m := by rw [hm, tmean]; field_simp
    have key : ∑ i, ∑ j, (c i - m) * (c j - m) * K i j = ∑ i, c i * ∑ j, (K i j - tmean (K i) - tmean (K j) + tmean fun l => tmean (K l)) * c j := by
      have r : ∀ i, ∑ j, K i j = Fintype.card n * tmean (K i) := fun i => by rw [tmean]; field_simp
      have r2 : ∑ i, tmean (K i) = Fintype.card n * tmean fun l => tmean (K l) := by rw [tmean]; field_simp
      have L : ∀ i, ∑ j, (c i - m) * (c j - m) * K i j = (c i - m) * ∑ j, K i j * c j - (c i - m) * m * (Fintype.card n * tmean (K i)) := fun i => by
        rw [← r, mul_sum, mul_sum, ← sum_sub_distrib]
        exact sum_congr rfl fun j _ => by ring
      have R : ∀ i, ∑ j, (K i j - tmean (K i) - tmean (K j) + tmean fun l => tmean (K l)) * c j =
          ∑ j, K i j * c j - tmean (K i) * (Fintype.card n * m) - ∑ j, tmean (K j) * c j + (tmean fun l => tmean (K l)) * (Fintype.card n * m) := fun i => by
        rw [← hcs, mul_sum, mul_sum, ← sum_sub_distrib, ← sum_sub_distrib, ← sum_add_distrib]
        exact sum_congr rfl fun j _ => by ring
      simp only [L, R]
      have A : ∑ i, ∑ j, K i j * c j = Fintype.card n * ∑ j, tmean (K j) * c j := by
        rw [sum_comm, mul_sum]
        refine sum_congr rfl fun j _ => ?_
        rw [← sum_mul, ← mul_assoc, ← r]
        simp only [hKs]
      obtain ⟨T, hT⟩ : ∃ T, T = tmean fun l => tmean (K l) := ⟨_, rfl⟩
      obtain ⟨B, hB⟩ : ∃ B, B = ∑ j, tmean (K j) * c j := ⟨_, rfl⟩
      rw [← hT] at r2 ⊢
      rw [← hB] at A ⊢
      have e1 : ∑ i, ((c i - m) * ∑ j, K i j * c j - (c i - m) * m * (Fintype.card n * tmean (K i))) =
          ∑ i, c i * ∑ j, K i j * c j - m * ∑ i, ∑ j, K i j * c j - m * Fintype.card n * B + m * m * Fintype.card n * ∑ i, tmean (K i) := by
        rw [hB, mul_sum, mul_sum, mul_sum, ← sum_sub_distrib, ← sum_sub_distrib, ← sum_add_distrib]
        exact sum_congr rfl fun j _ => by ring
      have e2 : ∑ i, c i * (∑ j, K i j * c j - tmean (K i) * (Fintype.card n * m) - B + T * (Fintype.card n * m)) =
          ∑ i, c i * ∑ j, K i j * c j - (Fintype.card n * m) * B - (∑ i, c i) * B + (∑ i, c i) * (T * (Fintype.card n * m)) := by
        rw [hB, sum_mul, sum_mul, mul_sum, ← hB, ← sum_sub_distrib, ← sum_sub_distrib, ← sum_add_distrib]
        exact sum_congr rfl fun j _ => by ring
      rw [e1, e2, A, r2, hcs]; ring
    simp only [h0, mul_zero, sum_const_zero] at key
    have hz : (fun i => c i - m) = 0 := by
      by_contra hne
      have := h n x hx (fun _ => trivial) _ hne
      rw [hK] at key
      exact absurd key this.ne'
    exact ⟨m, fun i => by have := congrFun hz i; simp only [Pi.zero_apply] at this; linarith⟩
  · rintro ⟨t, ht⟩ i
    simp only [ht]
    rw [← sum_mul, sum_add_distrib, sum_sub_distrib, sum_sub_distrib, sum_const, sum_const, card_univ, nsmul_eq_mul, nsmul_eq_mul]
    have r : ∑ j, K i j = Fintype.card n * tmean (K i) := by rw [tmean]; field_simp
    have r2 : ∑ i, tmean (K i) = Fintype.card n * tmean fun l => tmean (K l) := by rw [tmean]; field_simp
    rw [r, r2]; ring

/-- **C146** violated: if two points of the sample are equal there are, whatever the kernel, targets that no coefficients reach. -/
theorem C146_repeated_violated (x : n → X) (i j : n) (hij : i ≠ j) (he : x i = x j) : ∃ y : n → ℝ, ∀ c : n → ℝ, ¬ ∀ l, ∑ m, κ (x l) (x m) * c m = y l := by
  classical
  refine ⟨Pi.single i 1, fun c h => ?_⟩
  have h1 := h i
  have h2 := h j
  rw [he, h2, Pi.single_eq_same, Pi.single_eq_of_ne hij.symm] at h1
  exact zero_ne_one h1

/-- **C146** violated: a kernel with fewer features than there are points in the sample does not reach all targets, wherever the points are. -/
theorem C146_features_violated {e : Type} [Fintype e] (φ : X → e → ℝ) (hφ : ∀ x y, κ x y = φ x ⬝ᵥ φ y) (x : n → X) (hn : Fintype.card e < Fintype.card n) :
    (∃ c : n → ℝ, c ≠ 0 ∧ ∀ i, ∑ j, κ (x i) (x j) * c j = 0) ∧ ∃ y : n → ℝ, ∀ c : n → ℝ, ¬ ∀ l, ∑ m, κ (x l) (x m) * c m = y l := by
  classical
  have h1 : ∃ c : n → ℝ, c ≠ 0 ∧ ∀ k, ∑ j, φ (x j) k * c j = 0 := by
    obtain ⟨c, hc, h0⟩ := Submodule.exists_mem_ne_zero_of_ne_bot (LinearMap.ker_ne_bot_of_finrank_lt (f := Matrix.mulVecLin (Matrix.of fun (k : e) (j : n) => φ (x j) k)) (by simpa using hn))
    refine ⟨c, h0, fun k => ?_⟩
    have := congrFun (LinearMap.mem_ker.1 hc) k
    simpa [Matrix.mulVec, dotProduct] using this
  obtain ⟨c, hc, h0⟩ := h1
  have hz : ∀ i, ∑ j, κ (x i) (x j) * c j = 0 := fun i => by
    simp only [hφ, dotProduct, sum_mul]
    rw [sum_comm]
    refine sum_eq_zero fun k _ => ?_
    have := congrArg (fun t => φ (x i) k * t) (h0 k)
    simp only [mul_sum, mul_zero] at this
    rw [← this]
    exact sum_congr rfl fun j _ => by ring
  refine ⟨⟨c, hc, hz⟩, c, fun c' h => hc ?_⟩
  -- the targets are orthogonal to what is reached
  have hs : ∀ x y, κ x y = κ y x := fun x y => by rw [hφ, hφ, dotProduct_comm]
  have h2 : ∑ l, c l * c l = 0 := by
    calc ∑ l, c l * c l = ∑ l, c l * ∑ m, κ (x l) (x m) * c' m := sum_congr rfl fun l _ => by rw [h l]
      _ = ∑ m, c' m * ∑ l, κ (x m) (x l) * c l := by
        simp only [mul_sum]
        rw [sum_comm]
        exact sum_congr rfl fun m _ => sum_congr rfl fun l _ => by rw [hs]; ring
      _ = 0 := sum_eq_zero fun m _ => by rw [hz, mul_zero]
  funext l
  exact mul_self_eq_zero.1 ((sum_eq_zero_iff_of_nonneg fun l _ => mul_self_nonneg (c l)).1 h2 l (mem_univ l))
end

/-- **C146** violated: the linear kernel, with more points than coordinates. -/
theorem C146_linear_violated {n d : Type} [Fintype n] [Fintype d] (hn : Fintype.card d < Fintype.card n) (x : n → d → ℝ) :
    ∃ y : n → ℝ, ∀ c : n → ℝ, ¬ ∀ l, ∑ m, linearKernel (x l) (x m) * c m = y l :=
  (C146_features_violated (κ := linearKernel) id (fun _ _ => rfl) x hn).2

/-- **C146** violated: the polynomial kernel, with more points than its features, whose number is a binomial coefficient. -/
theorem C146_polynomial_violated {n : Type} [Fintype n] (d α : ℕ) (hα : 1 ≤ α) (hd : 1 ≤ d) (β : ℝ) (hβ : 0 ≤ β) (hn : (d + α).choose α < Fintype.card n) (x : n → Fin d → ℝ) :
    ∃ y : n → ℝ, ∀ c : n → ℝ, ¬ ∀ l, ∑ m, polyKernel α β (x l) (x m) * c m = y l := by
  have hφ : ∀ x : Fin d → ℝ, ∃ φ, polyPhi α β x = .ok φ ∧ φ.length = (d + α).choose α := fun x => by
    obtain ⟨φ, _, h1, _, h2, _⟩ := C27_features_partial d α hα hd β hβ x x
    exact ⟨φ, h1, h2⟩
  choose φ h1 h2 using hφ
  refine (C146_features_violated (κ := polyKernel α β) (e := Fin ((d + α).choose α)) (fun x k => (φ x)[k.1]'(by rw [h2]; exact k.2)) (fun x y => ?_) x (by simpa using hn)).2
  obtain ⟨φx, φy, e1, e2, l1, l2, e3⟩ := C27_features_partial d α hα hd β hβ x y
  obtain rfl : φ x = φx := by have := (h1 x).symm.trans e1; injection this
  obtain rfl : φ y = φy := by have := (h1 y).symm.trans e2; injection this
  simp only [polyKernel, dotProduct]
  rw [← e3, ← List.sum_ofFn]
  congr 1
  refine List.ext_getElem (by simp [l1, l2]) fun k h _ => by simp

section

/-- The smallest eigenvalue is at most any of the quotients of Rayleigh. -/
theorem rayleigh {n : ℕ} {M : Fin n → Fin n → ℝ} (D : EigDecomp M) (t : ℝ) (ht : ∀ l, t ≤ D.lam l) (c : Fin n → ℝ) : t * ∑ i, c i * c i ≤ ∑ i, ∑ j, c i * c j * M i j := by
  have e : ∑ i, ∑ j, c i * c j * M i j = ∑ l, D.lam l * (∑ i, c i * D.V i l) ^ 2 := by
    simp only [D.spectral, mul_sum, sq, sum_mul]
    rw [sum_comm]
    refine (sum_congr rfl fun j _ => sum_comm).trans ?_
    rw [sum_comm]
    refine sum_congr rfl fun l _ => sum_congr rfl fun j _ => sum_congr rfl fun i _ => by ring
  have e2 : ∑ i, c i * c i = ∑ l, (∑ i, c i * D.V i l) ^ 2 := by
    have : ∀ i, c i = ∑ j, (if i = j then 1 else 0) * c j := fun i => by simp
    calc ∑ i, c i * c i = ∑ i, c i * ∑ j, (if i = j then 1 else 0) * c j := sum_congr rfl fun i _ => by rw [← this i]
      _ = ∑ i, ∑ j, ∑ l, c i * D.V i l * (c j * D.V j l) := by
        refine sum_congr rfl fun i _ => ?_
        rw [mul_sum]
        refine sum_congr rfl fun j _ => ?_
        rw [← D.orth' i j, sum_mul, mul_sum]
        exact sum_congr rfl fun l _ => by ring
      _ = _ := by
        rw [sum_comm]
        refine (sum_congr rfl fun j _ => sum_comm).trans ?_
        rw [sum_comm]
        refine sum_congr rfl fun l _ => ?_
        rw [sq, sum_mul_sum, sum_comm]
  rw [e, e2, mul_sum]
  exact sum_le_sum fun l _ => mul_le_mul_of_nonneg_right (ht l) (sq_nonneg _)

/-- **C146** With such a kernel all eigenvalues of the kernel matrix of pairwise different points are positive. -/
theorem C146_eigenvalues {X : Type} {κ : X → X → ℝ} (h : PDOn Set.univ κ) {n : ℕ} (x : Fin n → X) (hx : Function.Injective x) (D : EigDecomp fun i j => κ (x i) (x j)) (l : Fin n) :
    0 < D.lam l := by
  have hne : (fun i => D.V i l) ≠ 0 := fun h0 => by
    have h1 := D.orth l l
    rw [if_pos rfl] at h1
    exact zero_ne_one ((sum_eq_zero fun i _ => by rw [congrFun h0 i]; simp).symm.trans h1)
  have h1 := h (Fin n) x hx (fun _ => trivial) _ hne
  refine h1.trans_eq ?_
  have : ∀ i, ∑ j, D.V i l * D.V j l * κ (x i) (x j) = D.lam l * (D.V i l * D.V i l) := fun i => by
    have := congrArg (fun t => D.V i l * t) (D.eig i l)
    simp only [mul_sum] at this
    rw [show D.lam l * (D.V i l * D.V i l) = D.V i l * (D.lam l * D.V i l) by ring, ← this]
    exact sum_congr rfl fun j _ => by ring
  simp only [this]
  rw [← mul_sum, D.orth, if_pos rfl, mul_one]

/-- **C146** violated: but different points may be too near: for every bandwidth there are two different points of which a Nystrom kernel of full dimension on the RBF kernel drops an
eigenvalue, and whose kernel matrix it therefore does not reproduce. -/
theorem C146_near_violated {d : Type} [Fintype d] [Nonempty d] (σ : ℝ) (hσ : 0 < σ) :
    ∃ κ : (d → ℝ) → (d → ℝ) → ℝ, (∀ x y, statKernel (.exponential true) .euclidean σ x y = .ok (κ x y)) ∧ ∃ x : Fin 2 → d → ℝ, Function.Injective x ∧
      ∀ D : EigDecomp fun i j => κ (x i) (x j), D.lam 1 < EPS ∧ ¬ ∀ i j, ∑ l : D.Kept 2, D.samplePhi 2 i l * D.samplePhi 2 j l = κ (x i) (x j) := by
  classical
  obtain ⟨a⟩ := (inferInstance : Nonempty d)
  have hpd := rbf_pd (d := d) hσ
  refine ⟨fun x y => profile (.exponential true) (dOf .euclidean σ x y), stat_ok _ _ (by simp) σ, ?_⟩
  obtain ⟨s, hs⟩ : ∃ s, s = σ * Real.sqrt EPS := ⟨_, rfl⟩
  have hE : (0 : ℝ) < EPS := by unfold EPS; norm_num
  have hs0 : 0 < s := by rw [hs]; positivity
  refine ⟨![0, Pi.single a s], ?_, fun D => ?_⟩
  · intro i j hij
    have h1 : (Pi.single a s : d → ℝ) ≠ 0 := fun h => hs0.ne' (by simpa using congrFun h a)
    fin_cases i <;> fin_cases j
    · rfl
    · exact absurd hij.symm h1
    · exact absurd hij h1
    · rfl
  have hx : Function.Injective ![(0 : d → ℝ), Pi.single a s] := by
    intro i j hij
    have h1 : (Pi.single a s : d → ℝ) ≠ 0 := fun h => hs0.ne' (by simpa using congrFun h a)
    fin_cases i <;> fin_cases j
    · rfl
    · exact absurd hij.symm h1
    · exact absurd hij h1
    · rfl
  have hself : ∀ x : d → ℝ, profile (.exponential true) (dOf .euclidean σ x x) = 1 := fun x => by
    have : euclidSq x x = 0 := sum_eq_zero fun k _ => by simp
    simp [profile, dOf, distSigma, this]
  have hk : profile (.exponential true) (dOf .euclidean σ 0 (Pi.single a s : d → ℝ)) = Real.exp (-(EPS / 2)) := by
    have e : euclidSq (0 : d → ℝ) (Pi.single a s) = s * s := by
      unfold euclidSq
      rw [sum_eq_single a (fun k _ hk => by simp [Pi.single_eq_of_ne hk]) (by simp)]
      simp
    simp only [profile, dOf, distSigma]
    rw [Real.sq_sqrt (mul_nonneg (sq_nonneg _) (euclidSq_nn _ _)), e, hs]
    have := Real.mul_self_sqrt hE.le
    congr 1
    field_simp
    nlinarith
  have hk' : profile (.exponential true) (dOf .euclidean σ (Pi.single a s : d → ℝ) 0) = Real.exp (-(EPS / 2)) := by rw [dOf_comm, hk]
  have hlt : D.lam 1 < EPS := by
    have h1 := rayleigh D (D.lam 1) (fun l => D.sorted (by omega)) ![1, -1]
    simp [Fin.sum_univ_two, hself, hk, hk'] at h1
    have h2 := Real.add_one_le_exp (-(EPS / 2))
    linarith
  refine ⟨hlt, fun hall => ?_⟩
  have hpos := C146_eigenvalues hpd _ hx D
  have ht := C34_trace D 2
  have e0 : ∑ i, profile (.exponential true) (dOf .euclidean σ ((![0, Pi.single a s] : Fin 2 → d → ℝ) i) ((![0, Pi.single a s] : Fin 2 → d → ℝ) i)) -
      ∑ i, ∑ l : D.Kept 2, D.samplePhi 2 i l * D.samplePhi 2 i l = 0 := by
    rw [← sum_sub_distrib]
    exact sum_eq_zero fun i _ => by rw [hall i i, sub_self]
  rw [e0, Fin.sum_univ_two, if_neg (show ¬ ((1 : Fin 2).val < 2 ∧ EPS ≤ D.lam 1) from fun h => absurd h.2 (not_le.2 hlt))] at ht
  have h0 : 0 ≤ if (0 : Fin 2).val < 2 ∧ EPS ≤ D.lam 0 then 0 else D.lam 0 := by
    split
    · exact le_rfl
    · exact (hpos 0).le
  have := hpos 1
  linarith
end

/-! ### Concrete cases -/

/-- Three points of the plane. -/
def corner : Fin 3 → Fin 2 → ℝ := ![![0, 0], ![1, 0], ![0, 1]]

theorem corner_inj : Function.Injective corner := by
  intro i j h
  have h0 := congrFun h 0
  have h1 := congrFun h 1
  fin_cases i <;> fin_cases j <;> simp [corner] at h0 h1 <;> rfl

/-- The Laplacian kernel of bandwidth 2. -/
noncomputable def lap (x y : Fin 2 → ℝ) : ℝ := profile (.exponential false) (dOf .euclidean 2 x y)

example := C146_table (d := Fin 3) .silverman .euclidean (by simp) 1 one_pos
example := C146_targets (κ := lap) (laplace_pd two_pos) corner corner_inj ![1, -1, 5]
example := C146_centred (κ := lap) (laplace_pd two_pos) (fun x y => by unfold lap; rw [dOf_comm]) corner corner_inj
example (D : EigDecomp fun i j => lap (corner i) (corner j)) : 0 < D.lam 2 := C146_eigenvalues (κ := lap) (laplace_pd two_pos) corner corner_inj D 2
theorem lap_self (x : Fin 2 → ℝ) : lap x x = 1 := by
  have : euclidSq x x = 0 := sum_eq_zero fun k _ => by simp
  simp [lap, profile, dOf, distSigma, this]
theorem lap_le (x y : Fin 2 → ℝ) : lap x y ≤ 1 := by
  simp only [lap, profile, dOf, distSigma]
  rw [Real.exp_le_one_iff]
  exact mul_nonpos_of_nonneg_of_nonpos (Real.sqrt_nonneg _) (neg_nonpos.2 (Real.sqrt_nonneg _))
/-- Two points with opposite targets. -/
example := C146_fit (κ := lap) (laplace_pd two_pos) (fun x y => by unfold lap; rw [dOf_comm]) ![corner 0, corner 1]
  (fun i j h => by have h0 := congrFun h 0; fin_cases i <;> fin_cases j <;> simp [corner] at h0 <;> rfl) ![1, -1]
  (fun γ => ![1 / (1 - lap (corner 0) (corner 1) + γ), -(1 / (1 - lap (corner 0) (corner 1) + γ))]) (fun _ => 0)
  (fun γ hγ => by
    have hk := lap_le (corner 0) (corner 1)
    have hs : lap (corner 1) (corner 0) = lap (corner 0) (corner 1) := by unfold lap; rw [dOf_comm]
    have h0 : 1 - lap (corner 0) (corner 1) + γ ≠ 0 := by have : (0 : ℝ) < γ := hγ; linarith
    constructor
    · intro i
      fin_cases i <;> simp [Fin.sum_univ_two, lap_self, hs] <;> field_simp <;> ring
    · simp [Fin.sum_univ_two]) 0
example := C146_repeated_violated (κ := lap) (fun _ : Fin 2 => corner 0) 0 1 (by decide) rfl
example := C146_linear_violated (n := Fin 3) (d := Fin 2) (by simp) corner
example := C146_polynomial_violated (n := Fin 7) 2 2 (by norm_num) (by norm_num) 1 zero_le_one (by simp [Nat.choose]) (fun i => ![(i.1 : ℝ), i.1 ^ 2])
example := C146_near_violated (d := Fin 2) 1 one_pos

end Strict
end Kerch
