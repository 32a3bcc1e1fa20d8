import Verif.Props.KernelList
set_option linter.unusedSectionVars false
set_option linter.unusedSimpArgs false
/-!
# C24, C25: symmetry; values of the distance kernels
-/
namespace Kerch
open Finset

section
variable {d : Type} [Fintype d] [Nonempty d]

theorem euclidSq_comm (x y : d → ℝ) : euclidSq x y = euclidSq y x := by
  unfold euclidSq; exact sum_congr rfl fun i _ => by ring
theorem manhattan_comm (x y : d → ℝ) : manhattan x y = manhattan y x := by
  unfold manhattan; exact sum_congr rfl fun i _ => abs_sub_comm _ _
theorem chebyshev_comm (x y : d → ℝ) : chebyshev x y = chebyshev y x := by
  unfold chebyshev; congr 1; funext i; exact abs_sub_comm _ _

/-! ## C24 -/

/-- Every kernel function is symmetric (for the explicit kernels, whatever the feature map). -/
theorem C24_functions (x y : d → ℝ) :
    (∀ s D σ, statKernel s D σ x y = statKernel s D σ y x) ∧
    linearKernel x y = linearKernel y x ∧
    (∀ α β, polyKernel α β x y = polyKernel α β y x) ∧
    (∀ a b, sigmoidKernel a b x y = sigmoidKernel a b y x) ∧
    additiveChi2 x y = additiveChi2 y x ∧
    (∀ p, skewedChi2 p x y = skewedChi2 p y x) ∧
    (∀ lag s t, hatKernel lag s t = hatKernel lag t s) ∧
    (∀ lag γ s t, indicatorKernel lag γ s t = indicatorKernel lag γ t s) ∧
    ∀ {m : Type} [Fintype m] (φ : (d → ℝ) → m → ℝ), φ x ⬝ᵥ φ y = φ y ⬝ᵥ φ x := by
  refine ⟨?_, dotProduct_comm _ _, ?_, ?_, ?_, ?_, ?_, ?_, fun φ => dotProduct_comm _ _⟩
  · intro s D σ
    have h1 : distSigma D σ x y = distSigma D σ y x := by
      cases D <;> simp [distSigma, euclidSq_comm x y, manhattan_comm x y, chebyshev_comm x y]
    have h2 : sqDistSigma D σ x y = sqDistSigma D σ y x := by
      cases D <;> simp [sqDistSigma, euclidSq_comm x y, manhattan_comm x y, chebyshev_comm x y]
    cases s with
    | exponential b => cases b <;> simp only [statKernel, h1, h2]
    | _ => simp only [statKernel, h1]
  · intro α β; simp only [polyKernel, dotProduct_comm x y]
  · intro a b; simp only [sigmoidKernel, dotProduct_comm x y]
  · unfold additiveChi2
    exact sum_congr rfl fun i _ => by rw [mul_comm (x i), add_comm (x i)]
  · intro p
    unfold skewedChi2
    exact prod_congr rfl fun i _ => by rw [mul_comm (Real.sqrt (x i + p)), add_comm (x i) (y i)]
  · intro lag s t; simp only [hatKernel, abs_sub_comm]
  · intro lag γ s t
    have : (s - t = 0) ↔ (t - s = 0) := by rw [sub_eq_zero, sub_eq_zero, eq_comm]
    simp only [indicatorKernel, abs_sub_comm s t, this]

end

section
variable {X n : Type} [Fintype n] [Nonempty n] (κ : X → X → ℝ) (pts : n → X)

/-- Chains of transforms keep the symmetry: `k(x,y)` is the transpose of `k(y,x)`, the arguments being the sample or any batches. -/
theorem C24_chains (hκ : ∀ x y, κ x y = κ y x) (p : List Kind) (hp : ∀ k ∈ p, k = .mean ∨ k = .sphere) (a b : Arg X) :
    ∃ M M', ioos κ pts p a b = .ok M ∧ ioos κ pts p b a = .ok M' ∧ ∀ i j, M i j = M' j i := by
  obtain ⟨V, hV, hs, _⟩ := ioos_values pts κ hκ p hp
  exact ⟨_, _, hV a b, hV b a, fun i j => hs a b i j⟩

/-- In particular the kernel matrix of the sample is symmetric. -/
theorem C24_K (hκ : ∀ x y, κ x y = κ y x) (p : List Kind) (hp : ∀ k ∈ p, k = .mean ∨ k = .sphere) :
    ∃ K, ioos κ pts p .sample .sample = .ok K ∧ ∀ i j, K i j = K j i := by
  obtain ⟨M, M', h1, h2, h⟩ := C24_chains κ pts hκ p hp .sample .sample
  obtain rfl : M = M' := Except.ok.inj (h1.symm.trans h2)
  exact ⟨M, h1, h⟩

end

/-! ## C25 -/

section
variable {d : Type} [Fintype d] [Nonempty d]

theorem euclidSq_nonneg (x y : d → ℝ) : 0 ≤ euclidSq x y := sum_nonneg fun _ _ => mul_self_nonneg _

theorem dist_nonneg' {D : DistKind} {x y : d → ℝ} {δ : ℝ} (h : dist D x y = .ok δ) : 0 ≤ δ := by
  cases D with
  | euclidean => rw [← Except.ok.inj h]; exact Real.sqrt_nonneg _
  | manhattan => rw [← Except.ok.inj h]; exact sum_nonneg fun _ _ => abs_nonneg _
  | chebyshev =>
    rw [← Except.ok.inj h]
    exact (abs_nonneg _).trans (le_sup' (fun i => |x i - y i|) (mem_univ (Classical.arbitrary d)))
  | minkowski p => cases h

theorem distSigma_eq {D : DistKind} {x y : d → ℝ} {δ σ : ℝ} (hσ : 0 < σ) (h : dist D x y = .ok δ) :
    distSigma D σ x y = .ok (δ / σ) ∧ sqDistSigma D σ x y = .ok ((δ / σ) ^ 2) := by
  cases D with
  | euclidean =>
    obtain rfl := Except.ok.inj h
    have h1 : (Real.sqrt (euclidSq x y) / σ) ^ 2 = (1 / σ) ^ 2 * euclidSq x y := by
      rw [div_pow, Real.sq_sqrt (euclidSq_nonneg x y)]; ring
    refine ⟨?_, ?_⟩
    · simp only [distSigma]
      rw [← h1, Real.sqrt_sq (by positivity)]
    · simp only [sqDistSigma]; rw [h1]
  | manhattan =>
    obtain rfl := Except.ok.inj h
    constructor <;> simp only [distSigma, sqDistSigma] <;> congr 1 <;> ring
  | chebyshev =>
    obtain rfl := Except.ok.inj h
    constructor <;> simp only [distSigma, sqDistSigma] <;> congr 1 <;> ring
  | minkowski p => cases h

/-- The value of a kernel depends on the distance over the bandwidth only. -/
theorem statKernel_eq {D : DistKind} {x y : d → ℝ} {δ σ : ℝ} (s : StatKind) (hσ : 0 < σ) (h : dist D x y = .ok δ) :
    statKernel s D σ x y = .ok (profile s (δ / σ)) := by
  obtain ⟨h1, h2⟩ := distSigma_eq hσ h
  cases s with
  | exponential b => cases b <;> simp only [statKernel, h1, h2, Except.map, profile]
  | _ => simp only [statKernel, h1, Except.map]

/-- The compactly supported kernels. -/
def StatKind.compact : StatKind → Bool
  | .epanechnikov | .quartic | .triweight | .tricube | .triangular | .uniform => true
  | _ => false

theorem profile_antitone (s : StatKind) (hs : s ≠ .silverman) {u v : ℝ} (hu : 0 ≤ u) (huv : u ≤ v) : profile s v ≤ profile s u := by
  have compact : ∀ f : ℝ → ℝ, (∀ a, 0 ≤ a → a ≤ 1 → 0 ≤ f a) → (∀ a b, 0 ≤ a → a ≤ b → b ≤ 1 → f b ≤ f a) →
      (if v ≤ 1 then f v else 0) ≤ (if u ≤ 1 then f u else 0) := by
    intro f h0 hf
    split
    · rename_i hv
      rw [if_pos (huv.trans hv)]
      exact hf u v hu huv hv
    · split
      · rename_i hu1; exact h0 u hu hu1
      · exact le_refl _
  have sq_le : ∀ a b : ℝ, 0 ≤ a → a ≤ b → a ^ 2 ≤ b ^ 2 := fun a b ha hab => pow_le_pow_left₀ ha hab 2
  have sq_le1 : ∀ b : ℝ, 0 ≤ b → b ≤ 1 → b ^ 2 ≤ 1 := fun b hb hb1 => pow_le_one₀ hb hb1
  cases s with
  | silverman => exact absurd rfl hs
  | epanechnikov =>
    exact compact (fun a => 1 - a ^ 2) (fun a h0 h1 => by linarith [sq_le1 a h0 h1]) (fun a b h0 hab h1 => by
      have := sq_le a b h0 hab; show 1 - b ^ 2 ≤ 1 - a ^ 2; linarith)
  | quartic =>
    exact compact (fun a => (1 - a ^ 2) ^ 2) (fun a h0 h1 => sq_nonneg _) (fun a b h0 hab h1 => by
      have := sq_le a b h0 hab
      have h2 := sq_le1 b (h0.trans hab) h1
      exact pow_le_pow_left₀ (by linarith) (by linarith) 2)
  | triweight =>
    exact compact (fun a => (1 - a ^ 2) ^ 3) (fun a h0 h1 => pow_nonneg (by linarith [sq_le1 a h0 h1]) 3) (fun a b h0 hab h1 => by
      have := sq_le a b h0 hab
      have h2 := sq_le1 b (h0.trans hab) h1
      exact pow_le_pow_left₀ (by linarith) (by linarith) 3)
  | tricube =>
    exact compact (fun a => (1 - a ^ 3) ^ 3) (fun a h0 h1 => pow_nonneg (by linarith [pow_le_one₀ (n := 3) h0 h1]) 3)
      (fun a b h0 hab h1 => by
        have := pow_le_pow_left₀ h0 hab 3
        have h2 := pow_le_one₀ (n := 3) (h0.trans hab) h1
        exact pow_le_pow_left₀ (by linarith) (by linarith) 3)
  | triangular => exact compact (fun a => 1 - a) (fun a h0 h1 => by linarith) (fun a b h0 hab h1 => by show 1 - b ≤ 1 - a; linarith)
  | uniform => exact compact (fun _ => 1) (fun a h0 h1 => by norm_num) (fun a b h0 hab h1 => le_refl _)
  | logistic =>
    show 4 / (Real.exp v + Real.exp (-v) + 2) ≤ 4 / (Real.exp u + Real.exp (-u) + 2)
    have hcosh : Real.exp u + Real.exp (-u) ≤ Real.exp v + Real.exp (-v) := by
      have h1 : Real.exp u ≤ Real.exp v := Real.exp_le_exp.2 huv
      have h2 : Real.exp u * Real.exp (-u) = 1 := by rw [← Real.exp_add]; simp
      have h3 : Real.exp v * Real.exp (-v) = 1 := by rw [← Real.exp_add]; simp
      have h4 : 1 ≤ Real.exp u := Real.one_le_exp hu
      have h5 : 0 < Real.exp (-u) := Real.exp_pos _
      have h6 : 0 < Real.exp (-v) := Real.exp_pos _
      have h7 : Real.exp (-u) - Real.exp (-v) = (Real.exp v - Real.exp u) * (Real.exp (-u) * Real.exp (-v)) := by
        linear_combination (Real.exp (-v)) * h2 - (Real.exp (-u)) * h3
      have h8 : Real.exp (-u) ≤ 1 := Real.exp_le_one_iff.2 (by linarith)
      have h9 : Real.exp (-v) ≤ 1 := Real.exp_le_one_iff.2 (by linarith)
      have h10 : Real.exp (-u) * Real.exp (-v) ≤ 1 := by nlinarith
      nlinarith
    exact div_le_div_of_nonneg_left (by norm_num) (by positivity) (by linarith)
  | exponential b =>
    cases b
    · show Real.exp (v * -_) ≤ Real.exp (u * -_)
      apply Real.exp_le_exp.2
      nlinarith [Real.sqrt_nonneg (1 / 2 : ℝ)]
    · show Real.exp (v ^ 2 * -_) ≤ Real.exp (u ^ 2 * -_)
      apply Real.exp_le_exp.2
      nlinarith [sq_le u v hu huv]

/-- Values of the compactly supported kernels: in `[0,1]`, zero exactly from `σ` on (beyond `σ` for the uniform one). -/
theorem C25_compact (s : StatKind) (hs : s.compact = true) (D : DistKind) (x y : d → ℝ) (δ σ : ℝ) (hσ : 0 < σ)
    (hδ : dist D x y = .ok δ) :
    ∃ v, statKernel s D σ x y = .ok v ∧ 0 ≤ v ∧ v ≤ 1 ∧ (v = 0 ↔ if s = .uniform then σ < δ else σ ≤ δ) := by
  have h0 := dist_nonneg' hδ
  have hu0 : 0 ≤ δ / σ := div_nonneg h0 hσ.le
  have hsil : s ≠ .silverman := by rintro rfl; cases hs
  refine ⟨_, statKernel_eq s hσ hδ, ?_, ?_, ?_⟩
  · refine le_trans (?_ : 0 ≤ profile s (max (δ / σ) 2)) (profile_antitone s hsil hu0 (le_max_left _ _))
    have : ¬ (max (δ / σ) 2 ≤ 1) := not_le.2 (lt_of_lt_of_le (by norm_num) (le_max_right _ _))
    cases s <;> simp only [StatKind.compact, reduceCtorEq, Bool.false_eq_true] at hs <;> simp only [profile, if_neg this, le_refl]
  · rw [← profile_zero s hsil]
    exact profile_antitone s hsil le_rfl hu0
  · by_cases hu : δ / σ ≤ 1
    · have hle : δ ≤ σ := (div_le_one hσ).1 hu
      have h1 : δ / σ = 1 ↔ δ = σ := div_eq_one_iff_eq hσ.ne'
      have hiff : σ ≤ δ ↔ δ / σ = 1 := by rw [h1]; exact ⟨fun h => le_antisymm hle h, fun h => h.ge⟩
      have hp2 : (1 - (δ / σ) ^ 2 = 0) ↔ δ / σ = 1 := by
        constructor
        · intro h; nlinarith
        · intro h; rw [h]; norm_num
      have hp3 : (1 - (δ / σ) ^ 3 = 0) ↔ δ / σ = 1 := by
        constructor
        · intro h; exact (pow_eq_one_iff_of_nonneg (n := 3) hu0 (by norm_num)).1 (by linarith)
        · intro h; rw [h]; norm_num
      have hp1 : (1 - δ / σ = 0) ↔ δ / σ = 1 := by
        constructor
        · intro h; linarith
        · intro h; linarith
      have hnu : ¬ σ < δ := not_lt.2 hle
      cases s <;> simp only [StatKind.compact, reduceCtorEq, Bool.false_eq_true] at hs <;>
        simp [profile, hu, hiff, hp1, hp2, hp3, hnu, hle]
    · have hlt : σ < δ := by
        by_contra h
        exact hu ((div_le_one hσ).2 (not_lt.1 h))
      cases s <;> simp only [StatKind.compact, reduceCtorEq, Bool.false_eq_true] at hs <;>
        simp [profile, hu, hlt, hlt.le]

/-- Values of the exponential (RBF and Laplacian among them) and logistic kernels: in `]0,1]`. -/
theorem C25_positive (s : StatKind) (hs : s = .logistic ∨ ∃ b, s = .exponential b) (D : DistKind) (x y : d → ℝ) (δ σ : ℝ)
    (hσ : 0 < σ) (hδ : dist D x y = .ok δ) :
    ∃ v, statKernel s D σ x y = .ok v ∧ 0 < v ∧ v ≤ 1 := by
  have hu0 : 0 ≤ δ / σ := div_nonneg (dist_nonneg' hδ) hσ.le
  have hsil : s ≠ .silverman := by
    rcases hs with rfl | ⟨b, rfl⟩
    · decide
    · simp
  refine ⟨_, statKernel_eq s hσ hδ, ?_, ?_⟩
  · rcases hs with rfl | ⟨b, rfl⟩
    · show 0 < 4 / (Real.exp _ + Real.exp _ + 2); positivity
    · cases b <;> exact Real.exp_pos _
  · rw [← profile_zero s hsil]
    exact profile_antitone s hsil le_rfl hu0

/-- All kernels but Silverman's decrease with the distance. -/
theorem C25_decreasing_partial (s : StatKind) (hs : s ≠ .silverman) (D : DistKind) (x y x' y' : d → ℝ) (δ δ' σ : ℝ) (hσ : 0 < σ)
    (hδ : dist D x y = .ok δ) (hδ' : dist D x' y' = .ok δ') (hle : δ ≤ δ') :
    ∃ v v', statKernel s D σ x y = .ok v ∧ statKernel s D σ x' y' = .ok v' ∧ v' ≤ v :=
  ⟨_, _, statKernel_eq s hσ hδ, statKernel_eq s hσ hδ',
    profile_antitone s hs (div_nonneg (dist_nonneg' hδ) hσ.le) ((div_le_div_iff_of_pos_right hσ).2 hle)⟩

/-- All kernels announced as normalized but Silverman's have `k(x,x) = 1`. -/
theorem C25_diagonal_partial (s : StatKind) (hs : s ≠ .silverman) (D : DistKind) (hD : ∀ p, D ≠ .minkowski p) (σ : ℝ) (x : d → ℝ) :
    statKernel s D σ x x = .ok 1 := C22_unit_diagonal_partial s hs D hD σ x

/-- The three distances are defined everywhere. -/
theorem C25_dist_defined (D : DistKind) (hD : ∀ p, D ≠ .minkowski p) (x y : d → ℝ) : ∃ δ, dist D x y = .ok δ := by
  cases D with
  | minkowski p => exact absurd rfl (hD p)
  | _ => exact ⟨_, rfl⟩

/-- Violation: with the Minkowski distance every evaluation of every kernel raises `AttributeError`. -/
theorem C25_minkowski_violated (s : StatKind) (p σ : ℝ) (x y : d → ℝ) :
    statKernel s (.minkowski p) σ x y = .error .attributeError := by
  cases s with
  | exponential b => cases b <;> rfl
  | _ => rfl

/-- Violation: Silverman's kernel is not 1 on the diagonal, takes negative values and does not decrease. -/
theorem C25_silverman_violated :
    profile .silverman 0 ≠ 1 ∧
    ∃ u v, 0 ≤ u ∧ u < v ∧ profile .silverman u < 0 ∧ profile .silverman u < profile .silverman v := by
  have h2 : (0 : ℝ) < Real.sqrt (1 / 2) := Real.sqrt_pos.2 (by norm_num)
  have hpi := Real.pi_pos
  refine ⟨?_, (5 / 4 * Real.pi) / Real.sqrt (1 / 2), (7 / 4 * Real.pi) / Real.sqrt (1 / 2), by positivity, ?_, ?_⟩
  · intro h
    have h4 : (0.25 * Real.pi + Real.sqrt (1 / 2) * 0 : ℝ) = Real.pi / 4 := by ring
    simp only [profile, h4, Real.sin_pi_div_four] at h
    have : Real.sqrt 2 = 2 := by
      have h' : Real.exp (-(Real.sqrt (1 / 2) * 0)) = 1 := by simp
      rw [h'] at h; linarith
    have h3 := Real.mul_self_sqrt (show (0 : ℝ) ≤ 2 by norm_num)
    rw [this] at h3
    norm_num at h3
  · exact (div_lt_div_iff_of_pos_right h2).2 (by linarith)
  · have e1 : Real.sqrt (1 / 2) * ((5 / 4 * Real.pi) / Real.sqrt (1 / 2)) = 5 / 4 * Real.pi := by field_simp
    have e2 : Real.sqrt (1 / 2) * ((7 / 4 * Real.pi) / Real.sqrt (1 / 2)) = 7 / 4 * Real.pi := by field_simp
    have s1 : Real.sin (0.25 * Real.pi + 5 / 4 * Real.pi) = -1 := by
      have : (0.25 * Real.pi + 5 / 4 * Real.pi : ℝ) = Real.pi / 2 + Real.pi := by ring
      rw [this, Real.sin_add_pi, Real.sin_pi_div_two]
    have s2 : Real.sin (0.25 * Real.pi + 7 / 4 * Real.pi) = 0 := by
      have : (0.25 * Real.pi + 7 / 4 * Real.pi : ℝ) = 2 * Real.pi := by ring
      rw [this, Real.sin_two_pi]
    simp only [profile, e1, e2, s1, s2]
    have := Real.exp_pos (-(5 / 4 * Real.pi))
    constructor
    · linarith
    · linarith

end

/-- Two points of the plane at Euclidean distance 5 and bandwidth 10. -/
example : dist .euclidean ![0, 0] ![3, 4] = .ok 5 ∧ (0 : ℝ) < 10 := by
  refine ⟨?_, by norm_num⟩
  simp only [dist, euclidSq, Fin.sum_univ_two]
  congr 1
  norm_num
  rw [show (25 : ℝ) = 5 ^ 2 by norm_num]
  exact Real.sqrt_sq (by norm_num)

end Kerch
