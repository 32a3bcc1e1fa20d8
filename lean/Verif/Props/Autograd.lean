import Verif.Lemmas.Autograd
import Verif.Props.Polynomial
/-!
# C111: a hyper-parameter declared trainable receives the derivative of the loss
-/
set_option linter.unusedSectionVars false
set_option linter.unusedSimpArgs false
namespace Kerch
namespace Autograd
open Filter Topology

variable {ι : Type}

/-- The specification: `g` is what `grad` is after the backward pass, `L` the loss as a function of the parameter, `p` its value. `None` stands for a zero gradient. -/
def Receives (g : Option Num) (L : ℝ → ℝ) (p : ℝ) : Prop := ∃ D, HasDerivAt L D p ∧ (g = some (some D) ∨ (g = none ∧ D = 0))

/-- The kernels with a jump in the kernel or in its slope at the cut-off. -/
def StatKind.Kink : StatKind → Prop
  | .epanechnikov | .triangular | .uniform => True
  | _ => False

/-- The kernels that use the square root of the squared distance. -/
def StatKind.Root : StatKind → Prop
  | .exponential true | .uniform => False
  | _ => True

section
variable {d : Type} [Fintype d] [Nonempty d]

theorem distSigma_cases (D : DistKind) (x y : d → ℝ) :
    (∀ t, distSigma D t x y = .ok ((distEx D x y).val fun _ => t)) ∨ (∀ t, distSigma D t x y = .error .attributeError) := by
  cases D
  · exact .inl fun t => rfl
  · exact .inl fun t => rfl
  · exact .inl fun t => rfl
  · exact .inr fun t => rfl

theorem sqDistSigma_cases (D : DistKind) (x y : d → ℝ) :
    (∀ t, sqDistSigma D t x y = .ok ((sqDistEx D x y).val fun _ => t)) ∨ (∀ t, sqDistSigma D t x y = .error .attributeError) := by
  cases D
  · exact .inl fun t => rfl
  · exact .inl fun t => rfl
  · exact .inl fun t => rfl
  · exact .inr fun t => rfl

theorem kernel_profile (s : StatKind) (hs : s ≠ .exponential true) (D : DistKind) (x y : d → ℝ) (k : ℝ → ℝ) (hk : ∀ t, statKernel s D t x y = .ok (k t)) :
    (∀ t, distSigma D t x y = .ok ((distEx D x y).val fun _ => t)) ∧ ∀ t, k t = profile s ((distEx D x y).val fun _ => t) := by
  have hsk : ∀ t, statKernel s D t x y = (distSigma D t x y).map (profile s) := by
    intro t
    cases s with
    | exponential b => cases b with
      | true => exact absurd rfl hs
      | false => rfl
    | _ => rfl
  rcases distSigma_cases D x y with h | h
  · refine ⟨h, fun t => ?_⟩
    have := hk t
    rw [hsk, h] at this
    exact (Except.ok.inj this).symm
  · have := hk 0
    rw [hsk, h] at this
    cases this

/-- The general step for the kernels without a cut-off. -/
theorem entry_smooth (σ : ℝ) (e : Ex Unit) (he : e.Reg fun _ => σ) (k : ℝ → ℝ) (hk : ∀ᶠ t in 𝓝 σ, k t = e.val fun _ => t) :
    e.fwd (fun _ => σ) = some (k σ) ∧ ∃ D', HasDerivAt k D' σ ∧ ∀ g, tot () (e.back (fun _ => σ) (some g)) = some (g * D') := by
  obtain ⟨hf, D', hD, hg⟩ := Ex.sound (fun _ => σ) () e he
  refine ⟨by rw [hf, hk.self_of_nhds], D', ?_, hg⟩
  simp only [update_unit] at hD
  exact hD.congr_of_eventuallyEq hk

/-- The kernels with a cut-off, away from it. -/
theorem entry_mask (D : DistKind) (σ : ℝ) (hσ : σ ≠ 0) (x y : d → ℝ) (p : ℝ → ℝ) (e : Ex Unit) (he : e.Reg fun _ => σ) (hv : ∀ t, e.val (fun _ => t) = p ((distEx D x y).val fun _ => t))
    (hu : (distEx D x y).val (fun _ => σ) ≠ 1) (k : ℝ → ℝ) (hk : ∀ t, k t = if (distEx D x y).val (fun _ => t) ≤ 1 then p ((distEx D x y).val fun _ => t) else 0) :
    (maskEx σ (distEx D x y) e).fwd (fun _ => σ) = some (k σ) ∧
      ∃ D', HasDerivAt k D' σ ∧ ∀ g, tot () ((maskEx σ (distEx D x y) e).back (fun _ => σ) (some g)) = some (g * D') := by
  refine entry_smooth σ (maskEx σ (distEx D x y) e) ⟨trivial, he⟩ k ?_
  have hm : leOne ((distEx D x y).fwd fun _ => σ) = if (distEx D x y).val (fun _ => σ) ≤ 1 then 1 else 0 := by rw [dist_fwd D x y hσ]; rfl
  have hc := dist_cont D x y hσ
  rcases lt_or_gt_of_ne hu with h | h
  · rw [if_pos h.le] at hm
    filter_upwards [hc.eventually (gt_mem_nhds h)] with t ht
    rw [hk, if_pos (le_of_lt ht)]
    show _ = leOne _ * e.val _
    rw [hm, one_mul, hv]
  · rw [if_neg (not_le.2 h)] at hm
    filter_upwards [hc.eventually (lt_mem_nhds h)] with t ht
    rw [hk, if_neg (not_le.2 ht)]
    show _ = leOne _ * e.val _
    rw [hm, zero_mul]

/-- The kernels with a cut-off where they vanish to the second order, at the cut-off. -/
theorem entry_cut (D : DistKind) (σ : ℝ) (hσ : σ ≠ 0) (x y : d → ℝ) (hroot : D = .euclidean → euclidSq x y ≠ 0) (q : ℝ → ℝ) (r : ℕ) (hr : 2 ≤ r) (e : Ex Unit) (he : e.Reg fun _ => σ)
    (hv : ∀ t, e.val (fun _ => t) = (q ((distEx D x y).val fun _ => t)) ^ r) (hq : Differentiable ℝ q) (hq1 : q 1 = 0)
    (hu : (distEx D x y).val (fun _ => σ) = 1) (k : ℝ → ℝ) (hk : ∀ t, k t = if (distEx D x y).val (fun _ => t) ≤ 1 then (q ((distEx D x y).val fun _ => t)) ^ r else 0) :
    (maskEx σ (distEx D x y) e).fwd (fun _ => σ) = some (k σ) ∧
      ∃ D', HasDerivAt k D' σ ∧ ∀ g, tot () ((maskEx σ (distEx D x y) e).back (fun _ => σ) (some g)) = some (g * D') := by
  have hm : leOne ((distEx D x y).fwd fun _ => σ) = 1 := by
    rw [dist_fwd D x y hσ, hu]; exact if_pos le_rfl
  obtain ⟨hf, D', hD, hg⟩ := Ex.sound (fun _ => σ) () (maskEx σ (distEx D x y) e) ⟨trivial, he⟩
  simp only [update_unit] at hD
  have hval : ∀ t, (maskEx σ (distEx D x y) e).val (fun _ => t) = (q ((distEx D x y).val fun _ => t)) ^ r := by
    intro t
    show leOne _ * e.val _ = _
    rw [hm, one_mul, hv]
  simp only [hval] at hD
  obtain ⟨_, Du, hDu, _⟩ := Ex.sound (fun _ => σ) () (distEx D x y) (dist_reg D x y hσ hroot)
  simp only [update_unit] at hDu
  have hz : HasDerivAt (fun t => (q ((distEx D x y).val fun _ => t)) ^ r) 0 σ := by
    have h1 : HasDerivAt q (deriv q 1) ((distEx D x y).val fun _ => σ) := by rw [hu]; exact (hq 1).hasDerivAt
    have h2 := (h1.comp σ hDu).pow r
    have h3 : ((q ∘ fun t => (distEx D x y).val fun _ => t) σ) = 0 := by
      show q ((distEx D x y).val fun _ => σ) = 0
      rw [hu, hq1]
    rw [h3, zero_pow (by omega), mul_zero, zero_mul] at h2
    exact h2
  have hD0 : D' = 0 := hD.unique hz
  subst hD0
  refine ⟨?_, 0, ?_, hg⟩
  · rw [hf, hval, hk, if_pos hu.le]
  · refine hasDerivAt_zero_of_le hz ?_ fun t => ?_
    · rw [hu, hq1, zero_pow (by omega)]
    · rw [hk]
      split
      · exact le_rfl
      · rw [abs_zero]; exact abs_nonneg _

theorem entry_stat (s : StatKind) (D : DistKind) (σ : ℝ) (hσ : σ ≠ 0) (x y : d → ℝ) (hcut : StatKind.Kink s → distSigma D σ x y ≠ .ok 1)
    (hroot : StatKind.Root s → D = .euclidean → x ≠ y) (k : ℝ → ℝ) (hk : ∀ t, statKernel s D t x y = .ok (k t)) :
    (statEx s D σ x y).fwd (fun _ => σ) = some (k σ) ∧
      ∃ D', HasDerivAt k D' σ ∧ ∀ g, tot () ((statEx s D σ x y).back (fun _ => σ) (some g)) = some (g * D') := by
  by_cases hs : s = .exponential true
  · subst hs
    refine entry_smooth σ (statEx (.exponential true) D σ x y) ⟨⟨sqDist_reg D x y hσ, trivial⟩, trivial⟩ k (Eventually.of_forall fun t => ?_)
    have := hk t
    rcases sqDistSigma_cases D x y with h | h
    · simp only [statKernel, h] at this
      exact (Except.ok.inj this).symm
    · simp only [statKernel, h] at this
      cases this
  obtain ⟨hd, hp⟩ := kernel_profile s hs D x y k hk
  have hcut' : StatKind.Kink s → (distEx D x y).val (fun _ => σ) ≠ 1 := fun h h' => hcut h (by rw [hd, h'])
  have hroot' : StatKind.Root s → D = .euclidean → euclidSq x y ≠ 0 := by
    intro h1 h2 h3
    refine hroot h1 h2 (funext fun i => ?_)
    have := (Finset.sum_eq_zero_iff_of_nonneg fun i _ => mul_self_nonneg (x i - y i)).1 h3 i (Finset.mem_univ i)
    exact sub_eq_zero.1 (mul_self_eq_zero.1 this)
  have hval2 : ∀ t : ℝ, ∀ n : ℕ, (oneSub (.un (.powN n) (distEx D x y))).val (fun _ => t) = 1 - ((distEx D x y).val fun _ => t) ^ n := by
    intro t n
    show 1 + -1 * ((distEx D x y).val fun _ => t) ^ n = _
    ring
  cases s with
  | uniform =>
    have := entry_mask D σ hσ x y (fun _ => 1) (.const 1) trivial (fun t => rfl) (hcut' trivial) k hp
    have e : ((statEx .uniform D σ x y).fwd fun _ => σ) = (maskEx σ (distEx D x y) (.const 1)).fwd fun _ => σ := by
      show some _ = Num.mul (some _) (some 1)
      rw [num_mul, mul_one]
    refine ⟨by rw [e]; exact this.1, ?_⟩
    exact this.2
  | epanechnikov =>
    refine entry_mask D σ hσ x y (fun u => 1 - u ^ 2) _ ?_ (fun t => hval2 t 2) (hcut' trivial) k hp
    exact ⟨trivial, trivial, dist_reg D x y hσ (hroot' trivial), trivial⟩
  | triangular =>
    refine entry_mask D σ hσ x y (fun u => 1 - u) _ ?_ (fun t => ?_) (hcut' trivial) k hp
    · exact ⟨trivial, trivial, dist_reg D x y hσ (hroot' trivial)⟩
    · show 1 + -1 * ((distEx D x y).val fun _ => t) = _
      ring
  | quartic =>
    have he : (Ex.un (.powN 2) (oneSub (.un (.powN 2) (distEx D x y)))).Reg fun _ => σ := ⟨⟨trivial, trivial, dist_reg D x y hσ (hroot' trivial), trivial⟩, trivial⟩
    have hv : ∀ t : ℝ, (Ex.un (.powN 2) (oneSub (.un (.powN 2) (distEx D x y)))).val (fun _ => t) = (1 - ((distEx D x y).val fun _ => t) ^ 2) ^ 2 := fun t => by
      rw [← hval2]; rfl
    by_cases hu : (distEx D x y).val (fun _ => σ) = 1
    · exact entry_cut D σ hσ x y (hroot' trivial) (fun u => 1 - u ^ 2) 2 le_rfl _ he hv (by fun_prop) (by norm_num) hu k hp
    · exact entry_mask D σ hσ x y (fun u => (1 - u ^ 2) ^ 2) _ he hv hu k hp
  | triweight =>
    have he : (Ex.un (.powN 3) (oneSub (.un (.powN 2) (distEx D x y)))).Reg fun _ => σ := ⟨⟨trivial, trivial, dist_reg D x y hσ (hroot' trivial), trivial⟩, trivial⟩
    have hv : ∀ t : ℝ, (Ex.un (.powN 3) (oneSub (.un (.powN 2) (distEx D x y)))).val (fun _ => t) = (1 - ((distEx D x y).val fun _ => t) ^ 2) ^ 3 := fun t => by
      rw [← hval2]; rfl
    by_cases hu : (distEx D x y).val (fun _ => σ) = 1
    · exact entry_cut D σ hσ x y (hroot' trivial) (fun u => 1 - u ^ 2) 3 (by omega) _ he hv (by fun_prop) (by norm_num) hu k hp
    · exact entry_mask D σ hσ x y (fun u => (1 - u ^ 2) ^ 3) _ he hv hu k hp
  | tricube =>
    have he : (Ex.un (.powN 3) (oneSub (.un (.powN 3) (distEx D x y)))).Reg fun _ => σ := ⟨⟨trivial, trivial, dist_reg D x y hσ (hroot' trivial), trivial⟩, trivial⟩
    have hv : ∀ t : ℝ, (Ex.un (.powN 3) (oneSub (.un (.powN 3) (distEx D x y)))).val (fun _ => t) = (1 - ((distEx D x y).val fun _ => t) ^ 3) ^ 3 := fun t => by
      rw [← hval2]; rfl
    by_cases hu : (distEx D x y).val (fun _ => σ) = 1
    · exact entry_cut D σ hσ x y (hroot' trivial) (fun u => 1 - u ^ 3) 3 (by omega) _ he hv (by fun_prop) (by norm_num) hu k hp
    · exact entry_mask D σ hσ x y (fun u => (1 - u ^ 3) ^ 3) _ he hv hu k hp
  | silverman =>
    have hu := dist_reg D x y hσ (hroot' trivial)
    refine entry_smooth σ (statEx .silverman D σ x y) ⟨⟨⟨trivial, trivial, hu⟩, trivial⟩, ⟨trivial, trivial, hu⟩, trivial⟩ k (Eventually.of_forall fun t => ?_)
    rw [hp]
    show _ = Real.exp (-1 * (Real.sqrt (1 / 2) * _)) * Real.sin (0.25 * Real.pi + Real.sqrt (1 / 2) * _)
    rw [neg_one_mul]; rfl
  | logistic =>
    have hu := dist_reg D x y hσ (hroot' trivial)
    refine entry_smooth σ (statEx .logistic D σ x y) ⟨trivial, ⟨⟨⟨hu, trivial⟩, ⟨trivial, hu⟩, trivial⟩, trivial⟩, ?_⟩ k (Eventually.of_forall fun t => ?_)
    · show Real.exp _ + Real.exp _ + 2 ≠ 0
      positivity
    · rw [hp]
      show _ = 4 * (1 / (Real.exp _ + Real.exp (-1 * _) + 2))
      rw [neg_one_mul, mul_one_div]; rfl
  | exponential b =>
    cases b with
    | true => exact absurd rfl hs
    | false =>
      have hu := dist_reg D x y hσ (hroot' trivial)
      refine entry_smooth σ (statEx (.exponential false) D σ x y) ⟨⟨hu, trivial⟩, trivial⟩ k (Eventually.of_forall fun t => ?_)
      rw [hp]; rfl

/-- The kernel matrix of a statistics kernel is computed as stated elsewhere, and the bandwidth receives the derivative of the loss with respect to it, whatever the loss. Not covered:
points at the distance where the kernel has a jump or a kink, and for the Euclidean distance coinciding points (see `C111_root_violated`). -/
theorem C111_distance_partial (s : StatKind) (D : DistKind) (σ : ℝ) (hσ : σ ≠ 0) {n m : ℕ} (X : Fin n → d → ℝ) (Y : Fin m → d → ℝ)
    (hcut : StatKind.Kink s → ∀ i j, distSigma D σ (X i) (Y j) ≠ .ok 1) (hroot : StatKind.Root s → D = .euclidean → ∀ i j, X i ≠ Y j)
    (k : ℝ → Fin n → Fin m → ℝ) (hk : ∀ τ i j, statKernel s D τ (X i) (Y j) = .ok (k τ i j)) (G : Fin n → Fin m → ℝ) :
    (∀ i j, (statEx s D σ (X i) (Y j)).fwd (fun _ => σ) = some (k σ i j)) ∧
      Receives (gradOf () (backward (fun _ => σ) (entries G fun i j => statEx s D σ (X i) (Y j)))) (fun τ => ∑ i, ∑ j, G i j * k τ i j) σ := by
  have h := fun i j => entry_stat s D σ hσ (X i) (Y j) (fun h => hcut h i j) (fun h h' => hroot h h' i j) (fun t => k t i j) fun t => hk t i j
  exact ⟨fun i j => (h i j).1, matrix_sound (fun _ => σ) () G _ k fun i j => (h i j).2⟩

/-- In particular the radial basis functions kernel, on any two samples. -/
theorem C111_rbf (σ : ℝ) (hσ : σ ≠ 0) {n m : ℕ} (X : Fin n → d → ℝ) (Y : Fin m → d → ℝ) (G : Fin n → Fin m → ℝ) :
    Receives (gradOf () (backward (fun _ => σ) (entries G fun i j => statEx (.exponential true) .euclidean σ (X i) (Y j))))
      (fun τ => ∑ i, ∑ j, G i j * Real.exp (-(∑ c, (X i c - Y j c) ^ 2) / (2 * τ ^ 2))) σ := by
  refine (C111_distance_partial (.exponential true) .euclidean σ hσ X Y (fun h => absurd h (by simp [StatKind.Kink])) (fun h => absurd h (by simp [StatKind.Root]))
    (fun τ i j => Real.exp (-(∑ c, (X i c - Y j c) ^ 2) / (2 * τ ^ 2))) ?_ G).2
  intro τ i j
  simp only [statKernel, sqDistSigma, Except.map, euclidSq]
  congr 2
  simp only [← sq]
  ring

/-- A kernel that goes through the square root of the squared Euclidean distance, on a sample: whatever the loss (even one that does not depend on the diagonal) and the bandwidth, the
gradient of the bandwidth is not finite, because the square root has no derivative on the diagonal. The loss has a derivative, if the points are distinct and none of them at the cut-off. -/
theorem C111_root_violated (s : StatKind) (hs : StatKind.Root s) (σ : ℝ) (hσ : σ ≠ 0) {n : ℕ} (X : Fin (n + 1) → d → ℝ) (G : Fin (n + 1) → Fin (n + 1) → ℝ) :
    gradOf () (backward (fun _ => σ) (entries G fun i j => statEx s .euclidean σ (X i) (X j))) = some none ∧
      ∀ k : ℝ → Fin (n + 1) → Fin (n + 1) → ℝ, (∀ τ i j, statKernel s .euclidean τ (X i) (X j) = .ok (k τ i j)) → Function.Injective X →
        (∀ i j, distSigma .euclidean σ (X i) (X j) ≠ .ok 1) → ∃ D, HasDerivAt (fun τ => ∑ i, ∑ j, G i j * k τ i j) D σ := by
  constructor
  · have hp : Poison (fun _ => σ) () (distEx .euclidean (X 0) (X 0)) := dist_poison (X 0) (X 0) (by simp [euclidSq]) hσ
    refine matrix_none _ _ G _ 0 0 ?_
    show Poison _ _ _
    cases s with
    | epanechnikov => exact (((hp.un _).mul_right _).add_right _).mul_right _
    | quartic => exact ((((hp.un _).mul_right _).add_right _).un _).mul_right _
    | triweight => exact ((((hp.un _).mul_right _).add_right _).un _).mul_right _
    | tricube => exact ((((hp.un _).mul_right _).add_right _).un _).mul_right _
    | triangular => exact ((hp.mul_right _).add_right _).mul_right _
    | uniform => exact absurd hs (by simp [StatKind.Root])
    | silverman => exact (((hp.mul_right _).mul_right _).un _).mul_left _
    | logistic => exact ((((hp.un _).add_left _).add_left _).un _).mul_right _
    | exponential b =>
      cases b with
      | true => exact absurd hs (by simp [StatKind.Root])
      | false => exact (hp.mul_left _).un _
  · intro k hk hX hcut
    have h : ∀ i j, ∃ D, HasDerivAt (fun t => k t i j) D σ := by
      intro i j
      by_cases hij : i = j
      · subst hij
        refine ⟨0, ?_⟩
        have hc : (fun t => k t i i) = fun _ => profile s 0 := by
          funext t
          have hne : s ≠ .exponential true := by rintro rfl; exact hs
          rw [(kernel_profile s hne .euclidean (X i) (X i) (fun t => k t i i) fun t => hk t i i).2 t]
          congr 1
          show Real.sqrt ((1 / t) ^ 2 * euclidSq (X i) (X i)) = 0
          simp [euclidSq]
        rw [hc]
        exact hasDerivAt_const _ _
      · obtain ⟨_, D', hD, _⟩ := entry_stat s .euclidean σ hσ (X i) (X j) (fun _ => hcut i j) (fun _ _ h => hij (hX h)) (fun t => k t i j) fun t => hk t i j
        exact ⟨D', hD⟩
    choose D hD using h
    exact ⟨∑ a, ∑ b, G a b * D a b, HasDerivAt.fun_sum fun a _ => HasDerivAt.fun_sum fun b _ => (hD a b).const_mul _⟩

end

/-- Two points at distance 3, Laplacian kernel of bandwidth 2: the hypotheses of `C111_distance_partial` between two different points, and those of the second half of `C111_root_violated`. -/
example : (∀ i j, (![![0]] : Fin 1 → Fin 1 → ℝ) i ≠ (![![3]] : Fin 1 → Fin 1 → ℝ) j) ∧ Function.Injective (![![0], ![3]] : Fin 2 → Fin 1 → ℝ) ∧ StatKind.Root (.exponential false) := by
  refine ⟨?_, ?_, trivial⟩
  · intro i j h
    have := congrFun h 0
    simp at this
  · intro i j h
    have := congrFun h 0
    fin_cases i <;> fin_cases j <;> simp_all

/-! ### The other kernels -/

open Function in
theorem receives_reg [DecidableEq ι] (θ : ι → ℝ) (i : ι) {n m : ℕ} (G : Fin n → Fin m → ℝ) (E : Fin n → Fin m → Ex ι) (F : ℝ → Fin n → Fin m → ℝ) (h : ∀ a b, (E a b).Reg θ)
    (hF : ∀ t a b, F t a b = (E a b).val (update θ i t)) : Receives (gradOf i (backward θ (entries G E))) (fun t => ∑ a, ∑ b, G a b * F t a b) (θ i) := by
  refine matrix_sound θ i G E F fun a b => ?_
  obtain ⟨_, D, hD, hg⟩ := (E a b).sound θ i (h a b)
  exact ⟨D, by simpa only [hF] using hD, hg⟩

/-- The slope and the offset of a sigmoid kernel receive the derivatives of the loss, whatever the samples and the loss. -/
theorem C111_sigmoid {d : Type} [Fintype d] (θ : SigP → ℝ) {n m : ℕ} (X : Fin n → d → ℝ) (Y : Fin m → d → ℝ) (G : Fin n → Fin m → ℝ) :
    (∀ i j, (sigmoidEx (X i ⬝ᵥ Y j)).fwd θ = some (sigmoidKernel (θ .a) (θ .b) (X i) (Y j))) ∧
    Receives (gradOf .a (backward θ (entries G fun i j => sigmoidEx (X i ⬝ᵥ Y j)))) (fun t => ∑ i, ∑ j, G i j * sigmoidKernel t (θ .b) (X i) (Y j)) (θ .a) ∧
    Receives (gradOf .b (backward θ (entries G fun i j => sigmoidEx (X i ⬝ᵥ Y j)))) (fun t => ∑ i, ∑ j, G i j * sigmoidKernel (θ .a) t (X i) (Y j)) (θ .b) := by
  have hr : ∀ i j, (sigmoidEx (X i ⬝ᵥ Y j)).Reg θ := fun i j => ⟨⟨⟨trivial, trivial⟩, trivial⟩, trivial⟩
  refine ⟨fun i j => ((sigmoidEx (X i ⬝ᵥ Y j)).sound θ .a (hr i j)).1, ?_, ?_⟩
  · exact receives_reg θ .a G _ _ hr fun t i j => by simp [sigmoidEx, Ex.val, sigmoidKernel, Un.tval]
  · exact receives_reg θ .b G _ _ hr fun t i j => by simp [sigmoidEx, Ex.val, sigmoidKernel, Un.tval]

/-- The implicit route of a polynomial kernel (`explicit=False`, or a degree that is not natural) with positive bases: the degree and the offset receive the derivatives of the loss. -/
theorem C111_polynomial_partial {d : Type} [Fintype d] (θ : PolyP → ℝ) {n m : ℕ} (X : Fin n → d → ℝ) (Y : Fin m → d → ℝ) (G : Fin n → Fin m → ℝ) (hpos : ∀ i j, 0 < X i ⬝ᵥ Y j + θ .beta) :
    (∀ i j, (polyEx true (θ .alpha) (X i ⬝ᵥ Y j)).fwd θ = some ((X i ⬝ᵥ Y j + θ .beta) ^ θ .alpha)) ∧
    Receives (gradOf .alpha (backward θ (entries G fun i j => polyEx true (θ .alpha) (X i ⬝ᵥ Y j)))) (fun t => ∑ i, ∑ j, G i j * (X i ⬝ᵥ Y j + θ .beta) ^ t) (θ .alpha) ∧
    Receives (gradOf .beta (backward θ (entries G fun i j => polyEx true (θ .alpha) (X i ⬝ᵥ Y j)))) (fun t => ∑ i, ∑ j, G i j * (X i ⬝ᵥ Y j + t) ^ θ .alpha) (θ .beta) := by
  have hr : ∀ i j, (polyEx true (θ .alpha) (X i ⬝ᵥ Y j)).Reg θ := fun i j => ⟨⟨trivial, trivial⟩, trivial, .inl (hpos i j)⟩
  refine ⟨fun i j => ((polyEx true (θ .alpha) (X i ⬝ᵥ Y j)).sound θ .alpha (hr i j)).1, ?_, ?_⟩
  · exact receives_reg θ .alpha G _ _ hr fun t i j => by simp [polyEx, Ex.val]
  · exact receives_reg θ .beta G _ _ hr fun t i j => by simp [polyEx, Ex.val]

/-- The implicit route with a natural degree that is not trainable: the offset receives the derivative whatever the sign of the bases. -/
theorem C111_polynomial_natural {d : Type} [Fintype d] (α : ℕ) (θ : PolyP → ℝ) {n m : ℕ} (X : Fin n → d → ℝ) (Y : Fin m → d → ℝ) (G : Fin n → Fin m → ℝ) :
    (∀ i j, (polyEx false ((α + 1 : ℕ) : ℝ) (X i ⬝ᵥ Y j)).fwd θ = some (polyKernel (α + 1) (θ .beta) (X i) (Y j))) ∧
    Receives (gradOf .beta (backward θ (entries G fun i j => polyEx false ((α + 1 : ℕ) : ℝ) (X i ⬝ᵥ Y j)))) (fun t => ∑ i, ∑ j, G i j * polyKernel (α + 1) t (X i) (Y j)) (θ .beta) := by
  have hr : ∀ i j, (polyEx false ((α + 1 : ℕ) : ℝ) (X i ⬝ᵥ Y j)).Reg θ := fun i j => ⟨⟨trivial, trivial⟩, trivial, .inr ⟨α, rfl⟩⟩
  have hv : ∀ i j (θ' : PolyP → ℝ), (polyEx false ((α + 1 : ℕ) : ℝ) (X i ⬝ᵥ Y j)).val θ' = polyKernel (α + 1) (θ' .beta) (X i) (Y j) := by
    intro i j θ'
    show (X i ⬝ᵥ Y j + θ' .beta) ^ (((α + 1 : ℕ) : ℝ)) = _
    rw [Real.rpow_natCast, polyKernel]
  refine ⟨fun i j => ?_, receives_reg θ .beta G _ _ hr fun t i j => ?_⟩
  · rw [((polyEx false ((α + 1 : ℕ) : ℝ) (X i ⬝ᵥ Y j)).sound θ .beta (hr i j)).1, hv]
  · rw [hv, Function.update_self]

/-- By default the kernel matrix of a polynomial kernel with a natural degree goes through the feature map, which reads the hyper-parameters through `numpy`: none of the two receives a
gradient, whatever the loss. The derivative with respect to the offset exists, and is not zero for instance for the kernel of a single pair of points with `⟨x, y⟩ + β ≠ 0`. -/
theorem C111_polynomial_violated {d : ℕ} (hd : 1 ≤ d) (α : ℕ) (θ : PolyP → ℝ) (hβ : 0 ≤ θ .beta) :
    (∀ (p : PolyP) {n m : ℕ} (X : Fin n → Fin d → ℝ) (Y : Fin m → Fin d → ℝ) (G : Fin n → Fin m → ℝ),
      gradOf p (backward θ (entries G fun i j => polyExplicitEx (α + 1) (θ .beta) (X i) (Y j))) = none) ∧
    ∀ x y : Fin d → ℝ, (polyExplicitEx (α + 1) (θ .beta) x y).fwd θ = some (polyKernel (α + 1) (θ .beta) x y) ∧
      HasDerivAt (fun t => polyKernel (α + 1) t x y) ((α + 1) * (x ⬝ᵥ y + θ .beta) ^ α) (θ .beta) ∧
      (x ⬝ᵥ y + θ .beta ≠ 0 → (α + 1) * (x ⬝ᵥ y + θ .beta) ^ α ≠ 0) := by
  have hl : ∀ (x y : Fin d → ℝ), List.zipWith Ex.mul (polyPhiEx (α + 1) (θ .beta) x) (polyPhiEx (α + 1) (θ .beta) y) =
      (multichoose (d + 1) (α + 1)).map fun perm => Ex.mul (.const (permOut (α + 1) (θ .beta) x perm)) (.const (permOut (α + 1) (θ .beta) y perm)) := by
    intro x y
    rw [polyPhiEx, polyPhiEx, List.zipWith_map, List.zipWith_self]
  refine ⟨fun p n m X Y G => matrix_free θ p G _ fun i j => ?_, fun x y => ⟨?_, ?_, ?_⟩⟩
  · refine Ex.sum_free fun e he => ?_
    rw [hl, List.mem_map] at he
    obtain ⟨perm, _, rfl⟩ := he
    exact ⟨trivial, trivial⟩
  · obtain ⟨φx, φy, hx, hy, _, _, hs⟩ := C27_features_partial d (α + 1) (by omega) hd (θ .beta) hβ x y
    have hreg : (polyExplicitEx (α + 1) (θ .beta) x y).Reg θ := by
      refine Ex.sum_reg fun e he => ?_
      rw [hl, List.mem_map] at he
      obtain ⟨perm, _, rfl⟩ := he
      exact ⟨trivial, trivial⟩
    rw [((polyExplicitEx (α + 1) (θ .beta) x y).sound θ PolyP.beta hreg).1, polyExplicitEx, Ex.sum_val, hl, List.map_map]
    rw [polyPhi] at hx hy
    split at hx
    · cases hx
    · split at hx
      · cases hx
      · rw [if_neg (by assumption), if_neg (by assumption)] at hy
        obtain rfl := Except.ok.inj hx
        obtain rfl := Except.ok.inj hy
        rw [List.zipWith_map, List.zipWith_self] at hs
        exact congrArg some hs
  · have h1 : HasDerivAt (fun t : ℝ => x ⬝ᵥ y + t) 1 (θ .beta) := (hasDerivAt_id _).const_add _
    have h2 := h1.pow (α + 1)
    simp only [Nat.add_sub_cancel, mul_one, Nat.cast_add, Nat.cast_one] at h2
    exact h2
  · intro h
    have : (0 : ℝ) < α + 1 := by positivity
    exact mul_ne_zero this.ne' (pow_ne_zero _ h)

/-- A trainable degree (implicit route) with a negative base: the kernel is finite for an integer degree, its offset has a derivative, and the gradient of the degree is not a number, whatever
the loss: an optimisation step destroys the degree. -/
theorem C111_degree_violated {d : Type} [Fintype d] (θ : PolyP → ℝ) {n m : ℕ} (X : Fin n → d → ℝ) (Y : Fin m → d → ℝ) (G : Fin n → Fin m → ℝ) (i : Fin n) (j : Fin m)
    (hneg : X i ⬝ᵥ Y j + θ .beta < 0) (z : ℕ) (hz : θ .alpha = z) :
    (polyEx true (θ .alpha) (X i ⬝ᵥ Y j)).fwd θ = some (polyKernel z (θ .beta) (X i) (Y j)) ∧
      gradOf .alpha (backward θ (entries G fun i j => polyEx true (θ .alpha) (X i ⬝ᵥ Y j))) = some none := by
  constructor
  · show powVal (X i ⬝ᵥ Y j + θ .beta) (θ .alpha) = _
    rw [hz, powVal_nat]; rfl
  · refine matrix_none θ .alpha G _ i j fun g => ?_
    show tot PolyP.alpha (([] ++ [(PolyP.beta, _)]) ++ [(PolyP.alpha, powExp (X i ⬝ᵥ Y j + θ .beta) (θ .alpha) g)]) = none
    have hpe : powExp (X i ⬝ᵥ Y j + θ .beta) (θ .alpha) g = none := by
      rw [powExp, if_neg (fun h => hneg.ne h.1), if_pos hneg.le, num_mul_none, num_mul_none]
    rw [tot_append, hpe, tot_single, num_add_none]

/-- **C111** Where the base is zero (orthogonal samples without offset, say), the degree still receives the derivative of the loss, as long as it is positive. -/
theorem C111_degree_zero {d : Type} [Fintype d] (θ : PolyP → ℝ) {n m : ℕ} (X : Fin n → d → ℝ) (Y : Fin m → d → ℝ) (G : Fin n → Fin m → ℝ)
    (hpos : ∀ i j, 0 ≤ X i ⬝ᵥ Y j + θ .beta) (ha : 0 < θ .alpha) :
    Receives (gradOf .alpha (backward θ (entries G fun i j => polyEx true (θ .alpha) (X i ⬝ᵥ Y j)))) (fun t => ∑ i, ∑ j, G i j * (X i ⬝ᵥ Y j + θ .beta) ^ t) (θ .alpha) := by
  refine matrix_sound θ .alpha G _ (fun t i j => (X i ⬝ᵥ Y j + θ .beta) ^ t) fun i j => ?_
  rcases (hpos i j).eq_or_lt with h0 | h0
  · refine ⟨0, ?_, fun g => ?_⟩
    · rw [← h0]
      refine (hasDerivAt_const (θ .alpha) (0 : ℝ)).congr_of_eventuallyEq ?_
      filter_upwards [lt_mem_nhds ha] with t ht
      exact Real.zero_rpow ht.ne'
    · show tot PolyP.alpha (([] ++ [(PolyP.beta, _)]) ++ [(PolyP.alpha, powExp (X i ⬝ᵥ Y j + θ .beta) (θ .alpha) (some g))]) = _
      rw [tot_append, powExp, if_pos (show X i ⬝ᵥ Y j + θ .beta = 0 ∧ 0 ≤ θ .alpha from ⟨h0.symm, ha.le⟩), tot_single, List.nil_append, tot_other (by decide), num_add, mul_zero, add_zero]
  · obtain ⟨_, D, hD, hg⟩ := (polyEx true (θ .alpha) (X i ⬝ᵥ Y j)).sound θ .alpha ⟨⟨trivial, trivial⟩, trivial, .inl h0⟩
    exact ⟨D, by simpa [polyEx, Ex.val] using hD, hg⟩

/-- **C111** and a degree of zero stays where it is: with every base zero, its gradient is zero and not undefined. -/
theorem C111_degree_constant {d : Type} [Fintype d] (θ : PolyP → ℝ) {n m : ℕ} (X : Fin (n + 1) → d → ℝ) (Y : Fin (m + 1) → d → ℝ) (G : Fin (n + 1) → Fin (m + 1) → ℝ)
    (hz : ∀ i j, X i ⬝ᵥ Y j + θ .beta = 0) (ha : θ .alpha = 0) :
    gradOf .alpha (backward θ (entries G fun i j => polyEx true (θ .alpha) (X i ⬝ᵥ Y j))) = some (some 0) := by
  have h := matrix_sound θ .alpha G (fun i j => polyEx true (θ .alpha) (X i ⬝ᵥ Y j)) (fun _ _ _ => 0) fun i j => ⟨0, hasDerivAt_const _ _, fun g => by
    show tot PolyP.alpha (([] ++ [(PolyP.beta, _)]) ++ [(PolyP.alpha, powExp (X i ⬝ᵥ Y j + θ .beta) (θ .alpha) (some g))]) = _
    rw [tot_append, powExp, if_pos (show X i ⬝ᵥ Y j + θ .beta = 0 ∧ 0 ≤ θ .alpha from ⟨hz i j, ha.ge⟩), tot_single, List.nil_append, tot_other (by decide), num_add, mul_zero, add_zero]⟩
  obtain ⟨D, hD, h⟩ := h
  have hD0 : D = 0 := by
    refine hD.unique ?_
    simp only [mul_zero, Finset.sum_const_zero]
    exact hasDerivAt_const _ _
  subst hD0
  rcases h with h | ⟨h, _⟩
  · exact h
  · exfalso
    classical
    rw [gradOf] at h
    split at h
    · rename_i hf
      rw [List.filter_eq_nil_iff] at hf
      rw [backward_entries] at hf
      have := hf (PolyP.alpha, powExp (X 0 ⬝ᵥ Y 0 + θ .beta) (θ .alpha) (some (G 0 0))) (by
        simp only [List.mem_flatMap]
        exact ⟨0, List.mem_finRange _, 0, List.mem_finRange _, List.mem_append_right _ List.mem_cons_self⟩)
      simp at this
    · cases h

/-- **C111** A bandwidth of zero: the uniform kernel is then zero everywhere, on its diagonal as well, where it is 1 for all other bandwidths. -/
theorem C111_uniform_zero {d : Type} [Fintype d] [Nonempty d] (D : DistKind) (hD : ∀ p, D ≠ .minkowski p) (x y : d → ℝ) :
    (statEx .uniform D 0 x y).fwd (fun _ => 0) = some 0 := by
  have hs : sigmaFact.fwd (fun _ : Unit => (0 : ℝ)) = none := by
    show (some (0 : ℝ)).bind Un.recip.val = none
    simp [Un.val]
  have : (distEx D x y).fwd (fun _ => 0) = none := by
    cases D with
    | euclidean => simp only [distEx, sqDistEx, Ex.fwd, hs]; rfl
    | manhattan => simp only [distEx, Ex.fwd, hs]; rfl
    | chebyshev => simp only [distEx, Ex.fwd, hs]; rfl
    | minkowski p => exact absurd rfl (hD p)
  show some (leOne _) = some 0
  rw [this]; rfl

/-- The hyper-parameter of a skewed chi-squared kernel receives the derivative of the loss, for samples above `-p` away from the safeguard of the denominators. -/
theorem C111_skewed_partial {d : ℕ} (p : ℝ) {n m : ℕ} (X : Fin n → Fin d → ℝ) (Y : Fin m → Fin d → ℝ) (G : Fin n → Fin m → ℝ)
    (hX : ∀ i c, 0 < X i c + p) (hY : ∀ j c, 0 < Y j c + p) (hE : ∀ i j c, X i c + Y j c + 2 * p ≠ EPS) :
    (∀ i j, (skewedEx (X i) (Y j)).fwd (fun _ => p) = some (skewedChi2 p (X i) (Y j))) ∧
    Receives (gradOf () (backward (fun _ => p) (entries G fun i j => skewedEx (X i) (Y j)))) (fun t => ∑ i, ∑ j, G i j * skewedChi2 t (X i) (Y j)) p := by
  have hv : ∀ i j t, (skewedEx (X i) (Y j)).val (fun _ => t) = skewedChi2 t (X i) (Y j) := by
    intro i j t
    rw [skewedEx, Ex.prod_val, List.map_ofFn, List.prod_ofFn, skewedChi2]
    refine Finset.prod_congr rfl fun c _ => ?_
    show 2 * (Real.sqrt _ * Real.sqrt _) * (1 / max _ EPS) = _
    rw [mul_one_div]; rfl
  have hr : ∀ i j, (skewedEx (X i) (Y j)).Reg fun _ => p := by
    intro i j
    refine Ex.prod_reg fun e he => ?_
    obtain ⟨c, rfl⟩ := (List.mem_ofFn' _ _).1 he
    refine ⟨⟨trivial, ⟨⟨trivial, trivial⟩, hX i c⟩, ⟨trivial, trivial⟩, hY j c⟩, ⟨⟨trivial, trivial, trivial⟩, hE i j c⟩, ?_⟩
    show max _ EPS ≠ 0
    have : 0 < EPS := by norm_num [EPS]
    exact (lt_max_of_lt_right this).ne'
  refine ⟨fun i j => ?_, receives_reg (fun _ => p) () G _ _ hr fun t i j => ?_⟩
  · rw [((skewedEx (X i) (Y j)).sound (fun _ => p) () (hr i j)).1, hv]
  · rw [update_unit, hv]

/-- The lag of a hat kernel receives the derivative of the loss, if no two times are at the end of the support. -/
theorem C111_hat_partial (lag : ℝ) {n m : ℕ} (S : Fin n → ℝ) (T : Fin m → ℝ) (G : Fin n → Fin m → ℝ) (h : ∀ i j, lag + 1 - |S i - T j| ≠ 0) :
    (∀ i j, (hatEx (S i) (T j)).fwd (fun _ => lag) = some (hatKernel lag (S i) (T j))) ∧
    Receives (gradOf () (backward (fun _ => lag) (entries G fun i j => hatEx (S i) (T j)))) (fun t => ∑ i, ∑ j, G i j * hatKernel t (S i) (T j)) lag := by
  have hv : ∀ i j t, (hatEx (S i) (T j)).val (fun _ => t) = hatKernel t (S i) (T j) := fun i j t => by
    show max (t + 1 + -|S i - T j|) 0 = _
    rw [hatKernel, ← sub_eq_add_neg]
  have hr : ∀ i j, (hatEx (S i) (T j)).Reg fun _ => lag := fun i j => ⟨⟨⟨trivial, trivial⟩, trivial⟩, by
    show lag + 1 + -|S i - T j| ≠ 0
    rw [← sub_eq_add_neg]; exact h i j⟩
  refine ⟨fun i j => ?_, receives_reg (fun _ => lag) () G _ _ hr fun t i j => ?_⟩
  · rw [((hatEx (S i) (T j)).sound (fun _ => lag) () (hr i j)).1, hv]
  · rw [update_unit, hv]

/-- The diagonal value of an indicator kernel receives the derivative of the loss. -/
theorem C111_indicator (θ : IndP → ℝ) {n m : ℕ} (S : Fin n → ℝ) (T : Fin m → ℝ) (G : Fin n → Fin m → ℝ) :
    (∀ i j, (indicatorEx (θ .lag) (S i) (T j)).fwd θ = some (indicatorKernel (θ .lag) (θ .gamma) (S i) (T j))) ∧
    Receives (gradOf .gamma (backward θ (entries G fun i j => indicatorEx (θ .lag) (S i) (T j)))) (fun t => ∑ i, ∑ j, G i j * indicatorKernel (θ .lag) t (S i) (T j)) (θ .gamma) := by
  have hr : ∀ i j, (indicatorEx (θ .lag) (S i) (T j)).Reg θ := fun i j => by
    rw [indicatorEx]; split <;> exact trivial
  have hv : ∀ i j (θ' : IndP → ℝ), (indicatorEx (θ .lag) (S i) (T j)).val θ' = indicatorKernel (θ .lag) (θ' .gamma) (S i) (T j) := fun i j θ' => by
    rw [indicatorEx, indicatorKernel]; split <;> rfl
  refine ⟨fun i j => ?_, receives_reg θ .gamma G _ _ hr fun t i j => ?_⟩
  · rw [((indicatorEx (θ .lag) (S i) (T j)).sound θ .gamma (hr i j)).1, hv]
  · rw [hv, Function.update_self]

/-- Its lag never receives a gradient; this is right where the kernel is differentiable in the lag (no two different times exactly a lag apart): the derivative is zero. -/
theorem C111_lag_partial (θ : IndP → ℝ) {n m : ℕ} (S : Fin n → ℝ) (T : Fin m → ℝ) (G : Fin n → Fin m → ℝ) (h : ∀ i j, S i = T j ∨ |S i - T j| ≠ θ .lag) :
    gradOf .lag (backward θ (entries G fun i j => indicatorEx (θ .lag) (S i) (T j))) = none ∧
    HasDerivAt (fun t => ∑ i, ∑ j, G i j * indicatorKernel t (θ .gamma) (S i) (T j)) 0 (θ .lag) := by
  constructor
  · refine matrix_free θ .lag G _ fun i j => ?_
    rw [indicatorEx]
    split
    · exact fun h => by cases h
    · exact trivial
  · have he : ∀ i j, HasDerivAt (fun t => indicatorKernel t (θ .gamma) (S i) (T j)) 0 (θ .lag) := by
      intro i j
      rcases h i j with h | h
      · have : (fun t => indicatorKernel t (θ .gamma) (S i) (T j)) = fun _ => θ .gamma := by
          funext t; rw [indicatorKernel, if_pos (sub_eq_zero.2 h)]
        rw [this]; exact hasDerivAt_const _ _
      · rcases lt_or_gt_of_ne h with h | h
        · refine (hasDerivAt_const (θ .lag) (indicatorKernel (θ .lag) (θ .gamma) (S i) (T j))).congr_of_eventuallyEq ?_
          filter_upwards [lt_mem_nhds h] with t ht
          rw [indicatorKernel, indicatorKernel, if_pos h.le, if_pos (le_of_lt ht)]
        · refine (hasDerivAt_const (θ .lag) (indicatorKernel (θ .lag) (θ .gamma) (S i) (T j))).congr_of_eventuallyEq ?_
          filter_upwards [gt_mem_nhds h] with t ht
          rw [indicatorKernel, indicatorKernel, if_neg (not_le.2 h), if_neg (not_le.2 ht)]
    have := HasDerivAt.fun_sum (u := Finset.univ) fun a (_ : a ∈ Finset.univ) => HasDerivAt.fun_sum (u := Finset.univ) fun b (_ : b ∈ Finset.univ) => (he a b).const_mul (G a b)
    simpa using this

/-! ### Random features -/

/-- The parameters of a random features kernel with given bandwidth and weights. -/
def rfParams {m d : ℕ} (σ : ℝ) (W : Matrix (Fin m) (Fin d) ℝ) : RFP m d → ℝ
  | .sigma => σ
  | .weight r k => W r k

/-- The weights with one of them replaced. -/
def setWeight {m d : ℕ} (W : Matrix (Fin m) (Fin d) ℝ) (r : Fin m) (k : Fin d) (t : ℝ) : Matrix (Fin m) (Fin d) ℝ := fun r' k' => if r' = r ∧ k' = k then t else W r' k'

/-- Where the activation function is differentiable. -/
def Activation.SmoothAt : Activation → ℝ → Prop
  | .arcsinh, _ => True
  | .lrelu _, u => u ≠ 0
  | .hyperbola α β γ δ, u => 0 < (β ^ 2 - γ * α) * u ^ 2 + γ * δ

theorem act_reg (θ : ι → ℝ) (f : Activation) (e : Ex ι) (he : e.Reg θ) (h : Activation.SmoothAt f (e.val θ)) : (actEx f e).Reg θ := by
  cases f with
  | arcsinh => exact ⟨he, trivial⟩
  | lrelu α => exact ⟨he, h⟩
  | hyperbola α β γ δ => exact ⟨trivial, ⟨⟨⟨trivial, he, trivial⟩, trivial⟩, h⟩, trivial, he⟩

theorem act_val (θ : ι → ℝ) (f : Activation) (e : Ex ι) : (actEx f e).val θ = f.fn (e.val θ) := by
  cases f with
  | arcsinh => rfl
  | lrelu α =>
    show (if 0 < e.val θ then e.val θ else α * e.val θ) = max 0 (e.val θ) + α * min 0 (e.val θ)
    split
    · rename_i h
      rw [max_eq_right h.le, min_eq_left h.le]; ring
    · rename_i h
      rw [max_eq_left (not_lt.1 h), min_eq_right (not_lt.1 h)]; ring
  | hyperbola α β γ δ => rfl

theorem rfPhi_val {m d : ℕ} (f : Activation) (σ : ℝ) (x : Fin d → ℝ) (r : Fin m) (θ : RFP m d → ℝ) (W : Matrix (Fin m) (Fin d) ℝ) (hW : ∀ r k, θ (.weight r k) = W r k) :
    (rfPhiEx f σ x r).val θ = rfPhi f.fn m σ W x r := by
  show (actEx f _).val θ * (1 / Real.sqrt m) = _
  rw [act_val, rfPhi]
  congr 2
  show (Ex.sum _).val θ * (1 / σ) = _
  rw [Ex.sum_val, List.map_ofFn, List.sum_ofFn]
  congr 1
  refine Finset.sum_congr rfl fun k _ => ?_
  show x k * θ (.weight r k) = _
  rw [hW, mul_comm]

theorem rf_val {m d : ℕ} (f : Activation) (σ : ℝ) (x y : Fin d → ℝ) (θ : RFP m d → ℝ) (W : Matrix (Fin m) (Fin d) ℝ) (hW : ∀ r k, θ (.weight r k) = W r k) :
    (rfEx f σ x y).val θ = ∑ r, rfPhi f.fn m σ W x r * rfPhi f.fn m σ W y r := by
  rw [rfEx, Ex.sum_val, List.map_ofFn, List.sum_ofFn]
  refine Finset.sum_congr rfl fun r _ => ?_
  show (rfPhiEx f σ x r).val θ * (rfPhiEx f σ y r).val θ = _
  rw [rfPhi_val f σ x r θ W hW, rfPhi_val f σ y r θ W hW]

theorem rfPhi_reg {m d : ℕ} (f : Activation) (σ : ℝ) (x : Fin d → ℝ) (r : Fin m) (W : Matrix (Fin m) (Fin d) ℝ) (h : Activation.SmoothAt f (W.mulVec x r * (1 / σ))) :
    (rfPhiEx f σ x r).Reg (rfParams σ W) := by
  refine ⟨act_reg _ f _ ⟨Ex.sum_reg fun e he => ?_, trivial⟩ ?_, trivial⟩
  · obtain ⟨k, rfl⟩ := (List.mem_ofFn' _ _).1 he
    exact ⟨trivial, trivial⟩
  · have : (Ex.mul (Ex.sum (List.ofFn fun k => Ex.mul (Ex.const (x k)) (Ex.par (RFP.weight r k)))) (Ex.const (1 / σ))).val (rfParams σ W) = W.mulVec x r * (1 / σ) := by
      show (Ex.sum _).val _ * (1 / σ) = _
      rw [Ex.sum_val, List.map_ofFn, List.sum_ofFn]
      congr 1
      refine Finset.sum_congr rfl fun k _ => ?_
      show x k * W r k = _
      rw [mul_comm]
    rw [this]
    exact h

/-- Every weight of a random features kernel receives the derivative of the loss, where the activation function is differentiable (for the arcsinh activation everywhere). -/
theorem C111_weights_partial {m d : ℕ} (f : Activation) (σ : ℝ) (W : Matrix (Fin m) (Fin d) ℝ) {n l : ℕ} (X : Fin n → Fin d → ℝ) (Y : Fin l → Fin d → ℝ) (G : Fin n → Fin l → ℝ)
    (hX : ∀ i r, Activation.SmoothAt f (W.mulVec (X i) r * (1 / σ))) (hY : ∀ j r, Activation.SmoothAt f (W.mulVec (Y j) r * (1 / σ))) (r : Fin m) (k : Fin d) :
    (∀ i j, (rfEx f σ (X i) (Y j)).fwd (rfParams σ W) = some (∑ r, rfPhi f.fn m σ W (X i) r * rfPhi f.fn m σ W (Y j) r)) ∧
    Receives (gradOf (.weight r k) (backward (rfParams σ W) (entries G fun i j => rfEx f σ (X i) (Y j))))
      (fun t => ∑ i, ∑ j, G i j * ∑ r', rfPhi f.fn m σ (setWeight W r k t) (X i) r' * rfPhi f.fn m σ (setWeight W r k t) (Y j) r') (W r k) := by
  classical
  have hr : ∀ i j, (rfEx f σ (X i) (Y j)).Reg (rfParams σ W) := by
    intro i j
    refine Ex.sum_reg fun e he => ?_
    obtain ⟨r', rfl⟩ := (List.mem_ofFn' _ _).1 he
    exact ⟨rfPhi_reg f σ (X i) r' W (hX i r'), rfPhi_reg f σ (Y j) r' W (hY j r')⟩
  refine ⟨fun i j => ?_, receives_reg (rfParams σ W) (.weight r k) G _ _ hr fun t i j => ?_⟩
  · rw [((rfEx f σ (X i) (Y j)).sound (rfParams σ W) (.weight r k) (hr i j)).1, rf_val f σ _ _ _ W fun r k => rfl]
  · rw [rf_val f σ _ _ _ (setWeight W r k t)]
    intro r' k'
    rw [setWeight]
    by_cases h : r' = r ∧ k' = k
    · obtain ⟨rfl, rfl⟩ := h
      rw [if_pos ⟨rfl, rfl⟩, Function.update_self]
    · rw [if_neg h, Function.update_of_ne]
      · rfl
      · intro h'
        injection h' with h1 h2
        exact h ⟨h1, h2⟩

theorem lrelu_pos_mul (a c u : ℝ) (hc : 0 ≤ c) : lrelu a (u * c) = lrelu a u * c := by
  rw [lrelu, lrelu]
  have h1 : max 0 (u * c) = max 0 u * c := by
    rw [max_mul_of_nonneg _ _ hc, zero_mul]
  have h2 : min 0 (u * c) = min 0 u * c := by
    rw [min_mul_of_nonneg _ _ hc, zero_mul]
  rw [h1, h2]; ring

/-- The bandwidth of a random features kernel, even if it is declared trainable, never receives a gradient: it is read through `numpy`. The kernel depends on it: with the leaky rectified linear
unit the derivative of any linear loss `L` is `-2 L / σ`, which is not zero unless the loss is. -/
theorem C111_bandwidth_violated {m d : ℕ} (σ : ℝ) (hσ : 0 < σ) (W : Matrix (Fin m) (Fin d) ℝ) {n l : ℕ} (X : Fin n → Fin d → ℝ) (Y : Fin l → Fin d → ℝ) (G : Fin n → Fin l → ℝ) :
    (∀ f : Activation, gradOf .sigma (backward (rfParams σ W) (entries G fun i j => rfEx f σ (X i) (Y j))) = none) ∧
    ∀ a : ℝ, HasDerivAt (fun τ => ∑ i, ∑ j, G i j * ∑ r, rfPhi (Activation.lrelu a).fn m τ W (X i) r * rfPhi (Activation.lrelu a).fn m τ W (Y j) r)
      (-2 / σ * ∑ i, ∑ j, G i j * ∑ r, rfPhi (Activation.lrelu a).fn m σ W (X i) r * rfPhi (Activation.lrelu a).fn m σ W (Y j) r) σ := by
  constructor
  · intro f
    refine matrix_free _ _ G _ fun i j => Ex.sum_free fun e he => ?_
    obtain ⟨r, rfl⟩ := (List.mem_ofFn' _ _).1 he
    have hphi : ∀ x : Fin d → ℝ, (rfPhiEx f σ x r).Free RFP.sigma := by
      intro x
      have h0 : (Ex.mul (Ex.sum (List.ofFn fun k => Ex.mul (Ex.const (x k)) (Ex.par (RFP.weight r k)))) (Ex.const (1 / σ))).Free (RFP.sigma : RFP m d) := by
        refine ⟨Ex.sum_free fun e he => ?_, trivial⟩
        obtain ⟨k, rfl⟩ := (List.mem_ofFn' _ _).1 he
        exact ⟨trivial, fun h => by cases h⟩
      refine ⟨?_, trivial⟩
      cases f with
      | arcsinh => exact h0
      | lrelu a => exact h0
      | hyperbola α β γ δ => exact ⟨trivial, ⟨⟨trivial, h0⟩, trivial⟩, trivial, h0⟩
    exact ⟨hphi _, hphi _⟩
  · intro a
    have hk : ∀ τ : ℝ, 0 < τ → ∀ x y : Fin d → ℝ, (∑ r, rfPhi (Activation.lrelu a).fn m τ W x r * rfPhi (Activation.lrelu a).fn m τ W y r) =
        (τ⁻¹) ^ 2 * ∑ r, (lrelu a (W.mulVec x r) * (1 / Real.sqrt m)) * (lrelu a (W.mulVec y r) * (1 / Real.sqrt m)) := by
      intro τ hτ x y
      rw [Finset.mul_sum]
      refine Finset.sum_congr rfl fun r _ => ?_
      show lrelu a (W.mulVec x r * (1 / τ)) * (1 / Real.sqrt m) * (lrelu a (W.mulVec y r * (1 / τ)) * (1 / Real.sqrt m)) = _
      rw [lrelu_pos_mul a _ _ (by positivity), lrelu_pos_mul a _ _ (by positivity), one_div]
      ring
    have hL : ∀ τ : ℝ, 0 < τ → (∑ i, ∑ j, G i j * ∑ r, rfPhi (Activation.lrelu a).fn m τ W (X i) r * rfPhi (Activation.lrelu a).fn m τ W (Y j) r) =
        (τ⁻¹) ^ 2 * ∑ i, ∑ j, G i j * ∑ r, (lrelu a (W.mulVec (X i) r) * (1 / Real.sqrt m)) * (lrelu a (W.mulVec (Y j) r) * (1 / Real.sqrt m)) := by
      intro τ hτ
      rw [Finset.mul_sum]
      refine Finset.sum_congr rfl fun i _ => ?_
      rw [Finset.mul_sum]
      refine Finset.sum_congr rfl fun j _ => ?_
      rw [hk τ hτ]; ring
    rw [hL σ hσ]
    have h1 := ((hasDerivAt_inv hσ.ne').pow 2).mul_const (∑ i, ∑ j, G i j * ∑ r, (lrelu a (W.mulVec (X i) r) * (1 / Real.sqrt m)) * (lrelu a (W.mulVec (Y j) r) * (1 / Real.sqrt m)))
    refine (h1.congr_of_eventuallyEq ?_).congr_deriv ?_
    · filter_upwards [lt_mem_nhds hσ] with τ hτ
      exact hL τ hτ
    · generalize (∑ i, ∑ j, G i j * ∑ r, (lrelu a (W.mulVec (X i) r) * (1 / Real.sqrt m)) * (lrelu a (W.mulVec (Y j) r) * (1 / Real.sqrt m))) = L
      have := hσ.ne'
      push_cast
      field_simp

/-- One weight, one point: the kernel is not zero. -/
example : (∑ r : Fin 1, rfPhi (Activation.lrelu 0).fn 1 1 (fun (_ : Fin 1) (_ : Fin 1) => (1 : ℝ)) (fun _ => 2) r * rfPhi (Activation.lrelu 0).fn 1 1 (fun (_ : Fin 1) (_ : Fin 1) => (1 : ℝ)) (fun _ => 2) r) = 4 := by
  simp [rfPhi, Activation.fn, lrelu, Matrix.mulVec, dotProduct]
  norm_num

/-- The hypotheses of `C111_skewed_partial` and `C111_hat_partial`. -/
example : (0 : ℝ) < 1 + 1 ∧ ((1 : ℝ) + 3 + 2 * 1 ≠ EPS) ∧ (2 : ℝ) + 1 - |0 - 1| ≠ 0 := by
  refine ⟨by norm_num, by norm_num [EPS], by norm_num⟩

/-- Orthogonal samples without offset: the hypotheses of `C111_degree_zero` for the degree 2, and of `C111_degree_constant` for the degree 0. -/
example (G : Fin 1 → Fin 1 → ℝ) : Receives (gradOf .alpha (backward (fun p => if p = .alpha then 2 else 0) (entries G fun _ _ => polyEx true 2 (![1, 0] ⬝ᵥ ![0, (1 : ℝ)]))))
    (fun t => ∑ i, ∑ j, G i j * (![1, 0] ⬝ᵥ ![0, (1 : ℝ)] + 0) ^ t) 2 := by
  have h := C111_degree_zero (fun p => if p = .alpha then 2 else 0) (fun _ : Fin 1 => ![1, 0]) (fun _ : Fin 1 => ![0, (1 : ℝ)]) G (fun _ _ => by simp) (by simp)
  simpa using h

example (G : Fin 1 → Fin 1 → ℝ) : gradOf .alpha (backward (fun _ => 0) (entries G fun _ _ => polyEx true 0 (![1, 0] ⬝ᵥ ![0, (1 : ℝ)]))) = some (some 0) :=
  C111_degree_constant (n := 0) (m := 0) (fun _ => 0) (fun _ => ![1, 0]) (fun _ => ![0, (1 : ℝ)]) G (fun _ _ => by simp) rfl

/-- A negative base and a positive one, for `C111_degree_violated` and `C111_polynomial_partial`. -/
example : (![(-2 : ℝ)] ⬝ᵥ ![(3 : ℝ)]) + 1 < 0 ∧ 0 < (![(2 : ℝ)] ⬝ᵥ ![(3 : ℝ)]) + 1 := by
  constructor <;> norm_num [dotProduct]

end Autograd
end Kerch
