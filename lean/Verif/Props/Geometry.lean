import Mathlib.Analysis.Complex.ExponentialBounds
import Verif.Props.PSD
import Verif.Props.Tuning
/-!
# C131: kernel values are inner products

What the values of a kernel, between any batches and after centrings and normalisations of the kernel matrix, say about lengths, angles and distances.
-/
set_option linter.unusedSectionVars false
set_option linter.unusedSimpArgs false
namespace Kerch
namespace Geometry
open Finset

variable {X n : Type} [Fintype n] [Nonempty n]

/-! ## Specification -/

/-- The squared distance read from kernel values: `k(x,x) - 2 k(x,y) + k(y,y)`. -/
def sq (kxx kxy kyy : ℝ) : ℝ := kxx - 2 * kxy + kyy

/-- No point has, at a normalisation, a squared norm that is not null but smaller than the safeguard. -/
def Safe (Z : Set X) (κ : X → X → ℝ) (pts : n → X) (p : List Kind) : Prop :=
  ∀ q, (Kind.sphere :: q) <:+ p → ∀ x ∈ Z, ∀ M, ioos κ pts q (.batch Unit fun _ => x) (.batch Unit fun _ => x) = .ok M → M () () = 0 ∨ EPS ≤ M () ()

/-! ## Lemmas -/

theorem chain_psd {Z : Set X} {κ : X → X → ℝ} {pts : n → X} (hκ : ∀ x y, κ x y = κ y x) (hZ : PSDOn Z κ) (hpts : ∀ l, pts l ∈ Z) (p : List Kind)
    (hp : ∀ k ∈ p, k = .mean ∨ k = .sphere) (hg : Safe Z κ pts p) : PSDOn Z (kchain κ pts p) := by
  intro ι _ x hx
  letI : Fintype ((Arg.batch ι x).I n) := ‹Fintype ι›
  obtain ⟨M, hM, hpsd⟩ := C26_implicit_partial Z κ pts hκ hZ hpts p hp hg (.batch ι x) hx
  rw [ioos_kchain κ pts hκ p hp] at hM
  obtain rfl := Except.ok.inj hM
  exact hpsd

theorem psd_two {Z : Set X} {k : X → X → ℝ} (h : PSDOn Z k) {x y : X} (hx : x ∈ Z) (hy : y ∈ Z) (a b : ℝ) :
    0 ≤ a * a * k x x + 2 * (a * b) * k x y + b * b * k y y := by
  have hm := h (Fin 2) ![x, y] (by intro i; fin_cases i <;> assumption)
  have h2 := hm.2 ![a, b]
  have h1 := hm.1 1 0
  simp only [Fin.sum_univ_two, Matrix.cons_val_zero, Matrix.cons_val_one] at h1 h2
  rw [h1] at h2
  nlinarith

theorem psd_three {Z : Set X} {k : X → X → ℝ} (h : PSDOn Z k) {x y z : X} (hx : x ∈ Z) (hy : y ∈ Z) (hz : z ∈ Z) (a b c : ℝ) :
    0 ≤ a * a * k x x + b * b * k y y + c * c * k z z + 2 * (a * b) * k x y + 2 * (a * c) * k x z + 2 * (b * c) * k y z := by
  have hm := h (Fin 3) ![x, y, z] (by intro i; fin_cases i <;> assumption)
  have h2 := hm.2 ![a, b, c]
  have h01 := hm.1 1 0
  have h02 := hm.1 2 0
  have h12 := hm.1 2 1
  simp only [Fin.sum_univ_three, Matrix.cons_val_zero, Matrix.cons_val_one, Matrix.cons_val] at h01 h02 h12 h2
  rw [h01, h02, h12] at h2
  nlinarith

theorem quad {A B c : ℝ} (hB : 0 ≤ B) (h : ∀ s t : ℝ, 0 ≤ s * s * A + 2 * (s * t) * c + t * t * B) : c ^ 2 ≤ A * B := by
  rcases hB.eq_or_lt with h0 | h0
  · subst h0
    by_contra hc
    have hc : c ≠ 0 := fun h => hc (by simp [h])
    have h1 := h 1 (-(A + 1) / (2 * c))
    have e : 2 * (1 * (-(A + 1) / (2 * c))) * c = -(A + 1) := by field_simp
    rw [e] at h1
    linarith
  · have h1 := h B (-c)
    have : 0 ≤ B * (A * B - c ^ 2) := by nlinarith
    have := nonneg_of_mul_nonneg_right this h0
    linarith

theorem cauchy {Z : Set X} {k : X → X → ℝ} (h : PSDOn Z k) {x y : X} (hx : x ∈ Z) (hy : y ∈ Z) : k x y ^ 2 ≤ k x x * k y y :=
  quad (by have := psd_two h hx hy 0 1; linarith) (psd_two h hx hy)

theorem abs_le_sqrt {Z : Set X} {k : X → X → ℝ} (h : PSDOn Z k) {x y : X} (hx : x ∈ Z) (hy : y ∈ Z) : |k x y| ≤ Real.sqrt (k x x) * Real.sqrt (k y y) := by
  have hxx : 0 ≤ k x x := by have := psd_two h hx hy 1 0; linarith
  rw [← Real.sqrt_mul hxx]
  exact Real.abs_le_sqrt (cauchy h hx hy)

/-! ## Properties -/

section
variable (Z : Set X) (κ : X → X → ℝ) (pts : n → X) (hκ : ∀ x y, κ x y = κ y x) (hZ : PSDOn Z κ) (hpts : ∀ l, pts l ∈ Z) (p : List Kind) (hp : ∀ k ∈ p, k = .mean ∨ k = .sphere)
include hκ hZ hpts hp

/-- **C131** Every value between two batches (or with the sample), after any centrings and normalisations, is at most the product of the lengths: its square is at most the product of the values
of each of the two points with itself. -/
theorem C131_lengths_partial (hg : Safe Z κ pts p) (a b : Arg X) (ha : ∀ i, a.pt pts i ∈ Z) (hb : ∀ j, b.pt pts j ∈ Z) :
    ∃ M A B, ioos κ pts p a b = .ok M ∧ ioos κ pts p a a = .ok A ∧ ioos κ pts p b b = .ok B ∧ ∀ i j, M i j ^ 2 ≤ A i i * B j j := by
  have h := chain_psd hκ hZ hpts p hp hg
  exact ⟨_, _, _, ioos_kchain κ pts hκ p hp a b, ioos_kchain κ pts hκ p hp a a, ioos_kchain κ pts hκ p hp b b, fun i j => cauchy h (ha i) (hb j)⟩

/-- **C131** After a normalisation, all values are between -1 and 1, for all points, also those of small norm; the value of a point with itself is 1 exactly if its squared norm before was at least
the safeguard. -/
theorem C131_cosine (hg : Safe Z κ pts p) (a b : Arg X) (ha : ∀ i, a.pt pts i ∈ Z) (hb : ∀ j, b.pt pts j ∈ Z) :
    ∃ M A B, ioos κ pts (.sphere :: p) a b = .ok M ∧ ioos κ pts (.sphere :: p) a a = .ok A ∧ ioos κ pts p a a = .ok B ∧
      (∀ i j, |M i j| ≤ 1) ∧ ∀ i, 0 ≤ A i i ∧ (A i i = 1 ↔ EPS ≤ B i i) := by
  have h := chain_psd hκ hZ hpts p hp hg
  have hp' : ∀ k ∈ Kind.sphere :: p, k = .mean ∨ k = .sphere := fun k hk => by
    rcases List.mem_cons.1 hk with rfl | hk
    · exact .inr rfl
    · exact hp k hk
  have hE : 0 < EPS := by norm_num [EPS]
  refine ⟨_, _, _, ioos_kchain κ pts hκ _ hp' a b, ioos_kchain κ pts hκ _ hp' a a, ioos_kchain κ pts hκ p hp a a, fun i j => ?_, fun i => ?_⟩
  · show |_ / _| ≤ 1
    rw [abs_div, clampEps, abs_of_pos (lt_max_of_lt_right hE)]
    exact div_le_one_of_le₀ ((abs_le_sqrt h (ha i) (hb j)).trans (le_max_left _ _)) (hE.le.trans (le_max_right _ _))
  · have hxx : 0 ≤ kchain κ pts p (a.pt pts i) (a.pt pts i) := by have := psd_two h (ha i) (ha i) 1 0; linarith
    have e : kchain κ pts (.sphere :: p) (a.pt pts i) (a.pt pts i) = kchain κ pts p (a.pt pts i) (a.pt pts i) / max (kchain κ pts p (a.pt pts i) (a.pt pts i)) EPS := by
      simp only [kchain, clampEps, Real.mul_self_sqrt hxx]
    have hm : 0 < max (kchain κ pts p (a.pt pts i) (a.pt pts i)) EPS := lt_max_of_lt_right hE
    simp only [e]
    refine ⟨div_nonneg hxx hm.le, ?_⟩
    rw [div_eq_one_iff_eq hm.ne', eq_comm, max_eq_left_iff]

/-- **C131** The distances read from the values are distances: not negative, null between a point and itself, the same in both directions, and the triangle inequality holds between any three batches. -/
theorem C131_distance_partial (hg : Safe Z κ pts p) (x y z : X) (hx : x ∈ Z) (hy : y ∈ Z) (hz : z ∈ Z) :
    ∃ k : X → X → ℝ, (∀ u v, ioos κ pts p (.batch Unit fun _ => u) (.batch Unit fun _ => v) = .ok fun _ _ => k u v) ∧
      0 ≤ sq (k x x) (k x y) (k y y) ∧ sq (k x x) (k x x) (k x x) = 0 ∧ sq (k x x) (k x y) (k y y) = sq (k y y) (k y x) (k x x) ∧
      Real.sqrt (sq (k x x) (k x z) (k z z)) ≤ Real.sqrt (sq (k x x) (k x y) (k y y)) + Real.sqrt (sq (k y y) (k y z) (k z z)) := by
  have h := chain_psd hκ hZ hpts p hp hg
  refine ⟨kchain κ pts p, fun u v => ioos_kchain κ pts hκ p hp _ _, ?_, ?_, ?_, ?_⟩
  · have := psd_two h hx hy 1 (-1); unfold sq; linarith
  · unfold sq; ring
  · unfold sq; rw [kchain_symm κ pts hκ p y x]; ring
  · set k := kchain κ pts p
    have hA : 0 ≤ sq (k x x) (k x y) (k y y) := by have := psd_two h hx hy 1 (-1); unfold sq; linarith
    have hB : 0 ≤ sq (k y y) (k y z) (k z z) := by have := psd_two h hy hz 1 (-1); unfold sq; linarith
    set A := sq (k x x) (k x y) (k y y) with hAd
    set B := sq (k y y) (k y z) (k z z) with hBd
    set c := k x y - k x z - k y y + k y z with hc
    -- the inner product of the two sides of the triangle
    have hq : ∀ s t : ℝ, 0 ≤ s * s * A + 2 * (s * t) * c + t * t * B := by
      intro s t
      have := psd_three h hx hy hz s (t - s) (-t)
      simp only [hAd, hBd, sq, hc]
      nlinarith
    have hcs : c ^ 2 ≤ A * B := quad hB hq
    have hle : c ≤ Real.sqrt A * Real.sqrt B := by
      rw [← Real.sqrt_mul hA]
      exact (le_abs_self c).trans (Real.abs_le_sqrt hcs)
    rw [Real.sqrt_le_left (by positivity)]
    have e : sq (k x x) (k x z) (k z z) = A + B + 2 * c := by simp only [hAd, hBd, sq, hc]; ring
    rw [e]
    nlinarith [Real.sq_sqrt hA, Real.sq_sqrt hB]

end

/-- **C131** Centring changes no distance: it only moves the origin, for every symmetric kernel and after any transforms. -/
theorem C131_centring (κ : X → X → ℝ) (pts : n → X) (hκ : ∀ x y, κ x y = κ y x) (p : List Kind) (hp : ∀ k ∈ p, k = .mean ∨ k = .sphere) (x y : X) :
    ∃ k kc : X → X → ℝ, (∀ u v, ioos κ pts p (.batch Unit fun _ => u) (.batch Unit fun _ => v) = .ok fun _ _ => k u v) ∧
      (∀ u v, ioos κ pts (.mean :: p) (.batch Unit fun _ => u) (.batch Unit fun _ => v) = .ok fun _ _ => kc u v) ∧
      sq (kc x x) (kc x y) (kc y y) = sq (k x x) (k x y) (k y y) := by
  have hp' : ∀ k ∈ Kind.mean :: p, k = .mean ∨ k = .sphere := fun k hk => by
    rcases List.mem_cons.1 hk with rfl | hk
    · exact .inl rfl
    · exact hp k hk
  refine ⟨kchain κ pts p, kchain κ pts (.mean :: p), fun u v => ioos_kchain κ pts hκ p hp _ _, fun u v => ioos_kchain κ pts hκ _ hp' _ _, ?_⟩
  simp only [sq, kchain]
  ring

/-- **C131** Once centred, the origin is the mean of the sample: the mean of the squared distances of any point to the sample is its own squared length plus the mean squared length of the sample. -/
theorem C131_mean (κ : X → X → ℝ) (pts : n → X) (hκ : ∀ x y, κ x y = κ y x) (p : List Kind) (hp : ∀ k ∈ p, k = .mean ∨ k = .sphere) (x : X) :
    ∃ kc : X → X → ℝ, (∀ u v, ioos κ pts (.mean :: p) (.batch Unit fun _ => u) (.batch Unit fun _ => v) = .ok fun _ _ => kc u v) ∧
      (tmean fun l => sq (kc x x) (kc x (pts l)) (kc (pts l) (pts l))) = kc x x + tmean fun l => kc (pts l) (pts l) := by
  have hp' : ∀ k ∈ Kind.mean :: p, k = .mean ∨ k = .sphere := fun k hk => by
    rcases List.mem_cons.1 hk with rfl | hk
    · exact .inl rfl
    · exact hp k hk
  refine ⟨kchain κ pts (.mean :: p), fun u v => ioos_kchain κ pts hκ _ hp' _ _, ?_⟩
  have hc : (Fintype.card n : ℝ) ≠ 0 := by exact_mod_cast Fintype.card_ne_zero
  have h0 : ∑ l, kchain κ pts (.mean :: p) x (pts l) = 0 := by
    simp only [kchain, sum_add_distrib, sum_sub_distrib, sum_const, card_univ, nsmul_eq_mul, tmean]
    field_simp
    ring
  simp only [tmean, sq]
  rw [sum_add_distrib, sum_sub_distrib, ← mul_sum, h0, sum_const, card_univ, nsmul_eq_mul]
  field_simp
  ring

/-- **C131** With a kernel of distances (all but Silverman's) the neighbours are the same in feature space and in the space of the data: what is nearer here is not farther there. -/
theorem C131_neighbours_partial {d : Type} [Fintype d] [Nonempty d] (s : StatKind) (hs : s ≠ .silverman) (D : DistKind) (hD : ∀ p, D ≠ .minkowski p) (σ : ℝ) (hσ : 0 < σ) :
    ∃ k : (d → ℝ) → (d → ℝ) → ℝ, (∀ x y, statKernel s D σ x y = .ok (k x y)) ∧
      ∀ x y z δy δz, dist D x y = .ok δy → dist D x z = .ok δz → δy ≤ δz → sq (k x x) (k x y) (k y y) ≤ sq (k x x) (k x z) (k z z) := by
  have hdef : ∀ x y, ∃ δ, dist D x y = .ok δ := fun x y => C25_dist_defined (d := d) D hD x y
  choose δ hδ using hdef
  refine ⟨fun x y => profile s (δ x y / σ), fun x y => statKernel_eq s hσ (hδ x y), fun x y z δy δz hy hz hle => ?_⟩
  have ey := (hδ x y).symm.trans hy
  have ez := (hδ x z).symm.trans hz
  injection ey with ey
  injection ez with ez
  have hself : ∀ u, profile s (δ u u / σ) = 1 := fun u => by
    have : δ u u = 0 := (dist_eq_zero_iff (hδ u u)).2 rfl
    rw [this, zero_div, Tuning.profile_zero s hs]
  have hmono := profile_antitone s hs (div_nonneg (dist_nonneg' hy) hσ.le) (div_le_div_of_nonneg_right hle hσ.le)
  simp only [sq, hself]
  rw [ey, ez]
  linarith

/-- **C131** violated for points of small norm: the linear kernel normalised on kernel values, on the points `1` and `10⁻⁸` of the line, gives a value whose square is greater than the product of the
lengths. -/
theorem C131_small_violated :
    ∃ M : Fin 2 → Fin 2 → ℝ, ioos linearKernel (![fun _ => 1, fun _ => 1e-8] : Fin 2 → Unit → ℝ) [.sphere] .sample .sample = .ok M ∧ M 0 0 * M 1 1 < M 0 1 ^ 2 := by
  refine ⟨_, rfl, ?_⟩
  have s1 : Real.sqrt (1 * 1 : ℝ) = 1 := Real.sqrt_mul_self (by norm_num)
  have s2 : Real.sqrt ((1e-8 : ℝ) * 1e-8) = 1e-8 := Real.sqrt_mul_self (by norm_num)
  have c1 : clampEps ((1 : ℝ) * 1) = 1 := by rw [mul_one]; exact clampEps_of_le EPS_lt_one.le
  have c2 : clampEps ((1 : ℝ) * 1e-8) = 1e-7 := by unfold clampEps EPS; rw [max_eq_right]; norm_num
  have c4 : clampEps ((1e-8 : ℝ) * 1e-8) = 1e-7 := by unfold clampEps EPS; rw [max_eq_right]; norm_num
  simp only [Arg.pt, linearKernel, dotProduct, Finset.univ_unique, sum_singleton, Matrix.cons_val_zero, Matrix.cons_val_one, s1, s2, c1, c2, c4]
  norm_num

/-- **C131** violated for the sigmoid kernel, which is not an inner product: between the points `1` and `3` of the line the squared distance read from the kernel is negative. -/
theorem C131_sigmoid_violated :
    sq (sigmoidKernel 1 0 (fun _ : Unit => (1 : ℝ)) fun _ => 1) (sigmoidKernel 1 0 (fun _ : Unit => (1 : ℝ)) fun _ => 3) (sigmoidKernel 1 0 (fun _ : Unit => (3 : ℝ)) fun _ => 3) < 0 := by
  simp only [sq, sigmoidKernel, dotProduct, Finset.univ_unique, sum_singleton]
  have h1 : Real.sigmoid (1 * (1 * 1) + 0) < 3 / 4 := by
    rw [Real.sigmoid_def, inv_lt_comm₀ (by positivity) (by norm_num), show -(1 * (1 * 1) + 0 : ℝ) = -1 by norm_num, Real.exp_neg]
    have h := Real.exp_one_lt_d9
    have h3 : (1 / 3 : ℝ) < (Real.exp 1)⁻¹ := by rw [one_div]; exact inv_strictAnti₀ (Real.exp_pos 1) (by linarith)
    norm_num; linarith
  have h3 : 9 / 10 < Real.sigmoid (1 * (1 * 3) + 0) := by
    rw [Real.sigmoid_def, lt_inv_comm₀ (by norm_num) (by positivity), show -(1 * (1 * 3) + 0 : ℝ) = -(1 + 1 + 1) by norm_num, Real.exp_neg, Real.exp_add, Real.exp_add]
    have h := Real.exp_one_gt_d9
    have hp : (19 : ℝ) < Real.exp 1 * Real.exp 1 * Real.exp 1 := by nlinarith [mul_pos (Real.exp_pos 1) (Real.exp_pos 1)]
    have h3 : (Real.exp 1 * Real.exp 1 * Real.exp 1)⁻¹ < (19 : ℝ)⁻¹ := inv_strictAnti₀ (by norm_num) hp
    have : (19 : ℝ)⁻¹ < 1 / 9 := by norm_num
    rw [inv_div]
    linarith
  have h9 : Real.sigmoid (1 * (3 * 3) + 0) < 1 := Real.sigmoid_lt_one _
  norm_num at h1 h3 h9 ⊢
  linarith

/-! ## Examples -/

/-- The linear kernel on all points whose squared norm is null or at least the safeguard, after a normalisation and a centring on it: the hypotheses of the theorems above. -/
example (pts : Fin 3 → Fin 2 → ℝ) (Z : Set (Fin 2 → ℝ)) (hZ : ∀ x ∈ Z, linearKernel x x = 0 ∨ EPS ≤ linearKernel x x) : Safe Z linearKernel pts [.mean, .sphere] := by
  intro q hq x hx M hM
  rcases List.suffix_cons_iff.1 hq with h | h
  · cases h
  · rcases List.suffix_cons_iff.1 h with h | h
    · obtain rfl : q = [] := by injection h
      obtain rfl := Except.ok.inj hM
      exact hZ x hx
    · cases List.suffix_nil.1 h

/-- Two neighbours on the line and a kernel for which they are ordered. -/
example : ∃ k : (Unit → ℝ) → (Unit → ℝ) → ℝ, (∀ x y, statKernel (.exponential true) .euclidean 2 x y = .ok (k x y)) ∧
    ∀ x y z δy δz, dist .euclidean x y = .ok δy → dist .euclidean x z = .ok δz → δy ≤ δz → sq (k x x) (k x y) (k y y) ≤ sq (k x x) (k x z) (k z z) :=
  C131_neighbours_partial (.exponential true) (by simp) .euclidean (by simp) 2 (by norm_num)

end Geometry
end Kerch
