import Verif.Props.Bandwidth
import Verif.Props.Transforms
/-!
# C120: units and origin of the data

Changes of units `x ↦ c x + b` of the data (or of the features `φ`) that the default bandwidth and the transforms take out.
-/
set_option linter.unusedSectionVars false
set_option linter.unusedSimpArgs false
namespace Kerch
namespace Units
open Finset

/-! ## distance kernels -/

section bandwidth
variable {n d : Type} [Fintype n] [Nonempty n] [Fintype d] [Nonempty d]

theorem euclidSq_affine (c : ℝ) (b x y : d → ℝ) : euclidSq (fun j => c * x j + b j) (fun j => c * y j + b j) = c ^ 2 * euclidSq x y := by
  simp only [euclidSq, mul_sum]; exact sum_congr rfl fun _ _ => by ring

theorem manhattan_affine (c : ℝ) (b x y : d → ℝ) : manhattan (fun j => c * x j + b j) (fun j => c * y j + b j) = |c| * manhattan x y := by
  simp only [manhattan, mul_sum]
  exact sum_congr rfl fun _ _ => by rw [← abs_mul]; congr 1; ring

theorem chebyshev_affine (c : ℝ) (b x y : d → ℝ) : chebyshev (fun j => c * x j + b j) (fun j => c * y j + b j) = |c| * chebyshev x y := by
  simp only [chebyshev]
  have : (fun i => |c * x i + b i - (c * y i + b i)|) = fun i => |c| * |x i - y i| := by
    funext i; rw [← abs_mul]; congr 1; ring
  rw [this]
  refine le_antisymm (sup'_le _ _ fun i _ => mul_le_mul_of_nonneg_left (le_sup' (fun i => |x i - y i|) (mem_univ i)) (abs_nonneg c)) ?_
  obtain ⟨i, hi, he⟩ := exists_mem_eq_sup' (univ_nonempty (α := d)) (fun i => |x i - y i|)
  rw [he]
  exact le_sup' (fun i => |c| * |x i - y i|) hi

/-- The default bandwidth scales with the data and ignores their origin. -/
theorem sigma_affine (D : DistKind) (c : ℝ) (b : d → ℝ) (pts : n → d → ℝ) :
    heuristicSigma D (fun i j => c * pts i j + b j) = (heuristicSigma D pts).map fun σ => |c| * σ := by
  rw [← C30_scaling]
  cases D with
  | euclidean => simp only [heuristicSigma, euclidSq_affine, ← euclidSq_affine c (fun _ => 0), add_zero]
  | manhattan => simp only [heuristicSigma, manhattan_affine, ← manhattan_affine c (fun _ => 0), add_zero]
  | chebyshev => simp only [heuristicSigma, chebyshev_affine, ← chebyshev_affine c (fun _ => 0), add_zero]
  | minkowski p => rfl

theorem distSigma_affine (D : DistKind) (c : ℝ) (hc : c ≠ 0) (b x y : d → ℝ) (σ : ℝ) :
    distSigma D (|c| * σ) (fun j => c * x j + b j) (fun j => c * y j + b j) = distSigma D σ x y := by
  have hc' : |c| ≠ 0 := abs_ne_zero.2 hc
  have h2 : |c| ^ 2 = c ^ 2 := sq_abs c
  have e1 : ∀ t : ℝ, 1 / (|c| * σ) * (|c| * t) = 1 / σ * t := fun t => by
    rw [one_div, mul_inv, one_div]
    field_simp
  cases D with
  | euclidean =>
    simp only [distSigma, euclidSq_affine]
    congr 2
    rw [← h2, ← mul_one (euclidSq x y), one_div, mul_inv, one_div]
    field_simp
  | manhattan => simp only [distSigma, manhattan_affine, e1]
  | chebyshev => simp only [distSigma, chebyshev_affine, e1]
  | minkowski p => rfl

theorem sqDistSigma_affine (D : DistKind) (c : ℝ) (hc : c ≠ 0) (b x y : d → ℝ) (σ : ℝ) :
    sqDistSigma D (|c| * σ) (fun j => c * x j + b j) (fun j => c * y j + b j) = sqDistSigma D σ x y := by
  have hc' : |c| ≠ 0 := abs_ne_zero.2 hc
  have h2 : |c| ^ 2 = c ^ 2 := sq_abs c
  have e1 : ∀ t : ℝ, 1 / (|c| * σ) * (|c| * t) = 1 / σ * t := fun t => by
    rw [one_div, mul_inv, one_div]
    field_simp
  cases D with
  | euclidean =>
    simp only [sqDistSigma, euclidSq_affine]
    congr 1
    rw [← h2, ← mul_one (euclidSq x y), one_div, mul_inv, one_div]
    field_simp
  | manhattan => simp only [sqDistSigma, manhattan_affine, e1]
  | chebyshev => simp only [sqDistSigma, chebyshev_affine, e1]
  | minkowski p => rfl

/-- **C120**: the values of a kernel of distances whose bandwidth is not given do not depend on the unit and the origin of the data. -/
theorem C120_distance (s : StatKind) (D : DistKind) (c : ℝ) (hc : c ≠ 0) (b : d → ℝ) (pts : n → d → ℝ) (x y : d → ℝ) :
    ((heuristicSigma D fun i j => c * pts i j + b j).bind fun σ => statKernel s D σ (fun j => c * x j + b j) (fun j => c * y j + b j)) =
      (heuristicSigma D pts).bind fun σ => statKernel s D σ x y := by
  rw [sigma_affine]
  cases heuristicSigma D pts with
  | error _ => rfl
  | ok σ =>
    simp only [Except.map, Except.bind]
    cases s with
    | exponential sq =>
      cases sq with
      | true => simp only [statKernel, sqDistSigma_affine D c hc]
      | false => simp only [statKernel, distSigma_affine D c hc]
    | _ => simp only [statKernel, distSigma_affine D c hc]

/-- **C120** does not hold with a given bandwidth: an RBF kernel of bandwidth `σ` depends on the unit, for all different points and units. -/
theorem C120_given_bandwidth (σ : ℝ) (hσ : 0 < σ) (c : ℝ) (hc : 0 < c) (hc1 : c ≠ 1) (x y : d → ℝ) (hxy : x ≠ y) :
    statKernel (.exponential true) .euclidean σ (fun j => c * x j) (fun j => c * y j) ≠ statKernel (.exponential true) .euclidean σ x y := by
  have h0 := euclidSq_affine c (fun _ => 0) x y
  simp only [add_zero] at h0
  simp only [statKernel, sqDistSigma, Except.map, h0]
  intro h
  injection h with h
  have h1 := Real.exp_injective h
  have hpos : euclidSq x y ≠ 0 := by
    have := (dist_eq_zero_iff (D := .euclidean) (x := x) (y := y) rfl).not.2 hxy
    intro h2
    exact this (by rw [h2, Real.sqrt_zero])
  have hs : (1 / σ) ^ 2 ≠ 0 := pow_ne_zero _ (one_div_ne_zero hσ.ne')
  have h3 : (c ^ 2 - 1) * ((1 / σ) ^ 2 * euclidSq x y) = 0 := by linarith
  rcases mul_eq_zero.1 h3 with h4 | h4
  · exact hc1 (by nlinarith)
  · exact (mul_ne_zero hs hpos) h4

end bandwidth

/-! ## transforms of features -/

section features
variable {X n d : Type} [Fintype n] [Nonempty n] [Fintype d]

theorem eoos_append (φ φ' : X → d → ℝ) (pts : n → X) (q : List Kind) (hq : ∀ a, eoos φ' pts q a = eoos φ pts q a) (p : List Kind) (a : Arg X) :
    eoos φ' pts (p ++ q) a = eoos φ pts (p ++ q) a := by
  induction p generalizing a with
  | nil => exact hq a
  | cons k p ih =>
    rw [List.cons_append, eoos_cons, eoos_cons, ih a, ← eoos_sample φ' pts, ← eoos_sample φ pts, ih .sample]

theorem tmean_affine (c b : ℝ) (f : n → ℝ) : tmean (fun i => c * f i + b) = c * tmean f + b := by
  have : (Fintype.card n : ℝ) ≠ 0 := card_pos_real.ne'
  simp only [tmean, sum_add_distrib, ← mul_sum, sum_const, card_univ, nsmul_eq_mul]
  field_simp

theorem tmin_affine (c b : ℝ) (hc : 0 ≤ c) (f : n → ℝ) : tmin (fun i => c * f i + b) = c * tmin f + b := by
  obtain ⟨i, hi⟩ := exists_tmin fun i => c * f i + b
  obtain ⟨l, hl⟩ := exists_tmin f
  refine le_antisymm ?_ ?_
  · have := tmin_le (fun i => c * f i + b) l
    rwa [hl]
  · rw [hi]
    have := mul_le_mul_of_nonneg_left (tmin_le f i) hc
    linarith

theorem tmax_affine (c b : ℝ) (hc : 0 ≤ c) (f : n → ℝ) : tmax (fun i => c * f i + b) = c * tmax f + b := by
  obtain ⟨i, hi⟩ := exists_tmax fun i => c * f i + b
  obtain ⟨l, hl⟩ := exists_tmax f
  refine le_antisymm ?_ ?_
  · rw [hi]
    have := mul_le_mul_of_nonneg_left (le_tmax f i) hc
    linarith
  · have := le_tmax (fun i => c * f i + b) l
    rwa [hl]

/-- The data centred are scaled. -/
theorem eoos_mean_affine (φ : X → d → ℝ) (pts : n → X) (c b : d → ℝ) (a : Arg X) :
    eoos (fun x j => c j * φ x j + b j) pts [.mean] a = (eoos φ pts [.mean] a).map fun Y i j => c j * Y i j := by
  have h : ∀ {ι : Type} (f : ι → X), applyKind Kind.mean (fun j => tmean fun i => c j * φ (pts i) j + b j) (fun i j => c j * φ (f i) j + b j) =
      fun i j => c j * applyKind Kind.mean (fun j => tmean fun i => φ (pts i) j) (fun i => φ (f i)) i j := by
    intro ι f
    funext i j
    simp only [applyKind, tmean_affine]
    ring
  cases a with
  | sample => exact congrArg some (h pts)
  | batch ι x => exact congrArg some (h x)

theorem eoos_minimum_affine (φ : X → d → ℝ) (pts : n → X) (c b : d → ℝ) (hc : ∀ j, 0 ≤ c j) (a : Arg X) :
    eoos (fun x j => c j * φ x j + b j) pts [.minimum] a = (eoos φ pts [.minimum] a).map fun Y i j => c j * Y i j := by
  have h : ∀ {ι : Type} (f : ι → X), applyKind Kind.minimum (fun j => tmin fun i => c j * φ (pts i) j + b j) (fun i j => c j * φ (f i) j + b j) =
      fun i j => c j * applyKind Kind.minimum (fun j => tmin fun i => φ (pts i) j) (fun i => φ (f i)) i j := by
    intro ι f
    funext i j
    simp only [applyKind]
    rw [tmin_affine (c j) (b j) (hc j) fun i => φ (pts i) j]
    ring
  cases a with
  | sample => exact congrArg some (h pts)
  | batch ι x => exact congrArg some (h x)

/-- **C120**: centring removes any change of origin of the features, whatever transforms follow, on the sample and out of sample. -/
theorem C120_origin (φ : X → d → ℝ) (pts : n → X) (b : d → ℝ) (p : List Kind) (a : Arg X) :
    eoos (fun x j => φ x j + b j) pts (p ++ [.mean]) a = eoos φ pts (p ++ [.mean]) a := by
  refine eoos_append _ _ pts _ (fun a => ?_) p a
  have := eoos_mean_affine φ pts (fun _ => 1) b a
  simp only [one_mul] at this
  rw [this]
  cases eoos φ pts [.mean] a <;> rfl

/-- **C120**: and so does a minimum centring. -/
theorem C120_origin_minimum (φ : X → d → ℝ) (pts : n → X) (b : d → ℝ) (p : List Kind) (a : Arg X) :
    eoos (fun x j => φ x j + b j) pts (p ++ [.minimum]) a = eoos φ pts (p ++ [.minimum]) a := by
  refine eoos_append _ _ pts _ (fun a => ?_) p a
  have := eoos_minimum_affine φ pts (fun _ => 1) b (fun _ => zero_le_one) a
  simp only [one_mul] at this
  rw [this]
  cases eoos φ pts [.minimum] a <;> rfl

/-- Normalising scaled columns: if both statistics reach `EPS` the scale disappears. -/
theorem div_clamp (c y s : ℝ) (hc : c ≠ 0) (hs : EPS ≤ s) (hs' : EPS ≤ c * s) : c * y / clampEps (c * s) = y / clampEps s := by
  rw [clampEps_of_le hs, clampEps_of_le hs', mul_div_mul_left _ _ hc]

/-- **C120**: standardising removes any change of unit and origin of each coordinate, whatever transforms follow, if the standard deviations are at least `EPS`
in both units. -/
theorem C120_standardize_partial (φ : X → d → ℝ) (pts : n → X) (c b : d → ℝ) (hc : ∀ j, 0 < c j)
    (h1 : ∀ j, EPS ^ 2 ≤ colVar fun i => φ (pts i) j) (h2 : ∀ j, EPS ^ 2 ≤ c j ^ 2 * colVar fun i => φ (pts i) j) (p : List Kind) (a : Arg X) :
    eoos (fun x j => c j * φ x j + b j) pts (p ++ [.variance, .mean]) a = eoos φ pts (p ++ [.variance, .mean]) a := by
  refine eoos_append _ _ pts _ (fun a => ?_) p a
  by_cases hn : Fintype.card n = 1
  · rw [eoos_cons (fun x j => c j * φ x j + b j) pts .variance [.mean], eoos_cons φ pts .variance [.mean], eoos_mean_affine]
    have hz : ∀ S : n → d → ℝ, colStat Kind.variance [Kind.mean].head? S = none := fun S => by simp [colStat, hn]
    simp only [hz, Option.bind_none, Option.bind_fun_none]
  · rw [eoos_cons (fun x j => c j * φ x j + b j) pts .variance [.mean], eoos_cons φ pts .variance [.mean], eoos_mean_affine,
      ← eoos_sample (fun x j => c j * φ x j + b j), eoos_mean_affine, eoos_sample]
    cases hY : eoos φ pts [.mean] a with
    | none => rfl
    | some Y =>
      simp only [Option.map_some, Option.bind_some]
      have hS : esample φ pts [.mean] = some fun i j => φ (pts i) j - tmean fun i => φ (pts i) j := rfl
      rw [hS]
      simp only [Option.map_some, Option.bind_some, colStat, if_neg hn]
      congr 1
      have hsd : ∀ t : ℝ, ∀ j, (tstd fun i => t * (φ (pts i) j - tmean fun i => φ (pts i) j)).getD 0 = Real.sqrt (t ^ 2 * colVar fun i => φ (pts i) j) := by
        intro t j
        have hm : tmean (fun i => t * (φ (pts i) j - tmean fun i => φ (pts i) j)) = 0 := by
          unfold tmean
          rw [← mul_sum]
          have := tmean_sub_self fun i => φ (pts i) j
          unfold tmean at this
          rw [this]; simp
        simp only [tstd, if_neg hn, Option.getD_some, hm, sub_zero, colVar]
        congr 1
        rw [mul_div_assoc', mul_sum]
        congr 1
        exact sum_congr rfl fun i _ => by rw [mul_pow]; rfl
      have hsd1 : ∀ j, (tstd fun i => φ (pts i) j - tmean fun i => φ (pts i) j).getD 0 = Real.sqrt (colVar fun i => φ (pts i) j) := by
        intro j
        have := hsd 1 j
        simpa only [one_mul, one_pow] using this
      funext i j
      simp only [applyKind, hsd, hsd1]
      have hE : (0 : ℝ) ≤ EPS := EPS_pos.le
      rw [Real.sqrt_mul (sq_nonneg _), Real.sqrt_sq (hc j).le]
      refine div_clamp _ _ _ (hc j).ne' (Real.le_sqrt_of_sq_le (h1 j)) ?_
      have := Real.le_sqrt_of_sq_le (h2 j)
      rwa [Real.sqrt_mul (sq_nonneg _), Real.sqrt_sq (hc j).le] at this

/-- **C120**: so does the normalisation to the range from zero to one, if the ranges are at least `EPS` in both units. -/
theorem C120_minmax_partial (φ : X → d → ℝ) (pts : n → X) (c b : d → ℝ) (hc : ∀ j, 0 < c j) (r : d → ℝ) (hr : ∀ j, IsRange (fun i => φ (pts i) j) (r j))
    (h1 : ∀ j, EPS ≤ r j) (h2 : ∀ j, EPS ≤ c j * r j) (p : List Kind) (a : Arg X) :
    eoos (fun x j => c j * φ x j + b j) pts (p ++ [.minmax, .minimum]) a = eoos φ pts (p ++ [.minmax, .minimum]) a := by
  refine eoos_append _ _ pts _ (fun a => ?_) p a
  rw [eoos_cons (fun x j => c j * φ x j + b j) pts .minmax [.minimum], eoos_cons φ pts .minmax [.minimum], eoos_minimum_affine _ _ _ _ fun j => (hc j).le,
    ← eoos_sample (fun x j => c j * φ x j + b j), eoos_minimum_affine _ _ _ _ fun j => (hc j).le, eoos_sample]
  cases hY : eoos φ pts [.minimum] a with
  | none => rfl
  | some Y =>
    have hS : esample φ pts [.minimum] = some fun i j => φ (pts i) j - tmin fun i => φ (pts i) j := rfl
    rw [hS]
    simp only [Option.map_some, Option.bind_some, colStat, List.head?_cons, if_true]
    congr 1
    have hmax : ∀ j, (tmax fun i => φ (pts i) j - tmin fun i => φ (pts i) j) = r j := by
      intro j
      obtain ⟨i, hi⟩ := exists_tmin fun i => φ (pts i) j
      obtain ⟨l, hl⟩ := exists_tmax fun i => φ (pts i) j - tmin fun i => φ (pts i) j
      obtain ⟨u, i', l', hu⟩ := hr j
      refine le_antisymm ?_ ?_
      · rw [hl, hi]; exact u l i
      · have q1 := le_tmax (fun i => φ (pts i) j - tmin fun i => φ (pts i) j) i'
        have q2 := tmin_le (fun i => φ (pts i) j) l'
        linarith
    have hmax' : ∀ j, (tmax fun i => c j * (φ (pts i) j - tmin fun i => φ (pts i) j)) = c j * r j := by
      intro j
      have := tmax_affine (c j) 0 (hc j).le fun i => φ (pts i) j - tmin fun i => φ (pts i) j
      simp only [add_zero] at this
      rw [this, hmax]
    funext i j
    simp only [applyKind, hmax, hmax']
    exact div_clamp _ _ _ (hc j).ne' (h1 j) (h2 j)

/-- **C120**: projecting on the unit sphere removes any positive factor of each point, whatever transforms follow, if the norms of the sample and of the points
are at least `EPS` with both factors: the cosine kernel. -/
theorem C120_cosine_partial (φ : X → d → ℝ) (pts : n → X) (c : X → ℝ) (hc : ∀ x, 0 < c x) (p : List Kind) (a : Arg X)
    (hs : ∀ i, EPS ≤ tnorm (φ (pts i)) ∧ EPS ≤ c (pts i) * tnorm (φ (pts i)))
    (ha : ∀ i, EPS ≤ tnorm (φ (a.pt pts i)) ∧ EPS ≤ c (a.pt pts i) * tnorm (φ (a.pt pts i))) :
    eoos (fun x j => c x * φ x j) pts (p ++ [.sphere]) a = eoos φ pts (p ++ [.sphere]) a := by
  have hnorm : ∀ x, tnorm (fun j => c x * φ x j) = c x * tnorm (φ x) := by
    intro x
    unfold tnorm
    simp only [mul_pow, ← mul_sum]
    rw [Real.sqrt_mul (sq_nonneg _), Real.sqrt_sq (hc x).le]
  have key : ∀ {ι : Type} (f : ι → X), (∀ i, EPS ≤ tnorm (φ (f i)) ∧ EPS ≤ c (f i) * tnorm (φ (f i))) →
      applyKind Kind.sphere (fun _ => 0) (fun i j => c (f i) * φ (f i) j) = applyKind Kind.sphere (fun _ => 0) fun i => φ (f i) := by
    intro ι f hf
    funext i j
    simp only [applyKind, hnorm]
    exact div_clamp _ _ _ (hc _).ne' (hf i).1 (hf i).2
  have hsamp : esample (fun x j => c x * φ x j) pts [.sphere] = esample φ pts [.sphere] := congrArg some (key pts hs)
  have hS : ∀ p : List Kind, esample (fun x j => c x * φ x j) pts (p ++ [.sphere]) = esample φ pts (p ++ [.sphere]) := by
    intro p
    induction p with
    | nil => exact hsamp
    | cons k p ih => simp only [List.cons_append, esample, ih]
  induction p with
  | nil =>
    cases a with
    | sample => exact hsamp
    | batch ι x => exact congrArg some (key x ha)
  | cons k p ih => rw [List.cons_append, eoos_cons, eoos_cons, ih, hS]

/-- **C120** violated below `EPS`: in units where a point is shorter than `EPS`, its projection on the unit sphere is not on the sphere and depends on the unit. -/
theorem C120_small_violated :
    ∃ (x : Fin 1 → ℝ) (c : ℝ), 0 < c ∧ eoos (fun y : Fin 1 → ℝ => y) (fun _ : Fin 1 => x) [.sphere] .sample = some (fun _ _ => 1) ∧
      eoos (fun (y : Fin 1 → ℝ) j => c * y j) (fun _ : Fin 1 => x) [.sphere] .sample = some (fun _ _ => 1 / 2) := by
  have hn : ∀ t : ℝ, 0 ≤ t → tnorm (fun _ : Fin 1 => t) = t := fun t ht => by simp [tnorm, Real.sqrt_sq ht]
  have hE := EPS_pos
  have h1 : EPS ≤ 1 := by norm_num [EPS]
  refine ⟨fun _ => 1, EPS / 2, by positivity, ?_, ?_⟩
  · refine congrArg some (funext fun i => funext fun j => ?_)
    simp only [applyKind]
    rw [hn 1 zero_le_one, clampEps_of_le h1, div_one]
  · refine congrArg some (funext fun i => funext fun j => ?_)
    simp only [applyKind, mul_one]
    rw [hn _ (by positivity)]
    have : clampEps (EPS / 2) = EPS := max_eq_right (by linarith)
    rw [this]
    field_simp

/-- **C120** violated below `EPS`: a coordinate that varies by less than `EPS` is not standardised: on the points `0` and `t` for `t` below `EPS`, the
standardised values are `∓ t / (2 EPS)`, proportional to the unit. -/
theorem C120_standardize_violated (t : ℝ) (ht : 0 < t) (hs : t < EPS) :
    eoos (fun (y : ℝ) (_ : Fin 1) => y) (![0, t] : Fin 2 → ℝ) [.variance, .mean] .sample = some fun i _ => ![-(t / (2 * EPS)), t / (2 * EPS)] i := by
  have hm : tmean (fun i : Fin 2 => (![0, t] : Fin 2 → ℝ) i) = t / 2 := by simp [tmean, Fin.sum_univ_two]
  have hE := EPS_pos
  rw [eoos_sample]
  have hS : esample (fun (y : ℝ) (_ : Fin 1) => y) (![0, t] : Fin 2 → ℝ) [.mean] = some fun i _ => ![0, t] i - t / 2 := by
    simp only [esample, colStat, applyKind, Option.bind_eq_bind, Option.bind_some, hm]
  have hS2 : esample (fun (y : ℝ) (_ : Fin 1) => y) (![0, t] : Fin 2 → ℝ) [.variance, .mean] =
      (esample (fun (y : ℝ) (_ : Fin 1) => y) (![0, t] : Fin 2 → ℝ) [.mean]).bind fun S =>
        (colStat .variance (some .mean) S).bind fun st => some (applyKind .variance st S) := rfl
  rw [hS2, hS, Option.bind_some]
  simp only [colStat, Fintype.card_fin, if_neg (by norm_num : ¬ (2 = 1)), Option.bind_some]
  have hm0 : tmean (fun i : Fin 2 => (![0, t] : Fin 2 → ℝ) i - t / 2) = 0 := by simp [tmean, Fin.sum_univ_two]; ring
  have hsd : (tstd fun i : Fin 2 => (![0, t] : Fin 2 → ℝ) i - t / 2).getD 0 = Real.sqrt (t ^ 2 / 2) := by
    simp only [tstd, Fintype.card_fin, if_neg (by norm_num : ¬ (2 = 1)), Option.getD_some, hm0, Fin.sum_univ_two]
    congr 1
    simp
    ring
  have hlt : Real.sqrt (t ^ 2 / 2) ≤ EPS := by
    rw [Real.sqrt_le_left hE.le]
    nlinarith
  have hcl : clampEps (Real.sqrt (t ^ 2 / 2)) = EPS := max_eq_right hlt
  refine congrArg some (funext fun i => funext fun j => ?_)
  simp only [applyKind, hsd, hcl]
  fin_cases i
  · simp; field_simp
  · simp; field_simp; ring

end features

/-! ## kernels without features -/

section values
variable {X n : Type} [Fintype n] [Nonempty n]

theorem ioos_append (κ κ' : X → X → ℝ) (pts : n → X) (q : List Kind) (hq : ∀ a b, ioos κ' pts q a b = ioos κ pts q a b) (p : List Kind) (a b : Arg X) :
    ioos κ' pts (p ++ q) a b = ioos κ pts (p ++ q) a b := by
  induction p generalizing a b with
  | nil => exact hq a b
  | cons k p ih =>
    have h : ioos κ' pts (p ++ q) = ioos κ pts (p ++ q) := funext fun a => funext fun b => ih a b
    cases a with
    | batch ι x => simp only [List.cons_append, ioos, h]
    | sample => cases b <;> simp only [List.cons_append, ioos, h]

/-- **C120**: adding to a kernel any function of each of its arguments (a constant, or a change of origin of a linear kernel) changes nothing once it is
centred, whatever transforms follow. -/
theorem C120_added (κ : X → X → ℝ) (f : X → ℝ) (pts : n → X) (p : List Kind) (a b : Arg X) :
    ioos (fun x y => κ x y + f x + f y) pts (p ++ [.mean]) a b = ioos κ pts (p ++ [.mean]) a b := by
  refine ioos_append _ _ pts _ (fun a b => ?_) p a b
  have hc : (Fintype.card n : ℝ) ≠ 0 := card_pos_real.ne'
  have hm : ∀ (g : n → ℝ) (c : ℝ), tmean (fun l => g l + c + f (pts l)) = tmean g + c + tmean fun l => f (pts l) := by
    intro g c
    simp only [tmean, sum_add_distrib, sum_const, card_univ, nsmul_eq_mul]
    field_simp
  have hm2 : ∀ (g : n → ℝ) (c : ℝ), tmean (fun l => g l + f (pts l) + c) = tmean g + (tmean fun l => f (pts l)) + c := by
    intro g c
    simp only [tmean, sum_add_distrib, sum_const, card_univ, nsmul_eq_mul]
    field_simp
  have hmm : tmean (fun l => tmean fun l' => κ (pts l) (pts l') + f (pts l) + f (pts l')) =
      tmean (fun l => tmean fun l' => κ (pts l) (pts l')) + (tmean fun l => f (pts l)) + tmean fun l => f (pts l) := by
    have : (fun l => tmean fun l' => κ (pts l) (pts l') + f (pts l) + f (pts l')) =
        fun l => (tmean fun l' => κ (pts l) (pts l')) + f (pts l) + tmean fun l => f (pts l) := by
      funext l
      rw [hm (fun l' => κ (pts l) (pts l')) (f (pts l))]
    rw [this, hm2 (fun l => tmean fun l' => κ (pts l) (pts l'))]
  have key : ∀ {ι ι' : Type} (u : ι → X) (v : ι' → X) (i : ι) (j : ι'),
      κ (u i) (v j) + f (u i) + f (v j) - tmean (fun l => κ (u i) (pts l) + f (u i) + f (pts l)) - tmean (fun l => κ (v j) (pts l) + f (v j) + f (pts l))
        + tmean (fun l => tmean fun l' => κ (pts l) (pts l') + f (pts l) + f (pts l')) =
      κ (u i) (v j) - tmean (fun l => κ (u i) (pts l)) - tmean (fun l => κ (v j) (pts l)) + tmean fun l => tmean fun l' => κ (pts l) (pts l') := by
    intro ι ι' u v i j
    rw [hm (fun l => κ (u i) (pts l)), hm (fun l => κ (v j) (pts l)), hmm]
    ring
  cases a with
  | batch ι x =>
    cases b with
    | batch ι' y => exact congrArg Except.ok (funext fun i => funext fun j => key x y i j)
    | sample => exact congrArg Except.ok (funext fun i => funext fun j => key x pts i j)
  | sample =>
    cases b with
    | batch ι' y => exact congrArg Except.ok (funext fun i => funext fun j => key y pts j i)
    | sample => exact congrArg Except.ok (funext fun i => funext fun j => key pts pts i j)

/-- **C120**: multiplying a kernel by a positive function of each of its arguments (a scale, or a change of unit of a linear kernel) changes nothing once it is
normalised, whatever transforms follow, if the products of norms are at least `EPS` with and without. -/
theorem C120_scaled_partial (κ : X → X → ℝ) (f : X → ℝ) (hf : ∀ x, 0 < f x) (pts : n → X)
    (h1 : ∀ x y, EPS ≤ Real.sqrt (κ x x) * Real.sqrt (κ y y)) (h2 : ∀ x y, EPS ≤ f x * f y * (Real.sqrt (κ x x) * Real.sqrt (κ y y)))
    (p : List Kind) (a b : Arg X) :
    ioos (fun x y => f x * f y * κ x y) pts (p ++ [.sphere]) a b = ioos κ pts (p ++ [.sphere]) a b := by
  refine ioos_append _ _ pts _ (fun a b => ?_) p a b
  have key : ∀ x y, f x * f y * κ x y / clampEps (Real.sqrt (f x * f x * κ x x) * Real.sqrt (f y * f y * κ y y)) =
      κ x y / clampEps (Real.sqrt (κ x x) * Real.sqrt (κ y y)) := by
    intro x y
    rw [Real.sqrt_mul (mul_self_nonneg _), Real.sqrt_mul (mul_self_nonneg _), Real.sqrt_mul_self (hf x).le, Real.sqrt_mul_self (hf y).le,
      mul_mul_mul_comm]
    exact div_clamp _ _ _ (mul_pos (hf x) (hf y)).ne' (h1 x y) (h2 x y)
  cases a with
  | batch ι x =>
    cases b with
    | batch ι' y => exact congrArg Except.ok (funext fun i => funext fun j => key (x i) (y j))
    | sample => exact congrArg Except.ok (funext fun i => funext fun j => key (x i) (pts j))
  | sample =>
    cases b with
    | batch ι' y => exact congrArg Except.ok (funext fun i => funext fun j => key (y j) (pts i))
    | sample => exact congrArg Except.ok (funext fun i => funext fun j => key (pts i) (pts j))

/-- **C120** violated: a kernel divided by a large number (`κ = EPS/4` everywhere instead of 1) is not normalised to 1 but to 1/4, as its values, not
its norms, are compared with `EPS`: points of norm `√EPS/2`, i.e. more than a thousand times `EPS`, are concerned. -/
theorem C120_scaled_violated (pts : n → X) (a b : Arg X) :
    ioos (fun _ _ => 1) pts [.sphere] a b = .ok (fun _ _ => 1) ∧ ioos (fun _ _ => EPS / 4) pts [.sphere] a b = .ok (fun _ _ => 1 / 4) := by
  have hE := EPS_pos
  have k1 : (1 : ℝ) / clampEps (Real.sqrt 1 * Real.sqrt 1) = 1 := by
    rw [Real.sqrt_one, mul_one, clampEps_of_le (by norm_num [EPS]), div_one]
  have k2 : EPS / 4 / clampEps (Real.sqrt (EPS / 4) * Real.sqrt (EPS / 4)) = 1 / 4 := by
    rw [Real.mul_self_sqrt (by positivity)]
    have : clampEps (EPS / 4) = EPS := max_eq_right (by linarith)
    rw [this]
    field_simp
  cases a <;> cases b <;>
    exact ⟨congrArg Except.ok (funext fun i => funext fun j => k1), congrArg Except.ok (funext fun i => funext fun j => k2)⟩

end values

/-! ## cases -/

/-- Degrees Celsius and Fahrenheit: an RBF kernel with the default bandwidth. -/
example (pts : Fin 3 → Fin 1 → ℝ) (x y : Fin 1 → ℝ) :
    ((heuristicSigma .euclidean fun i j => 9 / 5 * pts i j + (fun _ => 32) j).bind fun σ =>
      statKernel (.exponential true) .euclidean σ (fun j => 9 / 5 * x j + (fun _ => 32) j) (fun j => 9 / 5 * y j + (fun _ => 32) j)) =
      (heuristicSigma .euclidean pts).bind fun σ => statKernel (.exponential true) .euclidean σ x y :=
  C120_distance _ _ _ (by norm_num) _ _ _ _

/-- Standardisation of the points 0 and 2 in units twice as large. -/
example (p : List Kind) (a : Arg ℝ) :
    eoos (fun (x : ℝ) (j : Fin 1) => (fun _ => 2) j * (fun (x : ℝ) (_ : Fin 1) => x) x j + (fun _ => 1) j) (![0, 2] : Fin 2 → ℝ) (p ++ [.variance, .mean]) a =
      eoos (fun (x : ℝ) (_ : Fin 1) => x) (![0, 2] : Fin 2 → ℝ) (p ++ [.variance, .mean]) a := by
  have hv : colVar (fun i : Fin 2 => (![0, 2] : Fin 2 → ℝ) i) = 2 := by norm_num [colVar, Fin.sum_univ_two]
  refine C120_standardize_partial _ _ _ _ (fun _ => by norm_num) (fun j => ?_) (fun j => ?_) p a
  · rw [hv]; norm_num [EPS]
  · rw [hv]; norm_num [EPS]

/-- The range of the points 0 and 2. -/
example (p : List Kind) (a : Arg ℝ) :
    eoos (fun (x : ℝ) (j : Fin 1) => (fun _ => 3) j * (fun (x : ℝ) (_ : Fin 1) => x) x j + (fun _ => 1) j) (![0, 2] : Fin 2 → ℝ) (p ++ [.minmax, .minimum]) a =
      eoos (fun (x : ℝ) (_ : Fin 1) => x) (![0, 2] : Fin 2 → ℝ) (p ++ [.minmax, .minimum]) a := by
  refine C120_minmax_partial _ _ _ _ (fun _ => by norm_num) (fun _ => 2) (fun j => ⟨fun i l => ?_, 1, 0, by simp⟩) (fun j => ?_) (fun j => ?_) p a
  · fin_cases i <;> fin_cases l <;> norm_num
  · norm_num [EPS]
  · norm_num [EPS]

/-- The squared distance is, up to sign and factor, the linear kernel plus a function of each argument: centred, they are proportional. -/
example (pts : Fin 4 → ℝ) (p : List Kind) (a b : Arg ℝ) :
    ioos (fun x y : ℝ => 2 * (x * y) + -x ^ 2 + -y ^ 2) pts (p ++ [.mean]) a b = ioos (fun x y => 2 * (x * y)) pts (p ++ [.mean]) a b :=
  C120_added _ (fun x => -x ^ 2) pts p a b

/-- A constant kernel scaled by 4. -/
example (pts : Fin 3 → ℝ) (p : List Kind) (a b : Arg ℝ) :
    ioos (fun _ _ : ℝ => 2 * 2 * 1) pts (p ++ [.sphere]) a b = ioos (fun _ _ => 1) pts (p ++ [.sphere]) a b :=
  C120_scaled_partial (fun _ _ => 1) (fun _ => 2) (fun _ => by norm_num) pts (fun _ _ => by norm_num [EPS]) (fun _ _ => by norm_num [EPS]) p a b

/-- The angle between `(3, 4)` and its double. -/
example : eoos (fun (x : Fin 2 → ℝ) j => 2 * x j) (fun _ : Fin 1 => ![3, 4]) ([] ++ [.sphere]) .sample =
    eoos (fun x : Fin 2 → ℝ => x) (fun _ : Fin 1 => ![3, 4]) ([] ++ [.sphere]) .sample := by
  have h5 : EPS ≤ tnorm (![3, 4] : Fin 2 → ℝ) ∧ EPS ≤ 2 * tnorm (![3, 4] : Fin 2 → ℝ) := by
    have : tnorm (![3, 4] : Fin 2 → ℝ) = 5 := by
      rw [tnorm, Real.sqrt_eq_iff_mul_self_eq (by positivity) (by norm_num)]
      norm_num [Fin.sum_univ_two]
    rw [this]
    norm_num [EPS]
  exact C120_cosine_partial (fun x : Fin 2 → ℝ => x) (fun _ : Fin 1 => ![3, 4]) (fun _ => 2) (fun _ => by norm_num) [] .sample (fun _ => h5) fun _ => h5

end Units
end Kerch
