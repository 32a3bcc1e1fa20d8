import Mathlib.Data.Matrix.Mul
import Mathlib.Analysis.SpecialFunctions.Trigonometric.DerivHyp
import Verif.Props.Units
/-!
# C128: order of the columns, rotations and translations of the data
-/
set_option linter.unusedSectionVars false
set_option linter.unusedSimpArgs false
namespace Kerch
namespace Rotate
open Finset

variable {n d d' X : Type} [Fintype n] [Nonempty n] [Fintype d] [Nonempty d] [Fintype d'] [Nonempty d']

/-! ## Helper lemmas -/

theorem dot_cols (e : d' ≃ d) (x y : d → ℝ) : (fun j => x (e j)) ⬝ᵥ (fun j => y (e j)) = x ⬝ᵥ y :=
  e.sum_comp fun j => x j * y j

theorem euclidSq_cols (e : d' ≃ d) (x y : d → ℝ) : euclidSq (fun j => x (e j)) (fun j => y (e j)) = euclidSq x y :=
  e.sum_comp fun j => (x j - y j) * (x j - y j)

theorem manhattan_cols (e : d' ≃ d) (x y : d → ℝ) : manhattan (fun j => x (e j)) (fun j => y (e j)) = manhattan x y :=
  e.sum_comp fun j => |x j - y j|

theorem chebyshev_cols (e : d' ≃ d) (x y : d → ℝ) : chebyshev (fun j => x (e j)) (fun j => y (e j)) = chebyshev x y := by
  unfold chebyshev
  refine le_antisymm (sup'_le _ _ fun j _ => le_sup' (fun i => |x i - y i|) (mem_univ (e j))) (sup'_le _ _ fun i _ => ?_)
  have h : |x i - y i| = |x (e (e.symm i)) - y (e (e.symm i))| := by rw [e.apply_symm_apply]
  rw [h]
  exact le_sup' (fun j => |x (e j) - y (e j)|) (mem_univ (e.symm i))

theorem tnorm_cols (e : d' ≃ d) (x : d → ℝ) : tnorm (fun j => x (e j)) = tnorm x := by
  unfold tnorm; exact congrArg Real.sqrt (e.sum_comp fun j => x j ^ 2)

theorem euclidSq_dot (x y : d → ℝ) : euclidSq x y = (x - y) ⬝ᵥ (x - y) := rfl

variable [DecidableEq d]

theorem dot_rot (Q : Matrix d' d ℝ) (hQ : Q.transpose * Q = 1) (x y : d → ℝ) : (Q.mulVec x) ⬝ᵥ (Q.mulVec y) = x ⬝ᵥ y := by
  rw [Matrix.dotProduct_mulVec, Matrix.vecMul_mulVec, ← Matrix.dotProduct_mulVec, hQ, Matrix.one_mulVec]

theorem euclidSq_rot (Q : Matrix d' d ℝ) (hQ : Q.transpose * Q = 1) (x y : d → ℝ) : euclidSq (Q.mulVec x) (Q.mulVec y) = euclidSq x y := by
  rw [euclidSq_dot, euclidSq_dot, ← Matrix.mulVec_sub, dot_rot Q hQ]

theorem tnorm_rot (Q : Matrix d' d ℝ) (hQ : Q.transpose * Q = 1) (x : d → ℝ) : tnorm (Q.mulVec x) = tnorm x := by
  have : ∀ {d : Type} [Fintype d] (x : d → ℝ), ∑ j, x j ^ 2 = x ⬝ᵥ x := fun x => sum_congr rfl fun j _ => pow_two _
  unfold tnorm; rw [this, this, dot_rot Q hQ]

theorem mulVec_div (Q : Matrix d' d ℝ) (x : d → ℝ) (c : ℝ) : (fun j => Q.mulVec x j / c) = Q.mulVec fun j => x j / c := by
  have h1 : (fun j => x j / c) = c⁻¹ • x := by funext j; simp [div_eq_inv_mul]
  have h2 : (fun j => Q.mulVec x j / c) = c⁻¹ • Q.mulVec x := by funext j; simp [div_eq_inv_mul]
  rw [h1, h2, Matrix.mulVec_smul]

theorem mulVec_tmean (Q : Matrix d' d ℝ) (S : n → d → ℝ) : (fun j => tmean fun i => Q.mulVec (S i) j) = Q.mulVec fun j => tmean fun i => S i j := by
  funext j
  simp only [tmean, Matrix.mulVec, dotProduct]
  rw [sum_comm, sum_div]
  exact sum_congr rfl fun k _ => by rw [← mul_sum, mul_div_assoc]

/-! ## Properties -/

omit [DecidableEq d] in
/-- **C128** The order of the columns of the data does not enter any kernel value nor the default bandwidth. -/
theorem C128_columns_functions (e : d' ≃ d) (x y : d → ℝ) (pts : n → d → ℝ) :
    (∀ s D σ, statKernel s D σ (fun j => x (e j)) (fun j => y (e j)) = statKernel s D σ x y) ∧
    (∀ D, heuristicSigma D (fun i j => pts i (e j)) = heuristicSigma D pts) ∧
    linearKernel (fun j => x (e j)) (fun j => y (e j)) = linearKernel x y ∧
    (∀ α β, polyKernel α β (fun j => x (e j)) (fun j => y (e j)) = polyKernel α β x y) ∧
    (∀ a b, sigmoidKernel a b (fun j => x (e j)) (fun j => y (e j)) = sigmoidKernel a b x y) ∧
    additiveChi2 (fun j => x (e j)) (fun j => y (e j)) = additiveChi2 x y ∧
    (∀ p, skewedChi2 p (fun j => x (e j)) (fun j => y (e j)) = skewedChi2 p x y) := by
  have hd : ∀ D σ, distSigma D σ (fun j => x (e j)) (fun j => y (e j)) = distSigma D σ x y := by
    intro D σ
    cases D <;> simp only [distSigma, euclidSq_cols, manhattan_cols, chebyshev_cols]
  have hs : ∀ D σ, sqDistSigma D σ (fun j => x (e j)) (fun j => y (e j)) = sqDistSigma D σ x y := by
    intro D σ
    cases D <;> simp only [sqDistSigma, euclidSq_cols, manhattan_cols, chebyshev_cols]
  refine ⟨fun s D σ => ?_, fun D => ?_, dot_cols e x y, fun α β => ?_, fun a b => ?_, ?_, fun p => ?_⟩
  · unfold statKernel; split <;> simp only [hd, hs]
  · cases D <;> simp only [heuristicSigma, euclidSq_cols, manhattan_cols, chebyshev_cols]
  · simp only [polyKernel, dot_cols]
  · simp only [sigmoidKernel, dot_cols]
  · exact e.sum_comp fun i => 2 * (x i * y i) / clampEps (x i + y i)
  · exact e.prod_comp fun i => 2 * (Real.sqrt (x i + p) * Real.sqrt (y i + p)) / clampEps (x i + y i + 2 * p)

omit [DecidableEq d] in
/-- **C128** and every chain of transforms of the data (or of features) gives the same columns in the new order. -/
theorem C128_columns_transforms (e : d' ≃ d) (φ : X → d → ℝ) (pts : n → X) (p : List Kind) (a : Arg X) :
    eoos (fun x j => φ x (e j)) pts p a = (eoos φ pts p a).map fun Y i j => Y i (e j) := by
  have hst : ∀ k q (S : n → d → ℝ), colStat k q (fun i j => S i (e j)) = (colStat k q S).map fun st j => st (e j) := by
    intro k q S
    cases k <;> simp only [colStat, Option.map_some]
    split <;> rfl
  have hap : ∀ {ι : Type} k (st : d → ℝ) (Y : ι → d → ℝ), applyKind k (fun j => st (e j)) (fun i j => Y i (e j)) = fun i j => applyKind k st Y i (e j) := by
    intro ι k st Y
    cases k <;> simp only [applyKind, tnorm_cols]
  have hs : ∀ p, esample (fun x j => φ x (e j)) pts p = (esample φ pts p).map fun Y i j => Y i (e j) := by
    intro p
    induction p with
    | nil => rfl
    | cons k p ih =>
      simp only [esample, ih]
      cases esample φ pts p with
      | none => rfl
      | some S =>
        simp only [Option.map_some, Option.bind_eq_bind, Option.bind_some, hst]
        cases colStat k p.head? S with
        | none => rfl
        | some st => simp only [Option.map_some, Option.bind_some, hap]
  induction p with
  | nil => cases a <;> rfl
  | cons k p ih =>
    rw [eoos_cons, eoos_cons, ih, hs]
    cases eoos φ pts p a with
    | none => rfl
    | some Y =>
      cases esample φ pts p with
      | none => rfl
      | some S =>
        simp only [Option.map_some, Option.bind_some, hst]
        cases colStat k p.head? S with
        | none => rfl
        | some st => simp only [Option.map_some, Option.bind_some, hap]

/-- **C128** Rotating (or reflecting, or embedding isometrically into more dimensions) the data changes no value of the kernels of inner products and of the kernels of the
Euclidean distance, nor their default bandwidth. -/
theorem C128_rotation_functions_partial (Q : Matrix d' d ℝ) (hQ : Q.transpose * Q = 1) (x y : d → ℝ) (pts : n → d → ℝ) :
    (∀ s σ, statKernel s .euclidean σ (Q.mulVec x) (Q.mulVec y) = statKernel s .euclidean σ x y) ∧
    heuristicSigma .euclidean (fun i => Q.mulVec (pts i)) = heuristicSigma .euclidean pts ∧
    linearKernel (Q.mulVec x) (Q.mulVec y) = linearKernel x y ∧
    (∀ α β, polyKernel α β (Q.mulVec x) (Q.mulVec y) = polyKernel α β x y) ∧
    (∀ a b, sigmoidKernel a b (Q.mulVec x) (Q.mulVec y) = sigmoidKernel a b x y) := by
  refine ⟨fun s σ => ?_, ?_, dot_rot Q hQ x y, fun α β => ?_, fun a b => ?_⟩
  · unfold statKernel; split <;> simp only [distSigma, sqDistSigma, euclidSq_rot Q hQ]
  · simp only [heuristicSigma, euclidSq_rot Q hQ]
  · simp only [polyKernel, dot_rot Q hQ]
  · simp only [sigmoidKernel, dot_rot Q hQ]

/-- **C128** Centring and normalising to the unit sphere, in any order and number, rotate with the data. -/
theorem C128_rotation_transforms_partial (Q : Matrix d' d ℝ) (hQ : Q.transpose * Q = 1) (φ : X → d → ℝ) (pts : n → X) (p : List Kind)
    (hp : ∀ k ∈ p, k = .mean ∨ k = .sphere) (a : Arg X) :
    eoos (fun x => Q.mulVec (φ x)) pts p a = (eoos φ pts p a).map fun Y i => Q.mulVec (Y i) := by
  have hst : ∀ q (S : n → d → ℝ), colStat .mean q (fun i => Q.mulVec (S i)) = (colStat .mean q S).map fun st => Q.mulVec st := by
    intro q S
    simp only [colStat, Option.map_some, mulVec_tmean]
  have hap : ∀ {ι : Type} (st : d → ℝ) (Y : ι → d → ℝ), applyKind .mean (Q.mulVec st) (fun i => Q.mulVec (Y i)) = fun i => Q.mulVec (applyKind .mean st Y i) := by
    intro ι st Y
    funext i
    show Q.mulVec (Y i) - Q.mulVec st = Q.mulVec (Y i - st)
    rw [Matrix.mulVec_sub]
  have hsp : ∀ {ι : Type} (st : d → ℝ) (st' : d' → ℝ) (Y : ι → d → ℝ), applyKind .sphere st' (fun i => Q.mulVec (Y i)) =
      fun i => Q.mulVec (applyKind .sphere st Y i) := by
    intro ι st st' Y
    funext i
    simp only [applyKind, tnorm_rot Q hQ, mulVec_div]
  have hs : ∀ p, (∀ k ∈ p, k = .mean ∨ k = .sphere) → esample (fun x => Q.mulVec (φ x)) pts p = (esample φ pts p).map fun Y i => Q.mulVec (Y i) := by
    intro p hp
    induction p with
    | nil => rfl
    | cons k p ih =>
      simp only [esample, ih fun k hk => hp k (by simp [hk])]
      cases esample φ pts p with
      | none => rfl
      | some S =>
        rcases hp k (by simp) with rfl | rfl
        · simp only [Option.map_some, Option.bind_eq_bind, Option.bind_some, hst]
          simp only [colStat, Option.map_some, Option.bind_some, hap]
        · simp only [Option.map_some, Option.bind_eq_bind, Option.bind_some, colStat]
          rw [hsp]
  induction p with
  | nil => cases a <;> rfl
  | cons k p ih =>
    rw [eoos_cons, eoos_cons, ih fun k hk => hp k (by simp [hk]), hs p fun k hk => hp k (by simp [hk])]
    cases eoos φ pts p a with
    | none => rfl
    | some Y =>
      cases esample φ pts p with
      | none => rfl
      | some S =>
        rcases hp k (by simp) with rfl | rfl
        · simp only [Option.map_some, Option.bind_some, hst]
          simp only [colStat, Option.map_some, Option.bind_some, hap]
        · simp only [Option.map_some, Option.bind_some, colStat]
          rw [hsp]

/-- **C128** Hence the whole kernel matrix, between any two arguments and after any transforms of the kernel matrix, is that of the data before the rotation, for every kernel computed from
the inner products of its arguments. -/
theorem C128_rotation_matrix_partial (Q : Matrix d' d ℝ) (hQ : Q.transpose * Q = 1) (f : ℝ → ℝ → ℝ → ℝ) (t : X → d → ℝ) (pts : n → X) (p : List Kind) (a b : Arg X) :
    ioos (fun x y => f (Q.mulVec (t x) ⬝ᵥ Q.mulVec (t x)) (Q.mulVec (t x) ⬝ᵥ Q.mulVec (t y)) (Q.mulVec (t y) ⬝ᵥ Q.mulVec (t y))) pts p a b =
      ioos (fun x y => f (t x ⬝ᵥ t x) (t x ⬝ᵥ t y) (t y ⬝ᵥ t y)) pts p a b := by
  simp only [dot_rot Q hQ]

omit [DecidableEq d] in
/-- **C128** Moving the origin changes no value of a kernel of distances, nor its default bandwidth. -/
theorem C128_translation (b x y : d → ℝ) (pts : n → d → ℝ) :
    (∀ s D σ, statKernel s D σ (fun j => x j + b j) (fun j => y j + b j) = statKernel s D σ x y) ∧
    (∀ D, heuristicSigma D (fun i j => pts i j + b j) = heuristicSigma D pts) := by
  constructor
  · intro s D σ
    have h1 := Units.distSigma_affine D 1 one_ne_zero b x y σ
    have h2 := Units.sqDistSigma_affine D 1 one_ne_zero b x y σ
    simp only [one_mul, abs_one] at h1 h2
    unfold statKernel
    split <;> simp only [h1, h2]
  · intro D
    have := Units.sigma_affine D 1 b pts
    simp only [one_mul, abs_one] at this
    rw [this]
    cases heuristicSigma D pts <;> rfl

/-- The rotation of the plane by a right-angled triangle of sides 3, 4, 5. -/
noncomputable def turn : Matrix (Fin 2) (Fin 2) ℝ := !![3 / 5, -4 / 5; 4 / 5, 3 / 5]

theorem turn_orth : turn.transpose * turn = 1 := by
  ext i j
  fin_cases i <;> fin_cases j <;> simp [turn, Matrix.mul_apply, Fin.sum_univ_two] <;> norm_num

/-- **C128** violated for the other distances: with the Manhattan and the Chebyshev distances, any bandwidth and any kernel that is nowhere zero, a rotation changes the value of two
points. -/
theorem C128_distances_violated (s : StatKind) (hs : s = .logistic ∨ ∃ b, s = .exponential b) (σ : ℝ) (hσ : 0 < σ) :
    ∀ D ∈ [DistKind.manhattan, .chebyshev], statKernel s D σ (turn.mulVec ![1, 0]) (turn.mulVec ![0, 0]) ≠ statKernel s D σ ![1, 0] ![0, 0] := by
  have h1 : turn.mulVec ![1, 0] = ![3 / 5, 4 / 5] := by
    funext i; fin_cases i <;> simp [turn, Matrix.mulVec, dotProduct, Fin.sum_univ_two]
  have h0 : turn.mulVec ![0, 0] = ![0, 0] := by
    funext i; fin_cases i <;> simp [turn, Matrix.mulVec, dotProduct, Fin.sum_univ_two]
  rw [h1, h0]
  have inj : ∀ u v : ℝ, 0 ≤ u → 0 ≤ v → profile s u = profile s v → u = v := by
    intro u v hu hv h
    rcases hs with rfl | ⟨b, rfl⟩
    · simp only [profile] at h
      have pu := Real.exp_pos u; have pu' := Real.exp_pos (-u)
      have pv := Real.exp_pos v; have pv' := Real.exp_pos (-v)
      rw [div_eq_div_iff (by positivity) (by positivity)] at h
      have h' : Real.cosh u = Real.cosh v := by rw [Real.cosh_eq, Real.cosh_eq]; linarith
      have := le_antisymm (Real.cosh_le_cosh.1 h'.le) (Real.cosh_le_cosh.1 h'.ge)
      rwa [abs_of_nonneg hu, abs_of_nonneg hv] at this
    · have h2 : (0 : ℝ) < Real.sqrt (1 / 2) := Real.sqrt_pos.2 (by norm_num)
      cases b with
      | false =>
        simp only [profile] at h
        have := Real.exp_injective h
        exact mul_right_cancel₀ (neg_ne_zero.2 h2.ne') this
      | true =>
        simp only [profile] at h
        have := Real.exp_injective h
        exact (sq_eq_sq₀ hu hv).1 (by linarith)
  intro D hD
  simp only [List.mem_cons, List.not_mem_nil, or_false] at hD
  have hne : ∀ δ δ' : ℝ, dist D ![3 / 5, 4 / 5] ![0, 0] = .ok δ → dist D ![1, 0] ![0, 0] = .ok δ' → δ ≠ δ' →
      statKernel s D σ ![3 / 5, 4 / 5] ![0, 0] ≠ statKernel s D σ ![1, 0] ![0, 0] := by
    intro δ δ' hδ hδ' hd h
    rw [statKernel_eq s hσ hδ, statKernel_eq s hσ hδ'] at h
    have := inj _ _ (div_nonneg (dist_nonneg' hδ) hσ.le) (div_nonneg (dist_nonneg' hδ') hσ.le) (Except.ok.inj h)
    rw [div_left_inj' hσ.ne'] at this
    exact hd this
  rcases hD with rfl | rfl
  · refine hne (7 / 5) 1 ?_ ?_ (by norm_num)
    · simp only [dist, manhattan, Fin.sum_univ_two]; congr 1; norm_num
    · simp only [dist, manhattan, Fin.sum_univ_two]; congr 1; norm_num
  · have two : ∀ x : Fin 2 → ℝ, ∀ m, |x 0| ≤ m → |x 1| ≤ m → (|x 0| = m ∨ |x 1| = m) → dist .chebyshev x ![0, 0] = .ok m := by
      intro x m ha hb hor
      simp only [dist, chebyshev]
      congr 1
      refine le_antisymm (sup'_le _ _ fun i _ => ?_) ?_
      · fin_cases i <;> simpa
      · rcases hor with h | h
        · rw [← h]; simpa using le_sup' (fun i => |x i - (![0, 0] : Fin 2 → ℝ) i|) (mem_univ 0)
        · rw [← h]; simpa using le_sup' (fun i => |x i - (![0, 0] : Fin 2 → ℝ) i|) (mem_univ 1)
    refine hne (4 / 5) 1 (two _ _ ?_ ?_ (.inr ?_)) (two _ _ ?_ ?_ (.inl ?_)) (by norm_num) <;> simp <;> norm_num [abs_of_pos]

/-- **C128** violated for the normalisations by column: scaling to the unit range the points `(0,0)` and `(1,0)` of the plane moves them to distance 1, scaling them after the rotation
to distance `√2`, so that every kernel of the Euclidean distance gives another value. -/
theorem C128_normalised_violated :
    ∃ Y Z : Fin 2 → Fin 2 → ℝ, eoos (fun x : Fin 2 → ℝ => x) (![![0, 0], ![1, 0]] : Fin 2 → Fin 2 → ℝ) [.minmax] .sample = some Y ∧
      eoos (fun x : Fin 2 → ℝ => turn.mulVec x) (![![0, 0], ![1, 0]] : Fin 2 → Fin 2 → ℝ) [.minmax] .sample = some Z ∧
      euclidSq (Y 0) (Y 1) = 1 ∧ euclidSq (Z 0) (Z 1) = 2 := by
  have hmax : ∀ f : Fin 2 → ℝ, f 0 ≤ f 1 → tmax f = f 1 := by
    intro f h
    refine le_antisymm (sup'_le _ _ fun i _ => ?_) (le_sup' f (mem_univ 1))
    fin_cases i
    · exact h
    · exact le_rfl
  have hmin : ∀ f : Fin 2 → ℝ, f 0 ≤ f 1 → tmin f = f 0 := by
    intro f h
    refine le_antisymm (inf'_le f (mem_univ 0)) (le_inf' _ _ fun i _ => ?_)
    fin_cases i
    · exact le_rfl
    · exact h
  have hE : EPS ≤ 3 / 5 := by norm_num [EPS]
  have hE2 : EPS ≤ 4 / 5 := by norm_num [EPS]
  have hE3 : EPS ≤ 1 := by norm_num [EPS]
  have h1 : turn.mulVec ![1, 0] = ![3 / 5, 4 / 5] := by
    funext i; fin_cases i <;> simp [turn, Matrix.mulVec, dotProduct, Fin.sum_univ_two]
  have h0 : turn.mulVec ![0, 0] = ![0, 0] := by
    funext i; fin_cases i <;> simp [turn, Matrix.mulVec, dotProduct, Fin.sum_univ_two]
  refine ⟨_, _, rfl, rfl, ?_, ?_⟩
  · simp only [applyKind, euclidSq, Fin.sum_univ_two]
    rw [hmax (fun i => (![![0, 0], ![1, 0]] : Fin 2 → Fin 2 → ℝ) i 0) (by simp), hmin (fun i => (![![0, 0], ![1, 0]] : Fin 2 → Fin 2 → ℝ) i 0) (by simp)]
    simp [clampEps, max_eq_left hE3]
  · simp only [applyKind, euclidSq, Fin.sum_univ_two]
    have e : ∀ i, turn.mulVec ((![![0, 0], ![1, 0]] : Fin 2 → Fin 2 → ℝ) i) = (![![0, 0], ![3 / 5, 4 / 5]] : Fin 2 → Fin 2 → ℝ) i := by
      intro i; fin_cases i
      · exact h0
      · exact h1
    simp only [e]
    rw [hmax (fun i => (![![0, 0], ![3 / 5, 4 / 5]] : Fin 2 → Fin 2 → ℝ) i 0) (by simp; norm_num), hmin (fun i => (![![0, 0], ![3 / 5, 4 / 5]] : Fin 2 → Fin 2 → ℝ) i 0) (by simp; norm_num),
      hmax (fun i => (![![0, 0], ![3 / 5, 4 / 5]] : Fin 2 → Fin 2 → ℝ) i 1) (by simp; norm_num), hmin (fun i => (![![0, 0], ![3 / 5, 4 / 5]] : Fin 2 → Fin 2 → ℝ) i 1) (by simp; norm_num)]
    simp [clampEps, max_eq_left hE, max_eq_left hE2]
    norm_num

/-! ## Examples -/

example (x y : Fin 2 → ℝ) : statKernel .quartic .euclidean 2 (turn.mulVec x) (turn.mulVec y) = statKernel .quartic .euclidean 2 x y :=
  (C128_rotation_functions_partial turn turn_orth x y (fun _ : Fin 1 => x)).1 _ _

example (pts : Fin 3 → Fin 2 → ℝ) (x : Fin 4 → Fin 2 → ℝ) : eoos (fun x => turn.mulVec x) pts [.sphere, .mean] (.batch _ x) =
    (eoos (fun x => x) pts [.sphere, .mean] (.batch _ x)).map fun Y i => turn.mulVec (Y i) :=
  C128_rotation_transforms_partial turn turn_orth (fun x => x) pts _ (by simp) _

example (pts : Fin 3 → Fin 2 → ℝ) : eoos (fun (x : Fin 2 → ℝ) j => x (Equiv.swap 0 1 j)) pts [.minmax, .minimum] .sample =
    (eoos (fun x => x) pts [.minmax, .minimum] .sample).map fun Y i j => Y i (Equiv.swap 0 1 j) :=
  C128_columns_transforms (Equiv.swap 0 1) (fun x => x) pts _ _

end Rotate
end Kerch
