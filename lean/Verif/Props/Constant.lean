import Verif.Props.Units
import Verif.Props.Regular
set_option linter.unusedSectionVars false
set_option linter.unusedSimpArgs false
/-!
# C137: constant input features

`aug c x` is the point `x` with an additional feature of value `c`. The model is that of Model/KernelFun, Model/Bandwidth, Model/Transforms and Model/LSSVM; nothing else is defined.
-/
namespace Kerch
namespace Constant
open Finset LSSVM

variable {X n d : Type} [Fintype n] [Nonempty n] [Fintype d]

/-- Specification: a point with an additional feature. -/
def aug (c : ℝ) (x : d → ℝ) : Option d → ℝ := fun o => o.elim c x

theorem aug_none (c : ℝ) (x : d → ℝ) : aug c x none = c := rfl
theorem aug_some (c : ℝ) (x : d → ℝ) (j : d) : aug c x (some j) = x j := rfl

theorem aug_ext (c : ℝ) (x : d → ℝ) (v : Option d → ℝ) (h0 : v none = c) (h1 : ∀ j, v (some j) = x j) : v = aug c x := by
  funext o
  cases o with
  | none => exact h0
  | some j => exact h1 j

section distance
variable [Nonempty d]

theorem aug_euclidSq (c : ℝ) (x y : d → ℝ) : euclidSq (aug c x) (aug c y) = euclidSq x y := by
  simp [euclidSq, Fintype.sum_option, aug]

theorem aug_manhattan (c : ℝ) (x y : d → ℝ) : manhattan (aug c x) (aug c y) = manhattan x y := by
  simp [manhattan, Fintype.sum_option, aug]

theorem aug_chebyshev (c : ℝ) (x y : d → ℝ) : chebyshev (aug c x) (aug c y) = chebyshev x y := by
  unfold chebyshev
  apply le_antisymm
  · refine sup'_le _ _ fun o _ => ?_
    cases o with
    | none =>
      obtain ⟨j⟩ := ‹Nonempty d›
      refine le_trans ?_ (le_sup' (f := fun j => |x j - y j|) (mem_univ j))
      simp [aug]
    | some j => exact le_sup' (f := fun j => |x j - y j|) (mem_univ j)
  · refine sup'_le _ _ fun j _ => ?_
    exact le_sup' (f := fun o => |aug c x o - aug c y o|) (mem_univ (some j))

/-- **C137** Kernels on distances: neither their values nor the bandwidth computed from the sample see a feature of the same value everywhere. -/
theorem C137_distance (s : StatKind) (D : DistKind) (σ c : ℝ) (x y : d → ℝ) : statKernel s D σ (aug c x) (aug c y) = statKernel s D σ x y := by
  have h1 : distSigma D σ (aug c x) (aug c y) = distSigma D σ x y := by
    cases D <;> simp [distSigma, aug_euclidSq, aug_manhattan, aug_chebyshev]
  have h2 : sqDistSigma D σ (aug c x) (aug c y) = sqDistSigma D σ x y := by
    cases D <;> simp [sqDistSigma, aug_euclidSq, aug_manhattan, aug_chebyshev]
  unfold statKernel
  rw [h1, h2]

theorem C137_bandwidth (D : DistKind) (c : ℝ) (pts : n → d → ℝ) : heuristicSigma D (fun i => aug c (pts i)) = heuristicSigma D pts := by
  cases D <;> simp [heuristicSigma, aug_euclidSq, aug_manhattan, aug_chebyshev]
end distance

section transforms

theorem tmean_const (c : ℝ) : tmean (fun _ : n => c) = c := by
  have : (Fintype.card n : ℝ) ≠ 0 := by exact_mod_cast Fintype.card_ne_zero
  simp only [tmean, sum_const, card_univ, nsmul_eq_mul]
  field_simp

theorem tmin_const (c : ℝ) : tmin (fun _ : n => c) = c := by simp [tmin]
theorem tmax_const (c : ℝ) : tmax (fun _ : n => c) = c := by simp [tmax]

theorem tstd_const (c : ℝ) : (tstd (fun _ : n => c)).getD 0 = 0 := by
  unfold tstd
  split
  · rfl
  · simp [tmean_const]

/-- The statistic of a constant column. -/
noncomputable def statConst (k : Kind) (parent : Option Kind) (c : ℝ) : ℝ :=
  match k with
  | .mean | .minimum => c
  | .minmax => if parent = some .minimum then c else 0
  | _ => 0

theorem colStat_aug (k : Kind) (parent : Option Kind) (c : ℝ) (S : n → d → ℝ) :
    colStat k parent (fun i => aug c (S i)) = (colStat k parent S).map fun st => aug (statConst k parent c) st := by
  cases k with
  | mean => exact congrArg some (aug_ext _ _ _ (by simp [aug_none, tmean_const, statConst]) fun _ => rfl)
  | minimum => exact congrArg some (aug_ext _ _ _ (by simp [aug_none, tmin_const, statConst]) fun _ => rfl)
  | variance =>
    unfold colStat
    simp only
    split
    · rfl
    · exact congrArg some (aug_ext _ _ _ (by simp only [aug_none, tstd_const, statConst]) fun _ => rfl)
  | minmax => exact congrArg some (aug_ext _ _ _ (by simp only [aug_none, tmax_const, tmin_const, statConst, sub_self]) fun _ => rfl)
  | sphere => exact congrArg some (aug_ext _ _ _ rfl fun _ => rfl)

/-- What a transform other than the sphere makes of a constant column. -/
noncomputable def step (k : Kind) (parent : Option Kind) (c : ℝ) : ℝ :=
  match k with
  | .mean | .minimum => 0
  | .variance | .minmax => c / clampEps (statConst k parent c)
  | .sphere => 0

theorem apply_aug {ι : Type} (k : Kind) (hk : k ≠ .sphere) (parent : Option Kind) (c : ℝ) (st : d → ℝ) (Y : ι → d → ℝ) :
    applyKind k (aug (statConst k parent c) st) (fun i => aug c (Y i)) = fun i => aug (step k parent c) (applyKind k st Y i) := by
  funext i
  cases k with
  | sphere => exact absurd rfl hk
  | mean => exact aug_ext _ _ _ (by simp [applyKind, aug_none, statConst, step]) fun _ => rfl
  | minimum => exact aug_ext _ _ _ (by simp [applyKind, aug_none, statConst, step]) fun _ => rfl
  | variance => exact aug_ext _ _ _ rfl fun _ => rfl
  | minmax => exact aug_ext _ _ _ rfl fun _ => rfl

theorem apply_aug_zero {ι : Type} (k : Kind) (st : d → ℝ) (Y : ι → d → ℝ) :
    applyKind k (aug 0 st) (fun i => aug 0 (Y i)) = fun i => aug 0 (applyKind k st Y i) := by
  funext i
  cases k with
  | sphere =>
    have h : tnorm (aug 0 (Y i)) = tnorm (Y i) := by simp [tnorm, Fintype.sum_option, aug]
    refine aug_ext _ _ _ ?_ fun j => ?_
    · simp [applyKind, aug_none]
    · simp only [applyKind, h, aug_some]
  | _ => exact aug_ext _ _ _ (by simp [applyKind, aug_none]) fun _ => rfl

theorem statConst_zero (k : Kind) (parent : Option Kind) : statConst k parent 0 = 0 := by
  cases k <;> simp [statConst]

theorem step_eoos (φ' : X → d → ℝ) (pts : n → X) (c c' : ℝ) (k : Kind) (q : List Kind) (a : Arg X)
    (ha : eoos (fun x => aug c (φ' x)) pts q a = (eoos φ' pts q a).map fun Y i => aug c' (Y i))
    (hs : eoos (fun x => aug c (φ' x)) pts q .sample = (eoos φ' pts q .sample).map fun Y i => aug c' (Y i)) (c'' : ℝ)
    (hk : ∀ {ι : Type} (st : d → ℝ) (Y : ι → d → ℝ), applyKind k (aug (statConst k q.head? c') st) (fun i => aug c' (Y i)) = fun i => aug c'' (applyKind k st Y i)) :
    eoos (fun x => aug c (φ' x)) pts (k :: q) a = (eoos φ' pts (k :: q) a).map fun Y i => aug c'' (Y i) := by
  rw [eoos_cons, eoos_cons, ha, ← eoos_sample, hs, ← eoos_sample]
  cases eoos φ' pts q a with
  | none => rfl
  | some Y =>
    cases eoos φ' pts q .sample with
    | none => rfl
    | some S =>
      simp only [Option.map_some, Option.bind_some]
      rw [colStat_aug k q.head? c' S]
      cases colStat k q.head? S with
      | none => rfl
      | some st => exact congrArg some (hk st Y)

/-- **C137** Transforms of the inputs: a feature of the same value at all points is of the same value at all points (of the sample or not) after all transforms but the unit sphere, and the other features are
what they are without it; what fails without it fails with it. -/
theorem C137_transforms (φ : X → d → ℝ) (pts : n → X) (c : ℝ) (p : List Kind) (hp : ∀ k ∈ p, k ≠ .sphere) :
    ∃ c', ∀ a : Arg X, eoos (fun x => aug c (φ x)) pts p a = (eoos φ pts p a).map fun Y i => aug c' (Y i) := by
  induction p with
  | nil => exact ⟨c, fun a => by cases a <;> rfl⟩
  | cons k p ih =>
    obtain ⟨c', h⟩ := ih fun k hk => hp k (List.mem_cons_of_mem _ hk)
    exact ⟨step k p.head? c', fun a => step_eoos φ pts c c' k p a (h a) (h .sample) _ fun st Y => apply_aug k (hp k List.mem_cons_self) p.head? c' st Y⟩

/-- **C137** If the first transform is a centring, it is zero from there on, and all transforms that follow, the unit sphere too, are as without it. -/
theorem C137_centred (φ : X → d → ℝ) (pts : n → X) (c : ℝ) (k₀ : Kind) (hk : k₀ = .mean ∨ k₀ = .minimum) (p : List Kind) (a : Arg X) :
    eoos (fun x => aug c (φ x)) pts (p ++ [k₀]) a = (eoos φ pts (p ++ [k₀]) a).map fun Y i => aug 0 (Y i) := by
  induction p generalizing a with
  | nil =>
    have h0 : ∀ a : Arg X, eoos (fun x => aug c (φ x)) pts [] a = (eoos φ pts [] a).map fun Y i => aug c (Y i) := fun a => by cases a <;> rfl
    refine step_eoos φ pts c c k₀ [] a (h0 a) (h0 .sample) 0 fun st Y => ?_
    have := apply_aug k₀ (by rcases hk with rfl | rfl <;> simp) (List.head? ([] : List Kind)) c st Y
    rw [this]
    rcases hk with rfl | rfl <;> rfl
  | cons k p ih =>
    rw [List.cons_append]
    refine step_eoos φ pts c 0 k (p ++ [k₀]) a (ih a) (ih .sample) 0 fun st Y => ?_
    rw [statConst_zero]
    exact apply_aug_zero k st Y

end transforms

/-- **C137** Linear kernels: the value is that without the feature, plus the square of the constant. -/
theorem C137_linear (c : ℝ) (x y : d → ℝ) : linearKernel (aug c x) (aug c y) = linearKernel x y + c * c := by
  simp [linearKernel, dotProduct, Fintype.sum_option, aug, add_comm]

/-- After the centring of the kernel matrix, or on inputs where it is zero, nothing is left of it, in any kernel of inner products. -/
theorem C137_linear_centred (c : ℝ) (pts : n → d → ℝ) (p : List Kind) (a b : Arg (d → ℝ)) :
    ioos (fun x y : d → ℝ => linearKernel (aug c x) (aug c y)) pts (p ++ [.mean]) a b = ioos (fun x y : d → ℝ => linearKernel x y) pts (p ++ [.mean]) a b := by
  have h := Units.C120_added (fun x y : d → ℝ => linearKernel x y) (fun _ => c * c / 2) pts p a b
  rw [← h]
  congr 1
  funext x y
  rw [C137_linear]; ring

theorem C137_inner (f : ℝ → ℝ) (x y : d → ℝ) : f (aug 0 x ⬝ᵥ aug 0 y) = f (x ⬝ᵥ y) := by
  congr 1
  simp [dotProduct, Fintype.sum_option, aug]

/-- **C137** An LS-SVM with the linear kernel needs no centring: its systems have the same solutions and it makes the same predictions with and without the feature. -/
theorem C137_lssvm (c : ℝ) (pts : n → d → ℝ) (γ : ℝ) (y h : n → ℝ) (b : ℝ) :
    (DualSol (fun i j => linearKernel (aug c (pts i)) (aug c (pts j))) γ y h b ↔ DualSol (fun i j => linearKernel (pts i) (pts j)) γ y h b) ∧
      (DualSol (fun i j => linearKernel (pts i) (pts j)) γ y h b → ∀ x, outDual (fun i => linearKernel (aug c x) (aug c (pts i))) h b = outDual (fun i => linearKernel x (pts i)) h b) := by
  have key : (∑ i, h i = 0) → ∀ x : d → ℝ, ∑ j, linearKernel (aug c x) (aug c (pts j)) * h j = ∑ j, linearKernel x (pts j) * h j := by
    intro h0 x
    simp only [C137_linear, add_mul, sum_add_distrib, ← mul_sum, h0, mul_zero, add_zero]
  refine ⟨⟨fun hs => ⟨fun i => ?_, hs.2⟩, fun hs => ⟨fun i => ?_, hs.2⟩⟩, fun hs x => ?_⟩
  · rw [← key hs.2]; exact hs.1 i
  · rw [key hs.2]; exact hs.1 i
  · unfold outDual; rw [key hs.2]

/-- The polynomial kernel, which is not centred on its inputs, does see the feature. -/
theorem C137_polynomial (c : ℝ) (hc : c ≠ 0) : ∃ x y : Fin 1 → ℝ, polyKernel 2 1 (aug c x) (aug c y) ≠ polyKernel 2 1 x y := by
  refine ⟨fun _ => 0, fun _ => 0, ?_⟩
  simp [polyKernel, dotProduct, Fintype.sum_option, aug]
  have h1 := mul_self_pos.2 hc
  exact ⟨hc, fun h => by nlinarith⟩

/-- Standardised inputs where a point out of sample has another value of the feature: whatever the unit, the difference is multiplied by `1 / EPS` (ten millions). -/
theorem C137_other_value (c c' : ℝ) (hn : Fintype.card n ≠ 1) :
    eoos (fun (x : ℝ) (_ : Unit) => x) (fun _ : n => c) [.variance, .mean] (.batch Unit fun _ => c') = some fun _ _ => (c' - c) / EPS := by
  have e : clampEps 0 = EPS := max_eq_right EPS_pos.le
  have hm : tmean (fun _ : n => c) = c := tmean_const c
  simp only [eoos, esample, colStat, applyKind, List.head?, Option.bind_eq_bind, Option.bind_some, hm, sub_self, if_neg hn, tstd_const, e]

/-! ## Examples -/

/-- `C137_transforms`, `C137_centred` on two points of the line with a feature of value 7. -/
example : ∃ c', ∀ a, eoos (fun x : Fin 1 → ℝ => aug 7 x) (![fun _ => 0, fun _ => 1] : Fin 2 → Fin 1 → ℝ) [.minmax, .variance] a
    = (eoos (fun x => x) (![fun _ => 0, fun _ => 1] : Fin 2 → Fin 1 → ℝ) [.minmax, .variance] a).map fun Y i => aug c' (Y i) :=
  C137_transforms _ _ 7 _ (by simp)
example (a : Arg (Fin 1 → ℝ)) : eoos (fun x : Fin 1 → ℝ => aug 7 x) (![fun _ => 0, fun _ => 1] : Fin 2 → Fin 1 → ℝ) [.sphere, .variance, .mean] a
    = (eoos (fun x => x) (![fun _ => 0, fun _ => 1] : Fin 2 → Fin 1 → ℝ) [.sphere, .variance, .mean] a).map fun Y i => aug 0 (Y i) :=
  C137_centred _ _ 7 .mean (Or.inl rfl) [.sphere, .variance] a
/-- `C137_lssvm` on the two points 0 and 1 with targets 0 and 3. -/
example : DualSol (fun i j : Fin 2 => linearKernel (aug 7 (![fun _ : Fin 1 => (0 : ℝ), fun _ => 1] i)) (aug 7 (![fun _ : Fin 1 => (0 : ℝ), fun _ => 1] j))) 1 ![0, 3] ![-1, 1] 1 := by
  refine ((C137_lssvm 7 _ 1 _ _ 1).1).2 ⟨fun i => ?_, by simp⟩
  fin_cases i <;> norm_num [linearKernel, dotProduct, Fin.sum_univ_two]
example : Fintype.card (Fin 3) ≠ 1 := by decide
end Constant
end Kerch
