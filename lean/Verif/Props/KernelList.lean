import Verif.Model.KernelList
import Verif.Props.Names
import Verif.Lemmas.Transforms
import Verif.Props.Implicit
set_option linter.unusedSectionVars false
set_option linter.unusedSimpArgs false
/-!
# C21–C23: lists of transforms given to kernels
-/
namespace Kerch
open Finset

/-! ## C21 -/

/-- The caller's list after a number of uses of the same list, each by one of the given functions. -/
def useList (uses : List (List TrArg → List TrArg)) (l : List TrArg) : List TrArg := uses.foldl (fun l f => f l) l

/-- The uses of a list: construction of a kernel, evaluation with this list. -/
inductive Use
  | init (K : KCls) (center normalize : Bool)
  | eval (K : KCls)

def Use.effect : Use → List TrArg → List TrArg
  | .init K c n => fun l => (kernelInit K c n l).1
  | .eval K => fun l => (evalChain K l).1

/-- The list given by the user is unchanged by any number of uses by kernels that require no transform of their own, without the arguments `center`
and `normalize`. Missing (`_partial`): the cosine kernel and these two arguments. -/
theorem C21_unchanged_partial (uses : List Use)
    (h : ∀ u ∈ uses, match u with | .init K c n => K.required = none ∧ c = false ∧ n = false | .eval K => K.required = none)
    (l : List TrArg) : useList (uses.map Use.effect) l = l := by
  induction uses generalizing l with
  | nil => rfl
  | cons u uses ih =>
    have hu := h u (List.mem_cons_self)
    have : u.effect l = l := by
      cases u with
      | init K c n => obtain ⟨h1, h2, h3⟩ := hu; simp [Use.effect, kernelInit, simplify, h1, h2, h3]
      | eval K =>
        have hu : K.required = none := hu
        simp [Use.effect, evalChain, simplify, hu]
    show useList (uses.map Use.effect) (u.effect l) = l
    rw [this]
    exact ih (fun u hu => h u (List.mem_cons_of_mem _ hu)) l

example : ∀ u ∈ [Use.init KCls.linear false false, Use.eval (KCls.stat .uniform)],
    match u with | .init K c n => K.required = none ∧ c = false ∧ n = false | .eval K => K.required = none := by
  simp [KCls.linear, KCls.stat]

/-- Violation: a list used `m` times with a cosine kernel has `m` more elements. -/
theorem C21_cosine_violated (m : ℕ) (l : List TrArg) :
    useList (List.replicate m (Use.effect (.eval .cosine))) l = l ++ List.replicate m (.name "unit_sphere_normalization") ∧
    useList (List.replicate m (Use.effect (.init .cosine false false))) l = l ++ List.replicate m (.name "unit_sphere_normalization") := by
  have key : ∀ (f : List TrArg → List TrArg), (∀ l, f l = l ++ [.name "unit_sphere_normalization"]) →
      useList (List.replicate m f) l = l ++ List.replicate m (.name "unit_sphere_normalization") := by
    intro f hf
    induction m generalizing l with
    | zero => simp [useList]
    | succ m ih =>
      show useList (List.replicate m f) (f l) = _
      rw [ih, hf]
      simp [List.replicate_succ]
  exact ⟨key _ fun l => rfl, key _ fun l => by simp [Use.effect, kernelInit, simplify, KCls.cosine]⟩

/-- Violation: the same with the arguments `center` and `normalize`, for every kernel. -/
theorem C21_legacy_violated (K : KCls) (l : List TrArg) :
    (kernelInit K true false l).1 = l ++ [.name "mean_centering"] ++ K.required.toList ∧
    (kernelInit K false true l).1 = l ++ [.name "unit_sphere_normalization"] ++ K.required.toList ∧
    (kernelInit K true true l).1 = l ++ [.name "mean_centering", .name "unit_sphere_normalization"] ++ K.required.toList := by
  simp [kernelInit, simplify]

/-- Violation, observed: a list `['center']` used once for a cosine kernel makes a linear kernel normalise. -/
theorem C21_reuse_violated :
    (evalChain .linear [.name "center"]).2 = .ok [.mean] ∧
    (evalChain .linear (evalChain .cosine [.name "center"]).1).2 = .ok [.mean, .sphere] := by
  simp [evalChain, simplify, KCls.linear, KCls.cosine, beautify, expand, allTransform, Dict.find, Except.map, Except.bind,
    dedupLoop, dropFirst]

/-! ## C22 -/

section C22
variable {X n : Type} [Fintype n] [Nonempty n] (κ : X → X → ℝ) (pts : n → X)

theorem clampEps_one : clampEps 1 = 1 := clampEps_of_le EPS_lt_one.le

/-- A first unit sphere normalisation does nothing to a kernel with unit diagonal, whatever follows (chains from last to first). -/
theorem C22_first_sphere (h1 : ∀ x, κ x x = 1) (p : List Kind) (a b : Arg X) :
    ioos κ pts (p ++ [.sphere]) a b = ioos κ pts p a b := by
  induction p generalizing a b with
  | nil =>
    cases a <;> cases b <;>
      simp [ioos, istep, bind, Except.bind, Except.map, h1, Arg.pt, clampEps_one]
  | cons k p ih =>
    have hfun : (fun a b => ioos κ pts (p ++ [.sphere]) a b) = fun a b => ioos κ pts p a b := by funext a b; exact ih a b
    have hfun' : ioos κ pts (p ++ [.sphere]) = ioos κ pts p := hfun
    cases a with
    | batch ι x => rw [List.cons_append, ioos_cons_batch, ioos_cons_batch, hfun']
    | sample =>
      cases b with
      | sample => rw [List.cons_append, ioos_cons_sample, ioos_cons_sample, hfun']
      | batch ι y => rw [List.cons_append, ioos_cons_sample_batch, ioos_cons_sample_batch, hfun']

/-- What `_simplify_transform` drops does not change the values, if the kernel has unit diagonal. -/
theorem C22_drop_partial (K : KCls) (h1 : K.natNorm = true → ∀ x, κ x x = 1) (t : List Kind) (a b : Arg X) :
    ioos κ pts (dropFirst K t).reverse a b = ioos κ pts t.reverse a b := by
  unfold dropFirst
  split
  · split
    · rename_i h
      rw [List.reverse_cons, C22_first_sphere κ pts (h1 h)]
    · rfl
  · rfl

end C22

section C22
variable {d : Type} [Fintype d] [Nonempty d]

theorem euclidSq_self (x : d → ℝ) : euclidSq x x = 0 := by simp [euclidSq]
theorem manhattan_self (x : d → ℝ) : manhattan x x = 0 := by simp [manhattan]
theorem chebyshev_self (x : d → ℝ) : chebyshev x x = 0 := by
  unfold chebyshev
  simp

theorem distSigma_self (D : DistKind) (hD : ∀ p, D ≠ .minkowski p) (σ : ℝ) (x : d → ℝ) :
    distSigma D σ x x = .ok 0 ∧ sqDistSigma D σ x x = .ok 0 := by
  cases D with
  | euclidean => simp [distSigma, sqDistSigma, euclidSq_self]
  | manhattan => simp [distSigma, sqDistSigma, manhattan_self]
  | chebyshev => simp [distSigma, sqDistSigma, chebyshev_self]
  | minkowski p => exact absurd rfl (hD p)

theorem profile_zero (s : StatKind) (hs : s ≠ .silverman) : profile s 0 = 1 := by
  cases s with
  | silverman => exact absurd rfl hs
  | logistic => norm_num [profile]
  | exponential b => cases b <;> simp [profile]
  | _ => simp [profile]

/-- All statistics kernels but Silverman's have unit diagonal, so that dropping the normalisation is sound for them. -/
theorem C22_unit_diagonal_partial (s : StatKind) (hs : s ≠ .silverman) (D : DistKind) (hD : ∀ p, D ≠ .minkowski p) (σ : ℝ)
    (x : d → ℝ) : statKernel s D σ x x = .ok 1 := by
  obtain ⟨h1, h2⟩ := distSigma_self D hD σ x
  have hp := profile_zero s hs
  cases s with
  | exponential b =>
    cases b
    · simp only [statKernel, h1, Except.map, hp]
    · simp [statKernel, h2, Except.map]
  | _ => simp only [statKernel, h1, Except.map, hp]

/-- Violation: Silverman's kernel is announced as normalized, its diagonal is `√½`; normalising it, asked for by the user, is dropped, and changes
the value. -/
theorem C22_silverman_violated (D : DistKind) (hD : ∀ p, D ≠ .minkowski p) (σ : ℝ) (x : d → ℝ) :
    (KCls.stat .silverman).natNorm = true ∧
    statKernel .silverman D σ x x = .ok (Real.sqrt (1 / 2)) ∧ Real.sqrt (1 / 2) ≠ 1 ∧
    dropFirst (.stat .silverman) [.sphere] = [] ∧
    ∀ κ : (d → ℝ) → (d → ℝ) → ℝ, κ x x = Real.sqrt (1 / 2) →
      ioos κ (fun _ : Unit => x) [] .sample .sample = .ok (fun _ _ => Real.sqrt (1 / 2)) ∧
      ioos κ (fun _ : Unit => x) [.sphere] .sample .sample = .ok (fun _ _ => 1) := by
  have h0 : (0 : ℝ) < Real.sqrt (1 / 2) := Real.sqrt_pos.2 (by norm_num)
  have hsq : Real.sqrt (1 / 2) * Real.sqrt (1 / 2) = 1 / 2 := Real.mul_self_sqrt (by norm_num)
  refine ⟨rfl, ?_, ?_, rfl, ?_⟩
  · obtain ⟨h1, h2⟩ := distSigma_self D hD σ x
    simp only [statKernel, h1, Except.map, profile]
    congr 1
    have h4 : (0.25 * Real.pi + Real.sqrt (1 / 2) * 0 : ℝ) = Real.pi / 4 := by ring
    rw [h4, Real.sin_pi_div_four]
    have h5 : Real.sqrt (1 / 2) = Real.sqrt 2 / 2 := by
      rw [Real.sqrt_eq_iff_mul_self_eq (by norm_num) (by positivity)]
      have := Real.mul_self_sqrt (show (0 : ℝ) ≤ 2 by norm_num)
      nlinarith
    rw [h5]
    simp
  · intro h; rw [h] at hsq; norm_num at hsq
  · intro κ hk
    refine ⟨?_, ?_⟩
    · show Except.ok _ = _
      congr 1
      funext i j
      exact hk
    · show Except.ok _ = _
      congr 1
      funext i j
      show κ x x / clampEps (Real.sqrt (κ x x) * Real.sqrt (κ x x)) = 1
      rw [Real.mul_self_sqrt (by rw [hk]; exact h0.le), hk, clampEps_of_le]
      · exact div_self h0.ne'
      · refine Real.le_sqrt_of_sq_le ?_
        norm_num [EPS]

end C22

/-! ## C23 -/

section C23
variable {X n d : Type} [Fintype n] [Nonempty n] [Fintype d]

/-- The chain meant by the documentation: normalise first, then `t`. -/
def cosineSpec (T : List TrArg) : Except Err (List Kind) := (evalChain .linear (.name "normalize" :: T)).2

theorem beautify_cls (t : List Kind) : beautify (t.map .cls) = .ok (dedupLoop t 0 0 none) := by
  have : expand (t.map .cls) = .ok t := by
    induction t with
    | nil => rfl
    | cons k t ih => simp [expand, ih, Except.map]
  simp [beautify, this, Except.map]

/-- Without transforms, or with a normalisation only, the cosine kernel applies the chain of a normalised linear kernel. Missing (`_partial`): all
other lists, see `C23_actual`. -/
theorem C23_same_chain_partial (T : List TrArg) (hT : T = [] ∨ T = [.cls .sphere]) :
    (evalChain .cosine T).2 = cosineSpec T ∧ cosineSpec T = .ok [.sphere] := by
  rcases hT with rfl | rfl <;>
    simp [cosineSpec, evalChain, simplify, KCls.linear, KCls.cosine, beautify, expand, allTransform, Dict.find, Except.map, Except.bind,
      dedupLoop, dropFirst]

/-- The values of this chain on vectors: the cosine of the angle, up to the guard. -/
theorem C23_values (pts : n → d → ℝ) (a : Arg (d → ℝ)) :
    ∃ A, eoos id pts [.sphere] a = some A ∧
      ∀ i, A i = fun j => a.pt pts i j / max (Real.sqrt (∑ l, a.pt pts i l ^ 2)) EPS := by
  obtain ⟨A, hA⟩ := eoos_isSome id pts [.sphere] a (by simp)
  refine ⟨A, hA, fun i => ?_⟩
  rw [eoos_cons, eoos_nil] at hA
  rw [← Option.some.inj hA]
  rfl

/-- What the cosine kernel applies to a list of transforms without repetition: the normalisation comes last. -/
theorem C23_actual (t : List Kind) (h : t.IsChain (· ≠ ·)) :
    (evalChain .cosine (t.map .cls)).2 = .ok (if t.getLast? = some .sphere then t else t ++ [.sphere]) := by
  have e1 : ∀ t : List Kind, expand (t.map .cls ++ [.name "unit_sphere_normalization"]) = .ok (t ++ [.sphere]) := by
    intro t
    induction t with
    | nil => simp [expand, allTransform, Dict.find, Except.map]
    | cons k t ih => simp [expand, ih, Except.map]
  have hdrop : ∀ l, dropFirst KCls.cosine l = l := by
    intro l
    unfold dropFirst
    split
    · rfl
    · rfl
  have hb : beautify (t.map .cls ++ [.name "unit_sphere_normalization"])
      = .ok (if t.getLast? = some .sphere then t else t ++ [.sphere]) := by
    simp only [beautify, e1, Except.map]
    congr 1
    split
    · rename_i hl
      obtain ⟨l, rfl⟩ : ∃ l, t = l ++ [.sphere] := by
        obtain ⟨l, rfl⟩ := List.getLast?_eq_some_iff.1 hl
        exact ⟨l, rfl⟩
      have := (C15_single_pair_partial l [] Kind.sphere h (by simp)).1
      simpa using this
    · rename_i hl
      refine (C15_no_repetition_partial _ ?_).1
      rw [List.isChain_append]
      refine ⟨h, by simp, ?_⟩
      intro x hx y hy
      simp only [List.head?_cons, Option.mem_def, Option.some.injEq] at hx hy
      subst hy
      intro hxy
      exact hl (by rw [← hxy]; exact hx)
  have hsimp : (simplify KCls.cosine (t.map .cls)).2 = .ok (if t.getLast? = some .sphere then t else t ++ [.sphere]) := by
    show (beautify (t.map .cls ++ [.name "unit_sphere_normalization"])).map _ = _
    rw [hb]
    simp only [Except.map, hdrop]
  show Except.bind (simplify KCls.cosine (t.map .cls)).2 _ = _
  rw [hsimp]
  show beautify _ = _
  rw [beautify_cls]
  congr 1
  refine (C15_no_repetition_partial _ ?_).1
  split
  · exact h
  · rename_i hl
    rw [List.isChain_append]
    refine ⟨h, by simp, ?_⟩
    intro x hx y hy
    simp only [List.head?_cons, Option.mem_def, Option.some.injEq] at hx hy
    subst hy
    intro hxy
    exact hl (by rw [← hxy]; exact hx)

example : [Kind.mean, .sphere, .minimum].IsChain (· ≠ ·) := by decide

/-- Violation on values: with `['center']` and the sample `1, 3` of the line, the cosine kernel gives `k(x₀, x₁) = -1`, the linear one with
`['normalize', 'center']` gives `0`. -/
theorem C23_order_violated :
    (evalChain .cosine [.name "center"]).2 = .ok [.mean, .sphere] ∧ cosineSpec [.name "center"] = .ok [.sphere, .mean] ∧
    (∃ A, esample id (fun (i : Fin 2) (_ : Unit) => 1 + 2 * (i : ℝ)) [.sphere, .mean] = some A ∧ A 0 ⬝ᵥ A 1 = -1) ∧
    (∃ A, esample id (fun (i : Fin 2) (_ : Unit) => 1 + 2 * (i : ℝ)) [.mean, .sphere] = some A ∧ A 0 ⬝ᵥ A 1 = 0) := by
  refine ⟨?_, ?_, ⟨_, rfl, ?_⟩, ⟨_, rfl, ?_⟩⟩
  · simp [evalChain, simplify, KCls.linear, KCls.cosine, beautify, expand, allTransform, Dict.find, Except.map, Except.bind,
      dedupLoop, dropFirst]
  · simp [cosineSpec, evalChain, simplify, KCls.linear, KCls.cosine, beautify, expand, allTransform, Dict.find, Except.map, Except.bind,
      dedupLoop, dropFirst]
  · have h1 : clampEps 1 = 1 := clampEps_one
    norm_num [applyKind, colStat, tmean, Fin.sum_univ_two, dotProduct, tnorm, h1]
  · have h1 : clampEps 1 = 1 := clampEps_one
    have h3 : clampEps 3 = 3 := clampEps_of_le (by linarith [EPS_lt_one])
    have h9 : Real.sqrt 9 = 3 := by rw [show (9 : ℝ) = 3 ^ 2 by norm_num]; exact Real.sqrt_sq (by norm_num)
    norm_num [applyKind, colStat, tmean, Fin.sum_univ_two, dotProduct, tnorm, h1, h3, h9]

end C23
end Kerch
