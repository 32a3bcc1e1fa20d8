import Verif.Props.KernelMat
import Verif.Props.Preimage
import Verif.Props.Polynomial
import Verif.Props.Implicit
import Mathlib.Tactic.NormNum
/-!
# The parts of C32 and C83 that fail

The other theorems on these properties leave out some cases; here is what happens in them.
-/
set_option linter.unusedSectionVars false
set_option linter.unusedSimpArgs false
namespace Kerch

/-! ## C32: `K` and `k()` of the polynomial kernel

`K` goes by the features (the degree being a natural number), `k()` by the features only when there are more points than twice their number. -/
section
variable {X n d : Type} [Fintype n] [Nonempty n] [Fintype d]

open Classical in
theorem polyK_sample_route (φ : X → d → ℝ) (κ : X → X → ℝ) (pts : n → X) (p : List Kind) (dim : ℕ) [Fintype (Arg.I n (.sample : Arg X))] (b : Arg X) :
    polyK φ κ pts p dim none (.sample : Arg X) b = kernelK φ κ pts p (decide (2 * dim < Fintype.card n)) .sample .sample := by
  have hc : Fintype.card (Arg.I n (.sample : Arg X)) = Fintype.card n := Fintype.card_congr (Equiv.refl _)
  have : decide (dim * (Fintype.card n + Fintype.card n) < Fintype.card n * Fintype.card n) = decide (2 * dim < Fintype.card n) := by
    rw [decide_eq_decide, show dim * (Fintype.card n + Fintype.card n) = (2 * dim) * Fintype.card n by ring]
    exact ⟨fun h => Nat.lt_of_mul_lt_mul_right h, fun h => Nat.mul_lt_mul_of_pos_right h Fintype.card_pos⟩
  simp only [polyK, hc, this]

/-- **C32** for the polynomial kernel, the part that holds: `K` is `k()` for chains of centering and unit sphere normalisation where no norm is small, and for any chain if there
are more points than twice the number of features. -/
theorem C32_polynomial_partial (p : List Kind) (dim : ℕ) (env : KEnv X n d) [Fintype (Arg.I n (.sample : Arg X))]
    (h : 2 * dim < Fintype.card n ∨ (∀ x y, env.κ x y = env.φ x ⬝ᵥ env.φ y) ∧ (∀ k ∈ p, k = .mean ∨ k = .sphere) ∧ Guarded env.φ env.pts p .sample) :
    (kernelMats true p).fresh env "K" = (polyK env.φ env.κ env.pts p dim none (.sample : Arg X) .sample).map .kmat := by
  rw [C32_K_is_k, polyK_sample_route]
  by_cases hd : 2 * dim < Fintype.card n
  · rw [decide_eq_true hd]
  · rw [decide_eq_false hd]
    rcases h with h | ⟨h1, h2, h3⟩
    · exact absurd h hd
    · rw [C32_routes_partial env.φ env.κ env.pts h1 p h2 h3 .sample .sample h3 h3]

/-- **C32** is violated by the polynomial kernel: with any other transform and at most twice as many points as features, `K` is the matrix of the transformed features while
`k()` raises. -/
theorem C32_polynomial_violated (p : List Kind) (hp : ∃ k ∈ p, k ≠ .mean ∧ k ≠ .sphere) (dim : ℕ) (env : KEnv X n d) [Fintype (Arg.I n (.sample : Arg X))]
    (hd : Fintype.card n ≤ 2 * dim) :
    (∃ e, polyK env.φ env.κ env.pts p dim none (.sample : Arg X) .sample = .error e) ∧
    (kernelMats true p).fresh env "K" = .ok (.kmat ((esample env.φ env.pts p).map fun Y i j => Y i ⬝ᵥ Y j)) := by
  constructor
  · rw [polyK_sample_route, decide_eq_false (by omega), kernelK_implicit]
    obtain ⟨e, he⟩ := C19_others_refused env.pts env.κ p hp .sample .sample
    exact ⟨e, by rw [he]; rfl⟩
  · rw [C32_K_is_k, kernelK_explicit, eoos_sample]
    cases esample env.φ env.pts p <;> rfl

end

/-- **C32** is violated by the polynomial kernel, with values: `(x y + 0) ^ 1`, normalised, on the point `10⁻⁴`: `K` is 1, `k()` is 1/10. -/
theorem C32_small_norm_violated : ∃ A B : Unit → Unit → ℝ,
    (kernelMats true [.sphere]).fresh (⟨fun x _ => x, fun x y => x * y, fun _ => 1e-4⟩ : KEnv ℝ Unit Unit) "K" = .ok (.kmat (some A)) ∧ A () () = 1 ∧
    kernelK (fun x (_ : Unit) => x) (fun x y : ℝ => x * y) (fun _ : Unit => (1e-4 : ℝ)) [.sphere] false .sample .sample = .ok (some B) ∧ B () () = 1 / 10 := by
  obtain ⟨A, h1, h2, h3⟩ := C19_small_norm_violated
  refine ⟨fun i j => A i ⬝ᵥ A j, fun _ _ => 1 / 10, ?_, h2, ?_, rfl⟩
  · rw [C32_K_is_k, kernelK_explicit, h1]; rfl
  · rw [kernelK_implicit, h3]; rfl

/-- Degree 2 in dimension 1, two points, standardised features: the hypotheses of `C32_polynomial_violated`. -/
example : (∃ k ∈ [Kind.variance, Kind.mean], k ≠ .mean ∧ k ≠ .sphere) ∧ Fintype.card (Fin 2) ≤ 2 * polyDimFeature 1 2 :=
  ⟨⟨.variance, by simp, by simp, by simp⟩, by decide⟩
/-- Those of `C32_polynomial_partial`: seven points. -/
example : 2 * polyDimFeature 1 2 < Fintype.card (Fin 7) := by decide

/-! ## C83: samples of one point -/
section
open Preimage
variable {n d m : Type} [Fintype n] [Nonempty n] [Fintype d] [Fintype m]

theorem erevert_none {X d : Type} [Fintype d] (φ : X → d → ℝ) (pts : n → X) (p : List Kind) (hp : Kind.sphere ∉ p) {ι : Type} :
    erevert φ pts p (none : Option (ι → d → ℝ)) = .ok none := by
  induction p with
  | nil => rfl
  | cons k p ih =>
    rw [erevert_cons _ _ _ (fun h => hp (by simp [h])), Option.bind_none]
    exact ih fun h => hp (List.mem_cons_of_mem _ h)

theorem erevert_single {X d : Type} [Fintype d] (h1 : Fintype.card n = 1) (φ : X → d → ℝ) (pts : n → X) (p : List Kind) (hp : Kind.sphere ∉ p) (hv : Kind.variance ∈ p)
    {ι : Type} (v : Option (ι → d → ℝ)) : erevert φ pts p v = .ok none := by
  obtain ⟨q, r, rfl⟩ := List.append_of_mem hv
  induction q generalizing v with
  | nil => exact (C17_single_point_violated φ pts h1 r [] .sample).2 (fun h => hp (by simp [h])) v
  | cons k q ih =>
    rw [List.cons_append, erevert_cons _ _ _ (fun h => hp (by simp [h]))]
    exact ih _ (fun h => hp (List.mem_cons_of_mem _ h)) (by simp)

/-- **C83** is violated for a sample of one point whose features or inputs are brought to unit variance: the features of anything are not numbers, and neither is the pre-image of
anything. -/
theorem C83_single_point_violated (h1 : Fintype.card n = 1) (p q : List Kind) (hv : Kind.variance ∈ p ∨ Kind.variance ∈ q) (hp : Kind.sphere ∉ p) (hq : Kind.sphere ∉ q)
    (ψ : (d → ℝ) → m → ℝ) (g : (m → ℝ) → d → ℝ) (pts : n → d → ℝ) (a : Arg (d → ℝ)) {ι : Type} (F : ι → m → ℝ) :
    phi p q ψ pts a = none ∧ explicitPreimage p q ψ (.ok g) pts (some F) = .ok none := by
  constructor
  · rcases hv with hv | hv
    · obtain ⟨q', r, rfl⟩ := List.append_of_mem hv
      have hs : esample id pts (q' ++ .variance :: r) = none := by
        rw [← eoos_sample]; exact (C17_single_point_violated id pts h1 r q' .sample).1
      cases a <;> simp only [phi, hs, Option.bind_none]
    · obtain ⟨q', r, rfl⟩ := List.append_of_mem hv
      cases a with
      | sample =>
        simp only [phi]
        cases esample id pts p with
        | none => rfl
        | some S => rw [Option.bind_some, ← eoos_sample]; exact (C17_single_point_violated ψ S h1 r q' .sample).1
      | batch ι x =>
        simp only [phi]
        cases esample id pts p with
        | none => rfl
        | some S =>
          rw [Option.bind_some]
          cases eoos id pts p (.batch ι x) with
          | none => rfl
          | some Y => exact (C17_single_point_violated ψ S h1 r q' (.batch ι Y)).1
  · unfold explicitPreimage
    by_cases hv' : Kind.variance ∈ p
    · obtain ⟨φ, hφ⟩ : ∃ φ, revertFeatures q ψ (esample id pts p) (some F) = .ok φ := by
        unfold revertFeatures
        cases hS : esample id pts p with
        | none => exact ⟨if q = [] then some F else none, by simp only [hq, if_false]⟩
        | some S =>
          obtain ⟨q', r, rfl⟩ := List.append_of_mem hv'
          rw [← eoos_sample, (C17_single_point_violated id pts h1 r q' .sample).1] at hS
          cases hS
      rw [hφ]
      exact erevert_single h1 id pts p hp hv' _
    · have hvq := hv.resolve_left hv'
      have hr : revertFeatures q ψ (esample id pts p) (some F) = .ok none := by
        unfold revertFeatures
        cases hS : esample id pts p with
        | none =>
          simp only [hq, if_false]
          rw [if_neg (by rintro rfl; cases hvq)]
        | some S => exact erevert_single h1 ψ S q hq hvq _
      rw [hr]
      exact erevert_none id pts p hp

/-- A standardised linear kernel on one point. -/
example : phi [.variance, .mean] [] id (fun (_ : Unit) (_ : Fin 2) => (3 : ℝ)) (.batch Unit fun _ _ => 5) = none ∧
    explicitPreimage [.variance, .mean] [] id (.ok id) (fun (_ : Unit) (_ : Fin 2) => (3 : ℝ)) (some fun (_ : Unit) _ => 5) = .ok none :=
  C83_single_point_violated rfl _ _ (.inl (by simp)) (by decide) (by decide) id id _ _ _

end
end Kerch
