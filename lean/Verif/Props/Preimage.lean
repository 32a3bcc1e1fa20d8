import Verif.Model.Preimage
import Verif.Props.Transforms
import Verif.Props.Implicit
import Verif.Props.RandomFeatures
import Verif.Props.Methods
import Verif.Lemmas.PSD
set_option linter.unusedSectionVars false
set_option linter.unusedSimpArgs false
/-!
# C83–C85: pre-images of a kernel
-/
namespace Kerch
open Finset

/-! ## C83 -/

namespace Preimage
variable {n d m : Type} [Fintype n] [Nonempty n] [Fintype d] [Fintype m]

theorem erevert_reaches {X : Type} (φ : X → d → ℝ) (pts : n → X) (p : List Kind) (hp : Kind.sphere ∉ p)
    (hv : Kind.variance ∈ p → Fintype.card n ≠ 1) {ι : Type} (Z : ι → d → ℝ) :
    ∃ W, erevert φ pts p (some Z) = .ok (some W) ∧ ∀ x : ι → X, (∀ i, φ (x i) = W i) → eoos φ pts p (.batch ι x) = some Z := by
  induction p generalizing Z with
  | nil => exact ⟨Z, rfl, fun x hx => by rw [eoos_nil]; exact congrArg some (funext hx)⟩
  | cons k p ih =>
    have hk : k ≠ .sphere := fun h => hp (by simp [h])
    have hv' : Kind.variance ∈ p → Fintype.card n ≠ 1 := fun hm => hv (List.mem_cons_of_mem _ hm)
    obtain ⟨S, hS⟩ := eoos_isSome φ pts p .sample hv'
    rw [eoos_sample] at hS
    obtain ⟨st, hst⟩ := colStat_isSome k p.head? S (fun hk => hv (by simp [hk]))
    obtain ⟨W, h1, h2⟩ := ih (fun h => hp (List.mem_cons_of_mem _ h)) hv' (revertKind k st Z)
    refine ⟨W, ?_, fun x hx => ?_⟩
    · rw [erevert_cons _ _ _ hk, hS]
      simpa [hst] using h1
    · rw [eoos_cons, h2 x hx, hS]
      simp [hst, apply_revert k hk]

end Preimage

section C83
open Preimage
variable {n d m : Type} [Fintype n] [Nonempty n] [Fintype d] [Fintype m]

/-- The pre-image (method `'explicit'`) of the features of any data (sample or batch `a`) is these data, whatever the chains of bijective transforms of the
sample and of the features, for a kernel whose feature map has a left inverse. Missing (`_partial`): unit variance relative to a sample of one point, as in
C17. -/
theorem C83_preimage_phi_partial (p q : List Kind) (ψ : (d → ℝ) → m → ℝ) (g : (m → ℝ) → d → ℝ) (hg : ∀ x, g (ψ x) = x) (pts : n → d → ℝ)
    (hp : Kind.sphere ∉ p) (hq : Kind.sphere ∉ q) (hv : Kind.variance ∈ p ∨ Kind.variance ∈ q → Fintype.card n ≠ 1) (a : Arg (d → ℝ)) :
    ∃ F, phi p q ψ pts a = some F ∧ explicitPreimage p q ψ (.ok g) pts (some F) = .ok (some fun i => a.pt pts i) := by
  obtain ⟨Y, hY, hr⟩ := C17_revert_apply_partial id pts p hp (fun h => hv (.inl h)) a
  obtain ⟨S, hS⟩ := eoos_isSome id pts p .sample (fun h => hv (.inl h))
  rw [eoos_sample] at hS
  cases a with
  | sample =>
    rw [eoos_sample, hS] at hY
    cases hY
    obtain ⟨F, hF, hrF⟩ := C17_revert_apply_partial ψ S q hq (fun h => hv (.inr h)) .sample
    refine ⟨F, by rw [phi, hS, Option.bind_some, ← eoos_sample]; exact hF, ?_⟩
    unfold explicitPreimage revertFeatures
    rw [hS]
    simp only [hrF, bind, Except.bind, Option.map_some, Arg.pt, hg]
    exact hr
  | batch ι x =>
    obtain ⟨F, hF, hrF⟩ := C17_revert_apply_partial ψ S q hq (fun h => hv (.inr h)) (.batch ι Y)
    refine ⟨F, by rw [phi, hS, Option.bind_some, hY, Option.bind_some]; exact hF, ?_⟩
    unfold explicitPreimage revertFeatures
    rw [hS]
    simp only [hrF, bind, Except.bind, Option.map_some, Arg.pt, hg]
    exact hr

/-- Conversely the features of the pre-image of any `F` are `F`, for a kernel whose feature map has a right inverse. -/
theorem C83_phi_preimage_partial (p q : List Kind) (ψ : (d → ℝ) → m → ℝ) (g : (m → ℝ) → d → ℝ) (hg : ∀ z, ψ (g z) = z) (pts : n → d → ℝ)
    (hp : Kind.sphere ∉ p) (hq : Kind.sphere ∉ q) (hv : Kind.variance ∈ p ∨ Kind.variance ∈ q → Fintype.card n ≠ 1) {ι : Type} (F : ι → m → ℝ) :
    ∃ x, explicitPreimage p q ψ (.ok g) pts (some F) = .ok (some x) ∧ phi p q ψ pts (.batch ι x) = some F := by
  obtain ⟨S, hS⟩ := eoos_isSome id pts p .sample (fun h => hv (.inl h))
  rw [eoos_sample] at hS
  obtain ⟨W, h1, h2⟩ := erevert_reaches ψ S q hq (fun h => hv (.inr h)) F
  obtain ⟨x, h3, h4⟩ := C17_apply_revert_partial pts p hp (fun h => hv (.inl h)) (fun i => g (W i))
  refine ⟨x, ?_, ?_⟩
  · unfold explicitPreimage revertFeatures
    rw [hS]
    simp only [h1, bind, Except.bind, Option.map_some]
    exact h3
  · rw [phi, hS, Option.bind_some, h4, Option.bind_some]
    exact h2 _ fun i => hg (W i)

/-- The linear kernel: both directions. -/
theorem C83_linear_partial (p q : List Kind) (pts : n → d → ℝ) (hp : Kind.sphere ∉ p) (hq : Kind.sphere ∉ q)
    (hv : Kind.variance ∈ p ∨ Kind.variance ∈ q → Fintype.card n ≠ 1) :
    (∀ a : Arg (d → ℝ), ∃ F, phi p q id pts a = some F ∧ explicitPreimage p q id (.ok id) pts (some F) = .ok (some fun i => a.pt pts i)) ∧
    (∀ (ι : Type) (F : ι → d → ℝ), ∃ x, explicitPreimage p q id (.ok id) pts (some F) = .ok (some x) ∧ phi p q id pts (.batch ι x) = some F) :=
  ⟨C83_preimage_phi_partial p q id id (fun _ => rfl) pts hp hq hv, fun _ F => C83_phi_preimage_partial p q id id (fun _ => rfl) pts hp hq hv F⟩

/-- Random features with an invertible activation and weights of full column rank. -/
theorem C83_random_features_partial [Nonempty m] [DecidableEq d] (p q : List Kind) (a : Activation) (ha : a.Admissible) (σ : ℝ) (hσ : σ ≠ 0)
    (W : Matrix m d ℝ) (P : Matrix d m ℝ) (hP : IsPinv W P) (hW : Function.Injective W.mulVec) (pts : n → d → ℝ) (hp : Kind.sphere ∉ p)
    (hq : Kind.sphere ∉ q) (hv : Kind.variance ∈ p ∨ Kind.variance ∈ q → Fintype.card n ≠ 1) (b : Arg (d → ℝ)) :
    ∃ F, phi p q (rfPhi a.fn (Fintype.card m) σ W) pts b = some F ∧
      explicitPreimage p q (rfPhi a.fn (Fintype.card m) σ W) (rfInverse a (Fintype.card m) σ P) pts (some F) = .ok (some fun i => b.pt pts i) := by
  obtain ⟨g, hg, _, _⟩ := C36_activation a ha
  have hpre : ∀ x, (fun (φ : m → ℝ) j => P.mulVec (fun i => g (φ i * Real.sqrt (Fintype.card m))) j * σ) (rfPhi a.fn (Fintype.card m) σ W x) = x := by
    intro x
    have := C36_preimage a ha σ hσ W P hP hW x
    rw [rfPreimage, hg] at this
    simpa [Except.map] using this
  have := C83_preimage_phi_partial p q (rfPhi a.fn (Fintype.card m) σ W)
    (fun (φ : m → ℝ) j => P.mulVec (fun i => g (φ i * Real.sqrt (Fintype.card m))) j * σ) hpre pts hp hq hv b
  simpa only [rfInverse, hg, Except.map] using this

/-- A unit sphere normalisation of the features (as in the cosine kernel) or of the sample, and a kernel without inverse, are refused. -/
theorem C83_refused (p q : List Kind) (ψ : (d → ℝ) → m → ℝ) (pre : Except Err ((m → ℝ) → d → ℝ)) (pts : n → d → ℝ) {ι : Type}
    (F : Option (ι → m → ℝ)) (h : Kind.sphere ∈ p ∨ Kind.sphere ∈ q ∨ ∃ e, pre = .error e) : ∃ e, explicitPreimage p q ψ pre pts F = .error e := by
  unfold explicitPreimage
  cases h1 : revertFeatures q ψ (esample id pts p) F with
  | error e => exact ⟨e, rfl⟩
  | ok φ =>
    cases h2 : pre with
    | error e => exact ⟨e, rfl⟩
    | ok g =>
      rcases h with h | h | ⟨e, h⟩
      · exact ⟨.bijectionError, C17_sphere id pts p h _⟩
      · exfalso
        unfold revertFeatures at h1
        split at h1
        · rw [C17_sphere ψ _ q h] at h1; cases h1
        · rw [if_pos h] at h1; cases h1
      · rw [h2] at h; cases h

/-- A centered linear kernel on a standardised sample of two points (one column constant). -/
example : ∃ F, phi [.variance, .mean] [.mean] id (fun (i : Fin 2) (j : Fin 2) => if j = 0 then (i : ℝ) else 3) (.batch Unit fun _ _ => 5) = some F ∧
    explicitPreimage [.variance, .mean] [.mean] id (.ok id) (fun (i : Fin 2) (j : Fin 2) => if j = 0 then (i : ℝ) else 3) (some F)
      = .ok (some fun _ _ => 5) :=
  (C83_linear_partial [.variance, .mean] [.mean] _ (by decide) (by decide) (by simp)).1 (.batch Unit fun _ _ => 5)

end C83

/-! ## C84 -/

section C84
open Methods
variable {b n m d : ℕ}

/-- Nearest neighbours and smoothing give the same pre-image from the features of points and from the kernel values of these points with the sample, also
when the latter are computed without the features (C19). `x` are the points, `F` their features, `Φ` the features of the sample, `k` the kernel values. -/
theorem C84_agree_partial {X : Type} [NeZero n] (φ : X → Fin m → ℝ) (κ : X → X → ℝ) (hκ : ∀ x y, κ x y = φ x ⬝ᵥ φ y) (pts : Fin n → X) (q : List Kind)
    (hq : ∀ k ∈ q, k = .mean ∨ k = .sphere) (x : Fin b → X) (hs : Guarded φ pts q .sample) (hx : Guarded φ pts q (.batch (Fin b) x))
    (obs : Mat n d) (num : PyNum) (sel : Sel b n) :
    ∃ F Φ k, eoos φ pts q (.batch (Fin b) x) = some F ∧ esample φ pts q = some Φ ∧ ioos κ pts q (.batch (Fin b) x) .sample = .ok k ∧
      explicitKnn sel F Φ obs num = implicitKnn sel k obs num ∧ explicitSmoother sel F Φ obs num = implicitSmoother sel k obs num := by
  obtain ⟨F, Φ, hF, hΦ, hk⟩ := C19_implicit_explicit_partial φ pts κ hκ q hq hs (.batch (Fin b) x) .sample hx hs
  rw [eoos_sample] at hΦ
  exact ⟨F, Φ, _, hF, hΦ, hk, rfl, rfl⟩

/-- The nearest neighbour of the feature of each sample point is the point itself, provided the features have all the same norm (normalised kernels) and
differ. Missing (`_partial`): features of different norms, `C84_violated`. -/
theorem C84_recovers_partial (sel : Sel n n) (hs : sel.TopK) (Φ : Mat n m) (obs : Mat n d) (hn : 0 < n) (hnorm : ∀ i j, Φ i ⬝ᵥ Φ i = Φ j ⬝ᵥ Φ j)
    (hinj : Function.Injective Φ) : explicitKnn sel Φ Φ obs (.int 1) = .ok obs := by
  refine C43_recovers sel hs _ obs hn id fun i j hj => ?_
  have h1 : 0 < ∑ l, (Φ i l - Φ j l) ^ 2 := by
    refine lt_of_le_of_ne (sum_nonneg fun _ _ => sq_nonneg _) fun h => hj (hinj ?_)
    have := (sum_eq_zero_iff_of_nonneg (s := univ) (f := fun l => (Φ i l - Φ j l) ^ 2) (fun _ _ => sq_nonneg _)).1 h.symm
    funext l
    have h2 : Φ i l - Φ j l = 0 := by simpa using this l (mem_univ l)
    simp only [id] at h2 ⊢
    linarith
  have h2 : ∑ l, (Φ i l - Φ j l) ^ 2 = Φ i ⬝ᵥ Φ i + Φ j ⬝ᵥ Φ j - 2 * ∑ l, Φ i l * Φ j l := by
    simp only [dotProduct, mul_sum, ← sum_add_distrib, ← sum_sub_distrib]
    exact sum_congr rfl fun l _ => by ring
  have h3 := hnorm i j
  have h4 : ∑ l, Φ i l * Φ i l = Φ i ⬝ᵥ Φ i := rfl
  show -∑ l, Φ (id i) l * Φ (id i) l < _
  simp only [id]
  linarith

/-- The same for kernel values: on a positive definite kernel matrix with constant diagonal (as for the kernels of a distance) each point is its own
nearest neighbour. -/
theorem C84_kernel_recovers_partial (sel : Sel n n) (hs : sel.TopK) (K : Mat n n) (obs : Mat n d) (hn : 0 < n) (hc : ∀ i j, K i i = K j j)
    (hsym : ∀ i j, K i j = K j i) (hK : ∀ c : Fin n → ℝ, c ≠ 0 → 0 < ∑ i, ∑ j, c i * c j * K i j) : implicitKnn sel K obs (.int 1) = .ok obs := by
  refine C43_recovers sel hs _ obs hn id fun i j hj => ?_
  have hij : i ≠ j := Ne.symm hj
  have h := hK (Pi.single i 1 - Pi.single j 1) (fun h => by
    have := congrFun h i
    simp [hij] at this)
  have e : ∑ a, ∑ b, (Pi.single i 1 - Pi.single j 1 : Fin n → ℝ) a * (Pi.single i 1 - Pi.single j 1 : Fin n → ℝ) b * K a b
      = K i i - K i j - K j i + K j j := by
    simp only [Pi.sub_apply, Pi.single_apply, sub_mul, mul_sub, sum_sub_distrib, ite_mul, mul_ite, one_mul, mul_one, zero_mul, mul_zero, sum_ite_eq',
      mem_univ, if_true]
    ring
  rw [e] at h
  have h1 := hc i j
  have h2 := hsym i j
  simp only [id]
  linarith

/-- A kernel matrix of two correlated points. -/
example (sel : Sel 2 2) (hs : sel.TopK) : implicitKnn sel (fun i j => if i = j then 2 else 1) (fun i (_ : Fin 1) => (i : ℝ)) (.int 1) = .ok fun i _ => (i : ℝ) := by
  refine C84_kernel_recovers_partial sel hs _ _ (by norm_num) (fun i j => by simp) (fun i j => by simp [eq_comm]) fun c hc => ?_
  have h : c 0 ≠ 0 ∨ c 1 ≠ 0 := by
    by_contra hne
    push Not at hne
    exact hc (funext fun i => by fin_cases i <;> simp [hne.1, hne.2])
  simp only [Fin.sum_univ_two]
  norm_num
  rcases h with h | h
  · nlinarith [mul_self_pos.mpr h, mul_self_nonneg (c 0 + c 1), mul_self_nonneg (c 1)]
  · nlinarith [mul_self_pos.mpr h, mul_self_nonneg (c 0 + c 1), mul_self_nonneg (c 0)]

/-- Violation: with the linear kernel on the points `1` and `2`, the nearest neighbour of the feature of the first point is the second one: the inner
product is used as a proximity whatever the norms. -/
theorem C84_violated (sel : Sel 2 2) (hs : sel.TopK) :
    explicitKnn sel (fun i (_ : Fin 1) => if i = 0 then 1 else 2) (fun i (_ : Fin 1) => if i = 0 then 1 else 2) (fun i (_ : Fin 1) => if i = 0 then 1 else 2)
      (.int 1) = .ok fun _ _ => 2 := by
  unfold explicitKnn
  rw [C43_recovers sel hs _ _ (by norm_num) (fun _ => 1)]
  · rfl
  · intro i j hj
    have : j = 0 := by omega
    subst this
    fin_cases i <;> simp

/-- Unit vectors of the plane. -/
example (sel : Sel 2 2) (hs : sel.TopK) : explicitKnn sel (fun i j => if i = j then 1 else 0) (fun i (j : Fin 2) => if i = j then 1 else 0)
    (fun i (_ : Fin 1) => (i : ℝ)) (.int 1) = .ok fun i _ => (i : ℝ) := by
  refine C84_recovers_partial sel hs _ _ (by norm_num) ?_ ?_
  · intro i j; fin_cases i <;> fin_cases j <;> simp [dotProduct, Fin.sum_univ_two]
  · intro i j h
    have := congrFun h i
    by_contra hne
    simp [Ne.symm hne] at this

end C84

/-! ## C85 -/

section C85
open Dispatch

/-- Specification: the call is refused, that is an exception is raised. -/
def Dispatch.Res.Refused {α : Type} (r : Res α) : Prop := ∃ e, r = .raised e

/-- `forward` gives the features for `'primal'` and the kernel matrix for `'dual'`. -/
theorem C85_forward {α : Type} (phi k : α) : forward phi k "primal".toList = .val phi ∧ forward phi k "dual".toList = .val k := ⟨rfl, rfl⟩

/-- Violation: any other representation is not refused; an exception object is returned as if it were the result. -/
theorem C85_forward_violated {α : Type} (phi k : α) (r : List Char) (h1 : r ≠ "primal".toList) (h2 : r ≠ "dual".toList) :
    forward phi k r = .returned .representationError ∧ ¬ (forward phi k r).Refused := by
  have : forward phi k r = .returned .representationError := by unfold forward; rw [if_neg h1, if_neg h2]
  refine ⟨this, ?_⟩
  rintro ⟨e, he⟩
  rw [this] at he
  cases he

/-- For the kernels with the other `forward` it is refused, with another exception than the documented one. -/
theorem C85_forward_base {α : Type} (phi k : α) (r : List Char) (h1 : r ≠ "explicit".toList) (h2 : r ≠ "implicit".toList) :
    (forwardBase phi k r).Refused := ⟨.typeError, by unfold forwardBase; rw [if_neg h1, if_neg h2]⟩

/-- Pre-images: on explicit kernels (other than the polynomial one) the result is that of the method named, in whatever case it is written; an unknown
method is refused, and a failure of the method is raised. Missing (`_partial`): `C85_polynomial_violated`, `C85_implicit_violated`. -/
theorem C85_preimage_partial {α : Type} (lower : List Char → List Char) (run : List Char → Except Err α) (s : List Char) :
    (∀ m ∈ ["explicit".toList, "knn".toList, "smoother".toList, "iterative".toList], lower s = m →
      explicitPreimage lower run .explicit (some s) = (match run m with | .ok a => .val a | .error e => .raised e)) ∧
    (lower s ∉ ["explicit".toList, "knn".toList, "smoother".toList, "iterative".toList] →
      explicitPreimage lower run .explicit (some s) = .raised .attributeError) ∧
    (∀ m ∈ ["knn".toList, "smoother".toList, "iterative".toList], lower s = m →
      implicitPreimage lower run (some s) = (match run m with | .ok a => .val a | .error e => .raised e)) ∧
    (lower s ∉ ["knn".toList, "smoother".toList, "iterative".toList] → implicitPreimage lower run (some s) = .raised .attributeError) := by
  simp only [List.mem_cons, List.not_mem_nil, or_false]
  refine ⟨fun m hm h => ?_, fun h => ?_, fun m hm h => ?_, fun h => ?_⟩
  · unfold explicitPreimage
    simp only [Option.getD_some, h]
    rw [if_pos hm]
    cases run m <;> rfl
  · unfold explicitPreimage
    simp only [Option.getD_some]
    rw [if_neg h]
  · unfold implicitPreimage
    simp only [Option.getD_some, h]
    rw [if_pos hm]
    cases run m <;> rfl
  · unfold implicitPreimage
    simp only [Option.getD_some]
    rw [if_neg h]

/-- Violation: the polynomial kernel returns an exception class as the pre-image of its features. -/
theorem C85_polynomial_violated {α : Type} (lower : List Char → List Char) (run : List Char → Except Err α) :
    ¬ (explicitPreimage lower run .polynomial none).Refused := by
  rintro ⟨e, he⟩
  cases he

/-- Violation: an implicit kernel never raises the documented exception, but `TypeError`, an unknown keyword being given to the former. -/
theorem C85_implicit_violated {α : Type} (lower : List Char → List Char) (run : List Char → Except Err α) (s : Option (List Char)) :
    explicitPreimage lower run .implicit s ≠ .raised .explicitError := by
  intro h
  cases h

/-- An implicit kernel never returns a value as explicit pre-image. -/
theorem C85_implicit_refused {α : Type} (lower : List Char → List Char) (run : List Char → Except Err α) (s : Option (List Char)) :
    (explicitPreimage lower run .implicit s).Refused := ⟨_, rfl⟩

example : forward 1 2 "Dual".toList = .returned .representationError := (C85_forward_violated 1 2 _ (by decide) (by decide)).1

end C85
end Kerch
