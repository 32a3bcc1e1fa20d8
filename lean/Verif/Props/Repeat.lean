import Mathlib.LinearAlgebra.Matrix.Charpoly.Coeff
import Verif.Props.Order
/-!
# C123: repeating all points of the sample the same number of times

The repeated sample is `pts ∘ q`, each index of the sample being taken `r` times by `q`.
-/
set_option linter.unusedSectionVars false
set_option linter.unusedSimpArgs false
namespace Kerch
namespace Repeat
open Finset

/-! ## Specification -/

/-- Every point is repeated exactly `r` times. -/
def Times {m n : Type} [Fintype m] [DecidableEq n] (q : m → n) (r : ℕ) : Prop := ∀ j, (univ.filter fun i => q i = j).card = r

/-- The index, in the original sample, of a row of an argument. -/
def back {X m n : Type} (q : m → n) : (a : Arg X) → a.I m → a.I n
  | .sample => q
  | .batch _ _ => id

/-! ## Sums -/

section stat
variable {m n d : Type} [Fintype m] [Fintype n] [DecidableEq n] [Fintype d] (q : m → n) (r : ℕ) (hq : Times q r)
include hq

theorem sum_times (f : n → ℝ) : ∑ i, f (q i) = r * ∑ j, f j := by
  rw [← sum_fiberwise_of_maps_to (s := univ) (t := univ) (g := q) (fun _ _ => mem_univ _), mul_sum]
  refine sum_congr rfl fun j _ => ?_
  rw [sum_congr rfl (g := fun _ => f j) (fun i hi => by rw [(mem_filter.1 hi).2]), sum_const, hq j, nsmul_eq_mul]

theorem card_times : (Fintype.card m : ℝ) = r * Fintype.card n := by
  have := sum_times q r hq fun _ => 1
  simpa using this

theorem tmean_times (hr : 0 < r) (f : n → ℝ) : tmean (fun i => f (q i)) = tmean f := by
  have h : (r : ℝ) ≠ 0 := by exact_mod_cast hr.ne'
  rw [tmean, tmean, sum_times q r hq, card_times q r hq, mul_div_mul_left _ _ h]

theorem surj (hr : 0 < r) : Function.Surjective q := fun j => by
  have := hq j
  obtain ⟨i, hi⟩ := card_pos.1 (this ▸ hr)
  exact ⟨i, (mem_filter.1 hi).2⟩

theorem tmin_times [Nonempty m] [Nonempty n] (hr : 0 < r) (f : n → ℝ) : tmin (fun i => f (q i)) = tmin f := by
  refine le_antisymm ((le_inf'_iff _ _).2 fun j _ => ?_) ((le_inf'_iff _ _).2 fun i _ => inf'_le _ (mem_univ (q i)))
  obtain ⟨i, rfl⟩ := surj q r hq hr j
  exact inf'_le (fun i => f (q i)) (mem_univ i)

theorem tmax_times [Nonempty m] [Nonempty n] (hr : 0 < r) (f : n → ℝ) : tmax (fun i => f (q i)) = tmax f := by
  refine le_antisymm ((sup'_le_iff _ _).2 fun i _ => le_sup' _ (mem_univ (q i))) ((sup'_le_iff _ _).2 fun j _ => ?_)
  obtain ⟨i, rfl⟩ := surj q r hq hr j
  exact le_sup' (fun i => f (q i)) (mem_univ i)

theorem colStat_times [Nonempty m] [Nonempty n] (hr : 0 < r) (k : Kind) (hk : k ≠ .variance) (par : Option Kind) (S : n → d → ℝ) :
    colStat k par (fun i => S (q i)) = colStat k par S := by
  cases k with
  | mean => exact congrArg some (funext fun j => tmean_times q r hq hr fun i => S i j)
  | minimum => exact congrArg some (funext fun j => tmin_times q r hq hr fun i => S i j)
  | variance => exact absurd rfl hk
  | minmax =>
    refine congrArg some (funext fun j => ?_)
    show (if par = some .minimum then tmax fun i => S (q i) j else (tmax fun i => S (q i) j) - tmin fun i => S (q i) j) = _
    rw [tmax_times q r hq hr fun i => S i j, tmin_times q r hq hr fun i => S i j]
  | sphere => rfl

end stat

/-! ## Transforms and kernel matrices -/

section chains
variable {X m n d : Type} [Fintype m] [Nonempty m] [Fintype n] [Nonempty n] [DecidableEq n] [Fintype d] (q : m → n) (r : ℕ) (hq : Times q r) (hr : 0 < r)
include hq hr

/-- **C123**, without unit variance: for every feature map and every list of other transforms, a repeated point has the features of the point. -/
theorem C123_features_partial (φ : X → d → ℝ) (pts : n → X) (p : List Kind) (hp : Kind.variance ∉ p) :
    esample φ (fun i => pts (q i)) p = (esample φ pts p).map fun S i => S (q i) := by
  induction p with
  | nil => rfl
  | cons k p ih =>
    simp only [List.mem_cons, not_or] at hp
    simp only [esample, ih hp.2]
    cases esample φ pts p with
    | none => rfl
    | some S =>
      simp only [Option.map_some, Option.bind_eq_bind, Option.bind_some, colStat_times q r hq hr k (Ne.symm hp.1)]
      cases colStat k p.head? S with
      | none => rfl
      | some st => simp only [Option.bind_some, Option.map_some, Order.applyKind_comp]

/-- **C123**, without unit variance: and points out of sample keep their features. -/
theorem C123_features_oos_partial (φ : X → d → ℝ) (pts : n → X) (p : List Kind) (hp : Kind.variance ∉ p) (ι : Type) (x : ι → X) :
    eoos φ (fun i => pts (q i)) p (.batch ι x) = eoos φ pts p (.batch ι x) := by
  induction p with
  | nil => rfl
  | cons k p ih =>
    have hp' := hp
    simp only [List.mem_cons, not_or] at hp'
    simp only [eoos, ih hp'.2, C123_features_partial q r hq hr φ pts p hp'.2]
    cases eoos φ pts p (.batch ι x) with
    | none => rfl
    | some Y =>
      cases esample φ pts p with
      | none => rfl
      | some S =>
        simp only [Option.map_some, Option.bind_eq_bind, Option.bind_some, colStat_times q r hq hr k (Ne.symm hp'.1)]

theorem istep_times (k : Kind) (par : (a b : Arg X) → Except Err (a.I n → b.I n → ℝ)) (par' : (a b : Arg X) → Except Err (a.I m → b.I m → ℝ))
    (h : ∀ a b, par' a b = (par a b).map fun M i j => M (back q a i) (back q b j)) (a b : Arg X) :
    istep k par' a b = (istep k par a b).map fun M i j => M (back q a i) (back q b j) := by
  cases k with
  | mean =>
    simp only [istep, h]
    cases par a .sample with
    | error _ => rfl
    | ok A =>
      cases par .sample .sample with
      | error _ => rfl
      | ok S =>
        cases par b .sample with
        | error _ => rfl
        | ok B =>
          cases par a b with
          | error _ => rfl
          | ok M =>
            refine congrArg Except.ok (funext fun i => funext fun j => ?_)
            show M (back q a i) (back q b j) - tmean (fun l => A (back q a i) (q l)) - tmean (fun l => B (back q b j) (q l))
              + tmean (fun l => tmean fun l' => S (q l) (q l')) = _
            rw [tmean_times q r hq hr (A (back q a i)), tmean_times q r hq hr (B (back q b j))]
            have : (fun l => tmean fun l' => S (q l) (q l')) = fun l => tmean (S (q l)) := funext fun l => tmean_times q r hq hr (S (q l))
            rw [this, tmean_times q r hq hr fun l => tmean (S l)]
  | sphere =>
    simp only [istep, h]
    cases par a b with
    | error _ => rfl
    | ok M =>
      cases par a a with
      | error _ => rfl
      | ok A =>
        cases par b b with
        | error _ => rfl
        | ok B => rfl
  | minimum => cases a <;> cases b <;> rfl
  | variance => cases a <;> cases b <;> rfl
  | minmax => cases a <;> cases b <;> rfl

/-- **C123** For every kernel function, list of transforms and pair of arguments: the kernel values of a repeated point are those of the point, those between points out of
sample do not change; the calls that raise are the same and raise the same. -/
theorem C123_values (κ : X → X → ℝ) (pts : n → X) (p : List Kind) (a b : Arg X) :
    ioos κ (fun i => pts (q i)) p a b = (ioos κ pts p a b).map fun M i j => M (back q a i) (back q b j) := by
  induction p generalizing a b with
  | nil => cases a <;> cases b <;> rfl
  | cons k p ih =>
    cases a with
    | batch ι x =>
      simp only [ioos]
      exact istep_times q r hq hr k _ _ ih _ _
    | sample =>
      cases b with
      | sample =>
        simp only [ioos]
        exact istep_times q r hq hr k _ _ ih _ _
      | batch ι y =>
        simp only [ioos]
        rw [istep_times q r hq hr k _ _ ih _ _]
        cases istep k (ioos κ pts p) (.batch ι y) .sample <;> rfl

/-- **C123** The covariance of the features is the same. -/
theorem C123_covariance (Φ : n → d → ℝ) : matC (Matrix.of fun i => Φ (q i)) = matC (Matrix.of Φ) := by
  have h : (r : ℝ) ≠ 0 := by exact_mod_cast hr.ne'
  ext a b
  simp only [matC, Matrix.smul_apply, Matrix.mul_apply, Matrix.transpose_apply, Matrix.of_apply, smul_eq_mul]
  rw [sum_times q r hq fun i => Φ i a * Φ i b, card_times q r hq]
  field_simp

end chains

/-- **C123** violated with unit variance (torch divides by the number of points minus one): for all samples of at least two points whose column is not constant, repeating them
changes the scale. -/
theorem C123_variance_violated {m n : Type} [Fintype m] [Nonempty m] [Fintype n] [Nonempty n] [DecidableEq n] (q : m → n) (r : ℕ) (hq : Times q r) (hr : 1 < r)
    (f : n → ℝ) (s s' : ℝ) (hs : tstd f = some s) (hs' : tstd (fun i => f (q i)) = some s') (h0 : s ≠ 0) : s' < s := by
  have hr' : (0 : ℝ) < r := by exact_mod_cast (zero_lt_one.trans hr)
  have hr1 : (1 : ℝ) < r := by exact_mod_cast hr
  unfold tstd at hs hs'
  split at hs
  · simp at hs
  rename_i hn
  split at hs'
  · simp at hs'
  have hc : 2 ≤ Fintype.card n := by
    have := Fintype.card_pos (α := n)
    omega
  have hc' : (2 : ℝ) ≤ Fintype.card n := by exact_mod_cast hc
  simp only [Option.some.injEq] at hs hs'
  rw [tmean_times q r hq (zero_lt_one.trans hr) f, sum_times q r hq fun i => (f i - tmean f) ^ 2, card_times q r hq] at hs'
  obtain ⟨S, hS⟩ : ∃ S, S = ∑ i, (f i - tmean f) ^ 2 := ⟨_, rfl⟩
  have hS0 : 0 ≤ S := hS ▸ sum_nonneg fun i _ => sq_nonneg _
  rw [← hS] at hs hs'
  have hS1 : 0 < S := by
    rcases hS0.eq_or_lt with h | h
    · rw [← h, zero_div, Real.sqrt_zero] at hs
      exact absurd hs.symm h0
    · exact h
  rw [← hs, ← hs']
  refine Real.sqrt_lt_sqrt (by apply div_nonneg; positivity; nlinarith) ?_
  rw [div_lt_div_iff₀ (by nlinarith) (by linarith)]
  nlinarith

/-! ## LS-SVM -/

section lssvm
open LSSVM
variable {m n : Type} [Fintype m] [Fintype n] [DecidableEq n] (q : m → n) (r : ℕ) (hq : Times q r)
include hq

theorem psd_times {K : n → n → ℝ} (hK : PSDMat K) : PSDMat fun i j : m => K (q i) (q j) := by
  refine ⟨fun i j => hK.1 _ _, fun c => ?_⟩
  have := hK.2 fun j => ∑ i ∈ univ.filter fun i => q i = j, c i
  refine this.trans_eq ?_
  have hg : ∀ (g : n → ℝ), ∑ j, (∑ i ∈ univ.filter fun i => q i = j, c i) * g j = ∑ i, c i * g (q i) := by
    intro g
    rw [← sum_fiberwise_of_maps_to (s := univ) (t := univ) (g := q) (fun _ _ => mem_univ _)]
    refine sum_congr rfl fun j _ => ?_
    rw [sum_mul]
    exact sum_congr rfl fun i hi => by rw [(mem_filter.1 hi).2]
  have h1 : ∀ i, ∑ j, (∑ a ∈ univ.filter fun a => q a = i, c a) * (∑ a ∈ univ.filter fun a => q a = j, c a) * K i j
      = (∑ a ∈ univ.filter fun a => q a = i, c a) * ∑ b, c b * K i (q b) := by
    intro i
    rw [← hg fun j => K i j, mul_sum]
    exact sum_congr rfl fun j _ => by ring
  simp only [h1]
  rw [hg fun i => ∑ b, c b * K i (q b)]
  refine sum_congr rfl fun i _ => ?_
  rw [mul_sum]
  exact sum_congr rfl fun j _ => by ring

/-- **C123** A LS-SVM fitted in dual on the repeated data with a gamma as many times greater has the same outputs everywhere (and the same bias): gamma is per point. -/
theorem C123_lssvm [Nonempty m] (hr : 0 < r) (K : n → n → ℝ) (hK : PSDMat K) (γ : ℝ) (hγ : 0 < γ) (y h : n → ℝ) (h' : m → ℝ) (b b' : ℝ)
    (hs : DualSol K γ y h b) (hs' : DualSol (fun i j => K (q i) (q j)) (r * γ) (fun i => y (q i)) h' b') (kx : n → ℝ) :
    b' = b ∧ (∀ i, h' i = h (q i) / r) ∧ outDual (fun i => kx (q i)) h' b' = outDual kx h b := by
  have hr' : (0 : ℝ) < r := by exact_mod_cast hr
  have h0 : DualSol (fun i j => K (q i) (q j)) (r * γ) (fun i => y (q i)) (fun i => h (q i) / r) b := by
    refine ⟨fun i => ?_, ?_⟩
    · beta_reduce
      rw [sum_times q r hq fun j => K (q i) j * (h j / r), ← hs.1 (q i), mul_sum]
      have : ∀ j, (r : ℝ) * (K (q i) j * (h j / r)) = K (q i) j * h j := fun j => by field_simp
      simp only [this]
      field_simp
    · rw [sum_times q r hq fun j => h j / r, ← sum_div, hs.2]
      ring
  obtain ⟨rfl, rfl⟩ := C50_unique_partial _ (psd_times q r hq hK) (r * γ) (by positivity) _ _ _ _ _ hs' h0
  refine ⟨rfl, fun _ => rfl, ?_⟩
  simp only [outDual]
  rw [sum_times q r hq fun j => kx j * (h j / r), mul_sum]
  have : ∀ j, (r : ℝ) * (kx j * (h j / r)) = kx j * h j := fun j => by field_simp
  simp only [this]

end lssvm

/-! ## Kernel PCA -/

section kpca
open KPCA
variable {m n d : ℕ}

theorem charpoly_times (q : Fin m → Fin n) (r : ℕ) (hq : Times q r) (K : Fin n → Fin n → ℝ) :
    Polynomial.X ^ n * (Matrix.of fun i j => K (q i) (q j)).charpoly = Polynomial.X ^ m * (Matrix.of fun i j => r * K i j).charpoly := by
  let Q : Matrix (Fin m) (Fin n) ℝ := Matrix.of fun i j => if q i = j then 1 else 0
  have h1 : (Matrix.of fun i j => K (q i) (q j)) = Q * (Matrix.of K * Q.transpose) := by
    ext i j
    simp [Q, Matrix.mul_apply]
  have h2 : (Matrix.of fun i j => r * K i j) = (Matrix.of K * Q.transpose) * Q := by
    have : Q.transpose * Q = (r : ℝ) • 1 := by
      ext a b
      simp only [Q, Matrix.mul_apply, Matrix.transpose_apply, Matrix.of_apply, Matrix.smul_apply, Matrix.one_apply, smul_eq_mul]
      by_cases hab : a = b
      · subst hab
        have := sum_times q r hq fun j => if j = a then (1 : ℝ) else 0
        simp only [sum_ite_eq', mem_univ, if_true, mul_one] at this
        rw [if_pos rfl, mul_one, ← this]
        exact sum_congr rfl fun i _ => by split <;> simp
      · rw [if_neg hab, mul_zero]
        refine sum_eq_zero fun i _ => ?_
        by_cases hi : q i = a
        · rw [if_neg (show ¬ q i = b from fun h => hab (hi.symm.trans h)), mul_zero]
        · rw [if_neg hi, zero_mul]
    rw [Matrix.mul_assoc, this]
    ext i j
    simp [mul_comm]
  have := Matrix.charpoly_mul_comm' Q (Matrix.of K * Q.transpose)
  rw [← h1, ← h2] at this
  simpa using this

/-- Multiples of a matrix have the multiples of the eigenvalues. -/
def scaleD {M : Fin n → Fin n → ℝ} (r : ℕ) (D : EigDecomp M) : EigDecomp fun i j => r * M i j where
  lam := fun l => r * D.lam l
  V := D.V
  sorted := fun _ _ h => mul_le_mul_of_nonneg_left (D.sorted h) (Nat.cast_nonneg r)
  orth := D.orth
  eig := fun i k => by
    have : ∀ j, r * M i j * D.V j k = r * (M i j * D.V j k) := fun j => by ring
    simp only [this, ← mul_sum, D.eig i k]
    ring

theorem le_of_times (q : Fin m → Fin n) (r : ℕ) (hq : Times q r) (hr : 0 < r) : n ≤ m := by
  simpa using Fintype.card_le_of_surjective q (surj q r hq hr)

theorem spectrum_times (k : ℕ) (q : Fin (n + k) → Fin n) (r : ℕ) (hq : Times q r) (K : Fin n → Fin n → ℝ) (hK : PSDMat K) (D : EigDecomp K)
    (D' : EigDecomp fun i j => K (q i) (q j)) : D'.lam = Fin.append (fun l => r * D.lam l) fun _ : Fin k => 0 := by
  have hp := charpoly_times q r hq K
  rw [Order.charpoly_eq D', Order.charpoly_eq (scaleD r D)] at hp
  have hr : ∀ (N : ℕ) (f : Fin N → ℝ), (∏ l, (Polynomial.X - Polynomial.C (f l))).roots = (List.ofFn f : Multiset ℝ) := by
    intro N f
    have := Polynomial.roots_multiset_prod_X_sub_C (univ.val.map f)
    rw [Multiset.map_map] at this
    refine this.trans ?_
    rw [List.ofFn_eq_map]
    rfl
  have hne : ∀ (N : ℕ) (f : Fin N → ℝ), (∏ l, (Polynomial.X - Polynomial.C (f l))) ≠ 0 := fun N f =>
    prod_ne_zero_iff.2 fun l _ => Polynomial.X_sub_C_ne_zero _
  have hX : ∀ N : ℕ, (Polynomial.X ^ N : Polynomial ℝ) ≠ 0 := fun N => pow_ne_zero _ Polynomial.X_ne_zero
  have hm := congrArg Polynomial.roots hp
  rw [Polynomial.roots_mul (mul_ne_zero (hX _) (hne _ _)), Polynomial.roots_mul (mul_ne_zero (hX _) (hne _ _)), Polynomial.roots_X_pow, Polynomial.roots_X_pow, hr, hr] at hm
  have hm0 : n • ({0} : Multiset ℝ) + (List.ofFn D'.lam : Multiset ℝ) = n • ({0} : Multiset ℝ) + (k • ({0} : Multiset ℝ) + (List.ofFn (scaleD r D).lam : Multiset ℝ)) := by
    rw [hm, ← add_assoc, ← add_nsmul]
  have hm' := (add_left_cancel hm0).trans (add_comm _ _)
  rw [show k • ({0} : Multiset ℝ) = ((List.replicate k (0 : ℝ) : List ℝ) : Multiset ℝ) from Multiset.nsmul_singleton 0 k, Multiset.coe_add, Multiset.coe_eq_coe] at hm'
  have hf : List.ofFn (fun _ : Fin k => (0 : ℝ)) = List.replicate k 0 := List.ofFn_const k 0
  rw [← hf, ← List.ofFn_fin_append (scaleD r D).lam] at hm'
  have hs : ∀ (N : ℕ) (f : Fin N → ℝ), Antitone f → (List.ofFn f).Pairwise (· ≥ ·) := by
    intro N f hf
    rw [List.pairwise_ofFn]
    exact fun i j hij => hf hij.le
  refine List.ofFn_injective (hm'.eq_of_pairwise' (hs _ _ D'.sorted) (hs _ _ ?_))
  have h0 : ∀ l, 0 ≤ r * D.lam l := fun l => mul_nonneg (Nat.cast_nonneg r) (D.lam_nonneg hK l)
  intro i j hij
  refine Fin.addCases (fun i hij => ?_) (fun i hij => ?_) i hij
  · refine Fin.addCases (fun j hij => ?_) (fun j hij => ?_) j hij
    · rw [Fin.append_left, Fin.append_left]
      exact (scaleD r D).sorted (show i ≤ j from Fin.le_def.2 (Fin.le_def.1 hij))
    · rw [Fin.append_left, Fin.append_right]
      exact h0 i
  · refine Fin.addCases (fun j hij => ?_) (fun j hij => ?_) j hij
    · have := Fin.le_def.1 hij
      simp at this
      omega
    · rw [Fin.append_right, Fin.append_right]

/-- **C123** The eigenvalues of the kernel matrix of the repeated sample are those of the sample, multiplied by the number of repetitions, followed by zeros. -/
theorem C123_spectrum (q : Fin m → Fin n) (r : ℕ) (hq : Times q r) (hr : 0 < r) (K : Fin n → Fin n → ℝ) (hK : PSDMat K) (D : EigDecomp K)
    (D' : EigDecomp fun i j => K (q i) (q j)) (l : Fin m) : D'.lam l = if h : l.val < n then r * D.lam ⟨l, h⟩ else 0 := by
  obtain ⟨k, rfl⟩ := Nat.exists_eq_add_of_le (le_of_times q r hq hr)
  rw [spectrum_times k q r hq K hK D D']
  refine Fin.addCases (fun i => ?_) (fun i => ?_) l
  · rw [Fin.append_left, dif_pos (by simp)]
    rfl
  · rw [Fin.append_right, dif_neg (by simp)]

/-- **C123**, unless repetition lifts an eigenvalue over the threshold: the variance explained by the components, relative to the number of points, is the same in dual. -/
theorem C123_explained_partial (q : Fin m → Fin n) (r : ℕ) (hq : Times q r) (hr : 0 < r) (K : Fin n → Fin n → ℝ) (hK : PSDMat K) (D : EigDecomp K)
    (D' : EigDecomp fun i j => K (q i) (q j)) (k : ℕ) (hE : ∀ l, EPS ≤ r * D.lam l → EPS ≤ D.lam l) : modelVarD D' k = modelVarD D k := by
  have hr' : (0 : ℝ) < r := by exact_mod_cast hr
  have hr1 : (1 : ℝ) ≤ r := by exact_mod_cast hr
  have hmn : (m : ℝ) = r * n := by simpa using card_times q r hq
  have hE0 : (0 : ℝ) < EPS := by norm_num [EPS]
  have hle := le_of_times q r hq hr
  unfold modelVarD
  refine (Fintype.sum_equiv (⟨fun l => ⟨⟨l.1.1, lt_of_lt_of_le l.1.2 hle⟩, l.2.1, ?_⟩, fun l => ⟨⟨l.1.1, ?_⟩, l.2.1, ?_⟩, fun _ => rfl, fun _ => rfl⟩ : D.Kept k ≃ D'.Kept k) _ _
    fun l => ?_).symm
  · rw [C123_spectrum q r hq hr K hK D D', dif_pos (show l.1.1 < n from l.1.2)]
    have := l.2.2
    show EPS ≤ r * D.lam l.1
    nlinarith
  · by_contra hc
    have := l.2.2
    rw [C123_spectrum q r hq hr K hK D D', dif_neg hc] at this
    linarith
  · have hlt : l.1.1 < n := by
      by_contra hc
      have := l.2.2
      rw [C123_spectrum q r hq hr K hK D D', dif_neg hc] at this
      linarith
    have := l.2.2
    rw [C123_spectrum q r hq hr K hK D D', dif_pos hlt] at this
    exact hE _ this
  · show 1 / (n : ℝ) * D.lam l.1 = 1 / (m : ℝ) * D'.lam ⟨l.1.1, _⟩
    rw [C123_spectrum q r hq hr K hK D D', dif_pos (show l.1.1 < n from l.1.2), hmn]
    show 1 / (n : ℝ) * D.lam l.1 = 1 / (r * n) * (r * D.lam l.1)
    have hn : (n : ℝ) ≠ 0 := by
      have := l.1.2
      exact_mod_cast (show n ≠ 0 by omega)
    field_simp

/-- **C123** In primal everything is the same: the matrix that is decomposed is the same. -/
theorem C123_primal (q : Fin m → Fin n) (r : ℕ) (hq : Times q r) (hr : 0 < r) [NeZero m] [NeZero n] (Φ : Fin n → Fin d → ℝ) :
    levelC (fun i => Φ (q i)) = levelC Φ := C123_covariance q r hq hr Φ

/-- **C123** violated at the threshold: the kernel PCA of one point explains nothing, that of the point given twice explains all its variance. -/
theorem C123_threshold_violated (D : EigDecomp (n := 1) fun _ _ => EPS / 2) (D' : EigDecomp (n := 2) fun _ _ => EPS / 2) :
    modelVarD D 1 = 0 ∧ modelVarD D' 1 = EPS / 2 := by
  have hE0 : (0 : ℝ) < EPS := by norm_num [EPS]
  have h1 : D.lam 0 = EPS / 2 := by
    have := D.trace_eq
    simpa using this.symm
  have hK : PSDMat (ι := Fin 1) fun _ _ => EPS / 2 := by
    refine ⟨fun _ _ => rfl, fun c => ?_⟩
    simp only [univ_unique, sum_singleton]
    have := mul_self_nonneg (c default)
    positivity
  have h2 := C123_spectrum (m := 2) (n := 1) (fun _ => 0) 2 (fun j => by fin_cases j; rfl) (by norm_num) (fun _ _ => EPS / 2) hK D D' 0
  rw [dif_pos (by norm_num)] at h2
  have h2' : D'.lam 0 = EPS := by
    rw [h2]
    show (2 : ℕ) * D.lam 0 = EPS
    rw [h1]; push_cast; ring
  constructor
  · unfold modelVarD
    refine sum_eq_zero fun l _ => ?_
    have := l.2.2
    have e : l.1 = 0 := Subsingleton.elim _ _
    rw [e, h1] at this
    linarith
  · unfold modelVarD
    have hu : ∀ l : D'.Kept 1, l = ⟨0, by norm_num, h2'.ge⟩ := fun l => Subtype.ext (Fin.ext (by have := l.2.1; simpa using this))
    refine (Fintype.sum_eq_single (⟨0, by norm_num, h2'.ge⟩ : D'.Kept 1) fun l hl => absurd (hu l) hl).trans ?_
    show 1 / ((2 : ℕ) : ℝ) * D'.lam 0 = EPS / 2
    rw [h2']
    push_cast
    ring

end kpca

/-! ## Examples -/

/-- Three points, each given twice: the hypotheses of the theorems above hold. -/
example : Times (fun i : Fin 3 × Fin 2 => i.1) 2 := fun j => by fin_cases j <;> rfl

example : tstd (n := Fin 2) ![0, 2] = some (Real.sqrt 2) ∧ tstd (n := Fin 4) ![0, 2, 0, 2] = some (Real.sqrt (4 / 3)) := by
  constructor <;> norm_num [tstd, tmean, Fin.sum_univ_succ]

end Repeat
end Kerch
