import Mathlib.LinearAlgebra.Matrix.Charpoly.Coeff
import Mathlib.LinearAlgebra.Matrix.Charpoly.Eigs
import Mathlib.Algebra.Polynomial.Roots
import Mathlib.Data.List.Sort
import Verif.Model.Methods
import Verif.Props.Bandwidth
import Verif.Props.KPCA
import Verif.Props.LSSVM
/-!
# C119: the order of the sample does not matter

The sample in another order is `pts ∘ e` with `e` a bijection of the indices.
-/
set_option linter.unusedSectionVars false
set_option linter.unusedSimpArgs false
namespace Kerch
namespace Order
open Finset

/-- The index, in the original order, of a row of an argument: only the rows of the sample are moved. -/
def reidx {X m n : Type} (e : m ≃ n) : (a : Arg X) → a.I m → a.I n
  | .sample => e
  | .batch _ _ => id

/-! ## statistics -/

section stat
variable {m n d : Type} [Fintype m] [Fintype n] [Fintype d] (e : m ≃ n)

theorem tmean_comp (f : n → ℝ) : tmean (fun i => f (e i)) = tmean f := by
  unfold tmean
  rw [Equiv.sum_comp e f, Fintype.card_congr e]

theorem tmin_comp [Nonempty m] [Nonempty n] (f : n → ℝ) : tmin (fun i => f (e i)) = tmin f := by
  refine le_antisymm (le_inf' _ _ fun j _ => ?_) (le_inf' _ _ fun i _ => inf'_le _ (mem_univ _))
  have := inf'_le (fun i => f (e i)) (mem_univ (e.symm j))
  rwa [e.apply_symm_apply] at this

theorem tmax_comp [Nonempty m] [Nonempty n] (f : n → ℝ) : tmax (fun i => f (e i)) = tmax f := by
  refine le_antisymm (sup'_le _ _ fun i _ => le_sup' f (mem_univ _)) (sup'_le _ _ fun j _ => ?_)
  have := le_sup' (fun i => f (e i)) (mem_univ (e.symm j))
  rwa [e.apply_symm_apply] at this

theorem tstd_comp (f : n → ℝ) : tstd (fun i => f (e i)) = tstd f := by
  unfold tstd
  rw [tmean_comp e, Fintype.card_congr e, Equiv.sum_comp e fun i => (f i - tmean f) ^ 2]

theorem colStat_comp [Nonempty m] [Nonempty n] (k : Kind) (par : Option Kind) (S : n → d → ℝ) :
    colStat k par (fun i => S (e i)) = colStat k par S := by
  cases k with
  | mean => exact congrArg some (funext fun j => tmean_comp e fun i => S i j)
  | minimum => exact congrArg some (funext fun j => tmin_comp e fun i => S i j)
  | variance =>
    have h : (fun j => (tstd fun i => S (e i) j).getD 0) = fun j => (tstd fun i => S i j).getD 0 := funext fun j => by
      rw [tstd_comp e fun i => S i j]
    simp only [colStat, h, Fintype.card_congr e]
  | minmax =>
    refine congrArg some (funext fun j => ?_)
    rw [tmin_comp e fun i => S i j, tmax_comp e fun i => S i j]
  | sphere => rfl

theorem applyKind_comp {ι ι' : Type} (g : ι' → ι) (k : Kind) (st : d → ℝ) (Y : ι → d → ℝ) :
    applyKind k st (fun i => Y (g i)) = fun i => applyKind k st Y (g i) := by cases k <;> rfl

end stat

/-! ## transforms and kernel matrices -/

section chains
variable {X m n d : Type} [Fintype m] [Nonempty m] [Fintype n] [Nonempty n] [Fintype d] (e : m ≃ n)

/-- **C119**: for every feature map and every list of transforms, the features of the sample given in another order are the features in this other order. -/
theorem C119_features (φ : X → d → ℝ) (pts : n → X) (p : List Kind) :
    esample φ (fun i => pts (e i)) p = (esample φ pts p).map fun S i => S (e i) := by
  induction p with
  | nil => rfl
  | cons k p ih =>
    simp only [esample, ih]
    cases esample φ pts p with
    | none => rfl
    | some S =>
      simp only [Option.map_some, Option.bind_eq_bind, Option.bind_some, colStat_comp]
      cases colStat k p.head? S with
      | none => rfl
      | some st => simp only [Option.bind_some, Option.map_some, applyKind_comp]

/-- **C119**: and those of points out of sample are the same. -/
theorem C119_features_oos (φ : X → d → ℝ) (pts : n → X) (p : List Kind) (a : Arg X) :
    eoos φ (fun i => pts (e i)) p a = (eoos φ pts p a).map fun Y i => Y (reidx e a i) := by
  cases a with
  | sample =>
    rw [eoos, eoos]
    exact C119_features e φ pts p
  | batch ι x =>
    simp only [reidx, id]
    induction p with
    | nil => rfl
    | cons k p ih =>
      simp only [eoos, ih, C119_features e φ pts p]
      cases eoos φ pts p (.batch ι x) with
      | none => rfl
      | some Y =>
        cases esample φ pts p with
        | none => rfl
        | some S =>
          simp only [Option.map_some, Option.bind_eq_bind, Option.bind_some, colStat_comp]
          cases colStat k p.head? S <;> rfl

theorem istep_comp (k : Kind) (par : (a b : Arg X) → Except Err (a.I n → b.I n → ℝ)) (par' : (a b : Arg X) → Except Err (a.I m → b.I m → ℝ))
    (h : ∀ a b, par' a b = (par a b).map fun M i j => M (reidx e a i) (reidx e b j)) (a b : Arg X) :
    istep k par' a b = (istep k par a b).map fun M i j => M (reidx e a i) (reidx e b j) := by
  cases k with
  | mean =>
    simp only [istep, h]
    cases par a .sample with
    | error _ => rfl
    | ok A =>
      cases par .sample .sample with
      | error _ => rfl
      | ok S =>
        cases par b .sample with
        | error _ => rfl
        | ok B =>
          cases par a b with
          | error _ => rfl
          | ok M =>
            refine congrArg Except.ok (funext fun i => funext fun j => ?_)
            show M (reidx e a i) (reidx e b j) - tmean (fun l => A (reidx e a i) (e l)) - tmean (fun l => B (reidx e b j) (e l))
              + tmean (fun l => tmean fun l' => S (e l) (e l')) = _
            rw [tmean_comp e (A (reidx e a i)), tmean_comp e (B (reidx e b j))]
            have : (fun l => tmean fun l' => S (e l) (e l')) = fun l => tmean (S (e l)) := funext fun l => tmean_comp e (S (e l))
            rw [this, tmean_comp e fun l => tmean (S l)]
  | sphere =>
    simp only [istep, h]
    cases par a b with
    | error _ => rfl
    | ok M =>
      cases par a a with
      | error _ => rfl
      | ok A =>
        cases par b b with
        | error _ => rfl
        | ok B => rfl
  | minimum => cases a <;> cases b <;> rfl
  | variance => cases a <;> cases b <;> rfl
  | minmax => cases a <;> cases b <;> rfl

/-- **C119**: for every kernel function, list of transforms and pair of arguments, the kernel matrix of the sample given in another order has its rows and
columns in this other order; between points out of sample nothing changes. The calls that raise are the same and raise the same. -/
theorem C119_values (κ : X → X → ℝ) (pts : n → X) (p : List Kind) (a b : Arg X) :
    ioos κ (fun i => pts (e i)) p a b = (ioos κ pts p a b).map fun M i j => M (reidx e a i) (reidx e b j) := by
  induction p generalizing a b with
  | nil => cases a <;> cases b <;> rfl
  | cons k p ih =>
    cases a with
    | batch ι x =>
      simp only [ioos]
      exact istep_comp e k _ _ ih _ _
    | sample =>
      cases b with
      | sample =>
        simp only [ioos]
        exact istep_comp e k _ _ ih _ _
      | batch ι y =>
        simp only [ioos]
        rw [istep_comp e k _ _ ih _ _]
        cases istep k (ioos κ pts p) (.batch ι y) .sample <;> rfl

/-- **C119**: the bandwidth that is computed when none is given is the same. -/
theorem C119_bandwidth [Nonempty d] (D : DistKind) (pts : n → d → ℝ) : heuristicSigma D (fun i => pts (e i)) = heuristicSigma D pts := by
  have h : ∀ g : n × n → ℝ, lowerMedian (fun ij : m × m => g (e ij.1, e ij.2)) = lowerMedian g := fun g =>
    lowerMedian_equiv (e.prodCongr e) g
  cases D with
  | euclidean => simp only [heuristicSigma]; rw [h fun ij => euclidSq (pts ij.1) (pts ij.2)]
  | manhattan => simp only [heuristicSigma]; rw [h fun ij => manhattan (pts ij.1) (pts ij.2)]
  | chebyshev => simp only [heuristicSigma]; rw [h fun ij => chebyshev (pts ij.1) (pts ij.2)]
  | minkowski p => rfl

/-- **C119**: the covariance of the features is the same. -/
theorem C119_covariance {m n : Type} [Fintype m] [Fintype n] (e : m ≃ n) (Φ : n → d → ℝ) : matC (Matrix.of fun i => Φ (e i)) = matC (Matrix.of Φ) := by
  unfold matC
  rw [Fintype.card_congr e]
  congr 1
  ext j l
  simp only [Matrix.mul_apply, Matrix.transpose_apply, Matrix.of_apply]
  exact Equiv.sum_comp e fun i => Φ i j * Φ i l

end chains

/-! ## LS-SVM -/

section lssvm
open LSSVM
variable {m n d : Type} [Fintype m] [Fintype n] [Fintype d] (e : m ≃ n)

theorem psd_comp {K : n → n → ℝ} (hK : PSDMat K) : PSDMat fun i j : m => K (e i) (e j) := by
  refine ⟨fun i j => hK.1 _ _, fun v => ?_⟩
  have := hK.2 fun i => v (e.symm i)
  rw [← Equiv.sum_comp e] at this
  refine this.trans_eq (sum_congr rfl fun i _ => ?_)
  rw [← Equiv.sum_comp e]
  simp

/-- **C119**: for every positive semi-definite kernel matrix and `γ > 0`, an LS-SVM trained in dual on the points and targets in another order makes the same
predictions at every point (`kx` its kernel values against the sample), and its parameters are those in this other order. -/
theorem C119_lssvm [Nonempty n] (K : n → n → ℝ) (hK : PSDMat K) (γ : ℝ) (hγ : 0 < γ) (y h : n → ℝ) (h' : m → ℝ) (b b' : ℝ)
    (hs : DualSol K γ y h b) (hs' : DualSol (fun i j => K (e i) (e j)) γ (fun i => y (e i)) h' b') :
    (∀ i, h' i = h (e i)) ∧ b' = b ∧ ∀ kx : n → ℝ, outDual (fun i => kx (e i)) h' b' = outDual kx h b := by
  have hm : Nonempty m := ⟨e.symm (Classical.arbitrary n)⟩
  have h0 : DualSol (fun i j => K (e i) (e j)) γ (fun i => y (e i)) (fun i => h (e i)) b := by
    refine ⟨fun i => ?_, ?_⟩
    · rw [Equiv.sum_comp e fun j => K (e i) j * h j]; exact hs.1 (e i)
    · rw [Equiv.sum_comp e h]; exact hs.2
  obtain ⟨r1, r2⟩ := C50_unique_partial _ (psd_comp e hK) γ hγ _ _ _ _ _ hs' h0
  refine ⟨fun i => congrFun r1 i, r2, fun kx => ?_⟩
  rw [r1, r2]
  unfold outDual
  rw [Equiv.sum_comp e fun i => kx i * h i]

/-- **C119**: in primal the system itself does not depend on the order. -/
theorem C119_lssvm_primal (Φ : n → d → ℝ) (γ : ℝ) (y : n → ℝ) (w : d → ℝ) (b : ℝ) :
    PrimalSol (fun i => Φ (e i)) γ (fun i => y (e i)) w b ↔ PrimalSol Φ γ y w b := by
  unfold PrimalSol
  have h1 : ∀ j l, ∑ a, Φ (e a) j * Φ (e a) l = ∑ a, Φ a j * Φ a l := fun j l => Equiv.sum_comp e fun a => Φ a j * Φ a l
  have h2 : ∀ j, ∑ a, Φ (e a) j = ∑ a, Φ a j := fun j => Equiv.sum_comp e fun a => Φ a j
  have h3 : ∀ j, ∑ a, Φ (e a) j * y (e a) = ∑ a, Φ a j * y a := fun j => Equiv.sum_comp e fun a => Φ a j * y a
  simp only [Fintype.card_congr e, h1, h2, h3, Equiv.sum_comp e y]

end lssvm

/-! ## kernel PCA -/

section kpca
open KPCA
variable {n d : ℕ}

/-- The decomposition in another order. -/
def reorder {M : Fin n → Fin n → ℝ} (e : Fin n ≃ Fin n) (D : EigDecomp M) : EigDecomp fun i j => M (e i) (e j) where
  lam := D.lam
  V := fun i l => D.V (e i) l
  sorted := D.sorted
  orth := fun k l => by rw [Equiv.sum_comp e fun i => D.V i k * D.V i l]; exact D.orth k l
  eig := fun i k => by rw [Equiv.sum_comp e fun j => M (e i) j * D.V j k]; exact D.eig (e i) k

theorem charpoly_eq {M : Fin n → Fin n → ℝ} (D : EigDecomp M) : (Matrix.of M).charpoly = ∏ l, (Polynomial.X - Polynomial.C (D.lam l)) := by
  have hVV : (Matrix.of D.V).transpose * Matrix.of D.V = 1 := by
    ext k l
    simp only [Matrix.mul_apply, Matrix.transpose_apply, Matrix.of_apply, Matrix.one_apply]
    exact D.orth k l
  have hVV' : Matrix.of D.V * (Matrix.of D.V).transpose = 1 := mul_eq_one_comm.1 hVV
  have hM : Matrix.of M = Matrix.of D.V * (Matrix.diagonal D.lam * (Matrix.of D.V).transpose) := by
    have h1 : Matrix.of M * Matrix.of D.V = Matrix.of D.V * Matrix.diagonal D.lam := by
      ext i k
      rw [Matrix.mul_diagonal]
      simp only [Matrix.mul_apply, Matrix.of_apply]
      rw [D.eig i k, mul_comm]
    rw [← Matrix.mul_assoc, ← h1, Matrix.mul_assoc, hVV', Matrix.mul_one]
  rw [hM, Matrix.charpoly_mul_comm, Matrix.mul_assoc, hVV, Matrix.mul_one, Matrix.charpoly_diagonal]

/-- Two decompositions of a matrix have the same eigenvalues. -/
theorem lam_unique {M : Fin n → Fin n → ℝ} (D D' : EigDecomp M) : D.lam = D'.lam := by
  have h : (univ.val.map D.lam) = univ.val.map D'.lam := by
    have h0 := (charpoly_eq D).symm.trans (charpoly_eq D')
    have h1 := congrArg Polynomial.roots h0
    have hr : ∀ f : Fin n → ℝ, (∏ l, (Polynomial.X - Polynomial.C (f l))).roots = univ.val.map f := by
      intro f
      have := Polynomial.roots_multiset_prod_X_sub_C (univ.val.map f)
      rw [Multiset.map_map] at this
      exact this
    rwa [hr, hr] at h1
  have hl : ∀ f : Fin n → ℝ, (univ.val.map f) = (List.ofFn f : Multiset ℝ) := by
    intro f
    rw [List.ofFn_eq_map]
    rfl
  rw [hl, hl, Multiset.coe_eq_coe] at h
  have hs : ∀ f : Fin n → ℝ, Antitone f → (List.ofFn f).Pairwise (· ≥ ·) := by
    intro f hf
    rw [List.pairwise_ofFn]
    exact fun i j hij => hf hij.le
  exact List.ofFn_injective (h.eq_of_pairwise' (hs _ D.sorted) (hs _ D'.sorted))

theorem kept_sum_eq {M M' : Fin n → Fin n → ℝ} (D : EigDecomp M) (D' : EigDecomp M') (h : D.lam = D'.lam) (k : ℕ) (f : ℝ → ℝ) :
    ∑ l : D.Kept k, f (D.lam l.1) = ∑ l : D'.Kept k, f (D'.lam l.1) := by
  have h' := congrFun h
  exact Fintype.sum_equiv ⟨fun l => ⟨l.1, l.2.1, (h' l.1).symm ▸ l.2.2⟩, fun l => ⟨l.1, l.2.1, (h' l.1) ▸ l.2.2⟩, fun _ => rfl, fun _ => rfl⟩ _ _
    fun l => congrArg f (h' l.1)

/-- **C119**: whatever decomposition is returned by `torch`, the variances explained by a kernel PCA (in dual) do not depend on the order of the sample: the
eigenvalues are the same, and so are the variance of the model and the total variance. -/
theorem C119_variance (e : Fin n ≃ Fin n) (κ : ℝ) (Φ : Fin n → Fin d → ℝ) (D : EigDecomp (levelK κ Φ)) (D' : EigDecomp (levelK κ fun i => Φ (e i)))
    (k : ℕ) (r : Level.Rep) :
    D'.lam = D.lam ∧ modelVarD D' k = modelVarD D k ∧ totalVar r κ (fun i => Φ (e i)) = totalVar r κ Φ := by
  have h : D'.lam = D.lam := lam_unique D' (reorder e D)
  refine ⟨h, kept_sum_eq D' D h k fun t => 1 / (n : ℝ) * t, ?_⟩
  cases r with
  | primal => simp only [totalVar, levelC, C119_covariance e Φ]
  | dual =>
    simp only [totalVar, levelK, matK, Matrix.mul_apply, Matrix.transpose_apply, Matrix.of_apply]
    exact Equiv.sum_comp e fun i => κ * ∑ j, Φ i j * Φ i j

/-- **C119**: in primal, the matrix that is decomposed is the same. -/
theorem C119_primal (e : Fin n ≃ Fin n) (Φ : Fin n → Fin d → ℝ) : levelC (fun i => Φ (e i)) = levelC Φ := C119_covariance e Φ

theorem vec_unique {M : Fin n → Fin n → ℝ} (D D' : EigDecomp M) (l : Fin n) (hl : ∀ l', l' ≠ l → D.lam l' ≠ D.lam l) :
    ∃ s : ℝ, (s = 1 ∨ s = -1) ∧ ∀ i, D'.V i l = s * D.V i l := by
  have hlam := lam_unique D D'
  have hz : ∀ l', l' ≠ l → ∑ j, D'.V j l * D.V j l' = 0 := fun l' h' =>
    D.eig_orth (fun j => D'.V j l) (D'.lam l) (fun i => D'.eig i l) l' (by rw [← hlam]; exact hl l' h')
  have he : ∀ i, D'.V i l = (∑ j, D'.V j l * D.V j l) * D.V i l := by
    intro i
    rw [D.expand (fun j => D'.V j l) i, sum_eq_single l (fun l' _ h' => by rw [hz l' h', zero_mul]) fun h' => absurd (mem_univ _) h']
  refine ⟨_, ?_, he⟩
  have h1 := D'.orth l l
  rw [if_pos rfl] at h1
  have h2 : (∑ j, D'.V j l * D.V j l) * (∑ j, D'.V j l * D.V j l) = 1 := by
    conv_rhs => rw [← h1]
    have : ∑ i, D'.V i l * D'.V i l = ∑ i, (∑ j, D'.V j l * D.V j l) * (D'.V i l * D.V i l) :=
      sum_congr rfl fun i _ => by nth_rewrite 2 [he i]; ring
    rw [this, ← mul_sum]
  exact mul_self_eq_one_iff.1 h2

/-- **C119**: for a simple eigenvalue, the component has the same score at every point, out of sample or not, up to one sign for the whole component. -/
theorem C119_scores_partial (e : Fin n ≃ Fin n) (κ : ℝ) (Φ : Fin n → Fin d → ℝ) (D : EigDecomp (levelK κ Φ)) (D' : EigDecomp (levelK κ fun i => Φ (e i)))
    (l : Fin n) (hl : ∀ l', l' ≠ l → D.lam l' ≠ D.lam l) :
    ∃ s : ℝ, (s = 1 ∨ s = -1) ∧ ∀ φ : Fin d → ℝ, scoreD D' (fun i => Φ (e i)) φ l = s * scoreD D Φ φ l := by
  obtain ⟨s, hs, hv⟩ := vec_unique (reorder e D) D' l hl
  refine ⟨s, hs, fun φ => ?_⟩
  unfold scoreD
  rw [mul_sum, ← Equiv.sum_comp e fun i => s * ((∑ j, φ j * Φ i j) * D.V i l)]
  refine sum_congr rfl fun i _ => ?_
  rw [hv i]
  show _ * (s * D.V (e i) l) = _
  ring

/-- Without a simple eigenvalue the score of one point, even its absolute value, depends on the decomposition that is returned: on the points `(1, 0)` and
`(0, 1)`, which any order leaves with the same kernel matrix, the first component may be the first or the second coordinate. -/
theorem C119_scores_violated :
    ∃ (Φ : Fin 2 → Fin 2 → ℝ) (e : Fin 2 ≃ Fin 2) (D : EigDecomp (levelK 1 Φ)) (D' : EigDecomp (levelK 1 fun i => Φ (e i))) (φ : Fin 2 → ℝ),
      scoreD D Φ φ 0 = 1 ∧ scoreD D' (fun i => Φ (e i)) φ 0 = 0 := by
  let Φ : Fin 2 → Fin 2 → ℝ := fun i j => if i = j then 1 else 0
  have hK : ∀ e : Fin 2 ≃ Fin 2, levelK 1 (fun i => Φ (e i)) = fun i j => if i = j then (1 : ℝ) else 0 := by
    intro e
    funext i j
    simp only [levelK, matK, Matrix.mul_apply, Matrix.transpose_apply, Matrix.of_apply, Φ, one_mul, ite_mul, zero_mul, sum_ite_eq, mem_univ, if_true]
    by_cases h : i = j
    · simp [h]
    · rw [if_neg h, if_neg fun h' => h (e.injective h'.symm)]
  have mk : ∀ e : Fin 2 ≃ Fin 2, ∃ D : EigDecomp (levelK 1 fun i => Φ (e i)), ∀ i l, D.V i l = if i = l then 1 else 0 := by
    intro e
    rw [hK e]
    refine ⟨⟨fun _ => 1, fun i l => if i = l then 1 else 0, fun _ _ _ => le_rfl, fun k l => ?_, fun i k => ?_⟩, fun _ _ => rfl⟩
    · simp [eq_comm]
    · simp
  obtain ⟨D, hD⟩ := mk (Equiv.refl _)
  obtain ⟨D', hD'⟩ := mk (Equiv.swap 0 1)
  refine ⟨Φ, Equiv.swap 0 1, D, D', fun j => if j = 0 then 1 else 0, ?_, ?_⟩
  · unfold scoreD
    simp [hD, Φ]
  · unfold scoreD
    simp [hD', Φ]

end kpca

/-! ## pre-image methods -/

section methods
open Methods
variable {p n d : ℕ}

theorem matMin_comp (e : Fin n ≃ Fin n) (a : Mat p n) : matMin (fun i j => a i (e j)) = matMin a := by
  unfold matMin
  exact Equiv.iInf_comp (e := (Equiv.refl (Fin p)).prodCongr e) (g := fun ij : Fin p × Fin n => a ij.1 ij.2)

theorem knnDists_comp (e : Fin n ≃ Fin n) (a : Mat p n) : knnDists (fun i j => a i (e j)) = fun i j => knnDists a i (e j) := by
  unfold knnDists
  rw [matMin_comp]
  split <;> rfl

/-- Two selections of the largest entries of different values select the same. -/
theorem select_unique {sel sel' : Sel p n} (hs : sel.TopK) (hs' : sel'.TopK) (e : Fin n ≃ Fin n) (k : ℕ) (hk : k ≤ n) (i : Fin p) (v : Fin n → ℝ)
    (hv : Function.Injective v) : univ.image (fun l => e (sel' k hk i (fun j => v (e j)) l)) = univ.image (sel k hk i v) := by
  obtain ⟨i1, t1⟩ := hs k hk i v
  obtain ⟨i2, t2⟩ := hs' k hk i fun j => v (e j)
  have c1 : (univ.image (sel k hk i v)).card = k := by rw [card_image_of_injective _ i1]; simp
  have c2 : (univ.image fun l => e (sel' k hk i (fun j => v (e j)) l)).card = k := by
    rw [card_image_of_injective _ fun a b h => i2 (e.injective h)]; simp
  refine eq_of_subset_of_card_le (fun x hx => ?_) (by rw [c1, c2])
  by_contra hx'
  obtain ⟨y, hy, hy'⟩ : ∃ y ∈ univ.image (sel k hk i v), y ∉ univ.image (fun l => e (sel' k hk i (fun j => v (e j)) l)) := by
    by_contra hcon
    push Not at hcon
    have : univ.image (sel k hk i v) ⊂ univ.image (fun l => e (sel' k hk i (fun j => v (e j)) l)) :=
      (ssubset_iff_of_subset hcon).2 ⟨x, hx, hx'⟩
    have := card_lt_card this
    omega
  simp only [mem_image, mem_univ, true_and, not_exists] at hx hx' hy hy'
  obtain ⟨l, rfl⟩ := hx
  obtain ⟨l', rfl⟩ := hy
  have q1 := t1 _ hx' l'
  have q2 := t2 (e.symm (sel k hk i v l')) (fun a ha => hy' a (by rw [ha, e.apply_symm_apply])) l
  rw [e.apply_symm_apply] at q2
  exact hx' l' (hv (le_antisymm q2 q1))

theorem sum_select {sel sel' : Sel p n} (hs : sel.TopK) (hs' : sel'.TopK) (e : Fin n ≃ Fin n) (k : ℕ) (hk : k ≤ n) (i : Fin p) (v : Fin n → ℝ)
    (hv : Function.Injective v) (f : Fin n → ℝ) : ∑ l, f (e (sel' k hk i (fun j => v (e j)) l)) = ∑ l, f (sel k hk i v l) := by
  rw [← sum_image (g := fun l => e (sel' k hk i (fun j => v (e j)) l)) (f := f) fun a _ b _ h => (hs' k hk i _).1 (e.injective h),
    select_unique hs hs' e k hk i v hv, sum_image fun a _ b _ h => (hs k hk i v).1 h]

/-- **C119**: if no two distances of a row are equal, the mean of the nearest neighbours does not depend on the order of the observations, whatever `num` is
(the calls that raise raise the same). -/
theorem C119_knn_partial (e : Fin n ≃ Fin n) (sel sel' : Sel p n) (hs : sel.TopK) (hs' : sel'.TopK) (dists : Mat p n)
    (hd : ∀ i, Function.Injective (dists i)) (obs : Mat n d) (num : PyNum) :
    knn sel' (fun i j => dists i (e j)) (fun j => obs (e j)) num = knn sel dists obs num := by
  unfold knn
  rw [knnDists_comp]
  split
  · rfl
  · rename_i z hz
    by_cases h1 : z ≤ n
    · by_cases h2 : 0 < z
      · by_cases h3 : p = 0
        · simp [h1, h2, h3]
        · simp only [dif_pos h1, if_pos h2, if_neg h3, dif_pos, Fin.cast_refl, id]
          congr 1
          funext i j
          congr 1
          have hv : Function.Injective fun a => -(knnDists dists i a) := by
            intro a b h
            simp only [neg_inj] at h
            unfold knnDists at h
            split at h
            · exact hd i (sub_left_injective h)
            · exact hd i h
          exact sum_select hs hs' e z.toNat (Int.toNat_le.mpr h1) i (fun a => -(knnDists dists i a)) hv fun a => obs a j
      · simp [h1, h2]
    · simp [h1]

/-- **C119** violated for equal distances: with two observations at the same distance, exchanging them changes the nearest neighbour that is returned, whatever
rule `torch.topk` follows. -/
theorem C119_knn_violated (sel : Sel 1 2) :
    ∃ (dists : Mat 1 2) (obs : Mat 2 1) (e : Fin 2 ≃ Fin 2),
      knn sel (fun i j => dists i (e j)) (fun j => obs (e j)) (.int 1) ≠ knn sel dists obs (.int 1) := by
  refine ⟨fun _ _ => 0, fun j _ => j.val, Equiv.swap 0 1, fun h => ?_⟩
  simp only [knn, PyNum.toInt] at h
  simp only [dif_pos, Fin.cast_refl, id] at h
  rw [dif_pos (by decide), if_pos (by decide), if_neg (by decide), dif_pos (by decide), if_pos (by decide), if_neg (by decide)] at h
  injection h with h
  have h0 := congrFun (congrFun h 0) 0
  simp only [Int.toNat_one, Nat.cast_one, div_one] at h0
  rw [Fin.sum_univ_one, Fin.sum_univ_one] at h0
  revert h0
  generalize sel 1 _ 0 _ 0 = a
  fin_cases a <;> simp

/-- **C119**: the weighted mean of the smoother does not depend on the order of the observations if no two coefficients of a row are equal or all are used. -/
theorem C119_smoother_partial (e : Fin n ≃ Fin n) (sel sel' : Sel p n) (hs : sel.TopK) (hs' : sel'.TopK) (coeff : Mat p n) (num : PyNum)
    (hd : (∀ i, Function.Injective (coeff i)) ∨ smootherNum n num = .ok n) (obs : Mat n d) :
    smoother sel' (fun i j => coeff i (e j)) (fun j => obs (e j)) num = smoother sel coeff obs num := by
  unfold smoother
  simp only [dif_pos, Fin.cast_refl, id]
  split
  · rfl
  · rename_i z hz
    by_cases h2 : 0 < z
    · by_cases h1 : z ≤ n
      · simp only [if_pos h2, dif_pos h1]
        have key : ∀ i j, keptCoeff sel' (fun i j => coeff i (e j)) z.toNat (Int.toNat_le.mpr h1) i j =
            keptCoeff sel coeff z.toNat (Int.toNat_le.mpr h1) i (e j) := by
          intro i j
          unfold keptCoeff
          by_cases hzn : z.toNat = n
          · rw [if_pos hzn, if_pos hzn]
          · rw [if_neg hzn, if_neg hzn]
            have hinj := hd.resolve_right fun h => hzn (by rw [hz] at h; injection h with h; omega)
            have := select_unique hs hs' e z.toNat (Int.toNat_le.mpr h1) i (coeff i) (hinj i)
            have hiff : (∃ l, sel' z.toNat (Int.toNat_le.mpr h1) i (fun j => coeff i (e j)) l = j) ↔
                ∃ l, sel z.toNat (Int.toNat_le.mpr h1) i (coeff i) l = e j := by
              have hm := Finset.ext_iff.1 this (e j)
              simpa only [mem_image, mem_univ, true_and, e.apply_eq_iff_eq] using hm
            by_cases hc : ∃ l, sel z.toNat (Int.toNat_le.mpr h1) i (coeff i) l = e j
            · rw [if_pos (hiff.2 hc), if_pos hc]
            · rw [if_neg fun h => hc (hiff.1 h), if_neg hc]
        congr 1
        funext i j
        simp only [key]
        rw [Equiv.sum_comp e fun l => keptCoeff sel coeff z.toNat (Int.toNat_le.mpr h1) i l]
        rw [Equiv.sum_comp e fun l => keptCoeff sel coeff z.toNat (Int.toNat_le.mpr h1) i l /
          (∑ l', keptCoeff sel coeff z.toNat (Int.toNat_le.mpr h1) i l') * obs l j]
      · simp [h1, h2]
    · simp [h2]

end methods
/-! ## cases -/

/-- The three points 0, 1, 3 in the order 1, 3, 0: the normalised and centred kernel matrix between the sample and the point 5 has its rows moved. -/
example (κ : ℝ → ℝ → ℝ) : ∃ e : Fin 3 ≃ Fin 3, e 0 = 1 ∧ e 1 = 2 ∧ e 2 = 0 ∧
    ioos κ (fun i => (![0, 1, 3] : Fin 3 → ℝ) (e i)) [.sphere, .mean] .sample (.batch (Fin 1) fun _ => 5) =
      (ioos κ (![0, 1, 3] : Fin 3 → ℝ) [.sphere, .mean] .sample (.batch (Fin 1) fun _ => 5)).map fun M i j => M (e i) j :=
  ⟨finRotate 3, rfl, rfl, rfl, C119_values (finRotate 3) κ _ _ _ _⟩

/-- Standardised features: the same, the first point moved to the end. -/
example : esample (fun x (_ : Fin 1) => x) (fun i => (![0, 1, 3] : Fin 3 → ℝ) (finRotate 3 i)) [.variance, .mean] =
    (esample (fun x (_ : Fin 1) => x) (![0, 1, 3] : Fin 3 → ℝ) [.variance, .mean]).map fun S i => S (finRotate 3 i) :=
  C119_features (finRotate 3) _ _ _

/-- An LS-SVM on two points with targets 1 and -1 and the identity as kernel matrix (`γ = 1`): `h = (1/2, -1/2)`, exchanged with the points. -/
example : LSSVM.DualSol (n := Fin 2) (fun i j => if i = j then 1 else 0) 1 ![1, -1] ![1 / 2, -1 / 2] 0 ∧
    LSSVM.DualSol (n := Fin 2) (fun i j => if Equiv.swap (0 : Fin 2) 1 i = Equiv.swap (0 : Fin 2) 1 j then 1 else 0) 1
      (fun i => ![1, -1] (Equiv.swap (0 : Fin 2) 1 i)) ![-1 / 2, 1 / 2] 0 := by
  refine ⟨⟨fun i => ?_, ?_⟩, fun i => ?_, ?_⟩
  · fin_cases i <;> norm_num [Fin.sum_univ_two]
  · norm_num [Fin.sum_univ_two]
  · fin_cases i <;> norm_num [Fin.sum_univ_two]
  · norm_num [Fin.sum_univ_two]

/-- Kernel PCA of the points 2 and 1 on two axes: the eigenvalues 4 and 1 are simple, the first component gives the first axis (up to sign). -/
example : ∃ D : EigDecomp (KPCA.levelK 1 fun (i j : Fin 2) => if i = j then (![2, 1] : Fin 2 → ℝ) i else 0), D.lam = ![4, 1] ∧
    ∀ l', l' ≠ 0 → D.lam l' ≠ D.lam 0 := by
  refine ⟨⟨![4, 1], fun i j => if i = j then 1 else 0, fun a b h => ?_, fun k l => ?_, fun i k => ?_⟩, rfl, fun l' h => ?_⟩
  · fin_cases a <;> fin_cases b <;> simp_all
  · fin_cases k <;> fin_cases l <;> simp
  · fin_cases i <;> fin_cases k <;>
      norm_num [KPCA.levelK, matK, Matrix.mul_apply, Fin.sum_univ_two]
  · fin_cases l'
    · exact absurd rfl h
    · norm_num

/-- Distances without equal values, and the two nearest of three. -/
example (sel sel' : Methods.Sel 1 3) (hs : sel.TopK) (hs' : sel'.TopK) :
    Methods.knn sel' (fun i j => (fun _ => ![5, 1, 2] : Methods.Mat 1 3) i (finRotate 3 j)) (fun j => (![![0], ![1], ![2]] : Methods.Mat 3 1) (finRotate 3 j)) (.int 2) =
      Methods.knn sel (fun _ => ![5, 1, 2]) ![![0], ![1], ![2]] (.int 2) := by
  refine C119_knn_partial (finRotate 3) sel sel' hs hs' _ (fun i a b h => ?_) _ _
  fin_cases a <;> fin_cases b <;> norm_num at h <;> rfl

/-- All the coefficients may be equal if all are used. -/
example (sel sel' : Methods.Sel 1 3) (hs : sel.TopK) (hs' : sel'.TopK) :
    Methods.smoother sel' (fun _ _ => 1) (fun j => (![![0], ![1], ![2]] : Methods.Mat 3 1) (finRotate 3 j)) (.str "all" none) =
      Methods.smoother sel (fun _ _ => 1) ![![0], ![1], ![2]] (.str "all" none) :=
  C119_smoother_partial (finRotate 3) sel sel' hs hs' (fun _ _ => 1) (.str "all" none) (Or.inr (if_pos (by decide +kernel))) ![![0], ![1], ![2]]

end Order
end Kerch
