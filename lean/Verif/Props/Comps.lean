import Verif.Props.KPCA
import Verif.Props.Recon
import Verif.Lemmas.Transforms
import Mathlib.LinearAlgebra.Matrix.Rank
/-!
# C161: how many components a fit keeps
-/
set_option linter.unusedSectionVars false
set_option linter.unusedSimpArgs false
namespace Kerch
namespace Comps
open Finset Matrix KPCA

variable {n d : ℕ}

/-! ## Specification -/

/-- The number of components of a level after `solve` with `dim_output = k`. -/
noncomputable def kept {M : Fin n → Fin n → ℝ} (E : EigDecomp M) (k : ℕ) : ℕ := Fintype.card (E.Kept k)

/-- The points `pts i` are those of a list of `c` points, several times over. -/
def Among {X : Type} (pts : Fin n → X) (c : ℕ) : Prop := ∃ (z : Fin c → X) (f : Fin n → Fin c), ∀ i, pts i = z (f i)

/-- The matrix of a kernel function. -/
def mat {X : Type} (κ : X → X → ℝ) (pts : Fin n → X) : Fin n → Fin n → ℝ := fun i j => κ (pts i) (pts j)

/-- The same with the means of rows, columns and the whole removed. -/
noncomputable def centredMat (M : Fin n → Fin n → ℝ) : Fin n → Fin n → ℝ := fun i j => M i j - tmean (M i) - tmean (M j) + tmean fun l => tmean (M l)

/-! ## Lemmas -/

theorem kept_indep {M : Fin n → Fin n → ℝ} (E : EigDecomp M) (k : ℕ) : LinearIndependent ℝ fun (l : E.Kept k) (i : Fin n) => E.V i l.1 := by
  rw [Fintype.linearIndependent_iff]
  intro g hg l
  have h1 : ∑ i, (∑ a, g a • fun i => E.V i a.1) i * E.V i l.1 = 0 := by rw [hg]; simp
  simp only [Finset.sum_apply, Pi.smul_apply, smul_eq_mul, sum_mul] at h1
  rw [sum_comm] at h1
  have h2 : ∀ a : E.Kept k, ∑ i, g a * E.V i a.1 * E.V i l.1 = g a * if a.1 = l.1 then 1 else 0 := fun a => by
    rw [← E.orth, mul_sum]
    exact sum_congr rfl fun i _ => by ring
  simp only [h2] at h1
  classical
  rw [sum_eq_single l] at h1
  · simpa using h1
  · intro b _ hb
    have : b.1 ≠ l.1 := fun e => hb (Subtype.ext e)
    simp [this]
  · simp

theorem kept_le_rank {M : Fin n → Fin n → ℝ} (E : EigDecomp M) (k : ℕ) : kept E k ≤ (Matrix.of M).rank := by
  have hmem : ∀ l : E.Kept k, (fun i => E.V i l.1) ∈ LinearMap.range (Matrix.of M).mulVecLin := by
    intro l
    have hpos : 0 < E.lam l.1 := EPS_pos.trans_le l.2.2
    refine ⟨fun i => E.V i l.1 / E.lam l.1, ?_⟩
    funext i
    have := E.eig i l.1
    simp only [Matrix.mulVecLin_apply, Matrix.mulVec, dotProduct, Matrix.of_apply]
    have e : ∀ j, M i j * (E.V j l.1 / E.lam l.1) = M i j * E.V j l.1 / E.lam l.1 := fun j => by ring
    simp only [e, ← sum_div, this]
    field_simp
  have hli : LinearIndependent ℝ fun l : E.Kept k => (⟨_, hmem l⟩ : LinearMap.range (Matrix.of M).mulVecLin) := by
    refine LinearIndependent.of_comp (LinearMap.range (Matrix.of M).mulVecLin).subtype ?_
    exact kept_indep E k
  exact hli.fintype_card_le_finrank

/-- Centring as a product of matrices. -/
noncomputable def J (n : ℕ) : Matrix (Fin n) (Fin n) ℝ := 1 - Matrix.of fun _ _ => (1 / (n : ℝ))

theorem J_mulVec (v : Fin n → ℝ) : (J n).mulVec v = fun i => v i - tmean v := by
  funext i
  rw [J, Matrix.sub_mulVec, Matrix.one_mulVec, Pi.sub_apply]
  simp only [Matrix.mulVec, dotProduct, Matrix.of_apply, tmean, ← mul_sum, Fintype.card_fin]
  ring

theorem centred_eq (M : Fin n → Fin n → ℝ) (hM : ∀ i j, M i j = M j i) : Matrix.of (centredMat M) = J n * Matrix.of M * J n := by
  ext i j
  have h1 : ∀ (A : Matrix (Fin n) (Fin n) ℝ) i j, (J n * A) i j = A i j - tmean fun a => A a j := fun A i j => congrFun (J_mulVec fun a => A a j) i
  have h2 : ∀ (A : Matrix (Fin n) (Fin n) ℝ) i j, (A * J n) i j = A i j - tmean (A i) := fun A i j => by
    rw [J, Matrix.mul_sub, Matrix.mul_one, Matrix.sub_apply]
    simp only [Matrix.mul_apply, Matrix.of_apply, ← sum_mul, tmean, Fintype.card_fin]
    ring
  rw [h2]
  have h3 : (fun b => (J n * Matrix.of M) i b) = fun b => M i b - tmean fun a => M a b := by funext b; rw [h1]; rfl
  have h4 : tmean ((J n * Matrix.of M) i) = tmean (M i) - tmean fun b => tmean (M b) := by
    show tmean (fun b => (J n * Matrix.of M) i b) = _
    rw [h3]
    simp only [tmean, sum_sub_distrib, sub_div]
    congr 2
    exact sum_congr rfl fun b _ => by congr 1; exact sum_congr rfl fun a _ => hM a b
  rw [h4, h1]
  simp only [Matrix.of_apply, centredMat]
  have : (tmean fun a => M a j) = tmean (M j) := by simp only [tmean]; congr 1; exact sum_congr rfl fun a _ => hM a j
  rw [this]; ring

/-- The matrix that repeats points. -/
def rep {c : ℕ} (f : Fin n → Fin c) : Matrix (Fin n) (Fin c) ℝ := Matrix.of fun i a => if f i = a then 1 else 0

theorem mat_rep {X : Type} (κ : X → X → ℝ) (pts : Fin n → X) {c : ℕ} (z : Fin c → X) (f : Fin n → Fin c) (h : ∀ i, pts i = z (f i)) :
    Matrix.of (mat κ pts) = rep f * Matrix.of (mat κ z) * (rep f).transpose := by
  ext i j
  simp [rep, mat, Matrix.mul_apply, Matrix.transpose_apply, h]

theorem rank_lt_of_mulVec {c : ℕ} (A : Matrix (Fin n) (Fin c) ℝ) (hc : 0 < c) (h : A.mulVec (fun _ => 1) = 0) : A.rank ≤ c - 1 := by
  have h1 := A.mulVecLin.finrank_range_add_finrank_ker
  have h2 : 0 < Module.finrank ℝ (LinearMap.ker A.mulVecLin) := by
    rw [Module.finrank_pos_iff_exists_ne_zero]
    refine ⟨⟨fun _ => 1, by simpa [LinearMap.mem_ker] using h⟩, fun e => ?_⟩
    have := congrFun (congrArg Subtype.val e) ⟨0, hc⟩
    simp at this
  simp only [Module.finrank_fintype_fun_eq_card, Fintype.card_fin] at h1
  simp only [Matrix.rank]
  omega

/-! ## Properties -/

/-- **C161** Never more components than asked for, than points, or than different points; for every kernel, whatever the eigensolver returns. -/
theorem C161_points {X : Type} (κ : X → X → ℝ) (pts : Fin n → X) {c : ℕ} (hc : Among pts c) (E : EigDecomp (mat κ pts)) (k : ℕ) :
    kept E k ≤ k ∧ kept E k ≤ n ∧ kept E k ≤ c := by
  refine ⟨?_, ?_, ?_⟩
  · have : Function.Injective fun l : E.Kept k => (⟨l.1.val, l.2.1⟩ : Fin k) := by
      intro a b h
      simp only [Fin.mk.injEq] at h
      exact Subtype.ext (Fin.ext h)
    simpa [kept] using Fintype.card_le_of_injective _ this
  · have : Function.Injective fun l : E.Kept k => l.1 := Subtype.val_injective
    simpa [kept] using Fintype.card_le_of_injective _ this
  · obtain ⟨z, f, hz⟩ := hc
    refine (kept_le_rank E k).trans ?_
    rw [mat_rep κ pts z f hz]
    refine (Matrix.rank_mul_le_left _ _).trans ((Matrix.rank_mul_le_left _ _).trans ((Matrix.rank_le_card_width _).trans ?_))
    simp

/-- **C161** With a centred kernel one less: of `c` different points at most `c - 1` components; a sample that repeats one point leaves none at all. -/
theorem C161_centred {X : Type} (κ : X → X → ℝ) (hκ : ∀ x y, κ x y = κ y x) (pts : Fin n → X) [Nonempty (Fin n)] {c : ℕ} (hc : Among pts c) {K : Fin n → Fin n → ℝ}
    (hK : ioos κ pts [.mean] .sample .sample = .ok K) (E : EigDecomp K) (k : ℕ) : kept E k ≤ c - 1 := by
  have hKe : K = centredMat (mat κ pts) := (Except.ok.inj hK).symm
  obtain ⟨z, f, hz⟩ := hc
  refine (kept_le_rank E k).trans ?_
  have hn : 0 < n := Fin.pos_iff_nonempty.mpr inferInstance
  have hcp : 0 < c := Fin.pos (f ⟨0, hn⟩)
  have e : Matrix.of K = (J n * rep f) * (Matrix.of (mat κ z) * (rep f).transpose * J n) := by
    rw [hKe, centred_eq (mat κ pts) (fun i j => hκ _ _), mat_rep κ pts z f hz]
    simp only [Matrix.mul_assoc]
  rw [e]
  refine (Matrix.rank_mul_le_left _ _).trans (rank_lt_of_mulVec (J n * rep f) hcp ?_)
  rw [← Matrix.mulVec_mulVec, J_mulVec]
  have hm : (n : ℝ) ≠ 0 := by exact_mod_cast hn.ne'
  funext i
  simp [rep, Matrix.mulVec, dotProduct, tmean, hm]

/-- **C161** Never more than there are features. -/
theorem C161_features (κ : ℝ) (Φ : Fin n → Fin d → ℝ) (E : EigDecomp (levelK κ Φ)) (k : ℕ) : kept E k ≤ d := by
  refine (kept_le_rank E k).trans ?_
  have e : Matrix.of (levelK κ Φ) = Matrix.of Φ * (κ • (Matrix.of Φ).transpose) := by
    ext i j
    simp [levelK, matK, Matrix.mul_apply, Matrix.transpose_apply, mul_sum, mul_left_comm]
  rw [e]
  refine (Matrix.rank_mul_le_left _ _).trans ((Matrix.rank_le_card_width _).trans ?_)
  simp

/-- **C161** A fit in primal keeps no component that the fit in dual does not: at the same `dim_output` it has at most as many. -/
theorem C161_primal (hn : n ≠ 0) (Φ : Fin n → Fin d → ℝ) (κ : ℝ) (hκ : 1 ≤ κ) (D : EigDecomp (levelC Φ)) (E : EigDecomp (levelK κ Φ)) (k : ℕ) :
    kept D k ≤ kept E k := by
  have hn1 : (1 : ℝ) ≤ n := by exact_mod_cast Nat.one_le_iff_ne_zero.mpr hn
  have hκ0 : 0 < κ := lt_of_lt_of_le one_pos hκ
  have key : ∀ l : D.Kept k, ∃ h : l.1.val < n, EPS ≤ E.lam ⟨l.1.val, h⟩ := by
    intro l
    obtain ⟨h, e⟩ := C49_vals hn Φ κ hκ0 D E l.1 (EPS_pos.trans_le l.2.2)
    refine ⟨h, e ▸ ?_⟩
    have h1 : (1 : ℝ) ≤ κ * n := by nlinarith
    have h2 := l.2.2
    have h3 := EPS_pos
    nlinarith
  have : Function.Injective fun l : D.Kept k => (⟨⟨l.1.val, (key l).choose⟩, l.2.1, (key l).choose_spec⟩ : E.Kept k) := by
    intro a b h
    have := congrArg (fun x : E.Kept k => x.1.val) h
    exact Subtype.ext (Fin.ext this)
  exact Fintype.card_le_of_injective _ this

/-- **C161**, expected and not true: that both keep the same. The threshold is the same for the covariance, which is divided by the number of points, and for the kernel matrix, which is not: of the points `±a` the
dual fit keeps the direction and the primal one nothing, if `a²` lies between one half and one time the threshold. -/
theorem C161_primal_violated (a : ℝ) (h1 : EPS / 2 ≤ a ^ 2) (h2 : a ^ 2 < EPS) (D : EigDecomp (levelC (![![a], ![-a]] : Fin 2 → Fin 1 → ℝ)))
    (E : EigDecomp (levelK 1 (![![a], ![-a]] : Fin 2 → Fin 1 → ℝ))) : kept D 1 = 0 ∧ kept E 1 = 1 := by
  have hC : levelC (![![a], ![-a]] : Fin 2 → Fin 1 → ℝ) 0 0 = a ^ 2 := by
    simp [levelC, matC, Matrix.mul_apply, Fin.sum_univ_two]
    ring
  have hV : D.V 0 0 ≠ 0 := by
    have := D.orth 0 0
    simp at this
    intro h
    simp [h] at this
  have hD : D.lam 0 = a ^ 2 := by
    have := D.eig 0 0
    simp only [Finset.univ_unique, Fin.default_eq_zero, Fin.isValue, sum_singleton, hC] at this
    exact (mul_right_cancel₀ hV this).symm
  have hE := C49_vals two_ne_zero (![![a], ![-a]] : Fin 2 → Fin 1 → ℝ) 1 one_pos D E 0 (by rw [hD]; have := EPS_pos; linarith)
  obtain ⟨h0, hE⟩ := hE
  constructor
  · rw [kept, Fintype.card_eq_zero_iff]
    refine ⟨fun l => ?_⟩
    have := l.2.2
    have e : l.1 = 0 := Subsingleton.elim _ _
    rw [e, hD] at this
    linarith
  · rw [kept, Fintype.card_eq_one_iff]
    refine ⟨⟨⟨0, by norm_num⟩, by norm_num, ?_⟩, ?_⟩
    · have e : E.lam ⟨0, by norm_num⟩ = 2 * a ^ 2 := by
        rw [← hD]
        simpa using hE
      rw [e]; linarith
    · intro l
      have := l.2.1
      exact Subtype.ext (Fin.ext (by simpa using this))

/-! ## Cases -/

/-- Three times the point `2`: the centred linear kernel leaves nothing, the other one at most one component. -/
example (K : Fin 3 → Fin 3 → ℝ) (hK : ioos (fun x y : ℝ => x * y) (fun _ : Fin 3 => (2 : ℝ)) [.mean] .sample .sample = .ok K) (E : EigDecomp K) : kept E 3 = 0 :=
  Nat.le_zero.mp (C161_centred (fun x y : ℝ => x * y) mul_comm (fun _ => (2 : ℝ)) (c := 1) ⟨fun _ => 2, fun _ => 0, fun _ => rfl⟩ hK E 3)
example (E : EigDecomp (mat (fun x y : ℝ => x * y) fun _ : Fin 3 => (2 : ℝ))) : kept E 3 ≤ 1 :=
  (C161_points _ _ (c := 1) ⟨fun _ => 2, fun _ => 0, fun _ => rfl⟩ E 3).2.2
example (E : EigDecomp (levelK 1 (![![1], ![2], ![4]] : Fin 3 → Fin 1 → ℝ))) : kept E 3 ≤ 1 := C161_features 1 _ E 3
example (D : EigDecomp (levelC (![![1], ![2], ![4]] : Fin 3 → Fin 1 → ℝ))) (E : EigDecomp (levelK 1 (![![1], ![2], ![4]] : Fin 3 → Fin 1 → ℝ))) : kept D 1 ≤ kept E 1 :=
  C161_primal (by norm_num) _ 1 le_rfl D E 1
example (D : EigDecomp (levelC (![![Real.sqrt (EPS * 3 / 4)], ![-Real.sqrt (EPS * 3 / 4)]] : Fin 2 → Fin 1 → ℝ)))
    (E : EigDecomp (levelK 1 (![![Real.sqrt (EPS * 3 / 4)], ![-Real.sqrt (EPS * 3 / 4)]] : Fin 2 → Fin 1 → ℝ))) : kept D 1 < kept E 1 := by
  have h := EPS_pos
  have hs : Real.sqrt (EPS * 3 / 4) ^ 2 = EPS * 3 / 4 := Real.sq_sqrt (by positivity)
  obtain ⟨h1, h2⟩ := C161_primal_violated _ (by rw [hs]; linarith) (by rw [hs]; linarith) D E
  omega

end Comps
end Kerch
