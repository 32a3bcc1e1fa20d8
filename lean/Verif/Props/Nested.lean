import Mathlib.LinearAlgebra.FiniteDimensional.Lemmas
import Mathlib.LinearAlgebra.Dimension.Constructions
import Mathlib.LinearAlgebra.Matrix.NonsingularInverse
import Mathlib.LinearAlgebra.Matrix.DotProduct
import Verif.Props.Eigs
/-!
# C130: components of a fit with more components

Two calls of `utils.eigs` on the same matrix for two numbers of components, in whatever way they are computed (`lobpcg` for one, `eigh` for the other), through the specification of C88.
-/
set_option linter.unusedSectionVars false
set_option linter.unusedSimpArgs false
namespace Kerch
namespace Nested
open Finset Matrix Eigs

variable {n : ℕ} {A : Matrix (Fin n) (Fin n) ℝ}

/-! ## Specification -/

/-- The `j`-th component. -/
def comp (r : Pairs n) (j : Fin r.m) : Fin n → ℝ := fun i => r.V i j

/-- The projection on the first `k` components. -/
def proj (r : Pairs n) (k : ℕ) (x : Fin n → ℝ) : Fin n → ℝ := ∑ j : Fin r.m, if j.val < k then (x ⬝ᵥ comp r j) • comp r j else 0

/-! ## Lemmas -/

theorem comp_orth {k : ℕ} {r : Pairs n} (g : Greatest A k r) (j l : Fin r.m) : comp r j ⬝ᵥ comp r l = if j = l then 1 else 0 := by
  have := congrFun (congrFun g.orth j) l
  rw [Matrix.mul_apply, Matrix.one_apply] at this
  exact this

theorem sym_dot (hA : A.transpose = A) (x y : Fin n → ℝ) : x ⬝ᵥ A *ᵥ y = (A *ᵥ x) ⬝ᵥ y := by
  rw [Matrix.dotProduct_mulVec, ← Matrix.mulVec_transpose, hA]

theorem eig_comp {k : ℕ} {r : Pairs n} (g : Greatest A k r) (j : Fin r.m) : A *ᵥ comp r j = r.s j • comp r j := g.eig j

/-- What is left of a vector without its components. -/
def rest (r : Pairs n) (x : Fin n → ℝ) : Fin n → ℝ := x - ∑ j, (x ⬝ᵥ comp r j) • comp r j

theorem rest_orth {k : ℕ} {r : Pairs n} (g : Greatest A k r) (x : Fin n → ℝ) (l : Fin r.m) : rest r x ⬝ᵥ comp r l = 0 := by
  unfold rest
  rw [sub_dotProduct, sum_dotProduct]
  simp only [smul_dotProduct, comp_orth g, smul_eq_mul, mul_ite, mul_one, mul_zero, sum_ite_eq', mem_univ, if_true, sub_self]

theorem split_eq (r : Pairs n) (x : Fin n → ℝ) : x = ∑ j, (x ⬝ᵥ comp r j) • comp r j + rest r x := by
  unfold rest; rw [add_sub_cancel]

theorem sq_split {k : ℕ} {r : Pairs n} (g : Greatest A k r) (x : Fin n → ℝ) : x ⬝ᵥ x = ∑ j, (x ⬝ᵥ comp r j) ^ 2 + rest r x ⬝ᵥ rest r x := by
  have h1 : rest r x ⬝ᵥ (∑ j, (x ⬝ᵥ comp r j) • comp r j) = 0 := by
    rw [dotProduct_sum]
    exact sum_eq_zero fun j _ => by rw [dotProduct_smul, rest_orth g, smul_zero]
  have h2 : (∑ j, (x ⬝ᵥ comp r j) • comp r j) ⬝ᵥ (∑ j, (x ⬝ᵥ comp r j) • comp r j) = ∑ j, (x ⬝ᵥ comp r j) ^ 2 := by
    rw [sum_dotProduct]
    refine sum_congr rfl fun j _ => ?_
    rw [smul_dotProduct, dotProduct_sum]
    simp only [dotProduct_smul, comp_orth g, smul_eq_mul, mul_ite, mul_one, mul_zero, sum_ite_eq, mem_univ, if_true]
    ring
  have h3 : (∑ j, (x ⬝ᵥ comp r j) • comp r j) ⬝ᵥ rest r x = 0 := by rw [dotProduct_comm, h1]
  have h := split_eq r x
  calc x ⬝ᵥ x = (∑ j, (x ⬝ᵥ comp r j) • comp r j + rest r x) ⬝ᵥ (∑ j, (x ⬝ᵥ comp r j) • comp r j + rest r x) := by rw [← h]
    _ = _ := by rw [add_dotProduct, dotProduct_add, dotProduct_add, h1, h2, h3]; ring

theorem quad_split {k : ℕ} {r : Pairs n} (hA : A.transpose = A) (g : Greatest A k r) (x : Fin n → ℝ) :
    x ⬝ᵥ A *ᵥ x = ∑ j, r.s j * (x ⬝ᵥ comp r j) ^ 2 + rest r x ⬝ᵥ A *ᵥ rest r x := by
  set p := ∑ j, (x ⬝ᵥ comp r j) • comp r j with hp
  have hAp : A *ᵥ p = ∑ j, (r.s j * (x ⬝ᵥ comp r j)) • comp r j := by
    rw [hp, Matrix.mulVec_sum]
    exact sum_congr rfl fun j _ => by rw [Matrix.mulVec_smul, eig_comp g, smul_smul, mul_comm]
  have h1 : rest r x ⬝ᵥ A *ᵥ p = 0 := by
    rw [hAp, dotProduct_sum]
    exact sum_eq_zero fun j _ => by rw [dotProduct_smul, rest_orth g, smul_zero]
  have h2 : p ⬝ᵥ A *ᵥ p = ∑ j, r.s j * (x ⬝ᵥ comp r j) ^ 2 := by
    rw [hAp, dotProduct_sum]
    refine sum_congr rfl fun j _ => ?_
    rw [dotProduct_smul, hp, sum_dotProduct]
    simp only [smul_dotProduct, comp_orth g, smul_eq_mul, mul_ite, mul_one, mul_zero, sum_ite_eq', mem_univ, if_true]
    ring
  have h3 : p ⬝ᵥ A *ᵥ rest r x = 0 := by rw [sym_dot hA, dotProduct_comm, h1]
  have h := split_eq r x
  rw [← hp] at h
  calc x ⬝ᵥ A *ᵥ x = (p + rest r x) ⬝ᵥ A *ᵥ (p + rest r x) := by rw [← h]
    _ = _ := by rw [Matrix.mulVec_add, add_dotProduct, dotProduct_add, dotProduct_add, h1, h2, h3]; ring

/-- On what is orthogonal to the components before the `j`-th one, the quadratic form is below the `j`-th value. -/
theorem below {k : ℕ} {r : Pairs n} (hA : A.transpose = A) (g : Greatest A k r) (j : Fin r.m) (x : Fin n → ℝ) (hx : ∀ l, l < j → x ⬝ᵥ comp r l = 0) :
    x ⬝ᵥ A *ᵥ x ≤ r.s j * (x ⬝ᵥ x) := by
  rw [quad_split hA g, sq_split g, mul_add, mul_sum]
  refine add_le_add (sum_le_sum fun l _ => ?_) (g.top _ (rest_orth g x) j)
  rcases lt_or_ge l j with h | h
  · rw [hx l h]; simp
  · exact mul_le_mul_of_nonneg_right (g.desc h) (sq_nonneg _)

theorem value_le {k k' : ℕ} {r r' : Pairs n} (hA : A.transpose = A) (g : Greatest A k r) (g' : Greatest A k' r') (j : ℕ) (h : j < r.m) (h' : j < r'.m) :
    r.s ⟨j, h⟩ ≤ r'.s ⟨j, h'⟩ := by
  -- a combination of the first `j + 1` components of `r`, orthogonal to the first `j` of `r'`
  let f : (Fin (j + 1) → ℝ) →ₗ[ℝ] (Fin j → ℝ) :=
    Matrix.mulVecLin (Matrix.of fun (l : Fin j) (i : Fin (j + 1)) => comp r ⟨i, by omega⟩ ⬝ᵥ comp r' ⟨l, by omega⟩)
  have hne : LinearMap.ker f ≠ ⊥ := LinearMap.ker_ne_bot_of_finrank_lt (by simp)
  obtain ⟨c, hc, hc0⟩ := Submodule.exists_mem_ne_zero_of_ne_bot hne
  set x : Fin n → ℝ := ∑ i : Fin (j + 1), c i • comp r ⟨i, by omega⟩ with hx
  have horth : ∀ l, l < (⟨j, h'⟩ : Fin r'.m) → x ⬝ᵥ comp r' l = 0 := by
    intro l hl
    have := congrFun (LinearMap.mem_ker.1 hc) ⟨l, hl⟩
    rw [hx, sum_dotProduct]
    simp only [smul_dotProduct, smul_eq_mul]
    simp only [f, Matrix.mulVecLin_apply, Matrix.mulVec, dotProduct, Matrix.of_apply, Pi.zero_apply] at this
    rw [← this]
    exact sum_congr rfl fun i _ => mul_comm _ _
  have hxx : x ⬝ᵥ x = ∑ i, c i ^ 2 := by
    rw [hx, sum_dotProduct]
    refine sum_congr rfl fun i _ => ?_
    rw [smul_dotProduct, dotProduct_sum]
    simp only [dotProduct_smul, comp_orth g, smul_eq_mul, Fin.mk.injEq, Fin.val_inj, mul_ite, mul_one, mul_zero, sum_ite_eq, mem_univ, if_true]
    ring
  have hxA : x ⬝ᵥ A *ᵥ x = ∑ i : Fin (j + 1), r.s ⟨i, by omega⟩ * c i ^ 2 := by
    have : A *ᵥ x = ∑ i : Fin (j + 1), (r.s ⟨i, by omega⟩ * c i) • comp r ⟨i, by omega⟩ := by
      rw [hx, Matrix.mulVec_sum]
      exact sum_congr rfl fun i _ => by rw [Matrix.mulVec_smul, eig_comp g, smul_smul, mul_comm]
    rw [this, hx, sum_dotProduct]
    refine sum_congr rfl fun i _ => ?_
    rw [smul_dotProduct, dotProduct_sum]
    simp only [dotProduct_smul, comp_orth g, smul_eq_mul, Fin.mk.injEq, Fin.val_inj, mul_ite, mul_one, mul_zero, sum_ite_eq, mem_univ, if_true]
    ring
  have hpos : 0 < x ⬝ᵥ x := by
    rw [hxx]
    refine lt_of_le_of_ne (sum_nonneg fun i _ => sq_nonneg _) fun h0 => hc0 (funext fun i => ?_)
    have := (sum_eq_zero_iff_of_nonneg fun i _ => sq_nonneg (c i)).1 h0.symm i (mem_univ i)
    exact pow_eq_zero_iff two_ne_zero |>.1 this
  have hup := below hA g' ⟨j, h'⟩ x horth
  have hlow : r.s ⟨j, h⟩ * (x ⬝ᵥ x) ≤ x ⬝ᵥ A *ᵥ x := by
    rw [hxA, hxx, mul_sum]
    refine sum_le_sum fun i _ => mul_le_mul_of_nonneg_right (g.desc ?_) (sq_nonneg _)
    exact Fin.mk_le_mk.2 (by omega)
  exact le_of_mul_le_mul_right (hlow.trans hup) hpos

/-- An eigenvector is orthogonal to the components of other values. -/
theorem eig_orth {k : ℕ} {r : Pairs n} (hA : A.transpose = A) (g : Greatest A k r) (x : Fin n → ℝ) (s : ℝ) (hx : A *ᵥ x = s • x) (j : Fin r.m) (hj : r.s j ≠ s) :
    x ⬝ᵥ comp r j = 0 := by
  have h1 := sym_dot hA x (comp r j)
  rw [eig_comp g, hx, dotProduct_smul, smul_dotProduct, smul_eq_mul, smul_eq_mul] at h1
  have : (r.s j - s) * (x ⬝ᵥ comp r j) = 0 := by linarith
  exact (mul_eq_zero.1 this).resolve_left (sub_ne_zero.2 hj)

/-- An eigenvector of a value above one returned has nothing outside the components returned. -/
theorem rest_zero {k : ℕ} {r : Pairs n} (hA : A.transpose = A) (g : Greatest A k r) (x : Fin n → ℝ) (s : ℝ) (hx : A *ᵥ x = s • x) (j : Fin r.m) (hj : r.s j < s) :
    rest r x = 0 := by
  have hz : A *ᵥ rest r x = s • rest r x := by
    unfold rest
    rw [Matrix.mulVec_sub, hx, Matrix.mulVec_sum, smul_sub, smul_sum]
    congr 1
    refine sum_congr rfl fun l _ => ?_
    rw [Matrix.mulVec_smul, eig_comp g, smul_smul, smul_smul]
    by_cases hl : r.s l = s
    · rw [hl, mul_comm]
    · rw [eig_orth hA g x s hx l hl, zero_mul, mul_zero]
  have hq := g.top _ (rest_orth g x) j
  rw [hz, dotProduct_smul, smul_eq_mul] at hq
  have h0 : 0 ≤ rest r x ⬝ᵥ rest r x := sum_nonneg fun i _ => mul_self_nonneg _
  have : rest r x ⬝ᵥ rest r x = 0 := le_antisymm (by nlinarith) h0
  exact dotProduct_self_eq_zero.1 this

/-! ## Properties -/

/-- **C130** Fitting with more components gives the values of the components it has in common with a fit with fewer, whatever the way the two are computed. -/
theorem C130_values (hA : A.transpose = A) {k k' : ℕ} {r r' : Pairs n} (g : Greatest A k r) (g' : Greatest A k' r') (j : ℕ) (h : j < r.m) (h' : j < r'.m) :
    r.s ⟨j, h⟩ = r'.s ⟨j, h'⟩ := le_antisymm (value_le hA g g' j h h') (value_le hA g' g j h' h)

/-- **C130** and, where the value differs from its neighbours, the same component up to its sign. -/
theorem C130_components_partial (hA : A.transpose = A) {k k' : ℕ} {r r' : Pairs n} (g : Greatest A k r) (g' : Greatest A k' r') (hk : k < k') (j : Fin r.m)
    (hd : ∀ l : Fin r'.m, l.val ≠ j.val → r'.s l ≠ r.s j) :
    ∃ h' : j.val < r'.m, comp r j = comp r' ⟨j, h'⟩ ∨ comp r j = -comp r' ⟨j, h'⟩ := by
  have hm := g.card
  have hm' := g'.card
  have h' : j.val < r'.m := by omega
  refine ⟨h', ?_⟩
  have hx := eig_comp g j
  have hlt : r'.s ⟨j + 1, by omega⟩ < r.s j := by
    refine lt_of_le_of_ne ?_ (hd ⟨j + 1, by omega⟩ (by simp))
    rw [show r.s j = r'.s ⟨j, h'⟩ from C130_values hA g g' j j.2 h']
    exact g'.desc (Fin.mk_le_mk.2 (by omega))
  have hz := rest_zero hA g' (comp r j) (r.s j) hx ⟨j + 1, by omega⟩ hlt
  have hs := split_eq r' (comp r j)
  rw [hz, add_zero, sum_eq_single ⟨j, h'⟩ (fun l _ hl => by
    rw [eig_orth hA g' _ _ hx l (hd l fun e => hl (Fin.ext e)), zero_smul]) (fun hn => absurd (mem_univ _) hn)] at hs
  set c := comp r j ⬝ᵥ comp r' ⟨j, h'⟩ with hc
  have h1 : c * c = 1 := by
    have a := comp_orth g j j
    rw [if_pos rfl, hs, smul_dotProduct, dotProduct_smul, comp_orth g' ⟨j, h'⟩ ⟨j, h'⟩, if_pos rfl, smul_eq_mul, smul_eq_mul, mul_one] at a
    exact a
  rcases mul_self_eq_one_iff.1 h1 with h | h
  · left; rw [hs, h, one_smul]
  · right; rw [hs, h, neg_smul, one_smul]

/-- **C130** If the next value is smaller, what the first `k` components represent of any vector (hence reconstructions, residuals and denoising) is the same for both fits, also when values are
repeated among them. -/
theorem C130_projection_partial (hA : A.transpose = A) {k k' : ℕ} {r r' : Pairs n} (g : Greatest A k r) (g' : Greatest A k' r') (hk : k < r'.m)
    (hgap : ∀ j : Fin r.m, r'.s ⟨k, hk⟩ < r.s j) (x : Fin n → ℝ) : proj r k x = proj r' k x := by
  have hm := g.card
  have hm' := g'.card
  -- the components of `r` are combinations of the first `k` of `r'`
  have hin : ∀ j, comp r j = ∑ l : Fin r'.m, if l.val < k then (comp r j ⬝ᵥ comp r' l) • comp r' l else 0 := by
    intro j
    have hs := split_eq r' (comp r j)
    rw [rest_zero hA g' _ _ (eig_comp g j) ⟨k, hk⟩ (hgap j), add_zero] at hs
    refine hs.trans (sum_congr rfl fun l _ => ?_)
    split
    · rfl
    · rename_i hl
      have : r'.s l ≤ r'.s ⟨k, hk⟩ := g'.desc (Fin.le_def.2 (by simp only; omega))
      rw [eig_orth hA g' _ _ (eig_comp g j) l (ne_of_lt (this.trans_lt (hgap j))), zero_smul]
  -- the change of basis is orthogonal
  let Q : Matrix (Fin k) (Fin k) ℝ := Matrix.of fun a b => comp r ⟨a, by omega⟩ ⬝ᵥ comp r' ⟨b, by omega⟩
  have hcut : ∀ {β : Type} [AddCommMonoid β] (F : Fin r'.m → β), (∑ l : Fin r'.m, if l.val < k then F l else 0) = ∑ b : Fin k, F ⟨b, by omega⟩ := by
    intro β _ F
    rw [← sum_filter]
    refine sum_bij' (fun l hl => ⟨l.val, (mem_filter.1 hl).2⟩) (fun b _ => ⟨b.val, by omega⟩) ?_ ?_ ?_ ?_ ?_ <;> simp
  have hcut' : ∀ {β : Type} [AddCommMonoid β] (F : Fin r.m → β), (∑ l : Fin r.m, if l.val < k then F l else 0) = ∑ b : Fin k, F ⟨b, by omega⟩ := by
    intro β _ F
    rw [← sum_filter]
    refine sum_bij' (fun l hl => ⟨l.val, (mem_filter.1 hl).2⟩) (fun b _ => ⟨b.val, by omega⟩) ?_ ?_ ?_ ?_ ?_ <;> simp
  have hexp : ∀ a : Fin k, comp r ⟨a, by omega⟩ = ∑ b : Fin k, Q a b • comp r' ⟨b, by omega⟩ := by
    intro a
    rw [hin ⟨a, by omega⟩, hcut]
    rfl
  have hQ : Q * Q.transpose = 1 := by
    ext a b
    rw [Matrix.mul_apply, Matrix.one_apply]
    have := comp_orth g ⟨a, by omega⟩ ⟨b, by omega⟩
    rw [hexp a, sum_dotProduct] at this
    simp only [Fin.mk.injEq, Fin.val_inj] at this
    rw [← this]
    refine sum_congr rfl fun c _ => ?_
    rw [smul_dotProduct, dotProduct_comm, smul_eq_mul]
    rfl
  have hQ' : Q.transpose * Q = 1 := mul_eq_one_comm.1 hQ
  unfold proj
  rw [hcut, hcut']
  have h1 : ∀ a : Fin k, (x ⬝ᵥ comp r ⟨a, by omega⟩) • comp r ⟨a, by omega⟩ =
      ∑ b : Fin k, ∑ c : Fin k, ((Q a b * Q a c) * (x ⬝ᵥ comp r' ⟨b, by omega⟩)) • comp r' ⟨c, by omega⟩ := by
    intro a
    rw [hexp a, dotProduct_sum, sum_smul]
    refine sum_congr rfl fun b _ => ?_
    rw [smul_sum]
    refine sum_congr rfl fun c _ => ?_
    rw [dotProduct_smul, smul_smul, smul_eq_mul]
    congr 1; ring
  simp only [h1]
  rw [sum_comm]
  refine sum_congr rfl fun b _ => ?_
  rw [sum_comm]
  have h2 : ∀ c : Fin k, ∑ a : Fin k, ((Q a b * Q a c) * (x ⬝ᵥ comp r' ⟨b, by omega⟩)) • comp r' ⟨c, by omega⟩ =
      (if b = c then (x ⬝ᵥ comp r' ⟨b, by omega⟩) • comp r' ⟨c, by omega⟩ else 0) := by
    intro c
    rw [← sum_smul, ← sum_mul]
    have := congrFun (congrFun hQ' b) c
    rw [Matrix.mul_apply, Matrix.one_apply] at this
    simp only [Matrix.transpose_apply] at this
    rw [this]
    split <;> simp
  simp only [h2, sum_ite_eq, mem_univ, if_true]

/-- **C130** violated where values are equal: on the identity of the plane, `eigs` may return the first axis for one component and start with the second one for two: both results meet the
specification, and what the first component represents differs. -/
theorem C130_tie_violated :
    ∃ r r' : Pairs 2, Greatest (1 : Matrix (Fin 2) (Fin 2) ℝ) 1 r ∧ Greatest (1 : Matrix (Fin 2) (Fin 2) ℝ) 2 r' ∧ proj r 1 ![1, 0] = ![1, 0] ∧ proj r' 1 ![1, 0] = 0 := by
  refine ⟨⟨1, fun _ => 1, !![1; 0]⟩, ⟨2, fun _ => 1, !![0, 1; 1, 0]⟩, ⟨rfl, fun j => by simp, ?_, fun _ _ _ => le_rfl, fun x _ j => by simp⟩,
    ⟨rfl, fun j => by simp, ?_, fun _ _ _ => le_rfl, fun x _ j => by simp⟩, ?_, ?_⟩
  · ext i j; fin_cases i; fin_cases j; simp [Matrix.mul_apply, Fin.sum_univ_two]
  · ext i j; fin_cases i <;> fin_cases j <;> simp [Matrix.mul_apply, Fin.sum_univ_two]
  · funext i
    fin_cases i <;> simp [proj, comp, dotProduct, Fin.sum_univ_two]
  · funext i
    fin_cases i <;> simp [proj, comp, dotProduct, Fin.sum_univ_two]

/-- **C130** for `utils.eigs` itself: for all numbers of components `1 ≤ k < k'` of a symmetric matrix and whatever `lobpcg` does (fail, or return the greatest eigenpairs), the values of the first fit
are the first values of the second. -/
theorem C130_eigs (T : Torch n) (hA : A.transpose = A) (k k' : ℕ) (hk : 1 ≤ k) (hkk : k ≤ k') (hk' : k' ≤ n) (psd psd' : Bool)
    (hl : ∀ m r, T.lobpcg A (m : ℕ) none = some r → Greatest A m r) (he : IsEigh A (T.eigh A)) :
    ∃ r r', eigs T A (some (k : ℤ)) none psd true = .ok r ∧ eigs T A (some (k' : ℤ)) none psd' true = .ok r' ∧ r.m = k ∧ r'.m = k' ∧
      ∀ j (h : j < r.m) (h' : j < r'.m), r.s ⟨j, h⟩ = r'.s ⟨j, h'⟩ := by
  obtain ⟨r, hr, g⟩ := C88_greatest_partial T A hA (some k) (by rintro j ⟨⟩; omega) (by omega) psd (hl _) he
  obtain ⟨r', hr', g'⟩ := C88_greatest_partial T A hA (some k') (by rintro j ⟨⟩; omega) (by omega) psd' (hl _) he
  exact ⟨r, r', hr, hr', g.card, g'.card, fun j h h' => C130_values hA g g' j h h'⟩

/-! ## Examples -/

/-- Fits of `diag(3, 2)` with one and with two components. -/
abbrev one : Pairs 2 := ⟨1, fun _ => 3, !![-1; 0]⟩
abbrev two : Pairs 2 := ⟨2, ![3, 2], !![1, 0; 0, 1]⟩

theorem one_orth : (!![-1; 0] : Matrix (Fin 2) (Fin 1) ℝ).transpose * (!![-1; 0] : Matrix (Fin 2) (Fin 1) ℝ) = 1 := by
  ext i j; fin_cases i; fin_cases j; simp [Matrix.mul_apply, Fin.sum_univ_two]

theorem two_orth : (!![1, 0; 0, 1] : Matrix (Fin 2) (Fin 2) ℝ).transpose * !![1, 0; 0, 1] = 1 := by
  ext i j; fin_cases i <;> fin_cases j <;> simp [Matrix.mul_apply, Fin.sum_univ_two]

theorem one_greatest : Greatest (diagonal ![3, 2] : Matrix (Fin 2) (Fin 2) ℝ) 1 one := by
  refine ⟨rfl, fun j => ?_, one_orth, fun _ _ _ => le_rfl, fun x hx j => ?_⟩
  · funext i; fin_cases j; fin_cases i <;> simp [Matrix.mulVec, dotProduct, Fin.sum_univ_two, diagonal]
  · have := hx (0 : Fin 1)
    simp [dotProduct, Fin.sum_univ_two] at this
    simp [Matrix.mulVec, dotProduct, Fin.sum_univ_two, diagonal, this]
    nlinarith [mul_self_nonneg (x 1)]

theorem two_greatest : Greatest (diagonal ![3, 2] : Matrix (Fin 2) (Fin 2) ℝ) 2 two := by
  refine ⟨rfl, fun j => ?_, two_orth, ?_, fun x hx j => ?_⟩
  · funext i; fin_cases j <;> fin_cases i <;> simp [Matrix.mulVec, dotProduct, Fin.sum_univ_two, diagonal]
  · intro i j h
    fin_cases i <;> fin_cases j <;> simp at h ⊢ <;> norm_num
  · have h0 := hx (0 : Fin 2)
    have h1 := hx (1 : Fin 2)
    simp [dotProduct, Fin.sum_univ_two] at h0 h1
    simp [Matrix.mulVec, dotProduct, Fin.sum_univ_two, h0, h1]

example : ∃ h', comp one (0 : Fin 1) = comp two ⟨0, h'⟩ ∨ comp one (0 : Fin 1) = -comp two ⟨0, h'⟩ := by
  refine C130_components_partial (by simp) one_greatest two_greatest (by norm_num) (0 : Fin 1) fun l hl => ?_
  revert hl
  fin_cases l
  · intro hl; exact absurd rfl hl
  · intro _; simp

example (x : Fin 2 → ℝ) : proj one 1 x = proj two 1 x := by
  refine C130_projection_partial (by simp) one_greatest two_greatest (show 1 < 2 by decide) (fun j => ?_) x
  have h : (2 : ℝ) < 3 := by norm_num
  simpa using h

end Nested
end Kerch
