import Verif.Props.Nystrom
import Mathlib.Tactic.FinCases
import Mathlib.Tactic.Linarith
set_option linter.unusedSectionVars false
set_option linter.unusedSimpArgs false
/-!
# C135: how far a Nyström kernel is from its base kernel

The model is `EigDecomp.oosPhi` of Model/Nystrom (kerch/kernel/nystrom.py:115-163): the features of any point, from the values `kx` of the base kernel between it and the sample.
-/
namespace Kerch
namespace NysBound
open Finset

variable {X : Type} {n m : ℕ}

/-- `nystrom.k(x, y)` on points of the space: the inner product of the features `_explicit_with_none(x)` (nystrom.py:156-163; explicit.py:42 `phi_x @ phi_y.T`) of two
points, `z` being the sample and `κ` the base kernel. -/
noncomputable def nys (κ : X → X → ℝ) (z : Fin n → X) (D : EigDecomp fun i j => κ (z i) (z j)) (k : ℕ) (x y : X) : ℝ :=
  ∑ l : D.Kept k, D.oosPhi k (fun j => κ x (z j)) l * D.oosPhi k (fun j => κ y (z j)) l

/-- Specification: the value of a form at a formal combination of points. -/
def form {ι : Type} [Fintype ι] (κ : X → X → ℝ) (x : ι → X) (c : ι → ℝ) : ℝ := ∑ i, ∑ j, c i * c j * κ (x i) (x j)

variable (κ : X → X → ℝ) (z : Fin n → X) (D : EigDecomp fun i j => κ (z i) (z j)) (k : ℕ)

theorem nys_symm (x y : X) : nys κ z D k x y = nys κ z D k y x := sum_congr rfl fun _ _ => mul_comm _ _

/-- The form of the approximation as a sum of squares. -/
theorem form_nys {ι : Type} [Fintype ι] (x : ι → X) (c : ι → ℝ) :
    form (nys κ z D k) x c = ∑ l : D.Kept k, (1 / D.lam l.1) * (∑ j, (∑ i, c i * κ (x i) (z j)) * D.V j l.1) ^ 2 := by
  unfold form nys
  have h1 : ∀ l : D.Kept k, (1 / D.lam l.1) * (∑ j, (∑ i, c i * κ (x i) (z j)) * D.V j l.1) ^ 2 = (∑ i, c i * D.oosPhi k (fun j => κ (x i) (z j)) l) ^ 2 := by
    intro l
    have hp := D.lam_pos l
    have e : ∑ i, c i * D.oosPhi k (fun j => κ (x i) (z j)) l = (∑ j, (∑ i, c i * κ (x i) (z j)) * D.V j l.1) * (1 / Real.sqrt (D.lam l.1)) := by
      unfold EigDecomp.oosPhi
      simp only [← mul_assoc]
      rw [← sum_mul]
      congr 1
      simp only [mul_sum, sum_mul]
      rw [sum_comm]
      exact sum_congr rfl fun _ _ => sum_congr rfl fun _ _ => by ring
    rw [e, mul_pow, div_pow, Real.sq_sqrt hp.le]
    ring
  rw [sum_congr rfl fun l _ => h1 l]
  have h2 : ∀ l : D.Kept k, (∑ i, c i * D.oosPhi k (fun j => κ (x i) (z j)) l) ^ 2
      = ∑ i, ∑ j, c i * c j * (D.oosPhi k (fun a => κ (x i) (z a)) l * D.oosPhi k (fun a => κ (x j) (z a)) l) := by
    intro l
    rw [sq, sum_mul_sum]
    exact sum_congr rfl fun _ _ => sum_congr rfl fun _ _ => by ring
  simp only [h2, mul_sum]
  rw [sum_comm (γ := D.Kept k)]
  refine sum_congr rfl fun i _ => ?_
  rw [sum_comm (γ := D.Kept k)]

/-- The form at the difference of two combinations. -/
theorem form_sub {ι ι' : Type} [Fintype ι] [Fintype ι'] (κ : X → X → ℝ) (hs : ∀ x y, κ x y = κ y x) (x : ι → X) (c : ι → ℝ) (y : ι' → X) (u : ι' → ℝ) :
    form κ (Sum.elim x y) (Sum.elim c fun j => -u j) = form κ x c - 2 * ∑ j, u j * ∑ i, c i * κ (x i) (y j) + form κ y u := by
  unfold form
  simp only [Fintype.sum_sum_type, Sum.elim_inl, Sum.elim_inr, sum_add_distrib]
  have h1 : ∑ i, ∑ j, c i * -u j * κ (x i) (y j) = - ∑ j, u j * ∑ i, c i * κ (x i) (y j) := by
    rw [sum_comm, ← sum_neg_distrib]
    refine sum_congr rfl fun j _ => ?_
    rw [mul_sum, ← sum_neg_distrib]
    exact sum_congr rfl fun i _ => by ring
  have h2 : ∑ j, ∑ i, -u j * c i * κ (y j) (x i) = - ∑ j, u j * ∑ i, c i * κ (x i) (y j) := by
    rw [← sum_neg_distrib]
    refine sum_congr rfl fun j _ => ?_
    rw [mul_sum, ← sum_neg_distrib]
    exact sum_congr rfl fun i _ => by rw [hs (y j)]; ring
  have h3 : ∑ i, ∑ j, -u i * -u j * κ (y i) (y j) = ∑ i, ∑ j, u i * u j * κ (y i) (y j) := sum_congr rfl fun _ _ => sum_congr rfl fun _ _ => by ring
  rw [h1, h2, h3]
  ring

theorem psd_iff_form (κ : X → X → ℝ) (hs : ∀ x y, κ x y = κ y x) : PSDOn Set.univ κ ↔ ∀ (ι : Type) [Fintype ι] (x : ι → X) (c : ι → ℝ), 0 ≤ form κ x c :=
  ⟨fun h ι _ x c => (h ι x fun _ => trivial).2 c, fun h ι _ x _ => ⟨fun _ _ => hs _ _, fun c => h ι x c⟩⟩

theorem psd_symm {κ : X → X → ℝ} (h : PSDOn Set.univ κ) (x y : X) : κ x y = κ y x :=
  (h Bool (fun b => if b then x else y) fun _ => trivial).1 true false

/-- The combination of points of the sample at which the approximation is reached. -/
theorem reached {ι : Type} [Fintype ι] (x : ι → X) (c : ι → ℝ) :
    ∃ u : Fin n → ℝ, ∑ j, u j * ∑ i, c i * κ (x i) (z j) = form (nys κ z D k) x c ∧ form κ z u = form (nys κ z D k) x c := by
  obtain ⟨b, hb⟩ : ∃ b : Fin n → ℝ, b = fun j => ∑ i, c i * κ (x i) (z j) := ⟨_, rfl⟩
  have hb' : ∀ j, ∑ i, c i * κ (x i) (z j) = b j := fun j => (congrFun hb j).symm
  obtain ⟨s, hs⟩ : ∃ s : Fin n → ℝ, s = fun l => ∑ j, b j * D.V j l := ⟨_, rfl⟩
  have hs' : ∀ l, ∑ j, b j * D.V j l = s l := fun l => (congrFun hs l).symm
  obtain ⟨w, hw⟩ : ∃ w : Fin n → ℝ, w = fun l => if l.val < k ∧ EPS ≤ D.lam l then s l / D.lam l else 0 := ⟨_, rfl⟩
  have hN : form (nys κ z D k) x c = ∑ l, w l * s l := by
    rw [form_nys]
    simp only [hb', hs']
    rw [D.sum_kept k fun l => (1 / D.lam l) * s l ^ 2]
    refine sum_congr rfl fun l _ => ?_
    rw [hw]
    simp only
    split
    · ring
    · ring
  refine ⟨fun j => ∑ l, w l * D.V j l, ?_, ?_⟩
  · simp only [hb', hN]
    simp only [sum_mul]
    rw [sum_comm]
    refine sum_congr rfl fun l _ => ?_
    rw [← hs' l, mul_sum]
    exact sum_congr rfl fun j _ => by ring
  · rw [hN]
    unfold form
    have h1 : ∀ i, ∑ j, (∑ l, w l * D.V i l) * (∑ l, w l * D.V j l) * κ (z i) (z j) = (∑ l, w l * D.V i l) * ∑ l, w l * (D.lam l * D.V i l) := by
      intro i
      simp only [mul_assoc, ← mul_sum]
      congr 1
      simp only [sum_mul]
      rw [sum_comm]
      refine sum_congr rfl fun l _ => ?_
      rw [← D.eig i l, mul_sum]
      exact sum_congr rfl fun j _ => by ring
    rw [sum_congr rfl fun i _ => h1 i]
    have h2 : ∀ i, (∑ l, w l * D.V i l) * ∑ l, w l * (D.lam l * D.V i l) = ∑ l, ∑ l', w l * (w l' * D.lam l') * (D.V i l * D.V i l') := by
      intro i
      rw [sum_mul_sum]
      exact sum_congr rfl fun _ _ => sum_congr rfl fun _ _ => by ring
    rw [sum_congr rfl fun i _ => h2 i, sum_comm]
    refine sum_congr rfl fun l _ => ?_
    rw [sum_comm]
    have h3 : ∀ l', ∑ i, w l * (w l' * D.lam l') * (D.V i l * D.V i l') = w l * (w l' * D.lam l') * if l = l' then 1 else 0 := by
      intro l'
      rw [← mul_sum, D.orth]
    rw [sum_congr rfl fun l' _ => h3 l']
    simp only [mul_ite, mul_one, mul_zero, sum_ite_eq, mem_univ, if_true]
    rw [hw]
    simp only
    split
    · rename_i hl
      have : D.lam l ≠ 0 := (EPS_pos.trans_le hl.2).ne'
      field_simp
    · ring

variable {κ z D k}

/-- C135. The error is itself a positive semi-definite kernel, whatever the sample and the dimension. -/
theorem C135_residual (hκ : PSDOn Set.univ κ) : PSDOn Set.univ fun x y => κ x y - nys κ z D k x y := by
  have hs := psd_symm hκ
  refine (psd_iff_form _ fun x y => by rw [hs x y, nys_symm]).2 fun ι _ x c => ?_
  obtain ⟨u, h1, h2⟩ := reached κ z D k x c
  have h3 := (psd_iff_form κ hs).1 hκ _ (Sum.elim x z) (Sum.elim c fun j => -u j)
  rw [form_sub κ hs, h1, h2] at h3
  have : form (fun x y => κ x y - nys κ z D k x y) x c = form κ x c - form (nys κ z D k) x c := by
    unfold form
    simp only [mul_sub, sum_sub_distrib]
  rw [this]
  linarith

/-- The approximation of `k(x, x)` is between zero and it. -/
theorem C135_between (hκ : PSDOn Set.univ κ) (x : X) : 0 ≤ nys κ z D k x x ∧ nys κ z D k x x ≤ κ x x := by
  refine ⟨sum_nonneg fun l _ => mul_self_nonneg _, ?_⟩
  have := (C135_residual (z := z) (D := D) (k := k) hκ Unit (fun _ => x) fun _ => trivial).diag_nonneg ()
  linarith

/-- The error at two points is at most the geometric mean of the errors at each. -/
theorem C135_error (hκ : PSDOn Set.univ κ) (x y : X) :
    (κ x y - nys κ z D k x y) ^ 2 ≤ (κ x x - nys κ z D k x x) * (κ y y - nys κ z D k y y) := by
  have h := C135_residual (z := z) (D := D) (k := k) hκ Bool (fun b => if b then x else y) fun _ => trivial
  have h0 := h.diag_nonneg true
  have hsym : κ y x - nys κ z D k y x = κ x y - nys κ z D k x y := h.1 false true
  simp only [if_true] at h0
  obtain ⟨a, ha⟩ : ∃ a, a = κ x x - nys κ z D k x x := ⟨_, rfl⟩
  obtain ⟨b, hb⟩ : ∃ b, b = κ x y - nys κ z D k x y := ⟨_, rfl⟩
  obtain ⟨d, hd⟩ : ∃ d, d = κ y y - nys κ z D k y y := ⟨_, rfl⟩
  have hq : ∀ s t : ℝ, 0 ≤ s * s * a + 2 * (s * t * b) + t * t * d := by
    intro s t
    have := h.2 fun v => if v then s else t
    simp only [Fintype.sum_bool, if_true, Bool.false_eq_true, if_false, hsym, ← ha, ← hb, ← hd] at this
    linarith
  rw [← ha, ← hb, ← hd]
  rw [← ha] at h0
  have hd0 : 0 ≤ d := by have := hq 0 1; linarith
  rcases h0.lt_or_eq with h1 | h1
  · have := hq (-b) a
    have h2 : 0 ≤ a * (a * d - b ^ 2) := by nlinarith
    have h3 := (mul_nonneg_iff_of_pos_left h1).1 h2
    linarith
  · rw [← h1] at hq ⊢
    have h2 : b = 0 := by
      by_contra hb0
      have := hq (-(d + 1) / (2 * b)) 1
      have e : -(d + 1) / (2 * b) * 1 * b = -(d + 1) / 2 := by field_simp
      rw [e] at this
      linarith
    rw [h2]; simp

/-- A point at which the approximation of `k(x, x)` is exact has exact values with every point. -/
theorem C135_exact (hκ : PSDOn Set.univ κ) (x : X) (hx : nys κ z D k x x = κ x x) (y : X) : nys κ z D k x y = κ x y := by
  have h := C135_error (z := z) (D := D) (k := k) hκ x y
  rw [hx, sub_self, zero_mul] at h
  have := pow_eq_zero_iff (two_ne_zero) |>.1 (le_antisymm h (sq_nonneg _))
  linarith

/-- Points of the sample are such points when nothing but null eigenvalues is dropped. -/
theorem C135_landmarks (hκ : PSDOn Set.univ κ) (h : ∀ l : Fin n, ¬ (l.val < k ∧ EPS ≤ D.lam l) → D.lam l = 0) (i : Fin n) (y : X) :
    nys κ z D k (z i) y = κ (z i) y := by
  refine C135_exact hκ _ ?_ y
  unfold nys
  have := C34_sample D k h i i
  rw [← this]
  exact sum_congr rfl fun l _ => by rw [C34_consistent D k i]

/-- A greater dimension improves the approximation (as positive semi-definite kernels, hence at every point). -/
theorem C135_dim {k' : ℕ} (hk : k ≤ k') : PSDOn Set.univ fun x y => nys κ z D k' x y - nys κ z D k x y := by
  refine (psd_iff_form _ fun x y => by rw [nys_symm, nys_symm κ z D k]).2 fun ι _ x c => ?_
  have : form (fun x y => nys κ z D k' x y - nys κ z D k x y) x c = form (nys κ z D k') x c - form (nys κ z D k) x c := by
    unfold form
    simp only [mul_sub, sum_sub_distrib]
  rw [this, form_nys, form_nys, D.sum_kept k' fun l => (1 / D.lam l) * (∑ j, (∑ i, c i * κ (x i) (z j)) * D.V j l) ^ 2,
    D.sum_kept k fun l => (1 / D.lam l) * (∑ j, (∑ i, c i * κ (x i) (z j)) * D.V j l) ^ 2, ← sum_sub_distrib]
  refine sum_nonneg fun l _ => ?_
  by_cases h : l.val < k ∧ EPS ≤ D.lam l
  · rw [if_pos h, if_pos ⟨h.1.trans_le hk, h.2⟩, sub_self]
  · rw [if_neg h, sub_zero]
    split
    · rename_i h2
      have := EPS_pos.trans_le h2.2
      positivity
    · exact le_refl _

/-- More points in the sample improve it too, if the dimension is not limited. -/
theorem C135_points (hκ : PSDOn Set.univ κ) {z' : Fin m → X} {D' : EigDecomp fun i j => κ (z' i) (z' j)} {k' : ℕ}
    (h : ∀ l : Fin m, ¬ (l.val < k' ∧ EPS ≤ D'.lam l) → D'.lam l = 0) (hz : ∀ i, ∃ j, z' j = z i) :
    PSDOn Set.univ fun x y => nys κ z' D' k' x y - nys κ z D k x y := by
  have hs := psd_symm hκ
  refine (psd_iff_form _ fun x y => by rw [nys_symm, nys_symm κ z D k]).2 fun ι _ x c => ?_
  have : form (fun x y => nys κ z' D' k' x y - nys κ z D k x y) x c = form (nys κ z' D' k') x c - form (nys κ z D k) x c := by
    unfold form
    simp only [mul_sub, sum_sub_distrib]
  rw [this]
  obtain ⟨u, h1, h2⟩ := reached κ z D k x c
  have hex : ∀ y i, nys κ z' D' k' y (z i) = κ y (z i) := by
    intro y i
    obtain ⟨j, hj⟩ := hz i
    rw [nys_symm, ← hj, C135_landmarks hκ h, hs]
  have h3 : 0 ≤ form (nys κ z' D' k') (Sum.elim x z) (Sum.elim c fun j => -u j) := by
    rw [form_nys]
    exact sum_nonneg fun l _ => by have := D'.lam_pos l; positivity
  rw [form_sub _ (nys_symm κ z' D' k')] at h3
  have h4 : form (nys κ z' D' k') z u = form κ z u := by
    unfold form
    simp only [hex]
  simp only [hex] at h3
  rw [h1, h4, h2] at h3
  linarith
/-! ## With a limited dimension, and examples -/

/-- The linear kernel of the plane. -/
def lin (x y : ℝ × ℝ) : ℝ := x.1 * y.1 + x.2 * y.2

theorem lin_psd : PSDOn Set.univ lin := by
  intro ι _ x _
  have h := (psdMat_rank_one fun i => (x i).1).add (psdMat_rank_one fun i => (x i).2)
  exact h

/-- One point. -/
def exOne : Fin 1 → ℝ × ℝ := fun _ => (1, 0)
/-- The same and a second one, orthogonal and further away. -/
def exTwo : Fin 2 → ℝ × ℝ := ![(1, 0), (0, 2)]

noncomputable def eigOne : EigDecomp fun i j => lin (exOne i) (exOne j) where
  lam := fun _ => 1
  V := fun _ _ => 1
  sorted := fun _ _ _ => le_refl _
  orth := by intro i j; simp [Subsingleton.elim i j]
  eig := by intro i j; simp [lin, exOne]

noncomputable def eigTwo : EigDecomp fun i j => lin (exTwo i) (exTwo j) where
  lam := ![4, 1]
  V := fun i j => if i = j then 0 else 1
  sorted := by intro i j h; fin_cases i <;> fin_cases j <;> simp_all
  orth := by intro i j; fin_cases i <;> fin_cases j <;> simp
  eig := by intro i j; fin_cases i <;> fin_cases j <;> simp [lin, exTwo]; norm_num

theorem eps_le_one : EPS ≤ 1 := by unfold EPS; norm_num

/-- With the dimension limited to 1 an additional point replaces the first one: its approximation, exact before, is then zero. So `C135_points` needs its condition. -/
theorem C135_limited : nys lin exOne eigOne 1 (1, 0) (1, 0) = 1 ∧ nys lin exTwo eigTwo 1 (1, 0) (1, 0) = 0 ∧ lin (1, 0) (1, 0) = 1 := by
  have e : ∀ {r : ℕ} (z : Fin r → ℝ × ℝ) (D : EigDecomp fun i j => lin (z i) (z j)) (x : ℝ × ℝ),
      nys lin z D 1 x x = ∑ l, if l.val < 1 ∧ EPS ≤ D.lam l then (1 / D.lam l) * (∑ j, lin x (z j) * D.V j l) ^ 2 else 0 := by
    intro r z D x
    have h := form_nys lin z D 1 (fun _ : Unit => x) (fun _ => 1)
    rw [D.sum_kept 1 fun l => (1 / D.lam l) * (∑ j, (∑ _i : Unit, 1 * lin x (z j)) * D.V j l) ^ 2] at h
    simpa [form] using h
  refine ⟨?_, ?_, by simp [lin]⟩
  · rw [e]
    simp [eigOne, lin, exOne, eps_le_one]
  · rw [e]
    simp [eigTwo, lin, exTwo, Fin.sum_univ_two]

/-- `C135_points`, `C135_landmarks`: the second sample with both dimensions. -/
example : PSDOn Set.univ fun x y => nys lin exTwo eigTwo 2 x y - nys lin exOne eigOne 1 x y := by
  refine C135_points lin_psd ?_ ?_
  · intro l hl
    exact absurd ⟨l.2, by fin_cases l <;> simp [eigTwo] <;> linarith [eps_le_one]⟩ hl
  · intro i; exact ⟨0, rfl⟩

/-- `C135_residual`, `C135_between`, `C135_error`, `C135_exact`, `C135_dim` on the same. -/
example (x y : ℝ × ℝ) : nys lin exTwo eigTwo 1 x x ≤ lin x x ∧ (lin x y - nys lin exTwo eigTwo 1 x y) ^ 2 ≤ (lin x x - nys lin exTwo eigTwo 1 x x) * (lin y y - nys lin exTwo eigTwo 1 y y) :=
  ⟨(C135_between lin_psd x).2, C135_error lin_psd x y⟩
example (y : ℝ × ℝ) : nys lin exOne eigOne 1 (1, 0) y = lin (1, 0) y := C135_exact lin_psd _ (by rw [C135_limited.1, C135_limited.2.2]) y
example : PSDOn Set.univ fun x y => nys lin exTwo eigTwo 2 x y - nys lin exTwo eigTwo 1 x y := C135_dim (by norm_num)
end NysBound
end Kerch
