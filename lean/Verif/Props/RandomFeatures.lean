import Mathlib.LinearAlgebra.Matrix.ToLin
import Mathlib.Analysis.SpecialFunctions.Trigonometric.Basic
import Mathlib.Analysis.SpecialFunctions.Trigonometric.Bounds
import Verif.Model.RandomFeatures
import Verif.Props.PSD
import Verif.Props.Cache
set_option linter.unusedSectionVars false
set_option linter.unusedSimpArgs false
/-!
# C35, C36, C37: random features
-/
namespace Kerch
open Finset

section C35
variable {m d : Type} [Fintype m] [Fintype d]

/-- The random Fourier features give the mean of the cosines of the projected differences. -/
theorem C35_formula [Nonempty m] (σ : ℝ) (W : Matrix m d ℝ) (x y : d → ℝ) :
    rffKernel (Fintype.card m) σ W x y = (∑ i, Real.cos (W.mulVec (x - y) i / σ)) / Fintype.card m := by
  have hm : (0 : ℝ) < Fintype.card m := by exact_mod_cast Fintype.card_pos
  have hs : Real.sqrt (Fintype.card m) * Real.sqrt (Fintype.card m) = Fintype.card m := Real.mul_self_sqrt hm.le
  have hs0 := Real.sqrt_pos.2 hm
  rw [rffKernel, Fintype.sum_sum_type, ← sum_add_distrib, sum_div]
  refine sum_congr rfl fun i _ => ?_
  simp only [rffPhi, rfPhi, Matrix.mulVec_sub, Pi.sub_apply, sub_div]
  rw [Real.cos_sub, div_eq_mul_one_div (W.mulVec x i), div_eq_mul_one_div (W.mulVec y i)]
  have : (1 / Real.sqrt (Fintype.card m : ℝ)) * (1 / Real.sqrt (Fintype.card m : ℝ)) = 1 / (Fintype.card m : ℝ) := by
    rw [div_mul_div_comm, hs, one_mul]
  rw [div_eq_mul_one_div _ (Fintype.card m : ℝ), ← this]
  ring

/-- Unit diagonal. -/
theorem C35_diagonal [Nonempty m] (σ : ℝ) (W : Matrix m d ℝ) (x : d → ℝ) : rffKernel (Fintype.card m) σ W x x = 1 := by
  have hm : (Fintype.card m : ℝ) ≠ 0 := by exact_mod_cast Fintype.card_ne_zero
  rw [C35_formula, sub_self, Matrix.mulVec_zero]
  simp [hm]

/-- Values in `[-1, 1]`. -/
theorem C35_bound [Nonempty m] (σ : ℝ) (W : Matrix m d ℝ) (x y : d → ℝ) : |rffKernel (Fintype.card m) σ W x y| ≤ 1 := by
  have hm : (0 : ℝ) < Fintype.card m := by exact_mod_cast Fintype.card_pos
  rw [C35_formula, abs_div, abs_of_pos hm, div_le_one hm]
  refine (abs_sum_le_sum_abs _ _).trans ?_
  refine (sum_le_sum fun i _ => Real.abs_cos_le_one _).trans ?_
  simp

/-- Invariance by translation. -/
theorem C35_shift [Nonempty m] (σ : ℝ) (W : Matrix m d ℝ) (x y t : d → ℝ) :
    rffKernel (Fintype.card m) σ W (x + t) (y + t) = rffKernel (Fintype.card m) σ W x y := by
  rw [C35_formula, C35_formula, add_sub_add_right_eq_sub]

/-- Symmetric positive semi-definite, for every number used for the scaling. -/
theorem C35_psd (num : ℕ) (σ : ℝ) (W : Matrix m d ℝ) : PSDOn Set.univ (rffKernel num σ W) :=
  fun _ _ x _ => psdMat_gram fun i => rffPhi num σ W (x i)

/-- With an infinite number of weights the closed form is the RBF kernel of the same bandwidth. -/
theorem C35_closed [Nonempty d] (σ : ℝ) (x y : d → ℝ) : statKernel (.exponential true) .euclidean σ x y = .ok (rffClosed σ x y) := by
  simp only [statKernel, sqDistSigma, Except.map, euclidSq, rffClosed]
  congr 2
  rw [mul_sum, sum_mul, mul_sum]
  refine sum_congr rfl fun i _ => ?_
  ring

/-- Violation: assigning weights with another number of rows keeps the former number in the scaling: with twice as many weights, `k(x, x) = 2`. -/
theorem C35_num_violated (k : ℕ) (hk : 0 < k) (σ : ℝ) (W : Matrix (Fin (2 * k)) d ℝ) (x : d → ℝ) : rffKernel k σ W x x = 2 := by
  have hm : (0 : ℝ) < k := by exact_mod_cast hk
  have hs : Real.sqrt (k : ℝ) * Real.sqrt (k : ℝ) = k := Real.mul_self_sqrt hm.le
  have h1 : (1 / Real.sqrt (k : ℝ)) * (1 / Real.sqrt (k : ℝ)) = 1 / (k : ℝ) := by rw [div_mul_div_comm, hs, one_mul]
  rw [rffKernel, Fintype.sum_sum_type, ← sum_add_distrib]
  have : ∀ i : Fin (2 * k), rffPhi k σ W x (.inl i) * rffPhi k σ W x (.inl i) + rffPhi k σ W x (.inr i) * rffPhi k σ W x (.inr i) = 1 / (k : ℝ) := by
    intro i
    simp only [rffPhi, rfPhi]
    have hc := Real.cos_sq_add_sin_sq (W.mulVec x i * (1 / σ))
    calc _ = (Real.cos (W.mulVec x i * (1 / σ)) ^ 2 + Real.sin (W.mulVec x i * (1 / σ)) ^ 2)
          * ((1 / Real.sqrt (k : ℝ)) * (1 / Real.sqrt (k : ℝ))) := by ring
      _ = _ := by rw [hc, h1, one_mul]
  rw [sum_congr rfl fun i _ => this i, sum_const, card_univ, Fintype.card_fin, nsmul_eq_mul]
  push_cast
  field_simp

/-- Violation: a kernel to which the weights are given at construction cannot be evaluated, its number of weights is not defined. -/
theorem C35_given_weights_violated (r d : ℕ) (hr : 0 < r) (hd : 0 < d) (W : Matrix (Fin r) (Fin d) ℝ)
    (c : CacheSt String (Matrix (Fin d) (Fin r) ℝ)) : (RFSt.numWeights ⟨none, W, c⟩) = .error .attributeError := by
  simp [RFSt.numWeights, hr.ne', hd.ne']

end C35

section C36

/-- The admissible parameters of the activations: what the setters of rf_hyperbola.py:31-66 check; a positive slope for the leaky ReLU. -/
def Activation.Admissible : Activation → Prop
  | .arcsinh => True
  | .lrelu α => 0 < α
  | .hyperbola α β γ δ => 0 < α ∧ 0 < β ∧ 0 < γ ∧ 0 < δ ∧ α * γ < β ^ 2

theorem lrelu_bij (α : ℝ) (hα : 0 < α) : ∃ g, lreluInv α = .ok g ∧ (∀ x, g (lrelu α x) = x) ∧ ∀ y, lrelu α (g y) = y := by
  have hi : 1 / α * α = 1 := by field_simp
  have hi0 : 0 < 1 / α := by positivity
  by_cases h1 : α ≤ 1
  · have h1' : 1 ≤ 1 / α := by rw [le_div_iff₀ hα]; linarith
    refine ⟨_, by rw [lreluInv, if_neg hα.ne', if_pos h1], fun x => ?_, fun y => ?_⟩
    · rcases le_or_gt 0 x with hx | hx
      · rw [lrelu, max_eq_right hx, min_eq_left hx]
        simp only [mul_zero, add_zero]
        exact min_eq_right (by nlinarith)
      · rw [lrelu, max_eq_left hx.le, min_eq_right hx.le]
        simp only [zero_add, ← mul_assoc, hi, one_mul]
        exact min_eq_left (by nlinarith)
    · rcases le_or_gt 0 y with hy | hy
      · rw [min_eq_right (by nlinarith : y ≤ 1 / α * y), lrelu, max_eq_right hy, min_eq_left hy]; ring
      · have h3 : 1 / α * y ≤ 0 := by nlinarith
        rw [min_eq_left (by nlinarith : 1 / α * y ≤ y), lrelu, max_eq_left h3, min_eq_right h3, ← mul_assoc, mul_comm α, hi]; ring
  · have h1' : 1 / α ≤ 1 := by rw [div_le_one hα]; linarith
    have h1'' : 1 < α := not_le.1 h1
    refine ⟨_, by rw [lreluInv, if_neg hα.ne', if_neg h1], fun x => ?_, fun y => ?_⟩
    · rcases le_or_gt 0 x with hx | hx
      · rw [lrelu, max_eq_right hx, min_eq_left hx]
        simp only [mul_zero, add_zero]
        exact max_eq_right (by nlinarith)
      · rw [lrelu, max_eq_left hx.le, min_eq_right hx.le]
        simp only [zero_add, ← mul_assoc, hi, one_mul]
        exact max_eq_left (by nlinarith)
    · rcases le_or_gt 0 y with hy | hy
      · rw [max_eq_right (by nlinarith : 1 / α * y ≤ y), lrelu, max_eq_right hy, min_eq_left hy]; ring
      · have h3 : 1 / α * y ≤ 0 := by nlinarith
        rw [max_eq_left (by nlinarith : y ≤ 1 / α * y), lrelu, max_eq_left h3, min_eq_right h3, ← mul_assoc, mul_comm α, hi]; ring

theorem hyperbola_left (α β γ δ : ℝ) (hα : 0 < α) (hβ : 0 < β) (hγ : 0 < γ) (hδ : 0 < δ) (hD : α * γ < β ^ 2) (x : ℝ) :
    hyperbolaInv α β γ δ (hyperbola α β γ δ x) = x := by
  obtain ⟨D, hDD⟩ : ∃ D, D = β ^ 2 - γ * α := ⟨_, rfl⟩
  have hDp : 0 < D := by rw [hDD]; linarith [mul_comm α γ]
  obtain ⟨S, hS⟩ : ∃ S, S = Real.sqrt (D * x ^ 2 + γ * δ) := ⟨_, rfl⟩
  have hS0 : 0 ≤ S := by rw [hS]; exact Real.sqrt_nonneg _
  have hS2 : S ^ 2 = D * x ^ 2 + γ * δ := by rw [hS]; exact Real.sq_sqrt (by positivity)
  have hy : hyperbola α β γ δ x = (S + β * x) / γ := by rw [hyperbola, ← hDD, ← hS]; ring
  have hnn : 0 ≤ β * S + D * x := by
    have h1 : (D * x) ^ 2 ≤ (β * S) ^ 2 := by
      have : D * (D * x ^ 2) ≤ β ^ 2 * (D * x ^ 2 + γ * δ) := by
        have h2 : D ≤ β ^ 2 := by rw [hDD]; linarith [mul_pos hγ hα]
        have h3 : 0 ≤ D * x ^ 2 := by positivity
        nlinarith [mul_pos hγ hδ, mul_le_mul_of_nonneg_right h2 h3, sq_nonneg β, mul_nonneg (sq_nonneg β) (mul_pos hγ hδ).le]
      calc (D * x) ^ 2 = D * (D * x ^ 2) := by ring
        _ ≤ _ := this
        _ = (β * S) ^ 2 := by rw [mul_pow, hS2]
    have := abs_le_of_sq_le_sq' h1 (by positivity)
    linarith [this.1]
  have hroot : Real.sqrt (D * ((S + β * x) / γ) ^ 2 + α * δ) = (β * S + D * x) / γ := by
    rw [show D * ((S + β * x) / γ) ^ 2 + α * δ = ((β * S + D * x) / γ) ^ 2 from ?_]
    · exact Real.sqrt_sq (by positivity)
    · field_simp
      have : δ * γ = S ^ 2 - D * x ^ 2 := by rw [hS2]; ring
      have h4 : γ * α = β ^ 2 - D := by rw [hDD]; ring
      linear_combination (-1 * (γ * α)) * hS2 + (S ^ 2 - D * x ^ 2) * h4
  rw [hy, hyperbolaInv, ← hDD, hroot]
  field_simp
  rw [hDD]
  ring

theorem hyperbola_right (α β γ δ : ℝ) (hα : 0 < α) (hβ : 0 < β) (hγ : 0 < γ) (hδ : 0 < δ) (hD : α * γ < β ^ 2) (y : ℝ) :
    hyperbola α β γ δ (hyperbolaInv α β γ δ y) = y := by
  -- the two functions are exchanged by (x, α, γ) ↦ (-y, γ, α)
  have h := hyperbola_left γ β α δ hγ hβ hα hδ (by linarith [mul_comm α γ]) (-y)
  have e1 : hyperbola γ β α δ (-y) = -hyperbolaInv α β γ δ y := by
    rw [hyperbola, hyperbolaInv, mul_comm α γ, neg_sq]; ring
  have e2 : ∀ z, hyperbolaInv γ β α δ (-z) = -hyperbola α β γ δ z := by
    intro z
    rw [hyperbola, hyperbolaInv, mul_comm α γ, neg_sq]; ring
  rw [e1, e2] at h
  linarith

/-- Each activation with admissible parameters is a bijection of the line, inverted on both sides by its inverse. -/
theorem C36_activation (a : Activation) (ha : a.Admissible) : ∃ g, a.inv = .ok g ∧ (∀ x, g (a.fn x) = x) ∧ ∀ y, a.fn (g y) = y := by
  cases a with
  | arcsinh => exact ⟨Real.sinh, rfl, fun x => Real.sinh_arsinh x, fun y => Real.arsinh_sinh y⟩
  | lrelu α => exact lrelu_bij α ha
  | hyperbola α β γ δ =>
    obtain ⟨h1, h2, h3, h4, h5⟩ := ha
    exact ⟨_, rfl, hyperbola_left α β γ δ h1 h2 h3 h4 h5, hyperbola_right α β γ δ h1 h2 h3 h4 h5⟩

/-- A slope of zero is refused. -/
theorem C36_relu : (Activation.lrelu 0).inv = .error .bijectionError := by simp [Activation.inv, lreluInv]

variable {m d : Type} [Fintype m] [Fintype d]

theorem IsPinv.left_inv [DecidableEq d] {W : Matrix m d ℝ} {P : Matrix d m ℝ} (h : IsPinv W P) (hW : Function.Injective W.mulVec) (x : d → ℝ) :
    P.mulVec (W.mulVec x) = x := by
  refine hW ?_
  rw [Matrix.mulVec_mulVec, Matrix.mulVec_mulVec, h.wpw]

theorem IsPinv.right_inv {W : Matrix m d ℝ} {P : Matrix d m ℝ} (h : IsPinv W P) (hW : Function.Surjective W.mulVec) (z : m → ℝ) :
    W.mulVec (P.mulVec z) = z := by
  obtain ⟨x, rfl⟩ := hW z
  rw [Matrix.mulVec_mulVec, Matrix.mulVec_mulVec, h.wpw]

/-- The pre-image of the features of `x` is `x` when the weights have full column rank. -/
theorem C36_preimage [Nonempty m] [DecidableEq d] (a : Activation) (ha : a.Admissible) (σ : ℝ) (hσ : σ ≠ 0) (W : Matrix m d ℝ) (P : Matrix d m ℝ)
    (hP : IsPinv W P) (hW : Function.Injective W.mulVec) (x : d → ℝ) :
    rfPreimage a.inv (Fintype.card m) σ P (rfPhi a.fn (Fintype.card m) σ W x) = .ok x := by
  obtain ⟨g, hg, h1, _⟩ := C36_activation a ha
  have hm : (0 : ℝ) < Fintype.card m := by exact_mod_cast Fintype.card_pos
  have hs := Real.sqrt_pos.2 hm
  rw [rfPreimage, hg]
  simp only [Except.map]
  congr 1
  funext j
  have e : (fun i => g (rfPhi a.fn (Fintype.card m) σ W x i * Real.sqrt (Fintype.card m))) = W.mulVec ((1 / σ) • x) := by
    funext i
    rw [rfPhi, mul_assoc, one_div_mul_cancel hs.ne', mul_one, h1, Matrix.mulVec_smul, Pi.smul_apply, smul_eq_mul, mul_comm]
  rw [e, hP.left_inv hW]
  simp only [Pi.smul_apply, smul_eq_mul]
  field_simp

/-- Conversely, with full row rank, the features of the pre-image of `φ` are `φ`. -/
theorem C36_image [Nonempty m] (a : Activation) (ha : a.Admissible) (σ : ℝ) (hσ : σ ≠ 0) (W : Matrix m d ℝ) (P : Matrix d m ℝ)
    (hP : IsPinv W P) (hW : Function.Surjective W.mulVec) (φ : m → ℝ) :
    (rfPreimage a.inv (Fintype.card m) σ P φ).map (rfPhi a.fn (Fintype.card m) σ W) = .ok φ := by
  obtain ⟨g, hg, _, h2⟩ := C36_activation a ha
  have hm : (0 : ℝ) < Fintype.card m := by exact_mod_cast Fintype.card_pos
  have hs := Real.sqrt_pos.2 hm
  rw [rfPreimage, hg]
  simp only [Except.map]
  congr 1
  funext i
  have e : (fun j => P.mulVec (fun i => g (φ i * Real.sqrt (Fintype.card m))) j * σ) = σ • P.mulVec (fun i => g (φ i * Real.sqrt (Fintype.card m))) := by
    funext j; simp [mul_comm]
  rw [rfPhi, e, Matrix.mulVec_smul, hP.right_inv hW, Pi.smul_apply, smul_eq_mul]
  rw [show σ * g (φ i * Real.sqrt (Fintype.card m)) * (1 / σ) = g (φ i * Real.sqrt (Fintype.card m)) by field_simp, h2]
  field_simp

/-- Stacked random features: if each layer is inverted by its pre-image on the domain it receives, so is the stack. -/
theorem C36_stacked (V : Type) (L : List (RFLayer V)) (D : ℕ → Set V) (h : ∀ k, (hk : k < L.length) → ∀ x ∈ D k, L[k].phi x ∈ D (k + 1) ∧
    L[k].preimage (L[k].phi x) = .ok x) (x : V) (hx : x ∈ D 0) : stackedPreimage L (stackedPhi L x) = .ok x := by
  have hpre : ∀ (A B : List (RFLayer V)) (z : V), (A ++ B).foldl (fun (acc : Except Err V) k => acc.bind k.preimage) (.ok z)
      = B.foldl (fun acc k => acc.bind k.preimage) (A.foldl (fun (acc : Except Err V) k => acc.bind k.preimage) (.ok z)) := by
    intro A B z; rw [List.foldl_append]
  induction L generalizing D x with
  | nil => rfl
  | cons l L ih =>
    have h0 := h 0 (by simp) x hx
    simp only [List.getElem_cons_zero, zero_add] at h0
    have h1 := ih (fun k => D (k + 1)) (fun k hk y hy => h (k + 1) (by simpa using hk) y hy) (l.phi x) h0.1
    unfold stackedPreimage stackedPhi at h1 ⊢
    rw [List.foldl_cons, List.reverse_cons, hpre, h1]
    exact h0.2

/-- Non-vacuity: the default parameters of the three classes. -/
example : Activation.arcsinh.Admissible ∧ (Activation.lrelu 0.1).Admissible ∧ (Activation.hyperbola 1 2 1 1).Admissible := by
  refine ⟨trivial, ?_, ?_⟩ <;> norm_num [Activation.Admissible]

/-- Non-vacuity: a tall matrix of weights with its pseudo-inverse. -/
example : IsPinv (!![1; 1] : Matrix (Fin 2) (Fin 1) ℝ) !![1/2, 1/2] ∧ Function.Injective (!![1; 1] : Matrix (Fin 2) (Fin 1) ℝ).mulVec := by
  refine ⟨⟨?_, ?_, ?_, ?_⟩, ?_⟩
  · ext i j; fin_cases i <;> fin_cases j <;> norm_num [Matrix.mul_apply, Fin.sum_univ_succ]
  · ext i j; fin_cases i; fin_cases j <;> norm_num [Matrix.mul_apply, Fin.sum_univ_succ]
  · ext i j; fin_cases i <;> fin_cases j <;> norm_num [Matrix.mul_apply, Fin.sum_univ_succ]
  · ext i j; fin_cases i; fin_cases j; norm_num [Matrix.mul_apply, Fin.sum_univ_succ]
  · intro x y h
    have := congrFun h 0
    funext i
    fin_cases i
    simpa [Matrix.mulVec, dotProduct] using this

end C36

section C37
variable {r d : ℕ}

/-- What the pseudo-inverses read in a history should be: each that of the current weights. -/
def RFSt.specRun (pinv : Matrix (Fin r) (Fin d) ℝ → Matrix (Fin d) (Fin r) ℝ) (W : Matrix (Fin r) (Fin d) ℝ) :
    List (RFSt.Op r d) → List (Except Err (Matrix (Fin d) (Fin r) ℝ))
  | [] => []
  | .assign W' :: ops => specRun pinv W' ops
  | .train f :: ops => specRun pinv (f W) ops
  | .reset _ :: ops => specRun pinv W ops
  | .pinv :: ops => .ok (pinv W) :: specRun pinv W ops

theorem remove_single {α : Type} (key : String) (hk : key.toList.length ≠ 1) (l : Lvl) (e : Entry α) :
    CacheSt.remove ⟨l, [(key, e)]⟩ (.str key) = ⟨l, [(key, e)]⟩ := by
  have h := not_mem_items_of_length hk
  have hl : ∀ ks : List String, key ∉ ks → ks.foldl (fun (d : Dict String (Entry α)) s => if d.has s then d.pop s else d) [(key, e)] = [(key, e)] := by
    intro ks
    induction ks with
    | nil => intros; rfl
    | cons a ks ih =>
      intro hks
      have hne : key ≠ a := fun h => hks (by simp [h])
      have ha : Dict.has [(key, e)] a = false := by simp [Dict.has, Dict.find, hne]
      rw [List.foldl_cons, ha]
      exact ih fun h => hks (by simp [h])
  unfold CacheSt.remove
  rw [hl _ h]

/-- Violation: after a pre-image, a training step (or an assignment of the weights) leaves the old pseudo-inverse in the cache, and the next pre-image
is computed with it. Removing it after the step has no effect, because the characters of the key are removed instead of the key. -/
theorem C37_violated (pinv : Matrix (Fin r) (Fin d) ℝ → Matrix (Fin d) (Fin r) ℝ) (num : Option ℕ) (W W' : Matrix (Fin r) (Fin d) ℝ)
    (h : pinv W ≠ pinv W') (op : RFSt.Op r d) (hop : op = .assign W' ∨ op = .train fun _ => W') :
    let s : RFSt r d := ⟨num, W, CacheSt.init⟩
    (s.run pinv [.pinv, op, .pinv]).2 = [.ok (pinv W), .ok (pinv W)] ∧
      RFSt.specRun pinv W [.pinv, op, .pinv] = [.ok (pinv W), .ok (pinv W')] ∧
      (s.run pinv [.pinv, op, .pinv]).2 ≠ RFSt.specRun pinv W [.pinv, op, .pinv] := by
  suffices hmain : (RFSt.run pinv ⟨num, W, CacheSt.init⟩ [.pinv, op, .pinv]).2 = [.ok (pinv W), .ok (pinv W)] ∧
      RFSt.specRun pinv W [.pinv, op, .pinv] = [.ok (pinv W), .ok (pinv W')] by
    refine ⟨hmain.1, hmain.2, ?_⟩
    intro e
    rw [hmain.1, hmain.2] at e
    simp only [List.cons.injEq, true_and, and_true, Except.ok.injEq] at e
    exact h e
  have hlvl : (CacheSt.init (κ := String) (α := Matrix (Fin d) (Fin r) ℝ)) = ⟨.num 2, []⟩ := by
    simp [CacheSt.init, CacheSt.setLevel, CacheSt.getLevel, levelSwitcher, Dict.find]
  have hg : ∀ W, (RFSt.getPinv pinv ⟨num, W, ⟨.num 2, []⟩⟩) = (.ok (pinv W), ⟨num, W, ⟨.num 2, [("Kernel_RF_weights_pinv", ⟨.num 2, false, pinv W⟩)]⟩⟩) := by
    intro W
    simp [RFSt.getPinv, CacheSt.get, Dict.find, CacheSt.save, CacheSt.resolveLevel, defaultCacheLevel, CacheSt.getLevel, levelSwitcher, Lvl.le, Dict.set]
  have hg2 : ∀ W, (RFSt.getPinv pinv ⟨num, W', ⟨.num 2, [("Kernel_RF_weights_pinv", ⟨.num 2, false, W⟩)]⟩⟩).1 = .ok W := by
    intro W
    simp [RFSt.getPinv, CacheSt.get, Dict.find]
  have hrm : ∀ P : Matrix (Fin d) (Fin r) ℝ, (CacheSt.remove ⟨.num 2, [("Kernel_RF_weights_pinv", ⟨.num 2, false, P⟩)]⟩ (.str "Kernel_RF_weights_pinv"))
      = ⟨.num 2, [("Kernel_RF_weights_pinv", ⟨.num 2, false, P⟩)]⟩ := fun P => remove_single _ (by decide) _ _
  rcases hop with rfl | rfl
  · refine ⟨?_, rfl⟩
    simp only [hlvl, RFSt.run, RFSt.step, hg, RFSt.setWeights, hg2]
  · refine ⟨?_, rfl⟩
    simp only [hlvl, RFSt.run, RFSt.step, hg, RFSt.trainStep, hrm, hg2]

/-- What does hold: with the cache level below `normal`, in every history each pre-image uses the current weights. Missing (`_partial`): the default
level, where it is false. -/
theorem C37_light_partial (pinv : Matrix (Fin r) (Fin d) ℝ → Matrix (Fin d) (Fin r) ℝ) (num : Option ℕ) (W : Matrix (Fin r) (Fin d) ℝ) (z : Int)
    (hz : z < 2) (ops : List (RFSt.Op r d)) : (RFSt.run pinv ⟨num, W, ⟨.num z, []⟩⟩ ops).2 = RFSt.specRun pinv W ops := by
  have hg : ∀ W, (RFSt.getPinv pinv ⟨num, W, ⟨.num z, []⟩⟩) = (.ok (pinv W), ⟨num, W, ⟨.num z, []⟩⟩) := by
    intro W
    have : ¬ (2 : Int) ≤ z := by omega
    simp [RFSt.getPinv, CacheSt.get, Dict.find, CacheSt.save, CacheSt.resolveLevel, defaultCacheLevel, CacheSt.getLevel, levelSwitcher, Lvl.le, this]
  have hrm : ∀ k, (CacheSt.remove (κ := String) (α := Matrix (Fin d) (Fin r) ℝ) ⟨.num z, []⟩ k) = ⟨.num z, []⟩ := by
    intro k
    simp only [CacheSt.remove]
    congr 1
    generalize k.items = l
    induction l with
    | nil => rfl
    | cons a l ih => rw [List.foldl_cons]; exact ih
  have hrs : ∀ rp, (CacheSt.resetCache (κ := String) (α := Matrix (Fin d) (Fin r) ℝ) ⟨.num z, []⟩ rp) = ⟨.num z, []⟩ := by
    intro rp
    cases rp <;> rfl
  induction ops generalizing W with
  | nil => rfl
  | cons op ops ih =>
    cases op with
    | assign W' => simpa [RFSt.run, RFSt.step, RFSt.setWeights, RFSt.specRun] using ih W'
    | train f => simpa [RFSt.run, RFSt.step, RFSt.trainStep, RFSt.specRun, hrm] using ih (f W)
    | reset rp => simpa [RFSt.run, RFSt.step, RFSt.specRun, hrs] using ih W
    | pinv => simpa [RFSt.run, RFSt.step, RFSt.specRun, hg] using ih W

/-- At the default level: a pre-image uses the current weights when the cache was reset since the weights last changed. -/
theorem C37_after_reset_partial (pinv : Matrix (Fin r) (Fin d) ℝ → Matrix (Fin d) (Fin r) ℝ) (s : RFSt r d) (z : Int) (hz : s.cache.level = .num z) :
    ((RFSt.run pinv s [.reset true, .pinv]).2 = [.ok (pinv s.W)]) := by
  obtain ⟨num, W, c⟩ := s
  obtain ⟨l, dict⟩ := c
  subst hz
  have hr : CacheSt.resetCache (⟨.num z, dict⟩ : CacheSt String (Matrix (Fin d) (Fin r) ℝ)) true = ⟨.num z, []⟩ := rfl
  have hg : (RFSt.getPinv pinv ⟨num, W, ⟨.num z, []⟩⟩).1 = .ok (pinv W) := by
    by_cases h : (2 : Int) ≤ z <;>
    simp [RFSt.getPinv, CacheSt.get, Dict.find, CacheSt.save, CacheSt.resolveLevel, defaultCacheLevel, CacheSt.getLevel, levelSwitcher, Lvl.le, h]
  simp only [RFSt.run, RFSt.step, hr, hg]

/-! ## Cases by name -/

example (W : Matrix (Fin (2 * 3)) (Fin 2) ℝ) : rffKernel 3 1 W ![1, 2] ![1, 2] = 2 := C35_num_violated 3 (by norm_num) 1 W _

example (c : CacheSt String (Matrix (Fin 1) (Fin 2) ℝ)) : RFSt.numWeights ⟨none, !![1; 2], c⟩ = .error .attributeError :=
  C35_given_weights_violated 2 1 (by norm_num) (by norm_num) _ c

theorem lrelu_admissible : (Activation.lrelu 0.1).Admissible := by norm_num [Activation.Admissible]

example : ∃ g, (Activation.lrelu 0.1).inv = .ok g ∧ (∀ x, g ((Activation.lrelu 0.1).fn x) = x) ∧ ∀ y, (Activation.lrelu 0.1).fn (g y) = y :=
  C36_activation _ lrelu_admissible

/-- One input, two weights, and one weight for one input. -/
theorem pinv_col : IsPinv (!![1; 1] : Matrix (Fin 2) (Fin 1) ℝ) !![1/2, 1/2] := by
  refine ⟨?_, ?_, ?_, ?_⟩
  · ext i j; fin_cases i <;> fin_cases j <;> norm_num [Matrix.mul_apply, Fin.sum_univ_succ]
  · ext i j; fin_cases i <;> fin_cases j <;> norm_num [Matrix.mul_apply, Fin.sum_univ_succ]
  · ext i j; fin_cases i <;> fin_cases j <;> norm_num [Matrix.mul_apply, Fin.sum_univ_succ]
  · ext i j; fin_cases i <;> fin_cases j <;> norm_num [Matrix.mul_apply, Fin.sum_univ_succ]

theorem col_injective : Function.Injective (!![1; 1] : Matrix (Fin 2) (Fin 1) ℝ).mulVec := by
  intro x y h
  have := congrFun h 0
  simp [Matrix.mulVec, dotProduct] at this
  ext i
  fin_cases i
  exact this

example (x : Fin 1 → ℝ) : rfPreimage (Activation.lrelu 0.1).inv (Fintype.card (Fin 2)) 3 !![1/2, 1/2] (rfPhi (Activation.lrelu 0.1).fn (Fintype.card (Fin 2)) 3 !![1; 1] x) = .ok x :=
  C36_preimage _ lrelu_admissible 3 (by norm_num) _ _ pinv_col col_injective x

example (φ : Fin 1 → ℝ) : (rfPreimage Activation.arcsinh.inv (Fintype.card (Fin 1)) 3 !![1/2] φ).map (rfPhi Activation.arcsinh.fn (Fintype.card (Fin 1)) 3 !![2]) = .ok φ := by
  refine C36_image Activation.arcsinh trivial 3 (by norm_num) _ _ ⟨?_, ?_, ?_, ?_⟩ (fun y => ⟨fun _ => y 0 / 2, ?_⟩) φ
  · ext i j; fin_cases i; fin_cases j; norm_num [Matrix.mul_apply]
  · ext i j; fin_cases i; fin_cases j; norm_num [Matrix.mul_apply]
  · ext i j; fin_cases i; fin_cases j; norm_num [Matrix.mul_apply]
  · ext i j; fin_cases i; fin_cases j; norm_num [Matrix.mul_apply]
  · ext i; fin_cases i; simp [Matrix.mulVec, dotProduct]; ring

/-- Two layers, doubling and adding one. -/
example : stackedPreimage [⟨fun x : ℝ => 2 * x, fun y => .ok (y / 2)⟩, ⟨fun x => x + 1, fun y => .ok (y - 1)⟩]
    (stackedPhi [⟨fun x : ℝ => 2 * x, fun y => .ok (y / 2)⟩, ⟨fun x => x + 1, fun y => .ok (y - 1)⟩] 5) = .ok 5 :=
  C36_stacked ℝ _ (fun _ => Set.univ) (fun k hk x _ => by
    refine ⟨trivial, ?_⟩
    match k, hk with
    | 0, _ => simp
    | 1, _ => simp) 5 trivial

example := C37_violated (r := 1) (d := 1) (fun W => W.transpose) none !![1] !![2] (by intro h; have := congrFun (congrFun h 0) 0; norm_num at this) (.assign !![2]) (Or.inl rfl)

example := C37_light_partial (r := 1) (d := 1) (fun W => W.transpose) none !![1] 1 (by norm_num) [.pinv, .assign !![2], .pinv]

example := C37_after_reset_partial (r := 1) (d := 1) (fun W => W.transpose) ⟨none, !![1], CacheSt.init⟩ 2 rfl


end C37
end Kerch
