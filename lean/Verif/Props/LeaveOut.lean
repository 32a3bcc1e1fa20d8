import Verif.Props.LSSVM
import Verif.Props.LSSVMTrain
import Verif.Lemmas.Transforms
/-!
# C129: adding and leaving out training points of a LS-SVM, centring its kernel
-/
set_option linter.unusedSectionVars false
set_option linter.unusedSimpArgs false
namespace Kerch
namespace LeaveOut
open Finset LSSVM LSTrain

variable {n X : Type} [Fintype n]

/-! ## Specification -/

/-- The sample with one more point. -/
def more {α : Type} (v : n → α) (v₀ : α) (i : Option n) : α := i.elim v₀ v

/-- What the model `(h, b)` fitted on the points `pts` predicts at `x`. -/
def predict (κ : X → X → ℝ) (pts : n → X) (h : n → ℝ) (b : ℝ) (x : X) : ℝ := outDual (fun j => κ x (pts j)) h b

/-- The kernel matrix of the points. -/
def gram (κ : X → X → ℝ) (pts : n → X) (i j : n) : ℝ := κ (pts i) (pts j)

/-! ## Lemmas -/

theorem sum_option (f : Option n → ℝ) : ∑ i, f i = f none + ∑ i, f (some i) := Fintype.sum_option f

/-- What adding a point does: with `u` and `v` the changes of the multipliers and of the bias, the error of the model without the point against its multiplier. -/
theorem gap (κ : X → X → ℝ) (pts : n → X) (x₀ : X) (hK : PSDMat (gram κ (more pts x₀))) (γ : ℝ) (y : n → ℝ) (y₀ : ℝ) (h : Option n → ℝ) (b : ℝ)
    (h' : n → ℝ) (b' : ℝ) (hs : DualSol (gram κ (more pts x₀)) γ (more y y₀) h b) (hs' : DualSol (gram κ pts) γ y h' b') :
    γ * (h none ^ 2 + ∑ i, (h (some i) - h' i) ^ 2) ≤ h none * (y₀ - predict κ pts h' b' x₀) := by
  obtain ⟨h1, h2⟩ := hs
  obtain ⟨h1', h2'⟩ := hs'
  set u : Option n → ℝ := fun i => h i - more h' 0 i with hu
  have hu0 : u none = h none := by simp [hu, more]
  have hus : ∀ i, u (some i) = h (some i) - h' i := fun i => rfl
  have hq := hK.2 u
  have hlin : ∀ i, ∑ j, gram κ (more pts x₀) i j * u j = ∑ j, gram κ (more pts x₀) i j * h j - ∑ j, gram κ (more pts x₀) i (some j) * h' j := by
    intro i
    have : ∑ j, gram κ (more pts x₀) i (some j) * h' j = ∑ j, gram κ (more pts x₀) i j * more h' 0 j := by
      rw [sum_option]; simp [more]
    rw [this, ← sum_sub_distrib]
    exact sum_congr rfl fun j _ => by simp only [hu]; ring
  have e1 : ∀ i, ∑ j, gram κ (more pts x₀) (some i) j * u j + γ * u (some i) + (b - b') = 0 := by
    intro i
    have a := h1 (some i)
    have a' := h1' i
    rw [hlin, hus]
    have hg : ∀ j, gram κ (more pts x₀) (some i) (some j) = gram κ pts i j := fun j => rfl
    simp only [hg]
    have : more y y₀ (some i) = y i := rfl
    rw [this] at a
    linarith
  have e0 : ∑ j, gram κ (more pts x₀) none j * u j + γ * h none + (b - b') = y₀ - predict κ pts h' b' x₀ := by
    have a := h1 none
    rw [hlin]
    have hg : ∀ j, gram κ (more pts x₀) none (some j) = κ x₀ (pts j) := fun j => rfl
    simp only [hg]
    have : more y y₀ none = y₀ := rfl
    rw [this] at a
    unfold predict outDual
    linarith
  have hsum : h none + ∑ i, u (some i) = 0 := by
    rw [sum_option] at h2
    simp only [hus, sum_sub_distrib, h2']
    linarith
  have hquad : ∑ i, ∑ j, u i * u j * gram κ (more pts x₀) i j = ∑ i, u i * ∑ j, gram κ (more pts x₀) i j * u j :=
    sum_congr rfl fun i _ => by rw [mul_sum]; exact sum_congr rfl fun j _ => by ring
  rw [hquad, sum_option, hu0] at hq
  have e2 : ∑ i, u (some i) * ∑ j, gram κ (more pts x₀) (some i) j * u j = -γ * ∑ i, u (some i) ^ 2 - (b - b') * ∑ i, u (some i) := by
    rw [mul_sum, mul_sum, ← sum_sub_distrib]
    refine sum_congr rfl fun i _ => ?_
    have := e1 i
    have e : ∑ j, gram κ (more pts x₀) (some i) j * u j = -(γ * u (some i)) - (b - b') := by linarith
    rw [e]; ring
  have e3 : h none * ∑ j, gram κ (more pts x₀) none j * u j = h none * (y₀ - predict κ pts h' b' x₀) - γ * h none ^ 2 - (b - b') * h none := by
    have e : ∑ j, gram κ (more pts x₀) none j * u j = y₀ - predict κ pts h' b' x₀ - γ * h none - (b - b') := by linarith
    rw [e]; ring
  rw [e2, e3] at hq
  have e4 : ∑ i, u (some i) = -h none := by linarith
  rw [e4] at hq
  simp only [hus] at hq
  nlinarith

/-! ## Properties -/

/-- **C129** Leaving a training point out never brings the model closer to it: the error at a point of the model that has not seen it has the sign of the error of the one that has, and is
at least as great, for every kernel, data and point. -/
theorem C129_leave_out [Nonempty n] (κ : X → X → ℝ) (pts : n → X) (x₀ : X) (hK : PSDMat (gram κ (more pts x₀))) (γ : ℝ) (hγ : 0 < γ) (y : n → ℝ) (y₀ : ℝ)
    (h : Option n → ℝ) (b : ℝ) (h' : n → ℝ) (b' : ℝ) (hs : DualSol (gram κ (more pts x₀)) γ (more y y₀) h b) (hs' : DualSol (gram κ pts) γ y h' b') :
    let e := y₀ - predict κ (more pts x₀) h b x₀
    let r := y₀ - predict κ pts h' b' x₀
    (0 ≤ e ↔ 0 ≤ r) ∧ |e| ≤ |r| := by
  intro e r
  have hg := gap κ pts x₀ hK γ y y₀ h b h' b' hs hs'
  have he : e = γ * h none := by
    have := hs.1 none
    have hm : more y y₀ none = y₀ := rfl
    have hk : ∀ j, gram κ (more pts x₀) none j = κ x₀ (more pts x₀ j) := fun j => rfl
    simp only [hm, hk] at this
    simp only [e, predict, outDual]
    linarith
  have hsq : 0 ≤ ∑ i, (h (some i) - h' i) ^ 2 := sum_nonneg fun i _ => sq_nonneg _
  have h1 : γ * h none ^ 2 ≤ h none * r := by nlinarith
  rcases lt_trichotomy (h none) 0 with hn | hn | hn
  · have hr : r ≤ γ * h none := by nlinarith
    have hen : γ * h none < 0 := by nlinarith
    refine ⟨⟨fun h0 => by linarith, fun h0 => by linarith⟩, ?_⟩
    rw [he, abs_of_neg hen, abs_of_neg (by linarith)]; linarith
  · have hz : γ * ∑ i, (h (some i) - h' i) ^ 2 ≤ 0 := by rw [hn] at hg; linarith
    have hz' : ∑ i, (h (some i) - h' i) ^ 2 = 0 := le_antisymm (by nlinarith) hsq
    have hi : ∀ i, h (some i) = h' i := fun i => by
      have := (sum_eq_zero_iff_of_nonneg fun i _ => sq_nonneg _).1 hz' i (mem_univ i)
      exact sub_eq_zero.1 (pow_eq_zero_iff (two_ne_zero) |>.1 this)
    obtain ⟨i₀⟩ := ‹Nonempty n›
    have hb : b = b' := by
      have a := hs.1 (some i₀)
      have a' := hs'.1 i₀
      rw [sum_option, hn, mul_zero, zero_add] at a
      simp only [hi] at a
      have hk : ∀ j, gram κ (more pts x₀) (some i₀) (some j) = gram κ pts i₀ j := fun j => rfl
      have hm : more y y₀ (some i₀) = y i₀ := rfl
      simp only [hk, hm] at a
      linarith
    have hr : r = e := by
      simp only [r, e, predict, outDual]
      rw [sum_option, hn, mul_zero, zero_add, hb]
      simp only [hi]
      rfl
    rw [hr]
    exact ⟨Iff.rfl, le_rfl⟩
  · have hr : γ * h none ≤ r := by nlinarith
    have hen : 0 < γ * h none := by positivity
    refine ⟨⟨fun _ => by linarith, fun _ => by linarith⟩, ?_⟩
    rw [he, abs_of_pos hen, abs_of_pos (by linarith)]; exact hr

/-- **C129** Adding a training point that the model already predicts exactly changes nothing: the bias and all multipliers remain, that of the new point is zero, and so are all
predictions. -/
theorem C129_added [Nonempty n] (κ : X → X → ℝ) (pts : n → X) (x₀ : X) (hK : PSDMat (gram κ (more pts x₀))) (γ : ℝ) (hγ : 0 < γ) (y : n → ℝ) (y₀ : ℝ)
    (h : Option n → ℝ) (b : ℝ) (h' : n → ℝ) (b' : ℝ) (hs : DualSol (gram κ (more pts x₀)) γ (more y y₀) h b) (hs' : DualSol (gram κ pts) γ y h' b')
    (hr : predict κ pts h' b' x₀ = y₀) :
    h none = 0 ∧ (∀ i, h (some i) = h' i) ∧ b = b' ∧ ∀ x, predict κ (more pts x₀) h b x = predict κ pts h' b' x := by
  have key : DualSol (gram κ (more pts x₀)) γ (more y y₀) (more h' 0) b' := by
    constructor
    · rintro (_ | i)
      · rw [sum_option]
        simp only [more, Option.elim, mul_zero, zero_add, add_zero, gram]
        rw [← hr]; rfl
      · rw [sum_option]
        simp only [more, Option.elim, mul_zero, zero_add, gram]
        exact hs'.1 i
    · rw [sum_option]
      simp only [more, Option.elim, zero_add]
      exact hs'.2
  obtain ⟨rfl, rfl⟩ := C50_unique_partial _ hK γ hγ _ _ _ _ _ hs key
  refine ⟨rfl, fun _ => rfl, rfl, fun x => ?_⟩
  simp only [predict, outDual, sum_option, more, Option.elim, mul_zero, zero_add]

/-- **C129** A training point without weight can be left out: the model without it is the same. -/
theorem C129_without_weight [Nonempty n] (κ : X → X → ℝ) (pts : n → X) (x₀ : X) (hK : PSDMat (gram κ pts)) (γ : ℝ) (hγ : 0 < γ) (y : n → ℝ) (y₀ : ℝ)
    (h : Option n → ℝ) (b : ℝ) (h' : n → ℝ) (b' : ℝ) (hs : DualSol (gram κ (more pts x₀)) γ (more y y₀) h b) (hs' : DualSol (gram κ pts) γ y h' b')
    (hn : h none = 0) : (∀ i, h' i = h (some i)) ∧ b' = b ∧ ∀ x, predict κ pts h' b' x = predict κ (more pts x₀) h b x := by
  have key : DualSol (gram κ pts) γ y (fun i => h (some i)) b := by
    constructor
    · intro i
      have := hs.1 (some i)
      rw [sum_option, hn, mul_zero, zero_add] at this
      exact this
    · have := hs.2
      rw [sum_option, hn, zero_add] at this
      exact this
  obtain ⟨rfl, rfl⟩ := C50_unique_partial _ hK γ hγ _ _ _ _ _ hs' key
  refine ⟨fun _ => rfl, rfl, fun x => ?_⟩
  simp only [predict, outDual, sum_option, more, Option.elim, hn, mul_zero, zero_add]

/-- **C129** Ridge regression in dual representation: a point predicted exactly may be added without effect. -/
theorem C129_ridge {m : ℕ} (κ : X → X → ℝ) (pts : Fin m → X) (x₀ : X) (hK : PSDMat (gram κ (Fin.cons x₀ pts : Fin (m + 1) → X))) (γ : ℝ) (hγ : 0 < γ) (y : Fin m → ℝ)
    (y₀ : ℝ) (h : Fin (m + 1) → ℝ) (h' : Fin m → ℝ) (hs : RidgeDual (gram κ (Fin.cons x₀ pts : Fin (m + 1) → X)) γ (Fin.cons y₀ y : Fin (m + 1) → ℝ) h)
    (hs' : RidgeDual (gram κ pts) γ y h') (hr : ∑ j, κ x₀ (pts j) * h' j = y₀) :
    ∀ x, ∑ j, κ x ((Fin.cons x₀ pts : Fin (m + 1) → X) j) * h j = ∑ j, κ x (pts j) * h' j := by
  have key : RidgeDual (gram κ (Fin.cons x₀ pts : Fin (m + 1) → X)) γ (Fin.cons y₀ y : Fin (m + 1) → ℝ) (Fin.cons 0 h' : Fin (m + 1) → ℝ) := by
    intro i
    refine Fin.cases ?_ (fun i => ?_) i
    · simp only [Fin.sum_univ_succ, Fin.cons_zero, Fin.cons_succ, mul_zero, zero_add, add_zero, gram]
      exact hr
    · simp only [Fin.sum_univ_succ, Fin.cons_zero, Fin.cons_succ, mul_zero, zero_add, gram]
      exact hs' i
  have hz : ∀ i, h i - (Fin.cons 0 h' : Fin (m + 1) → ℝ) i = 0 := by
    set u : Fin (m + 1) → ℝ := fun i => h i - (Fin.cons 0 h' : Fin (m + 1) → ℝ) i with hu
    have e : ∀ i, ∑ j, gram κ (Fin.cons x₀ pts : Fin (m + 1) → X) i j * u j + 1 / γ * u i = 0 := by
      intro i
      have a := hs i
      have a' := key i
      have : ∑ j, gram κ (Fin.cons x₀ pts : Fin (m + 1) → X) i j * u j =
          ∑ j, gram κ (Fin.cons x₀ pts : Fin (m + 1) → X) i j * h j - ∑ j, gram κ (Fin.cons x₀ pts : Fin (m + 1) → X) i j * (Fin.cons 0 h' : Fin (m + 1) → ℝ) j := by
        rw [← sum_sub_distrib]; exact sum_congr rfl fun j _ => by simp only [hu]; ring
      rw [this]; simp only [hu]; linarith
    have hq := hK.2 u
    have hquad : ∑ i, ∑ j, u i * u j * gram κ (Fin.cons x₀ pts : Fin (m + 1) → X) i j = -(1 / γ) * ∑ i, u i ^ 2 := by
      rw [mul_sum]
      refine sum_congr rfl fun i _ => ?_
      have : ∑ j, u i * u j * gram κ (Fin.cons x₀ pts : Fin (m + 1) → X) i j = u i * ∑ j, gram κ (Fin.cons x₀ pts : Fin (m + 1) → X) i j * u j := by
        rw [mul_sum]; exact sum_congr rfl fun j _ => by ring
      rw [this, show ∑ j, gram κ (Fin.cons x₀ pts : Fin (m + 1) → X) i j * u j = -(1 / γ * u i) by linarith [e i]]
      ring
    rw [hquad] at hq
    have hsq : 0 ≤ ∑ i, u i ^ 2 := sum_nonneg fun i _ => sq_nonneg _
    have hγ' : 0 < 1 / γ := one_div_pos.2 hγ
    have hz : ∑ i, u i ^ 2 = 0 := le_antisymm (by nlinarith) hsq
    intro i
    have := (sum_eq_zero_iff_of_nonneg fun i _ => sq_nonneg (u i)).1 hz i (mem_univ i)
    exact pow_eq_zero_iff (two_ne_zero) |>.1 this
  intro x
  have hh : ∀ i, h i = (Fin.cons 0 h' : Fin (m + 1) → ℝ) i := fun i => sub_eq_zero.1 (hz i)
  simp only [hh, Fin.sum_univ_succ, Fin.cons_zero, Fin.cons_succ, mul_zero, zero_add]

/-- **C129** violated in primal representation: the system of `solve` divides by the number of points, so that adding the point `0`, which the model predicts exactly, changes the
prediction at every point but this one. -/
theorem C129_primal_violated :
    ∃ (Φ : Fin 2 → Fin 1 → ℝ) (y : Fin 2 → ℝ) (w : Fin 1 → ℝ) (b : ℝ) (w' : Fin 1 → ℝ) (b' : ℝ), PrimalSol Φ 1 y w b ∧ outPrimal (fun _ => 0) w b = 0 ∧
      PrimalSol (more Φ fun _ => 0) 1 (more y 0) w' b' ∧ ∀ t : ℝ, t ≠ 0 → outPrimal (fun _ => t) w' b' ≠ outPrimal (fun _ => t) w b := by
  refine ⟨fun i _ => ![1, -1] i, ![1, -1], fun _ => 1, 0, fun _ => 6 / 5, 0, ⟨fun j => ?_, ?_⟩, by simp [outPrimal], ⟨fun j => ?_, ?_⟩, fun t ht h => ?_⟩
  · simp [Fin.sum_univ_two]; norm_num
  · simp [Fin.sum_univ_two]
  · simp [sum_option, Fin.sum_univ_two, more]; norm_num
  · simp [sum_option, Fin.sum_univ_two, more]
  · simp only [outPrimal, univ_unique, sum_singleton, add_zero] at h
    exact ht (by linarith)

/-- **C129** Centring the kernel matrix, last of any transforms, changes nothing in what a LS-SVM predicts: the bias makes up for it. -/
theorem C129_centred [Nonempty n] (κ : X → X → ℝ) (pts : n → X) (p : List Kind) {ι : Type} (x : ι → X) (K : n → n → ℝ) (k : ι → n → ℝ)
    (hK : ioos κ pts p .sample .sample = .ok K) (hk : ioos κ pts p (.batch ι x) .sample = .ok k) (hpsd : PSDMat K) (γ : ℝ) (hγ : 0 < γ) (y h h' : n → ℝ) (b b' : ℝ)
    (K' : n → n → ℝ) (k' : ι → n → ℝ) (hK' : ioos κ pts (.mean :: p) .sample .sample = .ok K') (hk' : ioos κ pts (.mean :: p) (.batch ι x) .sample = .ok k')
    (hs : DualSol K γ y h b) (hs' : DualSol K' γ y h' b') : h' = h ∧ ∀ i, outDual (k' i) h' b' = outDual (k i) h b := by
  obtain ⟨h1', h2'⟩ := hs'
  have eK : K' = fun i j => K i j - tmean (K i) - tmean (K j) + tmean fun l => tmean (K l) := by
    have : ioos κ pts (.mean :: p) .sample .sample = .ok fun i j => K i j - tmean (K i) - tmean (K j) + tmean fun l => tmean (K l) := by
      show istep .mean (ioos κ pts p) .sample .sample = _
      unfold istep
      dsimp only
      rw [hK]
      rfl
    exact Except.ok.inj (hK'.symm.trans this)
  have ek : k' = fun i j => k i j - tmean (k i) - tmean (K j) + tmean fun l => tmean (K l) := by
    have : ioos κ pts (.mean :: p) (.batch ι x) .sample = .ok fun i j => k i j - tmean (k i) - tmean (K j) + tmean fun l => tmean (K l) := by
      show istep .mean (ioos κ pts p) (.batch ι x) .sample = _
      unfold istep
      dsimp only
      rw [hK, hk]
      rfl
    exact Except.ok.inj (hk'.symm.trans this)
  set m := ∑ j, tmean (K j) * h' j with hm
  have lin : ∀ (f : n → ℝ) (c : ℝ), ∑ j, (f j - c - tmean (K j) + tmean fun l => tmean (K l)) * h' j = ∑ j, f j * h' j - m := by
    intro f c
    have : ∀ j, (f j - c - tmean (K j) + tmean fun l => tmean (K l)) * h' j =
        f j * h' j - tmean (K j) * h' j + ((tmean fun l => tmean (K l)) - c) * h' j := fun j => by ring
    simp only [this, sum_add_distrib, sum_sub_distrib, ← mul_sum, h2', mul_zero, add_zero, hm]
  have key : DualSol K γ y h' (b' - m) := by
    refine ⟨fun i => ?_, h2'⟩
    rw [← h1' i, eK]
    beta_reduce
    rw [lin]; ring
  obtain ⟨rfl, hb⟩ := C50_unique_partial _ hpsd γ hγ _ _ _ _ _ key hs
  refine ⟨rfl, fun i => ?_⟩
  rw [ek]
  unfold outDual
  rw [lin, ← hb]; ring

/-! ## Examples -/

/-- The linear kernel on the line: the points `±1` with targets `±1` and `γ = 1` give the multipliers `±1/3`; the point `0` is predicted exactly. -/
theorem exSol : DualSol (gram (fun x y : ℝ => x * y) ![1, -1]) 1 ![1, -1] ![1 / 3, -(1 / 3)] 0 := by
  refine ⟨fun i => ?_, by simp [Fin.sum_univ_two]⟩
  fin_cases i <;> simp [gram, Fin.sum_univ_two] <;> norm_num

theorem linePSD {m : Type} [Fintype m] (pts : m → ℝ) : PSDMat (gram (fun x y : ℝ => x * y) pts) := psdMat_rank_one pts

example (h : Option (Fin 2) → ℝ) (b : ℝ) (hs : DualSol (gram (fun x y : ℝ => x * y) (more ![1, -1] 0)) 1 (more ![1, -1] 0) h b) (x : ℝ) :
    predict (fun x y : ℝ => x * y) (more ![1, -1] 0) h b x = x * (2 / 3) := by
  rw [(C129_added (fun x y : ℝ => x * y) ![1, -1] 0 (linePSD _) 1 one_pos ![1, -1] 0 h b _ _ hs exSol (by simp [predict, outDual, Fin.sum_univ_two])).2.2.2 x]
  simp [predict, outDual, Fin.sum_univ_two]; ring

example : ∃ h b, DualSol (gram (fun x y : ℝ => x * y) (more ![1, -1] 2)) 1 (more ![1, -1] 5) h b ∧ |5 - predict (fun x y : ℝ => x * y) (more ![1, -1] 2) h b 2| ≤ 11 / 3 := by
  obtain ⟨h, b, hs⟩ := C50_exists_partial (gram (fun x y : ℝ => x * y) (more ![1, -1] 2)) (linePSD _) 1 one_pos (more ![1, -1] 5)
  refine ⟨h, b, hs, (C129_leave_out (fun x y : ℝ => x * y) ![1, -1] 2 (linePSD _) 1 one_pos ![1, -1] 5 h b _ _ hs exSol).2.trans (le_of_eq ?_)⟩
  simp only [predict, outDual, Fin.sum_univ_two]
  norm_num [abs_of_pos]

end LeaveOut
end Kerch
