import Verif.Model.DeepGrad
import Mathlib.Analysis.Calculus.FDeriv.Comp
import Mathlib.Analysis.Calculus.FDeriv.Add
import Mathlib.Analysis.Calculus.FDeriv.Mul
import Mathlib.Analysis.Calculus.Deriv.Pow
import Mathlib.Analysis.Calculus.Deriv.Mul
import Mathlib.Tactic.Linarith
/-!
# C103: the gradient used in training is that of the loss of the model
-/
set_option linter.unusedSectionVars false
set_option linter.unusedSimpArgs false
namespace Kerch
namespace DeepGrad

/-! ## Specification -/

section spec
variable {X P : Type*}

/-- The composition of levels. -/
def through : List (Lv X P) → List P → X → X
  | l :: ls, p :: θ, x => through ls θ (l.out p x)
  | _, _, x => x

/-- The loss of a model as a function of all its parameters: that of the first level plus that of the rest on what the first level gives. -/
def objective : List (Lv X P) → List P → X → ℝ
  | l :: ls, p :: θ, x => l.eta * l.loss p x + objective ls θ (l.out p x)
  | _, _, _ => 0

theorem objective_split (l : Lv X P) (post : List (Lv X P)) (q : P) (θ' : List P) : ∀ (pre : List (Lv X P)) (θ : List P) (_ : pre.length = θ.length) (x : X),
    objective (pre ++ l :: post) (θ ++ q :: θ') x =
      objective pre θ x + (l.eta * l.loss q (through pre θ x) + objective post θ' (l.out q (through pre θ x))) := by
  intro pre
  induction pre with
  | nil =>
    intro θ h x
    cases θ with
    | nil => simp [objective, through]
    | cons => simp at h
  | cons a pre ih =>
    intro θ h x
    cases θ with
    | nil => simp at h
    | cons p θ =>
      have := ih θ (by simpa using h) (a.out p x)
      simp only [List.cons_append, objective, through, this]
      ring

theorem taped_split (l : Lv X P) (post : List (Lv X P)) (p q : P) (θ' : List P) : ∀ (pre : List (Lv X P)) (θ : List P) (_ : pre.length = θ.length) (x : X),
    ∃ c, ∀ q : P, taped (pre ++ l :: post) (recorded (pre ++ l :: post) (θ ++ p :: θ') x) (θ ++ q :: θ') = l.eta * l.loss q (through pre θ x) + c := by
  intro pre
  induction pre with
  | nil =>
    intro θ h x
    cases θ with
    | nil => exact ⟨taped post (recorded post θ' (l.out p x)) θ', fun q => by simp [taped, recorded, through]⟩
    | cons => simp at h
  | cons a pre ih =>
    intro θ h x
    cases θ with
    | nil => simp at h
    | cons r θ =>
      obtain ⟨c, hc⟩ := ih θ (by simpa using h) (a.out r x)
      refine ⟨a.eta * a.loss r x + c, fun q => ?_⟩
      simp only [List.cons_append, taped, recorded, through, hc q]
      ring

/-- **C103**, the value: what the trainer calls the loss is the loss of the model, for any levels and parameters. -/
theorem C103_value : ∀ (ls : List (Lv X P)) (θ : List P) (x : X), modelLoss ls θ x = objective ls θ x
  | [], θ, x => by simp [modelLoss, taped, objective]
  | l :: ls, [], x => by simp [modelLoss, taped, recorded, objective]
  | l :: ls, p :: θ, x => by
    have := C103_value ls θ (l.out p x)
    simp only [modelLoss] at this
    simp [modelLoss, taped, recorded, objective, this]

end spec

variable {X P : Type*} [NormedAddCommGroup X] [NormedSpace ℝ X] [NormedAddCommGroup P] [NormedSpace ℝ P]

/-- What `backward` gives for the parameters of a level, at any depth: the derivative of its own loss only. -/
theorem backward_own (pre : List (Lv X P)) (l : Lv X P) (post : List (Lv X P)) (θ : List P) (p : P) (θ' : List P) (h : pre.length = θ.length) (x : X) (A : P →L[ℝ] ℝ)
    (hA : HasFDerivAt (fun q => l.loss q (through pre θ x)) A p) :
    HasFDerivAt (fun q => taped (pre ++ l :: post) (recorded (pre ++ l :: post) (θ ++ p :: θ') x) (θ ++ q :: θ')) (l.eta • A) p := by
  obtain ⟨c, hc⟩ := taped_split l post p p θ' pre θ h x
  have e : (fun q => taped (pre ++ l :: post) (recorded (pre ++ l :: post) (θ ++ p :: θ') x) (θ ++ q :: θ')) =
      fun q => l.eta * l.loss q (through pre θ x) + c := funext hc
  rw [e]
  exact (hA.const_mul l.eta).add_const c

/-- The derivative of the loss of the model: that of the level's own loss, plus what comes back from the levels after it. -/
theorem objective_derivative (pre : List (Lv X P)) (l : Lv X P) (post : List (Lv X P)) (θ : List P) (p : P) (θ' : List P) (h : pre.length = θ.length) (x : X)
    (A : P →L[ℝ] ℝ) (hA : HasFDerivAt (fun q => l.loss q (through pre θ x)) A p)
    (H : P →L[ℝ] X) (hH : HasFDerivAt (fun q => l.out q (through pre θ x)) H p)
    (D : X →L[ℝ] ℝ) (hD : HasFDerivAt (objective post θ') D (l.out p (through pre θ x))) :
    HasFDerivAt (fun q => objective (pre ++ l :: post) (θ ++ q :: θ') x) (l.eta • A + D.comp H) p := by
  have e : (fun q => objective (pre ++ l :: post) (θ ++ q :: θ') x) =
      fun q => objective pre θ x + (l.eta * l.loss q (through pre θ x) + objective post θ' (l.out q (through pre θ x))) :=
    funext fun q => objective_split l post q θ' pre θ h x
  rw [e]
  exact ((hA.const_mul l.eta).add (hD.comp p hH)).const_add _

/-- **C103** for the last level of a model of any depth: the gradient `backward` computes is that of the loss of the model. Missing: the other levels, see `C103_violated`. -/
theorem C103_last_partial (pre : List (Lv X P)) (l : Lv X P) (θ : List P) (p : P) (h : pre.length = θ.length) (x : X) (A : P →L[ℝ] ℝ)
    (hA : HasFDerivAt (fun q => l.loss q (through pre θ x)) A p) (G : P →L[ℝ] ℝ) :
    HasFDerivAt (fun q => taped (pre ++ [l]) (recorded (pre ++ [l]) (θ ++ [p]) x) (θ ++ [q])) G p ↔ HasFDerivAt (fun q => objective (pre ++ [l]) (θ ++ [q]) x) G p := by
  have h1 := backward_own pre l [] θ p [] h x A hA
  have h2 : HasFDerivAt (fun q => objective (pre ++ [l]) (θ ++ [q]) x) (l.eta • A) p := by
    have e : (fun q => objective (pre ++ [l]) (θ ++ [q]) x) = fun q => objective pre θ x + l.eta * l.loss q (through pre θ x) :=
      funext fun q => by rw [objective_split l [] q [] pre θ h x]; simp [objective]
    rw [e]
    exact (hA.const_mul l.eta).const_add _
  constructor
  · intro hG; rw [hG.unique h1]; exact h2
  · intro hG; rw [hG.unique h2]; exact h1

/-- **C103 is violated** by every level but the last one, at any depth: what `backward` gives is the gradient of the loss of the model exactly if what comes
back from the following levels vanishes. -/
theorem C103_violated (pre : List (Lv X P)) (l : Lv X P) (post : List (Lv X P)) (θ : List P) (p : P) (θ' : List P) (h : pre.length = θ.length) (x : X)
    (A : P →L[ℝ] ℝ) (hA : HasFDerivAt (fun q => l.loss q (through pre θ x)) A p)
    (H : P →L[ℝ] X) (hH : HasFDerivAt (fun q => l.out q (through pre θ x)) H p)
    (D : X →L[ℝ] ℝ) (hD : HasFDerivAt (objective post θ') D (l.out p (through pre θ x))) :
    fderiv ℝ (fun q => objective (pre ++ l :: post) (θ ++ q :: θ') x) p =
      fderiv ℝ (fun q => taped (pre ++ l :: post) (recorded (pre ++ l :: post) (θ ++ p :: θ') x) (θ ++ q :: θ')) p + D.comp H ∧
    (fderiv ℝ (fun q => taped (pre ++ l :: post) (recorded (pre ++ l :: post) (θ ++ p :: θ') x) (θ ++ q :: θ')) p =
      fderiv ℝ (fun q => objective (pre ++ l :: post) (θ ++ q :: θ') x) p ↔ D.comp H = 0) := by
  rw [(backward_own pre l post θ p θ' h x A hA).fderiv, (objective_derivative pre l post θ p θ' h x A hA H hH D hD).fderiv]
  exact ⟨rfl, by simp⟩

/-- Two levels: the first one gives its parameter, with its square as loss, the second one has thrice the squared distance to 1 as loss. -/
def pair : List (Lv ℝ ℝ) := [⟨fun p _ => p, fun p _ => p ^ 2, 1⟩, ⟨fun _ x => x, fun _ x => (x - 1) ^ 2, 3⟩]

/-- **C103 is violated**: a step along the gradient used increases the loss of the model, however small the step. -/
theorem C103_uphill_violated (lr : ℝ) (hlr : 0 < lr) :
    HasDerivAt (fun q => taped pair (recorded pair [1 / 2, 0] 0) [q, 0]) 1 (1 / 2) ∧ objective pair [1 / 2, 0] 0 < objective pair [1 / 2 - lr * 1, 0] 0 := by
  constructor
  · have e : (fun q : ℝ => taped pair (recorded pair [1 / 2, 0] 0) [q, 0]) = fun q => q ^ 2 + 3 * (1 / 2 - 1) ^ 2 := by
      funext q; simp [pair, taped, recorded]
    rw [e]
    have h0 : HasDerivAt (fun q : ℝ => q ^ 2) 1 (1 / 2) := by simpa using hasDerivAt_pow 2 (1 / 2 : ℝ)
    exact h0.add_const _
  · simp only [pair, objective]
    nlinarith

/-- **C103 is violated**: where the gradient used vanishes, the loss of the model is not stationary; its minimum is elsewhere. -/
theorem C103_stationary_violated : HasDerivAt (fun q => taped pair (recorded pair [0, 0] 0) [q, 0]) 0 0 ∧
    objective pair [3 / 4, 0] 0 < objective pair [0, 0] 0 ∧ ∀ p q : ℝ, objective pair [3 / 4, 0] 0 ≤ objective pair [p, q] 0 := by
  refine ⟨?_, ?_, fun p q => ?_⟩
  · have e : (fun q : ℝ => taped pair (recorded pair [0, 0] 0) [q, 0]) = fun q => q ^ 2 + 3 := by
      funext q; simp [pair, taped, recorded]
    rw [e]
    have h0 : HasDerivAt (fun q : ℝ => q ^ 2) 0 0 := by simpa using hasDerivAt_pow 2 (0 : ℝ)
    exact h0.add_const _
  · simp only [pair, objective]; norm_num
  · simp only [pair, objective]
    nlinarith [sq_nonneg (p - 3 / 4)]

/-- A level after those of `pair`, with a loss depending on its parameter and on what it receives. -/
example : HasFDerivAt (fun q : ℝ => (⟨fun _ x => x, fun q x => q * x, 3⟩ : Lv ℝ ℝ).loss q (through pair [2, 0] 0)) (ContinuousLinearMap.toSpanSingleton ℝ (2 : ℝ)) 5 := by
  have h : HasDerivAt (fun q : ℝ => q * 2) 2 5 := by simpa using HasDerivAt.mul_const (hasDerivAt_id (5 : ℝ)) (2 : ℝ)
  exact h.hasFDerivAt

end DeepGrad
end Kerch
