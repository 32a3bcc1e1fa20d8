import Verif.Model.Cache
import Mathlib.Data.Matrix.Mul
import Mathlib.Data.Real.Sqrt
import Mathlib.Data.Real.Sign
import Mathlib.Data.Finset.Lattice.Fold
/-!
# Stiefel optimisers (kerch/opt/stiefel/{gutils,stiefel_optimizer,utils}.py)

Exact reals. A parameter has rows `p` (components) and columns `n`; the Stiefel branch is taken if there are at most as many rows as columns
(stiefel_optimizer.py:88, 216), which is not needed in what follows. One parameter is followed; the others have their own state.
-/
namespace Kerch
namespace Stiefel
open Matrix

variable {p n : Type} [Fintype p] [Fintype n]

/-- `episilon` (stiefel_optimizer.py:21), `eps` of `unit` (gutils.py:7). -/
noncomputable def eps : ℝ := 1 / 100000000

/-- gutils.py:3-9 `unit`: each row divided by its norm plus `eps`. -/
noncomputable def unit (P : Matrix p n ℝ) : Matrix p n ℝ := Matrix.of fun i j => P i j / (Real.sqrt (∑ k, P i k ^ 2) + eps)

/-- utils.py:83-87 `matrix_norm_one`: the largest sum of absolute values of a column. -/
noncomputable def normOne [Nonempty n] (W : Matrix n n ℝ) : ℝ := Finset.univ.sup' Finset.univ_nonempty fun j => ∑ i, |W i j|

/-- stiefel_optimizer.py:111-115 (246-250): the skew matrix of a direction `V` at `U`. -/
noncomputable def skew (U : Matrix p n ℝ) (V : Matrix n p ℝ) : Matrix n n ℝ :=
  let MX := V * U
  let XMX := U * MX
  let XXMX := Uᵀ * XMX
  let What := MX - (1 / 2 : ℝ) • XXMX
  What - Whatᵀ

/-- The loop of gutils.py:70-71 run `k` times. -/
noncomputable def cayleyIter (X : Matrix n p ℝ) (W : Matrix n n ℝ) (t : ℝ) : ℕ → Matrix n p ℝ → Matrix n p ℝ
  | 0, Y => Y
  | k + 1, Y => cayleyIter X W t k (X + t • (W * ((1 / 2 : ℝ) • (X + Y))))

/-- gutils.py:67-73 `Cayley_loop`. -/
noncomputable def cayleyLoop (X : Matrix n p ℝ) (W : Matrix n n ℝ) (V : Matrix n p ℝ) (t : ℝ) : Matrix p n ℝ :=
  (cayleyIter X W t 20 (X + t • V))ᵀ

/-- gutils.py:56-65 `qr_retraction`: the rows of `q` (columns of the factor) with the signs of the diagonal of `r`; `qr` stands for `torch.linalg.qr`, giving as many
columns as rows of the argument. -/
noncomputable def qrRetraction (qr : Matrix n p ℝ → Matrix n p ℝ × Matrix p p ℝ) (U : Matrix p n ℝ) : Matrix p n ℝ :=
  let (q, r) := qr Uᵀ
  Matrix.of fun i j => q j i * Real.sign (r i i)

/-- A gradient with what the step reads at this time: the learning rate and whether the random number is 1 (94-96, 217-219). -/
structure Event (p n : Type) where
  grad : Matrix p n ℝ
  lr : ℝ
  retract : Bool

/-- The point from which the step starts (87, 94-96; 215-219). -/
noncomputable def start (qr : Matrix n p ℝ → Matrix n p ℝ × Matrix p p ℝ) (P : Matrix p n ℝ) (retract : Bool) : Matrix p n ℝ :=
  if retract then qrRetraction qr (unit P) else unit P

/-- Step size (116-117; 252-253). -/
noncomputable def stepSize [Nonempty n] (W : Matrix n n ℝ) (lr : ℝ) : ℝ := min (1 / 2 * 2 / (normOne W + eps)) lr

/-- SGDG, Stiefel branch (stiefel_optimizer.py:87-123): the parameter and its `momentum_buffer`. Line 110 binds `V` to a new tensor, the `copy_` of line 123 writes
into that one and the buffer keeps its value (created as zeros, 104-107). -/
noncomputable def sgdStep [Nonempty n] (qr : Matrix n p ℝ → Matrix n p ℝ × Matrix p p ℝ) (momentum : ℝ) (s : Matrix p n ℝ × Matrix n p ℝ) (e : Event p n) :
    Matrix p n ℝ × Matrix n p ℝ :=
  let U := start qr s.1 e.retract
  let V := momentum • s.2 - e.gradᵀ
  let W := skew U V
  (cayleyLoop Uᵀ W V (stepSize W e.lr), s.2)

/-- A history of steps, from a parameter without state. -/
noncomputable def sgdRun [Nonempty n] (qr : Matrix n p ℝ → Matrix n p ℝ × Matrix p p ℝ) (momentum : ℝ) (P : Matrix p n ℝ) (es : List (Event p n)) :
    Matrix p n ℝ × Matrix n p ℝ :=
  es.foldl (sgdStep qr momentum) (P, 0)

/-- State of AdamG for one parameter (stiefel_optimizer.py:223-238). -/
structure Adam (p n : Type) where
  param : Matrix p n ℝ
  m : Matrix n p ℝ
  v : ℝ
  beta1Power : ℝ
  beta2Power : ℝ

/-- Initial state (224-233). -/
def Adam.init (beta1 beta2 : ℝ) (P : Matrix p n ℝ) : Adam p n := ⟨P, 0, 0, beta1, beta2⟩

/-- AdamG, Stiefel branch (215-263); here `m.copy_` and `v.copy_` act on the stored tensors. -/
noncomputable def adamStep [Nonempty n] (qr : Matrix n p ℝ → Matrix n p ℝ × Matrix p p ℝ) (beta1 beta2 epsilon : ℝ) (s : Adam p n) (e : Event p n) : Adam p n :=
  let U := start qr s.param e.retract
  let mnew := beta1 • s.m + (1 - beta1) • e.gradᵀ
  let vnew := beta2 * s.v + (1 - beta2) * ∑ i, ∑ j, e.grad i j ^ 2
  let mhat := (1 / (1 - s.beta1Power)) • mnew
  let vhat := vnew / (1 - s.beta2Power)
  let W := (1 / Real.sqrt (vhat + epsilon)) • skew U mhat
  { param := cayleyLoop Uᵀ W mnew (-stepSize W e.lr)
    m := (Real.sqrt (vhat + epsilon) * (1 - s.beta1Power)) • (W * Uᵀ)
    v := vnew
    beta1Power := s.beta1Power * beta1
    beta2Power := s.beta2Power * beta2 }

/-- Euclidean branch without weight decay and Nesterov (126-142): parameter and buffer, which does not exist before the first step. -/
noncomputable def euclidStep {A : Type} [AddCommGroup A] [Module ℝ A] (momentum dampening : ℝ) (s : A × Option A) (e : A × ℝ) : A × Option A :=
  if momentum ≠ 0 then
    let buf := match s.2 with
      | none => e.1
      | some b => momentum • b + (1 - dampening) • e.1
    (s.1 - e.2 • buf, some buf)
  else (s.1 - e.2 • e.1, s.2)

end Stiefel
end Kerch
