import Mathlib.Analysis.InnerProductSpace.PiL2
import Mathlib.Analysis.SpecialFunctions.Trigonometric.Basic
/-!
# Optimisers on the unit sphere (kerch/opt/stiefel/grassmann_optimizer.py, kerch/opt/stiefel/gutils.py)

A parameter is a matrix, of which each row (`p.data.view(p.size()[0], -1)`) is a point. Rows are vectors of `E`, their indices are in `p`. The optimisers are modelled with
`grassmann=True`; `normalize` is `False` in all calls. The module imports `gutils` by its bare name, hence it has to be on the path; `pdb` is imported too.
-/
namespace Kerch
namespace Grassmann
open Finset
noncomputable section
variable {E : Type} [NormedAddCommGroup E] [InnerProductSpace ℝ E] {p : Type} [Fintype p]

/-- gutils.py:7-9 `unit` (first output), `eps` being `1e-8`. -/
def unit (eps : ℝ) (v : E) : E := (‖v‖ + eps)⁻¹ • v

/-- gutils.py:16-25 `clip_by_norm`, called at grassmann_optimizer.py:98-101 (228-231) if `grad_clip` is not `None`. -/
def clip (bound : Option ℝ) (h : E) : E := match bound with
  | none => h
  | some b => if b < ‖h‖ then (b / ‖h‖) • h else h

/-- gutils.py:84-89 `gproj`. -/
def gproj (y g : E) : E := g - (inner ℝ y g) • y

/-- gutils.py:91-97 `gexp`. -/
def gexp (eps : ℝ) (y h : E) : E := Real.cos ‖h‖ • y + Real.sin ‖h‖ • unit eps h

/-- gutils.py:101-109 `gpt2`. -/
def gpt2 (eps : ℝ) (y h1 h2 : E) : E :=
  h1 - (inner ℝ (unit eps h2) h1) • (Real.sin ‖h2‖ • y + (1 - Real.cos ‖h2‖) • unit eps h2)

/-- gutils.py:113-119 `gpt`. -/
def gpt (eps : ℝ) (y h : E) : E := ‖h‖ • (Real.cos ‖h‖ • unit eps h - Real.sin ‖h‖ • y)

/-- What an optimiser is constructed with (the arguments used with `grassmann=True`) and what a parameter group may override. -/
structure Args where
  omega : ℝ
  gradClip : Option ℝ
  momentum : ℝ

/-- grassmann_optimizer.py:50-58 (178-186): the group of a constructed optimiser; `omega=0` is written there whatever the argument; a group given with its own `omega` keeps it. -/
def group (a : Args) (own : Option ℝ) : Args := { a with omega := own.getD 0 }

/-- grassmann_optimizer.py:88-94 (218-224): the gradient of a row, with the regularisation `2ω(YYᵀY - Y)`. (It is added to `p.grad` itself, which matters only to who reads it
afterwards.) -/
def gradient (omega : ℝ) (Y G : p → E) (i : p) : E :=
  if omega ≠ 0 then G i + (2 * omega) • ((∑ j, (inner ℝ (Y i) (Y j) : ℝ) • Y j) - Y i) else G i

/-- A gradient, with the learning rate of the step. -/
structure Event (p E : Type) where
  G : p → E
  lr : ℝ

/-- SGDG: the parameter and its `momentum_buffer`, null at first (grassmann_optimizer.py:103-107). -/
structure Sgd (p E : Type) where
  P : p → E
  mom : p → E

/-- Before the first step. -/
def Sgd.init (P : p → E) : Sgd p E := ⟨P, fun _ => 0⟩

/-- grassmann_optimizer.py:96-110: `mom_new` of a row. -/
def Sgd.new (eps : ℝ) (a : Args) (s : Sgd p E) (e : Event p E) (i : p) : E :=
  a.momentum • s.mom i - e.lr • clip a.gradClip (gproj (unit eps (s.P i)) (gradient a.omega (fun j => unit eps (s.P j)) e.G i))

/-- grassmann_optimizer.py:84-113, one step of SGDG. -/
def Sgd.step (eps : ℝ) (a : Args) (s : Sgd p E) (e : Event p E) : Sgd p E :=
  ⟨fun i => gexp eps (unit eps (s.P i)) (s.new eps a e i), fun i => gpt eps (unit eps (s.P i)) (s.new eps a e i)⟩

/-- A history of steps. -/
def Sgd.run (eps : ℝ) (a : Args) (s : Sgd p E) (es : List (Event p E)) : Sgd p E := es.foldl (Sgd.step eps a) s

/-- AdamG: the parameter, `m_buffer`, `v_buffer`, `beta1_power`, `beta2_power`. -/
structure Adam (p E : Type) where
  P : p → E
  m : p → E
  v : p → ℝ
  b1 : ℝ
  b2 : ℝ

/-- grassmann_optimizer.py:233-243: before the first step. -/
def Adam.init (beta1 beta2 : ℝ) (P : p → E) : Adam p E := ⟨P, fun _ => 0, fun _ => 0, beta1, beta2⟩

/-- `h_hat` (226-231). -/
def Adam.hat (eps : ℝ) (a : Args) (s : Adam p E) (e : Event p E) (i : p) : E :=
  clip a.gradClip (gproj (unit eps (s.P i)) (gradient a.omega (fun j => unit eps (s.P j)) e.G i))

/-- `mnew` (250), `momentum` being `beta1`. -/
def Adam.mnew (eps : ℝ) (a : Args) (s : Adam p E) (e : Event p E) (i : p) : E := a.momentum • s.m i + (1 - a.momentum) • s.hat eps a e i

/-- `vnew` (251). -/
def Adam.vnew (eps beta2 : ℝ) (a : Args) (s : Adam p E) (e : Event p E) (i : p) : ℝ :=
  beta2 * s.v i + (1 - beta2) * inner ℝ (s.hat eps a e i) (s.hat eps a e i)

/-- The factor of `mnew` in `deltas` (253-255). -/
def Adam.factor (eps beta2 epsilon : ℝ) (a : Args) (s : Adam p E) (e : Event p E) (i : p) : ℝ :=
  -(Real.sqrt (1 - s.b2) / (1 - s.b1)) * e.lr / Real.sqrt (s.vnew eps beta2 a e i + epsilon)

/-- grassmann_optimizer.py:214-262, one step of AdamG. -/
def Adam.step (eps beta2 epsilon : ℝ) (a : Args) (s : Adam p E) (e : Event p E) : Adam p E where
  P i := gexp eps (unit eps (s.P i)) (s.factor eps beta2 epsilon a e i • s.mnew eps a e i)
  m i := gpt2 eps (unit eps (s.P i)) (s.mnew eps a e i) (s.factor eps beta2 epsilon a e i • s.mnew eps a e i)
  v i := s.vnew eps beta2 a e i
  b1 := s.b1 * a.momentum
  b2 := s.b2 * beta2

/-- A history of steps. -/
def Adam.run (eps beta2 epsilon : ℝ) (a : Args) (s : Adam p E) (es : List (Event p E)) : Adam p E := es.foldl (Adam.step eps beta2 epsilon a) s

end
end Grassmann
end Kerch
