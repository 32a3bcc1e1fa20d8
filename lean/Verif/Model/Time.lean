import Verif.Model.Cache
import Verif.Model.KernelFun
/-!
# Shapes and parameters of the time kernels (kerch/kernel/time)
-/
namespace Kerch

/-- hat.py:90-100, indicator.py:127-140: `(x - y).squeeze()` removes all dimensions of size one, the assertion wants two of them. `k` is the entry
function; the result is the list of rows. -/
def timeMatrix {R : Type} (k : R → R → R) (x y : List R) : Except Err (List (List R)) :=
  if x.length = 1 ∨ y.length = 1 then .error .assertionError else .ok (x.map fun s => y.map (k s))

/-- hat.py:90-100. -/
noncomputable def hatMatrix (lag : ℝ) (x y : List ℝ) : Except Err (List (List ℝ)) := timeMatrix (hatKernel lag) x y

/-- The attributes of an indicator kernel (indicator.py:66-79). -/
structure IndSt where
  lag : ℝ
  γ : ℝ
  linked : Bool
  lagTrainable : Bool

/-- indicator.py:61-79 `__init__`. -/
noncomputable def IndSt.init (lag : ℝ) (γ : Option ℝ) (lagTrainable : Bool := false) : IndSt :=
  match γ with
  | none => ⟨lag, 2 * lag + 1, true, lagTrainable⟩
  | some g => ⟨lag, g, false, lagTrainable⟩

/-- indicator.py:98-101, the setter of `lag`. -/
def IndSt.setLag (s : IndSt) (l : ℝ) : IndSt := { s with lag := l }

/-- indicator.py:123-126, the setter of `gamma`. -/
def IndSt.setGamma (s : IndSt) (g : ℝ) : IndSt := { s with γ := g }

/-- indicator.py:128-141 `_implicit`. If the lag is trainable and gamma linked, line 130 assigns a numpy value to `.data`, which torch refuses. -/
noncomputable def IndSt.matrix (s : IndSt) (x y : List ℝ) : Except Err (List (List ℝ)) :=
  if s.linked ∧ s.lagTrainable then .error .typeError else timeMatrix (indicatorKernel s.lag s.γ) x y

end Kerch
