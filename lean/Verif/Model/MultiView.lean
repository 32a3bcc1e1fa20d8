import Verif.Model.Cache
import Mathlib.Algebra.BigOperators.Group.List.Basic
import Mathlib.Algebra.Module.Pi
import Mathlib.Data.Matrix.Mul
import Mathlib.Data.Real.Basic
import Mathlib.LinearAlgebra.Matrix.NonsingularInverse
/-!
# Multi-view levels (kerch/level/multi_view/{MultiView,MVLevel,MVKPCA}.py)

Matrices are lists of rows. A view is what the multi-view class uses of it: `phi`, `k`, `dim_feature`, its current sample (View.py:219-227). The number of
sample points is the same for all views (asserted in MultiView.py:65-68), so columns never have to be broadcast.
-/
namespace Kerch
namespace MView

variable {X R : Type}

/-- A view, on single points: row `phi x` of the feature matrix, entry `k x y` of the kernel matrix. -/
structure View (X R : Type) where
  dim : Nat
  phi : X → List R
  k : X → X → R
  sample : List X

/-- `view.phi(x)`, with `None` for the sample (View.py:219). -/
def View.phiMat (v : View X R) (x : Option (List X)) : List (List R) := (x.getD v.sample).map v.phi

/-- `view.k(x)`: against the sample (View.py:222). -/
def View.kMat (v : View X R) (x : Option (List X)) : List (List R) := (x.getD v.sample).map fun a => v.sample.map (v.k a)

/-- Identifiers of a view. -/
inductive Key
  | int (i : Int)
  | str (s : String)
  deriving DecidableEq

/-- The argument of `phi` and `k`. -/
inductive Arg (X : Type)
  | none
  | tensor (xs : List X)
  | dict (items : List (Key × Option (List X)))
  | list (ids : List Key)
  | str (id : String)
  | other

/-- `list(self._views.values())[id]` with Python's negative indices, or `self._views[id]`; the `except NameError` catches neither `IndexError` nor `KeyError`
(MultiView.py:117-125). -/
def view (V : Dict String (View X R)) : Key → Except Err (View X R)
  | .int i =>
    let n : Int := V.length
    let j := if i < 0 then i + n else i
    if 0 ≤ j ∧ j < n then
      match V[j.toNat]? with
      | some e => .ok e.2
      | none => .error .indexError
    else .error .indexError
  | .str s =>
    match V.find s with
    | some v => .ok v
    | none => .error .keyError

/-- Collect the results, stopping at the first error (consuming a generator). -/
def collect : List (Except Err α) → Except Err (List α)
  | [] => .ok []
  | .error e :: _ => .error e
  | .ok a :: t => (collect t).map (a :: ·)

/-- MultiView.py:173-190 `phis`. -/
def phis (V : Dict String (View X R)) : Arg X → Except Err (List (List (List R)))
  | .none => .ok (V.map fun e => e.2.phiMat none)
  | .tensor xs => .ok (V.map fun e => e.2.phiMat (some xs))
  | .dict items => collect (items.map fun it => (view V it.1).map fun v => v.phiMat it.2)
  | .list ids => collect (ids.map fun id => (view V id).map fun v => v.phiMat none)
  | .str id => collect [(view V (.str id)).map fun v => v.phiMat none]
  | .other => .error .notImplemented

/-- `torch.cat(ms, dim=1)`: error on an empty list and on different numbers of rows. -/
def hcat : List (List (List R)) → Except Err (List (List R))
  | [] => .error .runtimeError
  | [m] => .ok m
  | m :: n :: t =>
    match hcat (n :: t) with
    | .error e => .error e
    | .ok r => if m.length = r.length then .ok (m.zipWith (· ++ ·) r) else .error .runtimeError

/-- MultiView.py:192-193 `phi`. -/
def phi (V : Dict String (View X R)) (x : Arg X) : Except Err (List (List R)) :=
  match phis V x with
  | .error e => .error e
  | .ok ms => hcat ms

/-- MultiView.py:195-208 `ks`: no case for `None`. -/
def ks (V : Dict String (View X R)) : Arg X → Except Err (List (List (List R)))
  | .tensor xs => .ok (V.map fun e => e.2.kMat (some xs))
  | .dict items => collect (items.map fun it => (view V it.1).map fun v => v.kMat it.2)
  | .list ids => collect (ids.map fun id => (view V id).map fun v => v.kMat none)
  | .str id => collect [(view V (.str id)).map fun v => v.kMat none]
  | .none => .error .notImplemented
  | .other => .error .notImplemented

/-- `a + b` of two matrices with the broadcasting of a single row. -/
def addB [Add R] (a b : List (List R)) : Except Err (List (List R)) :=
  if a.length = b.length then .ok (a.zipWith (List.zipWith (· + ·)) b)
  else match a, b with
    | [r], b => .ok (b.map (List.zipWith (· + ·) r))
    | a, [r] => .ok (a.map (fun s => List.zipWith (· + ·) s r))
    | _, _ => .error .runtimeError

/-- Python's `sum` of matrices, `acc` the running value (`0 + m` is `m`). -/
def sumFrom [Add R] : List (List R) → List (List (List R)) → Except Err (List (List R))
  | acc, [] => .ok acc
  | acc, m :: t =>
    match addB acc m with
    | .error e => .error e
    | .ok a => sumFrom a t

/-- MultiView.py:210-211 `k`; the integer `0` of an empty sum has no shape and is taken as an error of what follows. -/
def k [Add R] (V : Dict String (View X R)) (x : Arg X) : Except Err (List (List R)) :=
  match ks V x with
  | .error e => .error e
  | .ok [] => .error .typeError
  | .ok (m :: t) => sumFrom m t

/-- MultiView.py:213-220 `K`. -/
def K [Add R] (V : Dict String (View X R)) : Except Err (List (List R)) :=
  match V.map (fun e => e.2.kMat none) with
  | [] => .error .typeError
  | m :: t => sumFrom m t

/-! ## weights -/

/-- MultiView.py:95-104 `dims_feature`. -/
def dims (V : Dict String (View X R)) : List Nat := V.map fun e => e.2.dim

/-- `numpy.cumsum`. -/
def cumsum (acc : Nat) : List Nat → List Nat
  | [] => []
  | d :: t => (acc + d) :: cumsum (acc + d) t

/-- MultiView.py:114-115 `dim_feature`. -/
def dimFeature (V : Dict String (View X R)) : Nat := (dims V).sum

/-- Rows `a:b` of a matrix. -/
def rows (W : List α) (a b : Nat) : List α := (W.drop a).take (b - a)

/-- MultiView.py:158-163 `_weight_from_view`, on rows `W` of the weights. -/
def weightFromView (V : Dict String (View X R)) (W : List α) (id : Nat) : Except Err (List α) :=
  let dim := cumsum 0 (dims V)
  if id = 0 then
    match dim[0]? with
    | some d => .ok (rows W 0 d)
    | none => .error .indexError
  else
    match dim[id - 1]?, dim[id]? with
    | some a, some b => .ok (rows W a b)
    | _, _ => .error .indexError

/-- A row times a matrix of `m` columns (`phi @ W`, one point). -/
def rowMul {m : Type} [Semiring R] (r : List R) (W : List (m → R)) : m → R := (List.zipWith (fun a w => a • w) r W).sum

/-! ## construction -/

/-- MultiView.py:25-26: `__init__(self, *views, **kwargs)` refers to the undefined name `args`. -/
def construct (_views : List (View X R)) : Except Err (Dict String (View X R)) := .error .nameError

/-- What is given to `attach_view`. -/
inductive Att (X R : Type)
  | view (v : View X R)
  | dict (made : Except Err (View X R))
  | other

/-- MultiView.py:45-83 `attach_view`, `dimOut` the output dimension: `view.dim_output = self._dim_output` is `int(None)` if unset, `self.hidden_as_param` (52)
and `self.hidden` (57) exist in no class; other arguments are logged and ignored (61). -/
def attach (dimOut : Option Nat) (V : Dict String (View X R)) : Att X R → Except Err Unit × Dict String (View X R)
  | .view _ => (.error (if dimOut.isSome then .attributeError else .typeError), V)
  | .dict _ => (.error .attributeError, V)
  | .other => (.ok (), V)

/-! ## MVKPCA -/

/-- MVKPCA.py:57-71: the views to predict, in order, and the number of points, or the failed assertions; `known` gives for each known view its number of
points, `some none` standing for the value `None`. -/
def checkKnown (known : String → Option (Option Nat)) : List String → Option Nat → List String → Except Err (Nat × List String)
  | [], some n, p => .ok (n, p)
  | [], none, _ => .error .assertionError
  | key :: t, n, p =>
    match known key with
    | none => checkKnown known t n (p ++ [key])
    | some none => checkKnown known t n p
    | some (some c) =>
      match n with
      | none => checkKnown known t (some c) p
      | some m => if m = c then checkKnown known t (some m) p else .error .assertionError

/-- MVKPCA.py:22-28 `_project_primal`: `φk` the features of the known views at the given points, `Wk`, `Wp` the weights of the known and the predicted
views (`v.weight`, which exists in no class, taken as the primal parameters), `vals` the eigenvalues. `torch.linalg.inv` raises if singular; here the inverse
is then zero. -/
noncomputable def projectPrimal {q a b s : Type} [Fintype a] [Fintype b] [Fintype s] [DecidableEq s] (vals : s → ℝ) (φk : Matrix q a ℝ) (Wk : Matrix a s ℝ)
    (Wp : Matrix b s ℝ) : Matrix q b ℝ :=
  φk * Wk * (Matrix.diagonal vals - Wp.transpose * Wp)⁻¹ * Wp.transpose

/-- MVKPCA.py:30-41 `_project_dual`: `kk = self.k(known)`, `Kp = self.k(to_predict)` and `H` the dual parameters. -/
noncomputable def projectDual {q n s : Type} [Fintype n] [Fintype s] [DecidableEq s] (vals : s → ℝ) (kk : Matrix q n ℝ) (H : Matrix n s ℝ)
    (Kp : Matrix n n ℝ) : Matrix q n ℝ :=
  kk * H * (Matrix.diagonal vals - H.transpose * Kp * H)⁻¹ * H.transpose * Kp

/-- MVKPCA.py:97-99: the columns of `transform` given to each predicted view, `dim` the running variable; `ds` the feature dimensions of the predicted views. -/
def slices (row : List R) : Nat → List Nat → List (List R)
  | _, [] => []
  | dim, d :: t => rows row dim d :: slices row d t

/-- `predict` methods (MVKPCA.py:100-105, 108-111). -/
inductive Method
  | smoother
  | pinv
  | other
  deriving DecidableEq

/-- `kernel.implicit_preimage(k_image, kwargs["knn"])`: the number of neighbours is passed as `method` and `method.lower()` fails on it
(_base_kernel.py:304, 334). -/
def implicitPreimage (_kImage : List (List R)) (_knn : Nat) : Except Err (List X) := .error .attributeError

/-- One view in the primal loop (MVKPCA.py:98-105); `pre` is the explicit pre-image of the kernel of the view; the product with `view.phi().T` needs as many
columns as features. -/
def predictPrimal1 (method : Method) (knn : Nat) (pre : List (List R) → Except Err (List X)) (d : Nat) (viewPhi : List (List R))
    (prod : List (List R)) : Except Err (List X) :=
  match method with
  | .smoother => if viewPhi.any (fun r => r.length ≠ d) then .error .runtimeError else implicitPreimage prod knn
  | .pinv => pre viewPhi
  | .other => .error .notImplemented

/-- One view in the dual loop (MVKPCA.py:107-111): the whole `transform` is given. -/
def predictDual1 (method : Method) (knn : Nat) (transform : List (List R)) : Except Err (List X) :=
  match method with
  | .smoother => implicitPreimage transform knn
  | .pinv => .error .notImplemented
  | .other => .error .notImplemented

end MView
end Kerch
