import Verif.Model.Cache
import Mathlib.Data.Matrix.Mul
import Mathlib.Data.Real.Basic
/-!
# Figures (plot/matplotlib.py, monitor/module.py)

Matplotlib by contract: what is drawn is added to the axes, in order. Layout, colours other than those of scattered points, ticks and colour bars are not modelled.
-/
namespace Kerch
namespace Figures

/-- A tensor with two dimensions. -/
abbrev Mat := Σ r c : Nat, Matrix (Fin r) (Fin c) ℝ

/-- What can be seen on matplotlib axes: texts, images, bars (abscissa, height), scattered points (with their colour if one is given), whether the ordinates are logarithmic, and filled contours. -/
structure Axes where
  title : String := ""
  xlabel : String := ""
  ylabel : String := ""
  images : List Mat := []
  bars : List (ℝ × ℝ) := []
  points : List (ℝ × ℝ × Option Bool) := []
  logY : Bool := false
  contours : Nat := 0

/-- The argument `ax`: none, axes, or an object that is not axes. -/
inductive AxArg
  | fresh
  | given (a : Axes)
  | other

/-- plot/matplotlib.py:9-16 `_get_fig_ax`. The figure returned is that of the axes. -/
def getFigAx : AxArg → Except Err Axes
  | .fresh => .ok {}
  | .given a => .ok a
  | .other => .error .assertionError

/-- plot/matplotlib.py:19-43 `_plot_matrix` (on matrices: `imshow` also takes colour images and raises on other shapes). The conditions on the labels of the axes are `is None`
(lines 33, 35); `set_xlabel(None)` leaves no text. -/
def plotMatrix (m : Mat) (title xlabel ylabel : Option String) (labels : Bool) (ax : AxArg) : Except Err Axes :=
  match getFigAx ax with
  | .error e => .error e
  | .ok a =>
    let a := { a with images := a.images ++ [m] }
    let a := match title with
      | some t => if labels then { a with title := t } else a
      | none => a
    let a := if xlabel.isNone && labels then { a with xlabel := "" } else a
    let a := if ylabel.isNone && labels then { a with ylabel := "" } else a
    .ok a

/-- The functions `plot_K`, `plot_K_reconstructed`, `plot_hidden`, `plot_hidden_correlation`, `plot_C`, `plot_Phi`, `plot_W`, `plot_sample`, `plot_forward`. -/
inductive Plot
  | K | KReconstructed | hidden | hiddenCorrelation | C | Phi | W | sample | forward
  deriving DecidableEq

/-- Title and labels passed (plot/matplotlib.py:60-65, 82-87, 104-109, 126-131, 148-153, 170-175, 191, 207, 223). -/
def texts : Plot → String × String × String
  | .K => ("Kernel Matrix", "num_sample", "num_sample")
  | .KReconstructed => ("Reconstructed Kernel Matrix", "num_sample", "num_sample")
  | .hidden => ("Hidden Variables", "num_sample", "dim_output")
  | .hiddenCorrelation => ("Correlation of the Hidden Variables", "num_sample", "num_sample")
  | .C => ("Correlation", "dim_feature", "dim_feature")
  | .Phi => ("Feature Map", "num_sample", "dim_feature")
  | .W => ("Weights", "dim_feature", "dim_output")
  | .sample => ("Sample", "num_sample", "dim_intput")
  | .forward => ("Forward", "num_sample", "dim_output")

/-- The matrix that is drawn: the argument, or `hidden.T @ hidden` (plot/matplotlib.py:126). -/
def drawn (p : Plot) (m : Mat) : Mat :=
  match p with
  | .hiddenCorrelation => ⟨m.2.1, m.2.1, m.2.2.transpose * m.2.2⟩
  | _ => m

/-- A call of one of these functions. -/
def plot (p : Plot) (m : Mat) (labels : Bool) (ax : AxArg) : Except Err Axes :=
  plotMatrix (drawn p m) (some (texts p).1) (some (texts p).2.1) (some (texts p).2.2) labels ax

/-- plot/matplotlib.py:226-257 `plot_eigenvalues` on a tensor of the given shape with the given values: `squeeze` removes the dimensions of size one; `ax.bar(len(eigenvalues), eigenvalues)` (line 248)
draws all bars at the one abscissa given. -/
def plotEigenvalues (shape : List Nat) (vals : List ℝ) (labels log : Bool) (ax : AxArg) : Except Err Axes :=
  match getFigAx ax with
  | .error e => .error e
  | .ok a =>
    if (shape.filter (· ≠ 1)).length ≠ 1 then .error .assertionError
    else
      let a := { a with bars := a.bars ++ vals.map fun v => ((vals.length : ℝ), v) }
      let a := if labels then { a with title := "Eigenvalues", xlabel := "dim_output", ylabel := "Magnitude" } else a
      let a := if log then { a with logY := true } else a
      .ok a

/-- What `scatter` reads of a view: the points in use with their number of features, the targets of all points of the sample (`none`: not set) with their number of columns, and `forward` on `rows` points of
`cols` features, of which only the numbers of rows and columns of the result matter here. -/
structure View where
  dimInput : Nat
  current : List (Nat → ℝ)
  target : Option (Nat × List (Nat → ℝ))
  forward : Nat → Nat → Except Err (Nat × Nat)

/-- An index in a dimension of size `w`: negative ones count from the end. -/
def pyIndex (w : Nat) (d : Int) : Except Err Nat :=
  if 0 ≤ d ∧ d < w then .ok d.toNat else if d < 0 ∧ -(w : Int) ≤ d then .ok (d + w).toNat else .error .indexError

/-- monitor/module.py:85-100: the heat map. `torch.cat` (line 93) of two 50 x 50 grids along the columns gives 50 points of 100 features; the column taken of the result is then reshaped to 50 x 50. -/
def heatMap (v : View) (dimTarget : Int) (a : Axes) : Except Err Axes :=
  if v.dimInput ≠ 2 then .ok a
  else match v.forward 50 100 with
    | .error e => .error e
    | .ok (rows, cols) => match pyIndex cols dimTarget with
      | .error e => .error e
      | .ok _ => if rows = 50 * 50 then .ok { a with contours := a.contours + 1 } else .error .runtimeError

/-- monitor/module.py:58-100 `scatter`. The clause `except NotImplementedError or AttributeError` (line 76) is `except NotImplementedError`; the targets that are not set raise `NotInitializedError`
(View.py:177-183). Matplotlib raises `ValueError` if the number of colours is neither one nor that of the points. The texts of the labels are constant but for the two indices. -/
noncomputable def scatter (v : View) (dims : Option (Int × Int)) (dimTarget : Int) (heat labels : Bool) : Except Err Axes :=
  let dims := dims.getD (0, 1)
  match pyIndex v.dimInput dims.1, pyIndex v.dimInput dims.2 with
  | .error e, _ => .error e
  | .ok _, .error e => .error e
  | .ok i, .ok j =>
    match v.target with
    | none => .error .notInitialized
    | some (w, ts) =>
      match pyIndex w dimTarget with
      | .error e => .error e
      | .ok k =>
        if ts.length ≠ v.current.length ∧ ts.length ≠ 1 then .error .valueError
        else
          let colour : Nat → Bool := fun n => decide ((ts.getD (if ts.length = 1 then 0 else n) fun _ => 0) k = 1)
          let a : Axes := { points := v.current.mapIdx fun n x => (x i, x j, some (colour n)) }
          let a := if labels then { a with title := "Forward", xlabel := s!"dim_output[{dims.1}]", ylabel := s!"dim_output[{dims.2}]" } else a
          if heat then heatMap v dimTarget a else .ok a

end Figures
end Kerch
