import Mathlib.Data.List.Basic
import Verif.Model.Cache
/-!
# Sample, target and `solve` of a single-view level (kerch/level/single_view/Level.py:16-48, kerch/level/single_view/View.py:163-196,
kerch/level/_Level.py:106-137)

Only what decides whether and on what the model is fitted: the numbers of rows and columns. Data are identified by a name (`id`), so that
it can be told on which data a fit was made; a level is parametrised by its output dimension.
-/
namespace Kerch
namespace Solve

/-- A matrix given as argument: identity, shape, and whether it is a tensor (or an array), as opposed to a list, which has no attribute `shape`. -/
structure Data where
  id : ℕ
  rows : ℕ
  cols : ℕ
  tensor : Bool
  deriving DecidableEq

/-- `fitted`: the sample, target and representation of the last call of `_solve_primal`/`_solve_dual`. -/
structure St where
  dimOutput : ℕ
  sample : Option Data
  target : Option Data
  fitted : Option (Data × Option Data × Bool)
  deriving DecidableEq

/-- View.py:173-190, the setter of `target` (`castf` has been applied; the setter ignores `None`). -/
def setTarget (s : St) : Option Data → Except Err Unit × St
  | none => (.ok (), s)
  | some t => match s.sample with
    | none => (.error .notInitialized, s)
    | some x =>
      if s.dimOutput ≠ t.cols then (.error .assertionError, s)
      else if x.rows ≠ t.rows then (.error .assertionError, s)
      else (.ok (), { s with target := some t })

/-- Sample.init_sample with data: the sample is replaced, the target is not touched. (An empty sample is not represented.) -/
def initSample (s : St) (x : Data) : St := { s with sample := some x }

/-- Level.py:31-33 and _Level.py:119-120: the sample is replaced if one is given. -/
def withSample (s : St) : Option Data → St
  | some x => initSample s x
  | none => s

/-- The `representation` argument: `None`, `'primal'`, `'dual'`, or anything else. -/
inductive Rep
  | unset
  | primal
  | dual
  | other
  deriving DecidableEq

/-- _Level.py:106-137 `solve`; `default` tells whether the default representation is `'primal'`. The fit itself is recorded
(here as always possible; whether its result can be stored is `Model/Refit.lean`). -/
def solveBase (default : Bool) (s : St) (x : Option Data) (t : Option Data) (r : Rep) : Except Err Unit × St :=
  let s := withSample s x
  match setTarget s t with
  | (.error e, s) => (.error e, s)
  | (.ok (), s) => match s.sample with
    | none => (.ok (), s)
    | some x => match r with
      | .other => (.error .representationError, s)
      | .unset => (.ok (), { s with fitted := some (x, s.target, default) })
      | .primal => (.ok (), { s with fitted := some (x, s.target, true) })
      | .dual => (.ok (), { s with fitted := some (x, s.target, false) })

/-- Level.py:16-48 `solve`. -/
def solve (default : Bool) (s : St) (x : Option Data) (t : Option Data) (r : Rep) : Except Err Unit × St :=
  let s := withSample s x
  match t with
  | none => solveBase default s x none r
  | some t => match x with
    | none => (.error .attributeError, s)
    | some x =>
      if x.tensor = false then (.error .attributeError, s)
      else if x.rows ≠ t.rows then (.error .valueError, s)
      else solveBase default s (some x) (some t) r

inductive Op
  | initSample (x : Data)
  | target (t : Option Data)
  | solve (x : Option Data) (t : Option Data) (r : Rep)

def step (default : Bool) (s : St) : Op → St
  | .initSample x => initSample s x
  | .target t => (setTarget s t).2
  | .solve x t r => (solve default s x t r).2

def run (default : Bool) (s : St) (ops : List Op) : St := ops.foldl (step default) s

end Solve
end Kerch
