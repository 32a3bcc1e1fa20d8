import Verif.Model.Cache
/-!
# The points a Nyström kernel works on (kerch/kernel/nystrom.py, kerch/feature/sample.py, kerch/feature/stochastic.py)

A Nyström kernel and its base kernel are two modules, each with its own sample, selection and transform of the sample. `X` are the points. Values of the
kernels are not represented here (see `Verif.Model.Nystrom`), only the points they are computed on. Indices are natural numbers (torch also accepts
negative ones); the caches are emptied by each of the operations.
-/
namespace Kerch
namespace NysSel
variable {X : Type}

/-- What is fixed: the transform of the sample of the kernel and that of the base kernel, each relative to a list of points (the current sample), and the
number of eigenvalues that are not pruned (nystrom.py:134-144) of the kernel matrix of the base kernel on a list of points. -/
structure Cfg (X : Type) where
  t : List X → X → X
  tb : List X → X → X
  rank : List X → Nat

/-- sample.py:154-155 `current_sample`: `sample[idx, :]`. -/
def pick (data : List X) : List Nat → Except Err (List X)
  | [] => .ok []
  | i :: t => match data[i]?, pick data t with
    | some x, .ok l => .ok (x :: l)
    | some _, .error e => .error e
    | none, _ => .error .indexError

/-- Sample and selected indices of the kernel and of the base kernel, and the dimension. -/
structure St (X : Type) where
  data : List X
  sel : List Nat
  baseData : List X
  baseSel : List Nat
  dim : Nat

/-- The current sample of the kernel. -/
def St.current (s : St X) : Except Err (List X) := pick s.data s.sel

/-- `current_sample_projected` (sample.py:146-152): `sample` (sample.py:113-119) raises if there is none. -/
def St.projected (C : Cfg X) (s : St X) : Except Err (List X) :=
  if s.data.length = 0 then .error .notInitialized else s.current.map fun l => l.map (C.t l)

/-- The points of the matrix `base_kernel.K` (nystrom.py:123). -/
def points (C : Cfg X) (s : St X) : Except Err (List X) := (pick s.baseData s.baseSel).map fun l => l.map (C.tb l)

/-- The point for which the base kernel computes the values when `x` is given to the kernel: `transform_input` (sample.py:262-270) of the kernel
(kernel.py:196-209), then that of the base kernel (`base_kernel.k(x)`, nystrom.py:162). -/
def argPoint (C : Cfg X) (s : St X) (x : X) : Except Err X :=
  match s.current, pick s.baseData s.baseSel with
  | .ok cur, .ok b => .ok (C.tb b (C.t cur x))
  | .error e, _ => .error e
  | _, .error e => .error e

/-- An evaluation on the sample (nystrom.py:115-163): the points it uses; `eigs` (math.py:36) refuses to return more eigenvectors than points; the dimension
is lowered by what is pruned (nystrom.py:144). -/
def evaluate (C : Cfg X) (s : St X) : Except Err (List X) × St X :=
  match points C s with
  | .error e => (.error e, s)
  | .ok l => if l.length < s.dim then (.error .assertionError, s) else (.ok l, { s with dim := min s.dim (C.rank l) })

/-- stochastic.py:59-106 `stochastic(idx)`, `None` for all; the base kernel is a child and receives the indices. -/
def select (s : St X) (idx : Option (List Nat)) : St X :=
  let i := idx.getD (List.range s.data.length)
  { s with sel := i, baseSel := i }

/-- nystrom.py:110-113 `init_sample(sample, idx)`: the sample and the selection of the kernel (of which the base kernel already receives the indices), then
the base kernel receives the *selected* points, transformed, with the *same* indices. -/
def initSample (C : Cfg X) (s : St X) (data : List X) (idx : Option (List Nat)) : Except Err Unit × St X :=
  let s := select { s with data := data } idx
  match s.projected C with
  | .error e => (.error e, s)
  | .ok p => (.ok (), { s with baseData := p })

/-- nystrom.py:42-72, the base kernel being created; line 57 gives it the points as `init_sample` does. The dimension, if given, is not checked; otherwise it
is the number of points. `None` is no sample. -/
def construct (C : Cfg X) (data : Option (List X)) (idx : Option (List Nat)) (dim : Option Nat) : Except Err (St X) :=
  let data := data.getD []
  match initSample C { data := [], sel := [], baseData := [], baseSel := [], dim := dim.getD data.length } data idx with
  | (.ok _, s) => .ok s
  | (.error e, _) => .error e

/-- nystrom.py:58-72, on an existing kernel with sample `data` and selection `sel`. -/
def constructOn (data : List X) (sel : List Nat) (dim : Option Nat) : St X :=
  { data := data, sel := sel, baseData := data, baseSel := sel, dim := dim.getD data.length }

/-- nystrom.py:80-86. -/
def setDim (s : St X) (k : Nat) : Except Err Unit × St X :=
  if k ≤ s.data.length then (.ok (), { s with dim := k }) else (.error .assertionError, s)

/-- What a user does; `update_sample` (nystrom.py:153-154) is refused. -/
inductive Op (X : Type)
  | init (data : List X) (idx : Option (List Nat))
  | select (idx : Option (List Nat))
  | evaluate
  | setDim (k : Nat)
  | update

/-- Effect of an operation, exceptions being caught. -/
def step (C : Cfg X) (s : St X) : Op X → St X
  | .init data idx => (initSample C s data idx).2
  | .select idx => NysSel.select s idx
  | .evaluate => (NysSel.evaluate C s).2
  | .setDim k => (NysSel.setDim s k).2
  | .update => s

/-- A history. -/
def run (C : Cfg X) (s : St X) (ops : List (Op X)) : St X := ops.foldl (step C) s

end NysSel
end Kerch
