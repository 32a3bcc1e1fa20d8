import Mathlib.Data.List.Basic
import Verif.Model.Cache
/-!
# Storing what a fit found: `_solve_primal`, `_solve_dual`, `update_dual` and the parameters of a level
(kerch/level/_KPCA.py:30-44,111-176, kerch/level/_View.py:78-92,150-213,256-292, kerch/level/single_view/LSSVM.py:73-101)

Tensors are represented with their shape; the eigendecomposition (`utils.eigs`, C88) and the solution of the linear system (C91) are given by the
environment as functions of the data and of the selected points. Numbers are of any type `R`.
-/
namespace Kerch
namespace Refit

/-- A two-dimensional tensor: its rows, and their length (needed when there is no row). -/
structure Ten (R : Type) where
  width : ℕ
  rows : List (List R)
  deriving DecidableEq

/-- `torch.empty(0)`; its shape is not used apart from the number of elements. -/
def Ten.empty {R : Type} : Ten R := ⟨0, []⟩

/-- `nelement`. -/
def Ten.nelement {R : Type} (t : Ten R) : ℕ := t.rows.length * t.width

/-- Broadcasting of one dimension of size one or `n` to the size `n`. -/
def stretch {α : Type} (n : ℕ) (l : List α) : List α :=
  if l.length = n then l else match l with
    | a :: _ => List.replicate n a
    | [] => []

/-- `dst.copy_(src)`: the source is broadcast to the shape of the destination, and refused if it cannot be. -/
def copyInto {R : Type} (dst src : Ten R) : Except Err (Ten R) :=
  if (src.rows.length = dst.rows.length ∨ src.rows.length = 1) ∧ (src.width = dst.width ∨ src.width = 1) then
    .ok ⟨dst.width, stretch dst.rows.length (src.rows.map (stretch dst.width))⟩
  else .error .runtimeError

/-- `t[idx, :]` for a tensor `t` of which `cols` is the transpose: the entries `idx` of each row of `cols`. -/
def pick {R : Type} (idx : List ℕ) (cols : Ten R) : Except Err (Ten R) :=
  if idx.all (· < cols.width) then .ok ⟨idx.length, cols.rows.map fun r => idx.filterMap (r[·]?)⟩
  else .error .indexError

/-- What the level works on, by contract. `eigK`, `eigC`: the eigenpairs of `K` and of `C` on the selected points, in descending order; `small`: `v < utils.EPS`;
`fact`: `(1 / num_idx) * v`; `dualSol`: the columns of the solution of the dual system of a LS-SVM; `noise`: what `orthogonal_` fills with. -/
structure Env (D R : Type) where
  num : D → ℕ
  dim : D → ℕ
  eigK : D → List ℕ → List (R × List R)
  eigC : D → List ℕ → List (R × List R)
  small : R → Bool
  fact : ℕ → R → R
  sqrt : R → R
  dualSol : D → List ℕ → List (List R)
  noise : R

/-- `data`: the sample and the kernel; `sel`: `self.idx`; `dim`: `_dim_output`; `primal`, `dual`: the parameters as stored (components as rows); `vals`; `root`: the
cache entry `sqrt_vals`; `keeps`: whether the cache level of the module is at least `normal`. -/
structure St (D R : Type) where
  data : D
  sel : List ℕ
  dim : Option ℕ
  primal : Ten R
  dual : Ten R
  vals : List R
  root : Option (List R)
  keeps : Bool
  deriving DecidableEq

variable {D R : Type}

/-- A level with its sample and no parameters (_View.py:44-67, _KPCA.py:21-28). -/
def init (E : Env D R) (d : D) (k : Option ℕ) (keeps : Bool) : St D R :=
  ⟨d, List.range (E.num d), k, Ten.empty, Ten.empty, [], none, keeps⟩

/-- `init_sample` (feature/sample.py:158-203), or assigning a hyper-parameter of the kernel (kernel/distance/_distance.py:55-58): the selection is everything and
the cache of the module is reset; the parameters are not touched. -/
def setData (E : Env D R) (s : St D R) (d : D) : St D R := { s with data := d, sel := List.range (E.num d), root := none }

/-- `stochastic(idx=...)` (feature/stochastic.py:60-100): the cache is reset. -/
def select (s : St D R) (idx : List ℕ) : St D R := { s with sel := idx, root := none }

/-- The setter of `dim_output` (_View.py:158-162); `_reset_primal` leaves `_primal_param` (View.py:112-115, C51). -/
def setDim (s : St D R) (k : ℕ) : St D R := { s with dim := some k, dual := Ten.empty }

/-- `_init_dual` (_View.py:87-93). -/
def initDual (E : Env D R) (s : St D R) : Except Err Unit × St D R :=
  match s.dim with
  | none => (.error .assertionError, s)
  | some k => (.ok (), { s with dual := ⟨E.num s.data, List.replicate k (List.replicate (E.num s.data) E.noise)⟩ })

/-- `update_dual(val, idx_sample)` (_View.py:176-187); `val` is given by its columns, `idx` is `self.idx` in all calls. -/
def updateDual (E : Env D R) (s : St D R) (val : Ten R) (idx : List ℕ) : Except Err Unit × St D R :=
  match (if s.dual.nelement = 0 then initDual E s else (.ok (), s)) with
  | (.error e, s) => (.error e, s)
  | (.ok (), s) => match pick idx val with
    | .error e => (.error e, s)
    | .ok v => match copyInto s.dual v with
      | .error e => (.error e, s)
      | .ok t => (.ok (), { s with dual := t })

/-- _KPCA.py:114-124 and 147-157: the output dimension used, reduced to `m` (with a reset) if it exceeds it. -/
def clampDim (s : St D R) (m : ℕ) : St D R × ℕ :=
  match s.dim with
  | none => ({ s with dim := some m }, m)
  | some k => if m < k then (setDim s m, m) else (s, k)

/-- _KPCA.py:126-139 and 159-173: the pairs that are not pruned among the first `k`. -/
def keep (E : Env D R) (k : ℕ) (pairs : List (R × List R)) : List (R × List R) := (pairs.take k).filter fun p => !E.small p.1

/-- `_solve_dual` (_KPCA.py:144-176). -/
def solveDual (E : Env D R) (s : St D R) : Except Err Unit × St D R :=
  let m := s.sel.length
  let (s, k) := clampDim s m
  let kept := keep E k (E.eigK s.data s.sel)
  let s := { s with dim := some (k - (((E.eigK s.data s.sel).take k).length - kept.length)) }
  match updateDual E s ⟨m, kept.map (·.2)⟩ s.sel with
  | (.error e, s) => (.error e, s)
  | (.ok (), s) => (.ok (), { s with vals := kept.map fun p => E.fact m p.1 })

/-- The setter of `primal_param` (_View.py:269-292), not attached; `val` is given by its columns, its shape is therefore `(val.width, val.rows.length)`. -/
def setPrimal (s : St D R) (val : Ten R) : Except Err Unit × St D R :=
  let s := { s with dual := Ten.empty }
  if s.primal.nelement ≠ 0 ∧ s.primal.rows.length = val.width ∧ s.primal.width = val.rows.length then
    match copyInto s.primal val with
    | .error e => (.error e, s)
    | .ok t => (.ok (), { s with primal := t, dim := some t.rows.length })
  else
    let s := { s with primal := val }
    if val.nelement = 0 then (.error .notInitialized, s) else (.ok (), { s with dim := some val.rows.length })

/-- `_solve_primal` (_KPCA.py:111-142). -/
def solvePrimal (E : Env D R) (s : St D R) : Except Err Unit × St D R :=
  let d := E.dim s.data
  let (s, k) := clampDim s d
  let kept := keep E k (E.eigC s.data s.sel)
  let s := { s with dim := some (k - (((E.eigC s.data s.sel).take k).length - kept.length)) }
  match setPrimal s ⟨d, kept.map (·.2)⟩ with
  | (.error e, s) => (.error e, s)
  | (.ok (), s) => (.ok (), { s with vals := kept.map (·.1) })

/-- `_solve_dual` of a LS-SVM (LSSVM.py:73-101), the bias left out. -/
def solveLSSVM (E : Env D R) (s : St D R) : Except Err Unit × St D R :=
  updateDual E s ⟨s.sel.length, E.dualSol s.data s.sel⟩ s.sel

/-- `dual_param` (_View.py:167-174), by columns. -/
def readDual (s : St D R) : Except Err (Ten R) :=
  if s.dual.nelement ≠ 0 then pick s.sel s.dual else .error .notInitialized

/-- `primal_param` (_View.py:256-267), not attached, by columns. -/
def readPrimal (s : St D R) : Except Err (Ten R) :=
  if s.primal.nelement ≠ 0 then .ok s.primal else .error .notInitialized

/-- `W` (_KPCA.py:207-209) with `sqrt_vals` (_KPCA.py:37-39), kept in the cache at level `normal`. -/
def readW [Mul R] (E : Env D R) (s : St D R) : Except Err (Ten R) × St D R :=
  match readPrimal s with
  | .error e => (.error e, s)
  | .ok p =>
    let r := s.root.getD (s.vals.map E.sqrt)
    let s := { s with root := if s.keeps then some r else s.root }
    if p.rows.length = r.length then (.ok ⟨p.width, List.zipWith (fun c x => c.map (· * x)) p.rows r⟩, s)
    else (.error .runtimeError, s)

inductive Op (D : Type)
  | data (d : D)
  | select (idx : List ℕ)
  | dim (k : ℕ)
  | solvePrimal
  | solveDual
  | readW

def step [Mul R] (E : Env D R) (s : St D R) : Op D → St D R
  | .data d => setData E s d
  | .select idx => select s idx
  | .dim k => setDim s k
  | .solvePrimal => (solvePrimal E s).2
  | .solveDual => (solveDual E s).2
  | .readW => (readW E s).2

def run [Mul R] (E : Env D R) (s : St D R) (ops : List (Op D)) : St D R := ops.foldl (step E) s

end Refit
end Kerch
