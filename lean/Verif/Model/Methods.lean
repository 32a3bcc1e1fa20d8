import Mathlib.Data.Real.Archimedean
import Mathlib.Algebra.BigOperators.Fin
import Mathlib.Data.Fintype.BigOperators
import Verif.Model.Cache
/-!
# Pre-image methods (kerch/method/_knn.py, kerch/method/_smoother.py, kerch/method/_iterative.py)

Matrices are functions of bounded indices, the arguments having been cast by `castf` (`Verif.Model.Cast`).  `torch.topk` is
modelled by contract: any selection of the `k` largest entries, possibly different for each row (`Sel.TopK`).
-/
namespace Kerch
namespace Methods

/-- A 2D tensor. -/
abbrev Mat (p n : ℕ) := Fin p → Fin n → ℝ

/-- The argument `num`: an `int`, a finite `float`, the float `nan`, or a string (with what `int(..)` makes of it). -/
inductive PyNum
  | int (z : ℤ)
  | float (r : ℝ)
  | nan
  | str (s : String) (parsed : Option ℤ)

/-- `int(num)`: floats are truncated towards zero, `nan` and non-numeric strings raise `ValueError`. -/
noncomputable def PyNum.toInt : PyNum → Except Err ℤ
  | .int z => .ok z
  | .float r => .ok (if 0 ≤ r then ⌊r⌋ else ⌈r⌉)
  | .nan => .error .valueError
  | .str _ (some z) => .ok z
  | .str _ none => .error .valueError

/-- The indices returned by `torch.topk(v, k, dim=1)` for the row `i` with content `v` (`k` at most the number of columns,
`torch.topk` raises otherwise). -/
abbrev Sel (p n : ℕ) := (k : ℕ) → k ≤ n → Fin p → (Fin n → ℝ) → Fin k → Fin n

/-- Contract of `torch.topk`: `k` different positions, no other one holding a larger value. -/
def Sel.TopK {p n : ℕ} (sel : Sel p n) : Prop :=
  ∀ k hk i v, Function.Injective (sel k hk i v) ∧ ∀ j, (∀ l, sel k hk i v l ≠ j) → ∀ l, v j ≤ v (sel k hk i v l)

/-- `dists.min()` (of a non-empty tensor). -/
noncomputable def matMin {p n : ℕ} (a : Mat p n) : ℝ := ⨅ ij : Fin p × Fin n, a ij.1 ij.2

/-- _knn.py:48-50: the distances are shifted if their minimum is non-negative. -/
noncomputable def knnDists {p n : ℕ} (dists : Mat p n) : Mat p n :=
  if 0 ≤ matMin dists then fun i j => dists i j - matMin dists else dists

/-- _knn.py:8-53 `knn`.  `dists.min()` raises `RuntimeError` if there is no point at all. -/
noncomputable def knn {p n m d : ℕ} (sel : Sel p n) (dists : Mat p n) (observations : Mat m d) (num : PyNum) :
    Except Err (Mat p d) :=
  match num.toInt with
  | .error e => .error e
  | .ok num =>
    if h : n = m then
      if hn : num ≤ n then
        if 0 < num then
          if p = 0 then .error .runtimeError
          else .ok fun i j =>
            (∑ l : Fin num.toNat, observations (Fin.cast h (sel num.toNat (Int.toNat_le.mpr hn) i (fun a => -(knnDists dists i a)) l)) j) / num.toNat
        else .error .assertionError
      else .error .assertionError
    else .error .assertionError

/-- The argument `num` of the smoother (_smoother.py:43-52): strings are only compared to `'all'`. -/
noncomputable def smootherNum (n : ℕ) : PyNum → Except Err ℤ
  | .str s _ => if s.toLower = "all" then .ok n else .error .assertionError
  | x => x.toInt

open Classical in
/-- _smoother.py:61-66: the kept coefficients of a row. -/
noncomputable def keptCoeff {p n : ℕ} (sel : Sel p n) (coefficients : Mat p n) (num : ℕ) (hn : num ≤ n) : Mat p n :=
  fun i j =>
  if num = n then coefficients i j
  else if ∃ l, sel num hn i (coefficients i) l = j then coefficients i j else 0

open Classical in
/-- _smoother.py:12-68 `smoother`.  `none` stands for the `nan`/`inf` produced by the division by a zero sum. -/
noncomputable def smoother {p n m d : ℕ} (sel : Sel p n) (coefficients : Mat p n) (observations : Mat m d) (num : PyNum) :
    Except Err (Fin p → Fin d → Option ℝ) :=
  if h : n = m then
    match smootherNum n num with
    | .error e => .error e
    | .ok num =>
      if 0 < num then
        if hn : num ≤ n then
          .ok fun i j =>
            let kept := keptCoeff sel coefficients num.toNat (Int.toNat_le.mpr hn) i
            if ∑ l, kept l = 0 then none
            else some (∑ l, kept l / (∑ l', kept l') * observations (Fin.cast h l) j)
        else .error .assertionError
      else .error .assertionError
  else .error .assertionError

/-- _knn.py:57-88 `kernel_knn` after the construction of the kernel, `K` being its matrix. -/
noncomputable def kernelKnn {n m d : ℕ} (sel : Sel n n) (K : Mat n n) (observations : Mat m d) (num : PyNum) :
    Except Err (Mat n d) :=
  if n = m then knn sel (fun i j => -K i j) observations num else .error .assertionError

/-- _smoother.py:73-108 `kernel_smoother` after the construction of the kernel. -/
noncomputable def kernelSmoother {n m d : ℕ} (sel : Sel n n) (K : Mat n n) (observations : Mat m d) (num : PyNum) :
    Except Err (Fin n → Fin d → Option ℝ) :=
  if n = m then smoother sel K observations num else .error .assertionError

/-! ### Iterative pre-images -/
open CacheSt
variable {κ α : Type} [DecidableEq κ] [CacheKey κ]

/-- _iterative.py:51-58: the optimisation loop; a step evaluates the objective on the kernel (using its cache), updates the
iterate and tells whether the learning rate has become too small. -/
def iterLoop {σ : Type} (stp : σ → M κ α (σ × Bool)) : ℕ → σ → M κ α σ
  | 0, x, c => (.ok x, c)
  | n + 1, x, c =>
    match stp x c with
    | (.error e, c1) => (.error e, c1)
    | (.ok (x', true), c1) => (.ok x', c1)
    | (.ok (x', false), c1) => iterLoop stp n x' c1

/-- _iterative.py:64-124 `iterative_preimage_k`.  `cols` is `k_image.size(1)`, `start` the computation of the starting value
(`knn` on the current sample) and `stp` a step of the optimiser. -/
def iterativeK {σ : Type} (start : M κ α σ) (stp : σ → M κ α (σ × Bool)) (cols : ℕ) (numIdx : Except Err ℕ)
    (numIter : ℤ) (lightCache : Bool) : M κ α σ := fun c =>
  match c.levelName with
  | .error e => (.error e, c)
  | .ok name =>
    match levelSwitcher.find name with
    | none => (.error .keyError, c)
    | some lvl =>
      let c := if lvl > 1 && lightCache then c.setLevel (.str "light") else c
      match numIdx with
      | .error e => (.error e, c)
      | .ok numIdx =>
        if cols ≠ numIdx then (.error .assertionError, c)
        else if numIter ≤ 0 then (.error .assertionError, c)
        else match start c with
          | (.error e, c) => (.error e, c)
          | (.ok x0, c) => match iterLoop stp numIter.toNat x0 c with
            | (.error e, c) => (.error e, c)
            | (.ok x, c) => (.ok x, if lvl > 1 && lightCache then c.setLevel (.int lvl) else c)

/-- _iterative.py:127-187 `iterative_preimage_phi`: the same text with `phi_image` for `k_image` - including the comparison
of its number of columns with `num_idx` (line 166) - and a product with `kernel.Phi.T` (line 174) that raises unless the
number of columns is the dimension of the feature map. -/
def iterativePhi {σ : Type} (start : M κ α σ) (stp : σ → M κ α (σ × Bool)) (cols dimFeature : ℕ) (numIdx : Except Err ℕ)
    (numIter : ℤ) (lightCache : Bool) : M κ α σ :=
  iterativeK (fun c => if cols ≠ dimFeature then (.error .runtimeError, c) else start c) stp cols numIdx numIter lightCache

end Methods
end Kerch
