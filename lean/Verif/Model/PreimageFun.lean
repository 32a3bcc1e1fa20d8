import Mathlib.Data.Real.Basic
import Mathlib.Algebra.BigOperators.Fin
import Mathlib.Algebra.BigOperators.Field
import Mathlib.Order.Fin.Basic
import Verif.Model.Cache
/-!
# The functions of kerch/preimage

Pre-images from coefficients, without any kernel: `smoother`, `knn`, `iterative` and `ridge_regression` of the package `kerch.preimage` (not those of kerch/method).
`torch.sort` is given by a contract: some permutation that puts the values in decreasing order. A number that is not finite is `none`.
-/
namespace Kerch
namespace PreimageFun
open Finset

/-- The contract of `torch.sort(…, descending=True)` on a vector: the indices returned are a permutation and the values decrease. -/
structure Sorting (n : ℕ) where
  idx : (Fin n → ℝ) → Equiv.Perm (Fin n)
  desc : ∀ c : Fin n → ℝ, Antitone fun k => c (idx c k)

/-- `v[:num]` on `n` elements: the number of elements kept (Python slices: a negative bound counts from the end). -/
def kept (n : ℕ) (num : ℤ) : ℕ := (if num < 0 then (n + num).toNat else min n num.toNat)

/-- smoother.py:20-24, one point: the coefficients are sorted, the first ones are normalised by their sum and the corresponding points are summed with these weights. Without any coefficient the sum
is empty; with a null sum the weights are not finite. -/
noncomputable def local' {n : ℕ} {d : Type} (S : Sorting n) (num : ℤ) (c : Fin n → ℝ) (x : Fin n → d → ℝ) : Option (d → ℝ) :=
  let ks := univ.filter fun k : Fin n => k.val < kept n num
  let s := ∑ k ∈ ks, c (S.idx c k)
  if ks = ∅ then some fun _ => 0
  else if s = 0 then none else some fun j => ∑ k ∈ ks, c (S.idx c k) / s * x (S.idx c k) j

/-- smoother.py:15-16: all points; the coefficients are divided by their sums over the first dimension (one sum per coefficient, over the points). -/
noncomputable def whole {m n : ℕ} {d : Type} (C : Fin m → Fin n → ℝ) (x : Fin n → d → ℝ) (i : Fin m) : Option (d → ℝ) :=
  if ∃ k, ∑ i', C i' k = 0 then none else some fun j => ∑ k, C i k / (∑ i', C i' k) * x k j

/-- smoother.py:4-26 for `m` points, `n` coefficients each and `n'` points `x`; `torch.vstack` of an empty list raises. -/
noncomputable def smoother {m n n' : ℕ} {d : Type} (S : Sorting n) (C : Fin m → Fin n → ℝ) (x : Fin n' → d → ℝ) (num : ℤ) : Except Err (Fin m → Option (d → ℝ)) :=
  if h : n = n' then
    let x : Fin n → d → ℝ := fun k => x (k.cast h)
    if (n : ℤ) ≤ num then .ok (whole C x)
    else if m = 0 then .error .runtimeError
    else .ok fun i => local' S num (C i) x
  else .error .assertionError

/-- knn.py:3-19: `num_points, num_coefficients = coefficients.shape[0]` unpacks an integer; a tensor without dimension has no `shape[0]`. Only the shape of the coefficients matters. -/
def knn (shape : List ℕ) : Except Err Unit :=
  match shape with
  | [] => .error .indexError
  | _ :: _ => .error .typeError

/-- iterative.py:3-4 and ridge_regression.py:3-4. -/
def iterative : Except Err Unit := .error .notImplemented
def ridgeRegression : Except Err Unit := .error .notImplemented

end PreimageFun
end Kerch
