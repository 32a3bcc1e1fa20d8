import Mathlib.Data.Multiset.Sort
import Mathlib.Data.Fintype.Prod
import Verif.Model.KernelFun
/-!
# The bandwidth heuristic (kerch/kernel/distance)
-/
namespace Kerch
open Finset

/-- `torch.median` of all entries of a tensor: the value of rank `⌊(N-1)/2⌋` once sorted, i.e. the lower of the two middle values. -/
noncomputable def lowerMedian {N : Type} [Fintype N] (f : N → ℝ) : ℝ :=
  ((univ.val.map f).sort (· ≤ ·)).getD ((Fintype.card N - 1) / 2) 0

/-- distance.py:19-26 and distance_squared.py:19-26 `_determine_sigma`: half the median of the distances between all pairs of sample points,
the pairs `(i, i)` included, resp. half the square root of the median of the squared distances. -/
noncomputable def heuristicSigma {n d : Type} [Fintype n] [Fintype d] [Nonempty d] (D : DistKind) (pts : n → d → ℝ) : Except Err ℝ :=
  match D with
  | .euclidean => .ok (1 / 2 * Real.sqrt (lowerMedian fun ij : n × n => euclidSq (pts ij.1) (pts ij.2)))
  | .manhattan => .ok (1 / 2 * lowerMedian fun ij : n × n => manhattan (pts ij.1) (pts ij.2))
  | .chebyshev => .ok (1 / 2 * lowerMedian fun ij : n × n => chebyshev (pts ij.1) (pts ij.2))
  | .minkowski _ => .error .attributeError

/-- `_sigma` (`none` as long as `_sigma_defined` is false) and the current sample (`none` if empty) of a distance kernel. -/
structure BandSt (S : Type) where
  sigma : Option ℝ
  sample : Option S

/-- What can happen. -/
inductive BandOp (S : Type)
  /-- reading `sigma`, or any evaluation (`_dist_sigma`, `_square_dist_sigma` read `self.sigma` first) -/
  | use
  /-- `kernel.sigma = v` -/
  | assign (v : ℝ)
  /-- `init_sample`, `update_sample`, a new sub-sample -/
  | newSample (s : S)

/-- _distance.py:43-60 getter and setter of `sigma`, `h` being the heuristic. The result is the bandwidth used, if any. -/
def BandSt.step {S : Type} (h : S → ℝ) (b : BandSt S) : BandOp S → Except Err (Option ℝ) × BandSt S
  | .use =>
    match b.sigma, b.sample with
    | some σ, _ => (.ok (some σ), b)
    | none, some s => (.ok (some (h s)), { b with sigma := some (h s) })
    | none, none => (.error .notInitialized, b)
  | .assign v => (.ok none, { b with sigma := some v })
  | .newSample s => (.ok none, { b with sample := some s })

/-- A history. -/
def BandSt.run {S : Type} (h : S → ℝ) (b : BandSt S) : List (BandOp S) → BandSt S
  | [] => b
  | o :: l => (b.step h o).2.run h l

end Kerch
