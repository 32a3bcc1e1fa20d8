import Mathlib.Analysis.SpecialFunctions.Pow.Real
import Mathlib.Data.Matrix.Mul
import Verif.Model.TransformCache
/-!
# Values computed by chains of transforms (kerch/transform/Transform.py, TransformTree.py, all/*.py)

The caches of these classes are the subject of `Verif/Model/TransformCache.lean`; here are the values. A node of the tree is the list of the
kinds from the node up to the root (the root, the `TransformTree` itself, is `[]`), as each node computes from its parent. Numbers are real
numbers, a tensor is a function of its indices; the statistics of an empty sample are not represented (`[Nonempty n]`), an empty sample being
refused before (kerch/feature/sample.py:99-101). The value `none` stands for a tensor of `NaN`.
-/
namespace Kerch

open Finset

/-- kerch/utils/type.py:75 `EPS`. -/
noncomputable def EPS : ℝ := 1e-7

/-- `torch.clamp(x, min=EPS)`. -/
noncomputable def clampEps (x : ℝ) : ℝ := max x EPS

/-- `torch.mean` of a column. -/
noncomputable def tmean {n : Type} [Fintype n] (f : n → ℝ) : ℝ := (∑ i, f i) / Fintype.card n

/-- `torch.min(·, dim=0).values` of a column. -/
noncomputable def tmin {n : Type} [Fintype n] [Nonempty n] (f : n → ℝ) : ℝ := univ.inf' univ_nonempty f

/-- `torch.max(·, dim=0).values` of a column. -/
noncomputable def tmax {n : Type} [Fintype n] [Nonempty n] (f : n → ℝ) : ℝ := univ.sup' univ_nonempty f

/-- `torch.std(·, dim=0)` of a column: the unbiased estimator; on a single value torch divides by zero and gives `NaN` (`none`). -/
noncomputable def tstd {n : Type} [Fintype n] (f : n → ℝ) : Option ℝ :=
  if Fintype.card n = 1 then none
  else some (Real.sqrt ((∑ i, (f i - tmean f) ^ 2) / ((Fintype.card n : ℝ) - 1)))

/-- `torch.norm` of a row. -/
noncomputable def tnorm {d : Type} [Fintype d] (v : d → ℝ) : ℝ := Real.sqrt (∑ j, v j ^ 2)

/-- The argument `x` (or `y`) of the evaluations: `None`, i.e. the sample, or a batch of points. The sample has index type `n` and points
`pts`. -/
inductive Arg (X : Type) : Type 1
  | sample
  | batch (ι : Type) (x : ι → X)

namespace Arg
variable {X n : Type}

/-- Index type of the rows of an argument. -/
@[reducible] def I (n : Type) : Arg X → Type
  | .sample => n
  | .batch ι _ => ι

instance [h : Fintype n] : Fintype (I n (.sample : Arg X)) := h
instance [h : Nonempty n] : Nonempty (I n (.sample : Arg X)) := h

/-- Points of an argument. -/
def pt (pts : n → X) : (a : Arg X) → a.I n → X
  | .sample => pts
  | .batch _ x => x

end Arg

section Explicit
variable {X n d : Type} [Fintype n] [Nonempty n] [Fintype d] (φ : X → d → ℝ) (pts : n → X)

/-- The statistics of the columns of the sample `S` of the parent: `_explicit_statistics` of MeanCentering.py:9-10, MinimumCentering.py:10-11,
Variance.py:11-12, MinMaxNormalization.py:14-20 (`parent` is the kind of the parent, `none` at the root). The unit sphere has row statistics
(`applyKind`), `0` here. -/
noncomputable def colStat (k : Kind) (parent : Option Kind) (S : n → d → ℝ) : Option (d → ℝ) :=
  match k with
  | .mean => some fun j => tmean fun i => S i j
  | .minimum => some fun j => tmin fun i => S i j
  | .variance => if Fintype.card n = 1 then none else some fun j => (tstd fun i => S i j).getD 0
  | .minmax => some fun j =>
      if parent = some .minimum then tmax fun i => S i j else (tmax fun i => S i j) - tmin fun i => S i j
  | .sphere => some fun _ => 0

/-- `_explicit_sample`/`_explicit_oos` of all/*.py given the data of the parent and the statistics of the columns: MeanCentering.py:17-19,33-34,
MinimumCentering.py:13-15,20-21, Variance.py:14-17,22-23, MinMaxNormalization.py:22-25,30-31, Sphere.py:20-23,40-43 (row norms of the data
themselves, lines 11-12 and 30-31). -/
noncomputable def applyKind {ι : Type} (k : Kind) (st : d → ℝ) (Y : ι → d → ℝ) : ι → d → ℝ :=
  match k with
  | .mean | .minimum => fun i j => Y i j - st j
  | .variance | .minmax => fun i j => Y i j / clampEps (st j)
  | .sphere => fun i j => Y i j / clampEps (tnorm (Y i))

/-- Transform.py:112-116 `sample` in the explicit case; TransformTree.py:151-154 at the root (`base()` is the feature map on the sample). -/
noncomputable def esample : List Kind → Option (n → d → ℝ)
  | [] => some fun i => φ (pts i)
  | k :: p => do
    let S ← esample p
    let st ← colStat k p.head? S
    some (applyKind k st S)

/-- Transform.py:176-183 `oos` in the explicit case: the sample when `x is None`, otherwise `_explicit_oos` with the statistics of
`statistics_oos` (Transform.py:144-156), which are those of the sample; TransformTree.py:182-185 at the root. -/
noncomputable def eoos : List Kind → (a : Arg X) → Option (a.I n → d → ℝ)
  | p, .sample => esample φ pts p
  | [], .batch _ x => some fun i => φ (x i)
  | k :: p, .batch ι x => do
    let Y ← eoos p (.batch ι x)
    let S ← esample φ pts p
    let st ← colStat k p.head? S
    some (applyKind k st Y)

/-- `_revert_explicit` of all/*.py: MeanCentering.py:43-44, MinimumCentering.py:23-24, Variance.py:25-26, MinMaxNormalization.py:33-34; Sphere.py
has none and inherits the one of Transform.py:204-205, which raises. -/
noncomputable def revertKind {ι : Type} (k : Kind) (st : d → ℝ) (Y : ι → d → ℝ) : ι → d → ℝ :=
  match k with
  | .mean | .minimum => fun i j => Y i j + st j
  | .variance | .minmax => fun i j => Y i j * clampEps (st j)
  | .sphere => Y

/-- TransformTree.py:238-254 `revert` in the explicit case (Transform.py:198-205; identity at the root, TransformTree.py:192-193). -/
noncomputable def erevert {ι : Type} : List Kind → Option (ι → d → ℝ) → Except Err (Option (ι → d → ℝ))
  | [], v => .ok v
  | .sphere :: _, _ => .error .bijectionError
  | k :: p, v => erevert p (do
      let v ← v
      let S ← esample φ pts p
      let st ← colStat k p.head? S
      some (revertKind k st v))

end Explicit

section Implicit
variable {X n : Type} [Fintype n] [Nonempty n] (κ : X → X → ℝ) (pts : n → X)

/-- What a node computes in the implicit case from `par`, the values of its parent (`par a b` is `parent.oos(x=a, y=b)`, or `parent.sample`
if both are `None`):
* MeanCentering.py:12-15,21-24,29-31,36-41: row means of the parent against the sample, mean of these means on the sample;
* Sphere.py:14-18,25-28,33-38,45-49: square roots of the diagonal of the parent at the argument (Transform.py:210-211 and
  TransformTree.py:161-167; `diag_fun` is never given, kerch/kernel/kernel.py:139-144 passes it under another name);
* the others inherit Transform.py:109-110 (sample) and 141-142 (out-of-sample), which raise. -/
noncomputable def istep (k : Kind) (par : (a b : Arg X) → Except Err (a.I n → b.I n → ℝ)) (a b : Arg X) :
    Except Err (a.I n → b.I n → ℝ) :=
  match k with
  | .mean => do
    let A ← par a .sample
    let S ← par .sample .sample
    let B ← par b .sample
    let M ← par a b
    .ok fun i j => M i j - tmean (A i) - tmean (B j) + tmean fun l => tmean (S l)
  | .sphere => do
    let M ← par a b
    let A ← par a a
    let B ← par b b
    .ok fun i j => M i j / clampEps (Real.sqrt (A i i) * Real.sqrt (B j j))
  | _ => match a, b with
    | .sample, .sample => .error .implicitError
    | _, _ => .error .bijectionError

/-- Transform.py:112-116 `sample` and 176-196 `oos` in the implicit case, TransformTree.py:156-159,187-190 at the root (the base is the kernel
function, kerch/kernel/_base_kernel.py:88-94 `_implicit_with_none`). The case `x is None`, `y` given, is the transpose of the converse one
(Transform.py:188-190). -/
noncomputable def ioos : List Kind → (a b : Arg X) → Except Err (a.I n → b.I n → ℝ)
  | [], .sample, .batch _ y => .ok fun i j => κ (y j) (pts i)
  | [], a, b => .ok fun i j => κ (a.pt pts i) (b.pt pts j)
  | k :: p, .sample, .batch ι y => (istep k (ioos p) (.batch ι y) .sample).map fun M i j => M j i
  | k :: p, a, b => istep k (ioos p) a b

end Implicit
end Kerch
