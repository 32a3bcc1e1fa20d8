import Verif.Model.KernelFun
/-!
# The polynomial kernel (kerch/kernel/generic/polynomial.py) and the evaluation of kernels (kerch/kernel/kernel.py:211-264)
-/
namespace Kerch
open Finset

/-- polynomial.py:188-193 `multichoose(n, k)`. -/
def multichoose : ℕ → ℕ → List (List ℕ)
  | n, 0 => [List.replicate n 0]
  | 0, _ + 1 => []
  | 1, k + 1 => [[k + 1]]
  | n + 2, k + 1 =>
    (multichoose (n + 1) (k + 1)).map (fun v => 0 :: v) ++
      (multichoose (n + 2) k).map fun v => match v with
        | [] => []
        | a :: r => (a + 1) :: r
termination_by n k => (n, k)

/-- polynomial.py:202-205 `permutation_out` on one row `x`: `perm[0:-1]` are the exponents of `x`, `perm[-1]` that of `√β`. -/
noncomputable def permOut {d : ℕ} (α : ℕ) (β : ℝ) (x : Fin d → ℝ) (perm : List ℕ) : ℝ :=
  Real.sqrt α.factorial / Real.sqrt ((perm.map Nat.factorial).prod : ℕ)
    * (∏ i : Fin d, x i ^ (perm.getD i 0)) * Real.sqrt β ^ (perm.getD d 0)

/-- polynomial.py:182-214 `_phi_fun` on one row, for a natural degree: one component per element of `multichoose(dim_input + 1, alpha)`.
`math.sqrt` refuses a negative `β` (line 198). `utils.casti` (kerch/utils/cast.py:85) squeezes the list of exponents, so that with a single one
(degree 0) line 208 iterates over numbers and line 203 raises `TypeError`. -/
noncomputable def polyPhi {d : ℕ} (α : ℕ) (β : ℝ) (x : Fin d → ℝ) : Except Err (List ℝ) :=
  if β < 0 then .error .valueError
  else if (multichoose (d + 1) α).length = 1 then .error .typeError
  else .ok ((multichoose (d + 1) α).map (permOut α β x))

/-- polynomial.py:105-120 `dim_feature`. -/
def polyDimFeature (d α : ℕ) : ℕ := (d + α).choose α

section
variable {X n d : Type} [Fintype n] [Nonempty n] [Fintype d]

open Classical in
/-- kerch/kernel/kernel.py:211-264 `k`: explicit with the features `φ` or implicit with the kernel function `κ`, after the chain `p`. The test
`equal(x, y)` compares the contents of the arguments (kerch/utils/tensor.py:32-52). The points are those obtained after `transform_input`. `none` is a
matrix of `NaN`. -/
noncomputable def kernelK (φ : X → d → ℝ) (κ : X → X → ℝ) (pts : n → X) (p : List Kind) (explicit : Bool) (a b : Arg X) :
    Except Err (Option (a.I n → b.I n → ℝ)) :=
  if explicit then
    let phiX := eoos φ pts p a
    let phiY := if h : a = b then h ▸ phiX else eoos φ pts p b
    .ok (phiX.bind fun A => phiY.map fun B i j => A i ⬝ᵥ B j)
  else if h : a = b then h ▸ (ioos κ pts p a a).map some
  else (ioos κ pts p a b).map some

/-- The number of rows of an argument (`num_idx` for the sample). -/
noncomputable def Arg.size (a : Arg X) [Fintype (a.I n)] : ℕ := Fintype.card (a.I n)

/-- polynomial.py:228-253 `k`: `y` is overwritten by `x` (line 238); the route is the explicit one if `dim_feature · (num_x + num_y) < num_x · num_y`
unless given. -/
noncomputable def polyK (φ : X → d → ℝ) (κ : X → X → ℝ) (pts : n → X) (p : List Kind) (dimFeature : ℕ) (explicit : Option Bool)
    (a _b : Arg X) [Fintype (a.I n)] : Except Err (Option (a.I n → a.I n → ℝ)) :=
  let num := Fintype.card (a.I n)
  let explicit := match explicit with
    | some e => e
    | none => decide (dimFeature * (num + num) < num * num)
  kernelK φ κ pts p explicit a a

end

/-! ## Hyper-parameters -/

/-- What matters of the state of a polynomial kernel: `_alpha`, `_beta`, `alpha_trainable`, whether the cache keeps persisting light entries (all
levels but `none`), and the values of the degree and `β` captured by the cached function `_poly_explicit_fun` (lines 195-214). -/
structure PolySt where
  alpha : ℝ
  beta : ℝ
  alphaTrainable : Bool
  caching : Bool
  captured : Option (ℝ × ℝ)

/-- A value given by the user to a setter. -/
inductive PyVal
  | number (v : ℝ)
  | tensor (v : ℝ)

/-- What can happen to a polynomial kernel. -/
inductive PolyOp
  /-- `kernel.alpha = v` -/
  | assignAlpha (v : PyVal)
  /-- `kernel.beta = v` -/
  | assignBeta (v : PyVal)
  /-- an evaluation by the explicit feature map, on the sample or not -/
  | evalExplicit
  /-- an evaluation by the kernel function -/
  | evalImplicit
  /-- a training step writes the parameters in place (only those trainable change) -/
  | train (alpha beta : ℝ)
  /-- `kernel.reset()` with the persisting entries -/
  | reset

/-- The observable effect of an operation: nothing, an exception, or an evaluation with the given degree and `β`. -/
inductive PolyOut
  | done
  | raised (e : Err)
  | used (alpha beta : ℝ)

/-- The degree and the `β` of the function `_get` returns (polynomial.py:213-214): those captured if there is one in the cache, unless it is overwritten. -/
def PolySt.current (s : PolySt) : ℝ × ℝ :=
  match s.captured with
  | some c => if s.alphaTrainable then (s.alpha, s.beta) else c
  | none => (s.alpha, s.beta)

open Classical in
/-- polynomial.py: setter of `alpha` as it ends up defined (lines 159-163, the second of that name, which writes `_beta.data`; assigning a number to
`.data` raises `TypeError`); no setter for `beta` (lines 150-157); `_phi_fun` (213-214), `persisting=True, overwrite=self.alpha_trainable`;
`_implicit` (216-217). An evaluation by the feature map asserts that the degree is an integer (220), does not terminate its recursion for a negative one
(188-193, `RecursionError`), takes the square root of the current `β` even if the function is in the cache (198), and fails when applied in degree 0
(`polyPhi`). Resetting the non-persisting entries (line 161) does not touch the captured values. -/
noncomputable def PolySt.step (s : PolySt) : PolyOp → PolyOut × PolySt
  | .assignAlpha (.number _) => (.raised .typeError, s)
  | .assignAlpha (.tensor v) => (.done, { s with beta := v })
  | .assignBeta _ => (.raised .attributeError, s)
  | .evalExplicit =>
    if ¬ ∃ z : ℤ, s.alpha = z then (.raised .assertionError, s)
    else if s.alpha < 0 then (.raised .runtimeError, s)
    else if s.beta < 0 then (.raised .valueError, s)
    else
      (if s.current.1 = 0 then .raised .typeError else .used s.current.1 s.current.2,
        { s with captured := if s.caching then some s.current else s.captured.map fun _ => s.current })
  | .evalImplicit => (.used s.alpha s.beta, s)
  | .train a b => (.done, { s with alpha := if s.alphaTrainable then a else s.alpha, beta := b })
  | .reset => (.done, { s with captured := none })

/-- A history. -/
noncomputable def PolySt.run (s : PolySt) : List PolyOp → PolySt
  | [] => s
  | o :: l => (s.step o).2.run l

end Kerch
