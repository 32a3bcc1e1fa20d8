import Verif.Model.Transforms
/-!
# Transforms of kernel values, with the values that are not numbers (kerch/transform/Transform.py, TransformTree.py, all/MeanCentering.py, all/Sphere.py)

`ioos` (Model/Transforms.lean) takes square roots of real numbers; `torch.sqrt` of a negative number is NaN, which then spreads. Here a value is `none` if it is NaN. The kernel function itself gives numbers.
-/
namespace Kerch
namespace NaN

/-- `torch.sqrt`. -/
noncomputable def sqrtN : Option ℝ → Option ℝ
  | some v => open Classical in if 0 ≤ v then some (Real.sqrt v) else none
  | none => none

/-- `torch.mean` of a row. -/
noncomputable def meanN {n : Type} [Fintype n] (f : n → Option ℝ) : Option ℝ :=
  open Classical in if ∀ i, (f i).isSome then some (tmean fun i => (f i).getD 0) else none

variable {X n : Type} [Fintype n] [Nonempty n] (κ : X → X → ℝ) (pts : n → X)

/-- One node, as `istep`: MeanCentering.py:12-15,21-24,29-31,36-41; Sphere.py:14-18,25-28,33-38,45-49 (`clamp` keeps NaN); the others raise, Transform.py:109-110, 141-142. -/
noncomputable def istepN (k : Kind) (par : (a b : Arg X) → Except Err (a.I n → b.I n → Option ℝ)) (a b : Arg X) :
    Except Err (a.I n → b.I n → Option ℝ) :=
  match k with
  | .mean => do
    let A ← par a .sample
    let S ← par .sample .sample
    let B ← par b .sample
    let M ← par a b
    .ok fun i j => (M i j).bind fun m => (meanN (A i)).bind fun x => (meanN (B j)).bind fun y => (meanN fun l => meanN (S l)).bind fun s => some (m - x - y + s)
  | .sphere => do
    let M ← par a b
    let A ← par a a
    let B ← par b b
    .ok fun i j => (M i j).bind fun m => (sqrtN (A i i)).bind fun x => (sqrtN (B j j)).bind fun y => some (m / clampEps (x * y))
  | _ => match a, b with
    | .sample, .sample => .error .implicitError
    | _, _ => .error .bijectionError

/-- The values of a chain, as `ioos`: Transform.py:112-116, 176-196, TransformTree.py:156-159, 187-190. -/
noncomputable def ioosN : List Kind → (a b : Arg X) → Except Err (a.I n → b.I n → Option ℝ)
  | [], .sample, .batch _ y => .ok fun i j => some (κ (y j) (pts i))
  | [], a, b => .ok fun i j => some (κ (a.pt pts i) (b.pt pts j))
  | k :: p, .sample, .batch ι y => (istepN k (ioosN p) (.batch ι y) .sample).map fun M i j => M j i
  | k :: p, a, b => istepN k (ioosN p) a b

end NaN
end Kerch
