import Verif.Model.Cache
import Verif.Model.Data
import Mathlib.Analysis.SpecialFunctions.Trigonometric.Basic
/-!
# Points of the generated learning sets (kerch/data/datasets.py)

Splits, sizes and labels are in Model/Data. Exact reals; the normal draws of the noise are an argument.
-/
namespace Kerch
namespace Generate

/-- `torch.linspace(a, b, n)` at rank `i`; one point is the first bound. -/
noncomputable def linspace (a b : ℝ) (n i : Nat) : ℝ := if n = 1 then a else a + (b - a) * i / (n - 1)

/-- datasets.py:19-22, the arguments of `TwoMoons` (their types are not modelled). -/
noncomputable def moonsCheck (noise : ℝ) (separation : List ℝ) : Except Err (ℝ × ℝ) :=
  if noise < 0 then .error .assertionError
  else match separation with
    | [a, b] => .ok (a, b)
    | _ => .error .assertionError

/-- datasets.py:46-47, without noise. -/
noncomputable def moonOuter (n i : Nat) : ℝ × ℝ := (Real.cos (linspace 0 Real.pi n i), Real.sin (linspace 0 Real.pi n i))

/-- datasets.py:48-49, without noise. -/
noncomputable def moonInner (sep : ℝ × ℝ) (n i : Nat) : ℝ × ℝ := (sep.1 - Real.cos (linspace 0 Real.pi n i), sep.2 - Real.sin (linspace 0 Real.pi n i))

/-- datasets.py:55-56, `e` being the draws for the point. -/
noncomputable def noisy (noise : ℝ) (e q : ℝ × ℝ) : ℝ × ℝ := if noise ≠ 0 then (q.1 + noise * e.1, q.2 + noise * e.2) else q

/-- The announced range of the plots: least and greatest abscissa, least and greatest ordinate. -/
structure Range where
  x0 : ℝ
  x1 : ℝ
  y0 : ℝ
  y1 : ℝ

/-- datasets.py:25-34. -/
noncomputable def moonsRange (noise : ℝ) (sep : ℝ × ℝ) : Range :=
  let minX := min (-1) (sep.1 - 1) - 2 * noise
  let maxX := max 1 (sep.1 + 1) + 2 * noise
  let minY := min 0 (sep.2 - 1) - 2 * noise
  let maxY := max 1 sep.2 + 2 * noise
  let factX := (maxX - minX) / 2
  let factY := (maxY - minY) / 2
  ⟨minX - factX, maxX + factX, minY - factY, maxY + factY⟩

/-- datasets.py:89-100, `spiral_xy`. -/
noncomputable def spiralXY (i : Nat) (s : ℝ) : ℝ × ℝ :=
  let phi := (i : ℝ) / 16 * Real.pi
  let r : ℝ := 70 * ((104 - (i : ℝ)) / 104)
  (r * Real.cos phi * s / 13 + 1 / 2, r * Real.sin phi * s / 13 + 1 / 2)

/-- datasets.py:82. -/
noncomputable def spiralRange : Range := ⟨-5, 6, -5, 5⟩

/-- datasets.py:102-111, the labelled points of `Spiral._training`: those of Model/Data with their coordinates. -/
noncomputable def spiral (num : Int) : List ((ℝ × ℝ) × Int) :=
  ((Data.twoClasses num).1.map fun q => spiralXY q.2 (if q.1 then -1 else 1)).zip (Data.twoClasses num).2

/-- datasets.py:42-58, the labelled points of `TwoMoons._training`, with the draws of the noise. -/
noncomputable def moons (noise : ℝ) (sep : ℝ × ℝ) (e : Nat → ℝ × ℝ) (num : Int) : List ((ℝ × ℝ) × Int) :=
  (((Data.twoMoons num).1.map fun q => if q.1 then moonInner sep (Data.twoMoonsSizes num).1.toNat q.2 else moonOuter (Data.twoMoonsSizes num).2.toNat q.2).mapIdx fun k q => noisy noise (e k) q).zip
    (Data.twoMoons num).2

end Generate
end Kerch
