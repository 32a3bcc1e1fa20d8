import Mathlib.Analysis.SpecialFunctions.Arsinh
import Mathlib.Analysis.SpecialFunctions.Pow.Real
import Verif.Model.KernelFun
import Verif.Model.RandomFeatures
import Verif.Model.Polynomial
/-!
# Gradients of the hyper-parameters of kernels (kerch/kernel)

The operations torch records while a kernel is evaluated, as expressions over the trainable parameters, and the backward pass over them, operation by operation
with the formulas of torch (a contract, like the other torch primitives). What a kernel reads through `.data`, `numpy()` or `item()` is a constant of the
recorded expression. Sharing of intermediate results is not represented: a shared result is differentiated once per use, and the contributions are added.
-/
namespace Kerch
namespace Autograd

/-- A floating-point number: `none` for one that is not finite (an infinity or `NaN`). Sums and products of numbers one of which is not finite are not finite (`∞ - ∞` and `0 * ∞`
are `NaN`), so that this is exact in the backward pass. In the forward pass functions that bring infinities back to finite numbers (`exp(-∞)`) are not represented. -/
abbrev Num := Option ℝ

noncomputable def Num.add : Num → Num → Num
  | some a, some b => some (a + b)
  | _, _ => none

noncomputable def Num.mul : Num → Num → Num
  | some a, some b => some (a * b)
  | _, _ => none

/-- Elementwise functions of one argument. -/
inductive Un
  | recip
  | powN (n : ℕ)
  | exp
  | sqrt
  | sin
  | cos
  | asinh
  | sigmoid
  | relu
  | leaky (s : ℝ)
  | clampMin (c : ℝ)

/-- Their values. -/
noncomputable def Un.val : Un → ℝ → Num
  | .recip, x => if x = 0 then none else some (1 / x)
  | .powN n, x => some (x ^ n)
  | .exp, x => some (Real.exp x)
  | .sqrt, x => if x < 0 then none else some (Real.sqrt x)
  | .sin, x => some (Real.sin x)
  | .cos, x => some (Real.cos x)
  | .asinh, x => some (Real.arsinh x)
  | .sigmoid, x => some (Real.sigmoid x)
  | .relu, x => some (max x 0)
  | .leaky s, x => some (if 0 < x then x else s * x)
  | .clampMin c, x => some (max x c)

/-- Their backward functions (torch, `tools/autograd/derivatives.yaml`): argument `x`, result `y`, incoming gradient `g`. -/
noncomputable def Un.bwd : Un → ℝ → ℝ → Num → Num
  /- `-grad * (result * result)` -/
  | .recip, _, y, g => g.mul (some (-(y * y)))
  /- `exponent == 0 ? zeros : grad * (exponent * self.pow(exponent - 1))` -/
  | .powN n, x, _, g => if n = 0 then some 0 else g.mul (some (n * x ^ (n - 1)))
  | .exp, _, y, g => g.mul (some y)
  /- `grad / (2 * result)` -/
  | .sqrt, _, y, g => if y = 0 then none else g.mul (some (1 / (2 * y)))
  | .sin, x, _, g => g.mul (some (Real.cos x))
  | .cos, x, _, g => g.mul (some (-Real.sin x))
  | .asinh, x, _, g => g.mul (some (1 / Real.sqrt (x ^ 2 + 1)))
  | .sigmoid, _, y, g => g.mul (some ((1 - y) * y))
  /- `where(result <= 0, 0, grad)` -/
  | .relu, _, y, g => if y ≤ 0 then some 0 else g
  /- `self > 0 ? grad : grad * negative_slope` -/
  | .leaky s, x, _, g => if 0 < x then g else g.mul (some s)
  /- `where(self >= min, grad, 0)` -/
  | .clampMin c, x, _, g => if c ≤ x then g else some 0

open Classical in
/-- `torch.pow` with a base and an exponent that are tensors: `NaN` for a negative base and an exponent that is not an integer. -/
noncomputable def powVal (b e : ℝ) : Num :=
  if b < 0 ∧ ¬ ∃ z : ℤ, (z : ℝ) = e then none else if b = 0 ∧ e < 0 then none else some (b ^ e)

/-- `pow_backward_self`: `where(exponent == 0, 0, grad * (exponent * self.pow(exponent - 1)))`. -/
noncomputable def powBase (b e : ℝ) (g : Num) : Num :=
  if e = 0 then some 0 else g.mul (Num.mul (some e) (powVal b (e - 1)))

/-- `pow_backward_exponent`: `where(self == 0 and exponent >= 0, 0, grad * (result * self.log()))`. -/
noncomputable def powExp (b e : ℝ) (g : Num) : Num :=
  if b = 0 ∧ 0 ≤ e then some 0 else g.mul ((powVal b e).mul (if b ≤ 0 then none else some (Real.log b)))

/-- A recorded computation of a number; `ι` are the trainable parameters (those with `requires_grad`), everything else is a constant. -/
inductive Ex (ι : Type)
  | par (i : ι)
  | const (c : ℝ)
  | add (a b : Ex ι)
  | mul (a b : Ex ι)
  | un (f : Un) (a : Ex ι)
  | pow (a b : Ex ι)

variable {ι : Type}

/-- The value of a recorded computation. -/
noncomputable def Ex.fwd (θ : ι → ℝ) : Ex ι → Num
  | .par i => some (θ i)
  | .const c => some c
  | .add a b => (a.fwd θ).add (b.fwd θ)
  | .mul a b => (a.fwd θ).mul (b.fwd θ)
  | .un f a => (a.fwd θ).bind f.val
  | .pow a b => (a.fwd θ).bind fun u => (b.fwd θ).bind fun v => powVal u v

/-- The backward pass from an incoming gradient: the contributions to the gradients of the parameters. -/
noncomputable def Ex.back (θ : ι → ℝ) : Ex ι → Num → List (ι × Num)
  | .par i, g => [(i, g)]
  | .const _, _ => []
  | .add a b, g => a.back θ g ++ b.back θ g
  | .mul a b, g => a.back θ (g.mul (b.fwd θ)) ++ b.back θ (g.mul (a.fwd θ))
  | .un f a, g => a.back θ ((a.fwd θ).bind fun x => (f.val x).bind fun y => f.bwd x y g)
  | .pow a b, g =>
    a.back θ ((a.fwd θ).bind fun u => (b.fwd θ).bind fun v => powBase u v g) ++
      b.back θ ((a.fwd θ).bind fun u => (b.fwd θ).bind fun v => powExp u v g)

/-- `loss.backward()` for a loss whose derivative with respect to each of the computed numbers is given. -/
noncomputable def backward (θ : ι → ℝ) (es : List (ℝ × Ex ι)) : List (ι × Num) := (es.map fun e => e.2.back θ (some e.1)).flatten

/-- The numbers of a computed matrix, with the derivatives of a loss with respect to them. -/
def entries {n m : ℕ} (G : Fin n → Fin m → ℝ) (E : Fin n → Fin m → Ex ι) : List (ℝ × Ex ι) :=
  (List.finRange n).flatMap fun i => (List.finRange m).map fun j => (G i j, E i j)

open Classical in
/-- The attribute `grad` of a parameter afterwards, if it was `None` before: the sum of the contributions, `None` if there is none. -/
noncomputable def gradOf (i : ι) (cs : List (ι × Num)) : Option Num :=
  if (cs.filter fun c => c.1 = i) = [] then none
  else some (((cs.filter fun c => c.1 = i).map Prod.snd).foldr Num.add (some 0))

/-- The sum of several recorded numbers (`torch.sum`, and the sums of a matrix product). -/
def Ex.sum (l : List (Ex ι)) : Ex ι := l.foldr Ex.add (.const 0)

/-- The product of several recorded numbers (`torch.prod`). -/
def Ex.prod (l : List (Ex ι)) : Ex ι := l.foldr Ex.mul (.const 1)

/-- `a / b`. -/
def Ex.div (a b : Ex ι) : Ex ι := .mul a (.un .recip b)

/-! ### Distance kernels

The only hyper-parameter is the bandwidth `_sigma`. The distances of the points are constants (the points are not trainable here). -/

section
variable {d : Type} [Fintype d] [Nonempty d]

/-- _distance.py:108-110 `_sigma_fact`: the parameter itself is read. -/
def sigmaFact : Ex Unit := .un .recip (.par ())

/-- `_square_dist_sigma`: distance_squared.py:30-36, distance.py:36-37 (Minkowski distances cannot be evaluated, see `Kerch.dist`). -/
noncomputable def sqDistEx (D : DistKind) (x y : d → ℝ) : Ex Unit :=
  match D with
  | .euclidean => .mul (.un (.powN 2) sigmaFact) (.const (euclidSq x y))
  | .manhattan => .un (.powN 2) (.mul sigmaFact (.const (manhattan x y)))
  | .chebyshev => .un (.powN 2) (.mul sigmaFact (.const (chebyshev x y)))
  | .minkowski _ => .const 0

/-- `_dist_sigma`: distance_squared.py:27-28, distance.py:28-34. -/
noncomputable def distEx (D : DistKind) (x y : d → ℝ) : Ex Unit :=
  match D with
  | .euclidean => .un .sqrt (sqDistEx .euclidean x y)
  | .manhattan => .mul sigmaFact (.const (manhattan x y))
  | .chebyshev => .mul sigmaFact (.const (chebyshev x y))
  | .minkowski _ => .const 0

/-- `d <= 1` as a number (`False` for `NaN` and for an infinite distance). -/
noncomputable def leOne : Num → ℝ
  | some u => if u ≤ 1 then 1 else 0
  | none => 0

/-- `(d <= 1) * ...`: the comparison is not recorded, its result is a constant. -/
noncomputable def maskEx (σ : ℝ) (u e : Ex Unit) : Ex Unit :=
  .mul (.const (leOne (u.fwd fun _ => σ))) e

/-- `1 - a`. -/
def oneSub (a : Ex Unit) : Ex Unit := .add (.const 1) (.mul (.const (-1)) a)

/-- `_implicit` of the kernels of kerch/kernel/statistics (epanechnikov.py:37-39, quartic.py:37-39, triweight.py:37-39, tricube.py:37-39, triangular.py:37-39, uniform.py:37-39,
silverman.py:34-40, logistic.py:28-31, exponential.py:69-76), recorded at the bandwidth `σ`. -/
noncomputable def statEx (s : StatKind) (D : DistKind) (σ : ℝ) (x y : d → ℝ) : Ex Unit :=
  let u : Ex Unit := distEx D x y
  match s with
  | .epanechnikov => maskEx σ u (oneSub (.un (.powN 2) u))
  | .quartic => maskEx σ u (.un (.powN 2) (oneSub (.un (.powN 2) u)))
  | .triweight => maskEx σ u (.un (.powN 3) (oneSub (.un (.powN 2) u)))
  | .tricube => maskEx σ u (.un (.powN 3) (oneSub (.un (.powN 3) u)))
  | .triangular => maskEx σ u (oneSub u)
  | .uniform => .const (leOne (u.fwd fun _ => σ))
  | .silverman =>
    let v : Ex Unit := .mul (.const (Real.sqrt (1 / 2))) u
    .mul (.un .exp (.mul (.const (-1)) v)) (.un .sin (.add (.const (0.25 * Real.pi)) v))
  | .logistic => .div (.const 4) (.add (.add (.un .exp u) (.un .exp (.mul (.const (-1)) u))) (.const 2))
  | .exponential false => .un .exp (.mul u (.const (-Real.sqrt (1 / 2))))
  | .exponential true => .un .exp (.mul (sqDistEx D x y) (.const (-(1 / 2))))

end

/-! ### The other kernels -/

/-- The hyper-parameters of a polynomial kernel. -/
inductive PolyP
  | alpha
  | beta
  deriving DecidableEq

/-- polynomial.py:215-216 `_implicit`: both parameters are read directly; the degree is recorded only if it is trainable. -/
noncomputable def polyEx (alphaTrainable : Bool) (α : ℝ) (t : ℝ) : Ex PolyP :=
  .pow (.add (.const t) (.par .beta)) (if alphaTrainable then .par .alpha else .const α)

/-- polynomial.py:176-213 `_phi_fun`: the parameters are read through the properties `alpha` and `beta` (lines 132-134, 155-157: `detach().cpu().numpy()`). -/
noncomputable def polyPhiEx {d : ℕ} (α : ℕ) (β : ℝ) (x : Fin d → ℝ) : List (Ex PolyP) :=
  (multichoose (d + 1) α).map fun perm => .const (permOut α β x perm)

/-- kernel.py:188-190: `K` of a kernel with a feature map is `phi @ phi.T`, also for polynomial kernels of natural degree; one entry. -/
noncomputable def polyExplicitEx {d : ℕ} (α : ℕ) (β : ℝ) (x y : Fin d → ℝ) : Ex PolyP :=
  .sum (List.zipWith Ex.mul (polyPhiEx α β x) (polyPhiEx α β y))

/-- The hyper-parameters of a sigmoid kernel. -/
inductive SigP
  | a
  | b
  deriving DecidableEq

/-- sigmoid.py:49, 70-73. -/
def sigmoidEx (t : ℝ) : Ex SigP := .un .sigmoid (.add (.mul (.par .a) (.const t)) (.par .b))

/-- skewed_chi_2.py:67-75, one factor. -/
noncomputable def skewedFactor (s t : ℝ) : Ex Unit :=
  .div (.mul (.const 2) (.mul (.un .sqrt (.add (.const s) (.par ()))) (.un .sqrt (.add (.const t) (.par ())))))
    (.un (.clampMin EPS) (.add (.const (s + t)) (.mul (.const 2) (.par ()))))

/-- skewed_chi_2.py:67-75. -/
noncomputable def skewedEx {d : ℕ} (x y : Fin d → ℝ) : Ex Unit := .prod (List.ofFn fun i => skewedFactor (x i) (y i))

/-- hat.py:90-100, one entry. -/
noncomputable def hatEx (s t : ℝ) : Ex Unit := .un .relu (.add (.add (.par ()) (.const 1)) (.const (-|s - t|)))

/-- The hyper-parameters of an indicator kernel. -/
inductive IndP
  | lag
  | gamma
  deriving DecidableEq

/-- indicator.py:127-140 with `gamma` given, one entry: the comparison with the lag is not recorded, the diagonal is. -/
noncomputable def indicatorEx (lag : ℝ) (s t : ℝ) : Ex IndP :=
  if s - t = 0 then .par .gamma else .const (if |s - t| ≤ lag then 1 else 0)

/-- The parameters of a random features kernel: the bandwidth and the weights. -/
inductive RFP (m d : ℕ)
  | sigma
  | weight (r : Fin m) (k : Fin d)

/-- rf_arcsinh.py:18-19, rf_lrelu.py:32-33, rf_hyperbola.py:74-79. -/
noncomputable def actEx : Activation → Ex ι → Ex ι
  | .arcsinh, u => .un .asinh u
  | .lrelu α, u => .un (.leaky α) u
  | .hyperbola α β γ δ, u =>
    .mul (.const (1 / γ)) (.add (.un .sqrt (.add (.mul (.const (β ^ 2 - γ * α)) (.un (.powN 2) u)) (.const (γ * δ)))) (.mul (.const β) u))

/-- random_features.py:190-194 `_explicit`, one component: the weights are read directly, the bandwidth through the property `sigma` (lines 77-82: `.data.cpu().numpy()`). -/
noncomputable def rfPhiEx {m d : ℕ} (f : Activation) (σ : ℝ) (x : Fin d → ℝ) (r : Fin m) : Ex (RFP m d) :=
  .mul (actEx f (.mul (.sum (List.ofFn fun k => .mul (.const (x k)) (.par (.weight r k)))) (.const (1 / σ)))) (.const (1 / Real.sqrt m))

/-- kernel.py:188-190, one entry of the kernel matrix. -/
noncomputable def rfEx {m d : ℕ} (f : Activation) (σ : ℝ) (x y : Fin d → ℝ) : Ex (RFP m d) :=
  .sum (List.ofFn fun r => .mul (rfPhiEx f σ x r) (rfPhiEx f σ y r))

end Autograd
end Kerch
