import Mathlib.Analysis.SpecialFunctions.Arsinh
import Mathlib.Data.Matrix.Mul
import Mathlib.Algebra.Order.BigOperators.Ring.Finset
import Verif.Model.Cache
import Verif.Model.Defaults
import Verif.Model.KernelFun
/-!
# Random features (kerch/kernel/random_features)
-/
namespace Kerch
open Finset

/-- rf_lrelu.py:32-33: `torch.nn.functional.leaky_relu`. -/
noncomputable def lrelu (α x : ℝ) : ℝ := max 0 x + α * min 0 x

/-- rf_lrelu.py:35-42 (the exception does not depend on the argument). -/
noncomputable def lreluInv (α : ℝ) : Except Err (ℝ → ℝ) :=
  if α = 0 then .error .bijectionError
  else if α ≤ 1 then .ok fun y => min (1 / α * y) y
  else .ok fun y => max (1 / α * y) y

/-- rf_hyperbola.py:74-79 (`torch.sqrt` of a negative number is `NaN`; admissible parameters keep it positive). -/
noncomputable def hyperbola (α β γ δ x : ℝ) : ℝ := 1 / γ * (Real.sqrt ((β ^ 2 - γ * α) * x ^ 2 + γ * δ) + β * x)

/-- rf_hyperbola.py:81-86. -/
noncomputable def hyperbolaInv (α β γ δ y : ℝ) : ℝ := 1 / α * (-Real.sqrt ((β ^ 2 - γ * α) * y ^ 2 + α * δ) + β * y)

/-- The activations of the classes with an elementwise activation. -/
inductive Activation
  | arcsinh
  | lrelu (α : ℝ)
  | hyperbola (α β γ δ : ℝ)

/-- `activation_fn` (rf_arcsinh.py:18-19, rf_lrelu.py:32-33, rf_hyperbola.py:74-79). -/
noncomputable def Activation.fn : Activation → ℝ → ℝ
  | .arcsinh, x => Real.arsinh x
  | .lrelu α, x => Kerch.lrelu α x
  | .hyperbola α β γ δ, x => Kerch.hyperbola α β γ δ x

/-- `activation_fn_inv` (rf_arcsinh.py:21-22, rf_lrelu.py:35-42, rf_hyperbola.py:81-86). -/
noncomputable def Activation.inv : Activation → Except Err (ℝ → ℝ)
  | .arcsinh => .ok Real.sinh
  | .lrelu α => lreluInv α
  | .hyperbola α β γ δ => .ok (hyperbolaInv α β γ δ)

section
variable {m d : Type} [Fintype m] [Fintype d]

/-- random_features.py:191-195 `_explicit` for an elementwise activation: `num` is `num_weights`, `W` the weights. -/
noncomputable def rfPhi (f : ℝ → ℝ) (num : ℕ) (σ : ℝ) (W : Matrix m d ℝ) (x : d → ℝ) (i : m) : ℝ :=
  f (W.mulVec x i * (1 / σ)) * (1 / Real.sqrt num)

/-- rff.py:63-64 with random_features.py:191-195: `cat((cos(wx), sin(wx)))`. -/
noncomputable def rffPhi (num : ℕ) (σ : ℝ) (W : Matrix m d ℝ) (x : d → ℝ) : m ⊕ m → ℝ
  | .inl i => rfPhi Real.cos num σ W x i
  | .inr i => rfPhi Real.sin num σ W x i

/-- `phi_x @ phi_y.T` (random_features.py:207-211). -/
noncomputable def rffKernel (num : ℕ) (σ : ℝ) (W : Matrix m d ℝ) (x y : d → ℝ) : ℝ := ∑ i, rffPhi num σ W x i * rffPhi num σ W y i

/-- rff.py:66-73 with random_features.py:212-213, used for an infinite number of weights. -/
noncomputable def rffClosed (σ : ℝ) (x y : d → ℝ) : ℝ :=
  Real.exp (-0.5 * ∑ i, (1 / σ * x i - 1 / σ * y i) * (1 / σ * x i - 1 / σ * y i))

/-- What `torch.linalg.pinv` returns: the Moore-Penrose conditions. -/
structure IsPinv (W : Matrix m d ℝ) (P : Matrix d m ℝ) : Prop where
  wpw : W * P * W = W
  pwp : P * W * P = P
  wp : (W * P).transpose = W * P
  pw : (P * W).transpose = P * W

/-- random_features.py:186-189 `_explicit_preimage` with the pseudo-inverse `P` found in the cache:
`activation_fn_inv(phi * sqrt(num)) @ pinv.T * sigma`. -/
noncomputable def rfPreimage (g : Except Err (ℝ → ℝ)) (num : ℕ) (σ : ℝ) (P : Matrix d m ℝ) (φ : m → ℝ) : Except Err (d → ℝ) :=
  g.map fun g j => P.mulVec (fun i => g (φ i * Real.sqrt num)) j * σ

end

/-- A kernel of a stack: its `phi` and its `explicit_preimage(method='explicit')`. -/
structure RFLayer (V : Type) where
  phi : V → V
  preimage : V → Except Err V

/-- rf_stacked.py:69-72 `_explicit`. -/
def stackedPhi {V : Type} (L : List (RFLayer V)) (x : V) : V := L.foldl (fun x k => k.phi x) x

/-- rf_stacked.py:74-77 `_explicit_preimage`. -/
def stackedPreimage {V : Type} (L : List (RFLayer V)) (φ : V) : Except Err V :=
  L.reverse.foldl (fun (acc : Except Err V) k => acc.bind k.preimage) (.ok φ)

/-! ### Weights and the cached pseudo-inverse -/

/-- The attributes of a random features kernel with `r` rows and `d` columns of weights: the number `_num_weights` (not set when the weights are given
at construction, random_features.py:60-64), the weights, and the cache (only the entry of the pseudo-inverse is used here). -/
structure RFSt (r d : ℕ) where
  num : Option ℕ
  W : Matrix (Fin r) (Fin d) ℝ
  cache : CacheSt String (Matrix (Fin d) (Fin r) ℝ)

namespace RFSt
variable {r d : ℕ}

/-- random_features.py:97-104 `num_weights`: reading the missing attribute raises. -/
def numWeights (s : RFSt r d) : Except Err ℕ :=
  if r * d = 0 then .ok 0 else match s.num with
    | some k => .ok k
    | none => .error .attributeError

/-- random_features.py:117-132, the setter of `weights`: neither the number of weights nor the cache is updated. (The number of rows may change;
here the shape is kept, see `C35_num_violated` for the other case.) -/
def setWeights (s : RFSt r d) (W : Matrix (Fin r) (Fin d) ℝ) : RFSt r d := { s with W := W }

/-- A training step moves the weights, then `after_step` (random_features.py:215-216) is called. -/
def trainStep (s : RFSt r d) (f : Matrix (Fin r) (Fin d) ℝ → Matrix (Fin r) (Fin d) ℝ) : RFSt r d :=
  { s with W := f s.W, cache := s.cache.remove (.str "Kernel_RF_weights_pinv") }

/-- random_features.py:187-188: the pseudo-inverse through the cache; `pinv` is `torch.linalg.pinv`. -/
def getPinv (pinv : Matrix (Fin r) (Fin d) ℝ → Matrix (Fin d) (Fin r) ℝ) (s : RFSt r d) :
    Except Err (Matrix (Fin d) (Fin r) ℝ) × RFSt r d :=
  let res := CacheSt.get defaultCacheLevel "Kernel_RF_weights_pinv" { levelKey := some "_rsf_piv" } (fun c => (.ok (pinv s.W), c)) s.cache
  (res.1, { s with cache := res.2 })

inductive Op (r d : ℕ)
  | assign (W : Matrix (Fin r) (Fin d) ℝ)
  | train (f : Matrix (Fin r) (Fin d) ℝ → Matrix (Fin r) (Fin d) ℝ)
  | reset (rp : Bool)
  | pinv

def step (pinv : Matrix (Fin r) (Fin d) ℝ → Matrix (Fin d) (Fin r) ℝ) (s : RFSt r d) :
    Op r d → RFSt r d × Option (Except Err (Matrix (Fin d) (Fin r) ℝ))
  | .assign W => (s.setWeights W, none)
  | .train f => (s.trainStep f, none)
  | .reset rp => ({ s with cache := s.cache.resetCache rp }, none)
  | .pinv => let res := s.getPinv pinv; (res.2, some res.1)

def run (pinv : Matrix (Fin r) (Fin d) ℝ → Matrix (Fin d) (Fin r) ℝ) (s : RFSt r d) :
    List (Op r d) → RFSt r d × List (Except Err (Matrix (Fin d) (Fin r) ℝ))
  | [] => (s, [])
  | op :: ops =>
    let a := step pinv s op
    let rest := run pinv a.1 ops
    (rest.1, match a.2 with | some o => o :: rest.2 | none => rest.2)

end RFSt
end Kerch
