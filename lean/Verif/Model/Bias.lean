import Verif.Model.Cast
/-!
# The bias of a view (kerch/level/single_view/View.py:63-71, 88-110, 125-155, 231-235)
-/
namespace Kerch
namespace Bias

open Cast (Tensor Arg)

/-- A parameter `_bias`: its value (empty: no bias), `requires_grad`, and whether a gradient has been accumulated. -/
structure Par (α : Type) where
  value : Tensor α
  rg : Bool
  grad : Bool

/-- The attributes involved: `_requires_bias`, `_param_trainable` (`none`: no such attribute, it is written by View.py:166 only), `_bias_trainable`,
`_dim_output`, `_bias`. -/
structure St (α : Type) where
  requires : Bool
  paramTrainable : Option Bool
  biasTrainable : Bool
  dimOutput : Option Nat
  bias : Par α

variable {α : Type}

/-- `torch.empty(0)`. -/
def empty : Tensor α := ⟨[0], []⟩

/-- `a and self._param_trainable` (View.py:69, 110, 155): the attribute is read only if `a` is true. -/
def St.andTrainable (s : St α) (a : Bool) : Except Err Bool :=
  if a then match s.paramTrainable with
    | some v => .ok v
    | none => .error .attributeError
  else .ok false

/-- View.py:126-129, the getter of `bias`; `none` for `None`. -/
def St.get (s : St α) : Option (Tensor α) := if s.bias.value.data.length ≠ 0 then some s.bias.value else none

/-- View.py:137-145: what is to be stored. `val.repeat(None)` raises TypeError. A value of more than one dimension is reported in the log and kept. -/
def shaped (dimOutput : Option Nat) (val : Tensor α) : Except Err (Tensor α) :=
  let dim := val.shape.length
  if dim = 0 then
    match dimOutput with
    | some d => .ok ⟨[d], (List.replicate d val.data).flatten⟩
    | none => .error .typeError
  else .ok val

/-- View.py:146-152, the value being stored; `_bias.grad` is `None` if there is no gradient. -/
def St.store (s : St α) (val : Tensor α) : Except Err Unit × St α :=
  if s.bias.value.data.length = 0 then
    match s.andTrainable s.requires with
    | .ok rg => (.ok (), { s with bias := ⟨val, rg, false⟩ })
    | .error e => (.error e, s)
  else
    let s' := { s with bias := { s.bias with value := val } }
    if s.biasTrainable && !s.bias.grad then (.error .attributeError, s') else (.ok (), s')

/-- View.py:131-152, the setter of `bias`; `conv` is the conversion of numbers by `castf`. -/
def St.set (conv : α → α) (s : St α) (v : Arg α) : Except Err Unit × St α :=
  match Cast.castf conv v with
  | .error e => (.error e, s)
  | .ok none => (.ok (), s)
  | .ok (some t) => match shaped s.dimOutput (Cast.squeeze t) with
    | .error e => (.error e, s)
    | .ok val => s.store val

/-- View.py:107-110, the setter of `requires_bias`. -/
def St.setRequires (s : St α) (v : Bool) : Except Err Unit × St α :=
  let s := { s with requires := v }
  match s.andTrainable v with
  | .ok rg => (.ok (), { s with bias := { s.bias with rg := rg } })
  | .error e => (.error e, s)

/-- View.py:63-71, the part of the constructor about the bias. `none`: no view. -/
def construct (conv : α → α) (dimOutput : Option Nat) (requires biasTrainable : Bool) (v : Arg α) : Except Err Unit × Option (St α) :=
  let s : St α := ⟨requires, none, biasTrainable, dimOutput, ⟨empty, false, false⟩⟩
  match s.andTrainable requires with
  | .error e => (.error e, none)
  | .ok rg =>
    let s := { s with bias := ⟨empty, rg, false⟩ }
    if requires then
      match s.set conv v with
      | (.ok (), s) => (.ok (), some s)
      | (.error e, _) => (.error e, none)
    else (.ok (), some s)

/-- View.py:93-97 `_init_bias`, the sample being initialised: `_log` (line 97) is no attribute of a view. `zero` is the number 0. -/
def St.initBias (conv : α → α) (zero : α) (s : St α) : Except Err Unit × St α :=
  match s.dimOutput with
  | none => (.error .assertionError, s)
  | some d => match s.set conv (.tensor ⟨[d], List.replicate d zero⟩) with
    | (.ok (), s) => (.error .attributeError, s)
    | (.error e, s) => (.error e, s)

/-- View.py:164-169, the part of the setter of `level_trainable` about the bias, if the attribute `_weight` needed by line 168 exists. -/
def St.setTrainable (s : St α) (v : Bool) : St α :=
  let s := { s with paramTrainable := some v }
  { s with bias := { s.bias with rg := s.requires && v } }

/-- View.py:231-235 `_forward` on one point, `out` being `phiw` at this point and `scale` the product by `_kappa_sqrt`; torch adds the row `bias[None, :]`
to every row if it has as many entries (or a single one, not represented: RuntimeError here). -/
def St.forward (add : α → α → α) (scale : α → α) (s : St α) (out : List α) : Except Err (List α) :=
  if s.requires then
    if s.bias.value.shape = [out.length] then .ok (List.zipWith (fun o b => add o (scale b)) out s.bias.value.data)
    else .error .runtimeError
  else .ok out

/-- Operations of a user; `backward`: a gradient is accumulated on `_bias` if it requires one. -/
inductive Op (α : Type)
  | set (v : Arg α)
  | setRequires (v : Bool)
  | setTrainable (v : Bool)
  | backward

/-- Effect of an operation; errors end it where they occur. -/
def St.step (conv : α → α) (s : St α) : Op α → St α
  | .set v => (s.set conv v).2
  | .setRequires v => (s.setRequires v).2
  | .setTrainable v => s.setTrainable v
  | .backward => { s with bias := { s.bias with grad := s.bias.grad || s.bias.rg } }

/-- A history. -/
def St.run (conv : α → α) (s : St α) (ops : List (Op α)) : St α := ops.foldl (St.step conv) s

end Bias
end Kerch
