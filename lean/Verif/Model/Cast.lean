import Verif.Model.Cache
/-!
# Casting of inputs and keyword defaults (kerch/utils/cast.py, kerch/utils/decorators.py)

A tensor is its shape and its entries in row-major order.  The conversion of an entry to the floating (resp. integer) type is
a parameter `conv`.  Devices are not modelled.
-/
namespace Kerch
namespace Cast

/-- A torch tensor: shape and entries in row-major order. -/
structure Tensor (α : Type) where
  shape : List Nat
  data : List α
  deriving DecidableEq

/-- As many entries as the shape says. -/
def Tensor.WF {α : Type} (t : Tensor α) : Prop := t.data.length = t.shape.foldr (· * ·) 1

/-- A Python scalar or a nested list (or numpy array). -/
inductive Nest (α : Type)
  | leaf (a : α)
  | node (l : List (Nest α))

mutual
/-- The shape `torch.tensor` gives to a nested list; ragged lists raise `ValueError`. -/
def Nest.shape {α : Type} : Nest α → Except Err (List Nat)
  | .leaf _ => .ok []
  | .node l => Nest.shapes l
/-- The shape of a list of nested lists: its length followed by the common shape of the elements. -/
def Nest.shapes {α : Type} : List (Nest α) → Except Err (List Nat)
  | [] => .ok [0]
  | [x] => match x.shape with
    | .error e => .error e
    | .ok s => .ok (1 :: s)
  | x :: y :: l => match x.shape, Nest.shapes (y :: l) with
    | .error e, _ => .error e
    | _, .error e => .error e
    | .ok s, .ok [] => .error .valueError
    | .ok s, .ok (n :: s') => if s = s' then .ok ((n + 1) :: s) else .error .valueError
end

mutual
/-- The entries of a nested list from left to right. -/
def Nest.flat {α : Type} : Nest α → List α
  | .leaf a => [a]
  | .node l => Nest.flats l
/-- The entries of a list of nested lists. -/
def Nest.flats {α : Type} : List (Nest α) → List α
  | [] => []
  | x :: l => x.flat ++ Nest.flats l
end

/-- What may be given to `castf`/`casti`. -/
inductive Arg (α : Type)
  | none
  | tensor (t : Tensor α)
  | other (v : Nest α)

variable {α : Type}

/-- `torch.tensor(x, dtype=...)` (cast.py:28). -/
def ofNest (conv : α → α) (v : Nest α) : Except Err (Tensor α) :=
  match v.shape with
  | .error e => .error e
  | .ok s => .ok ⟨s, v.flat.map conv⟩

/-- cast.py:27-30 and 66-69: conversion to a tensor of the right type. -/
def toTensor (conv : α → α) : Arg α → Except Err (Option (Tensor α))
  | .none => .ok Option.none
  | .tensor t => .ok (some ⟨t.shape, t.data.map conv⟩)
  | .other v => match ofNest conv v with
    | .error e => .error e
    | .ok t => .ok (some t)

/-- `x.unsqueeze(0)` on a scalar tensor. -/
def unsqueeze0 (t : Tensor α) : Tensor α := ⟨1 :: t.shape, t.data⟩

/-- `x.unsqueeze(1)` on a vector. -/
def unsqueeze1 (t : Tensor α) : Tensor α :=
  match t.shape with
  | n :: s => ⟨n :: 1 :: s, t.data⟩
  | [] => t

/-- cast.py:35-43 and 74-82: the part done if `tensor` is true. -/
def toMatrix (t : Tensor α) : Except Err (Tensor α) :=
  let dim := t.shape.length
  let (t, dim) := if dim = 0 then (unsqueeze0 t, 1) else (t, dim)
  if dim = 1 then .ok (unsqueeze1 t)
  else if dim > 2 then .error .nameError
  else .ok t

/-- cast.py:7-45 `castf`. -/
def castf (conv : α → α) (x : Arg α) (tensor : Bool := true) : Except Err (Option (Tensor α)) :=
  match toTensor conv x with
  | .error e => .error e
  | .ok .none => .ok .none
  | .ok (some t) =>
    if tensor then
      match toMatrix t with
      | .error e => .error e
      | .ok t => .ok (some t)
    else .ok (some t)

/-- `x.squeeze()`: all dimensions of size one removed. -/
def squeeze (t : Tensor α) : Tensor α := ⟨t.shape.filter (· != 1), t.data⟩

/-- cast.py:47-85 `casti`. -/
def casti (conv : α → α) (x : Arg α) (tensor : Bool := false) : Except Err (Option (Tensor α)) :=
  match castf conv x tensor with
  | .error e => .error e
  | .ok .none => .ok .none
  | .ok (some t) => .ok (some (squeeze t))

/-- What a `representation` argument may be: `None` or a string. -/
def checkRepresentation (representation default : Option String) : Except Err String :=
  let r := if representation.isNone && default.isSome then default else representation
  match r with
  | some s => if ["primal", "dual"].contains s then .ok s else .error .representationError
  | none => .error .representationError

/-! ### Keyword defaults -/

/-- decorators.py:18-24: what the decorated function receives as keyword arguments. -/
def withDefaults {ν : Type} (dflt kwargs : Dict String ν) : Dict String ν := Dict.merge dflt kwargs

/-- A constructor and those of its base classes, each decorated by its own defaults and each handing its keyword arguments
to the next (`super().__init__(*args, **kwargs)`); what each of them receives, the most derived class first. -/
def received {ν : Type} (kwargs : Dict String ν) : List (Dict String ν) → List (Dict String ν)
  | [] => []
  | d :: ds => withDefaults d kwargs :: received (withDefaults d kwargs) ds

end Cast
end Kerch
