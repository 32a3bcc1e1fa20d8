import Verif.Model.Cache
/-!
# Which parameters of a level require a gradient; attached views (kerch/level/_View.py, kerch/level/single_view/View.py)
-/
namespace Kerch
namespace Trainable

/-- A `torch.nn.Parameter`: empty or of a two-dimensional shape, and its attribute `requires_grad`. -/
structure Par where
  shape : Option (Nat × Nat)
  rg : Bool

/-- The attributes involved: `_level_trainable`, `_param_trainable` (`none`: no such attribute), `_dual_param`, `_primal_param`, and `requires_grad` of
`_weight` (`none`: no such attribute). -/
structure St where
  levelTrainable : Bool
  paramTrainable : Option Bool
  dual : Par
  primal : Par
  weight : Option Bool

/-- View.py:112-115 `_reset_primal`. -/
def St.resetPrimal (s : St) : St := { s with weight := some s.primal.rg }

/-- _View.py:78-81 `_reset_dual`. -/
def St.resetDual (s : St) : St := { s with dual := ⟨none, s.dual.rg⟩ }

/-- _View.py:189-213 setter of `dual_param`; the shape is that of the value given (the parameter stored is its transpose, lines 197-206). -/
def St.setDual (s : St) : Option (Nat × Nat) → St
  | some (r, c) =>
    if s.dual.shape = some (c, r) then s.resetPrimal
    else ({ s with dual := ⟨some (c, r), s.levelTrainable⟩ }).resetPrimal
  | none => s.resetDual.resetPrimal

/-- _View.py:269-292 setter of `primal_param` (not attached); line 279 compares the shape stored with the shape given, not its transpose, and line 280
then copies the transpose, which only works for squares. -/
def St.setPrimal (s : St) : Option (Nat × Nat) → Except Err Unit × St
  | some (r, c) =>
    let s := s.resetDual
    if s.primal.shape = some (r, c) then
      if r = c then (.ok (), s) else (.error .runtimeError, s)
    else (.ok (), { s with primal := ⟨some (c, r), s.levelTrainable⟩ })
  | none => (.ok (), s.resetDual.resetPrimal)

/-- _View.py:44-67 `__init__` (followed by View.py:52-81 without bias), `lt` being the keyword `level_trainable` (default `False`), `weight` and `hidden` the
shapes of the initial values if given. -/
def St.construct (lt : Bool) (weight hidden : Option (Nat × Nat)) : St :=
  let s : St := ⟨lt, none, ⟨none, lt⟩, ⟨none, lt⟩, none⟩
  match weight with
  | some w => (s.setPrimal (some w)).2
  | none => s.setDual hidden

/-- View.py:164-169, the setter of `level_trainable` (without bias). Line 168 needs the attribute `_weight`. -/
def St.setTrainable (s : St) (v : Bool) : Except Err Unit × St :=
  let s := { s with paramTrainable := some v, dual := { s.dual with rg := v } }
  match s.weight with
  | some _ => (.ok (), { s with weight := some v })
  | none => (.error .attributeError, s)

/-- View.py:157-162, the getter that `level_trainable` has inherited from `param_trainable` (line 164). -/
def St.getTrainable (s : St) : Except Err Bool :=
  match s.paramTrainable with
  | some v => .ok v
  | none => .error .attributeError

/-- Model.py:200-206: `soft` and `hard`. -/
def St.append (s : St) (soft : Bool) : Except Err Unit × St := s.setTrainable soft

/-- Operations on the parameters: assignments, and `init_parameters` (_View.py:100-122) with the shape of the values drawn. -/
inductive Op
  | setPrimal (v : Option (Nat × Nat))
  | setDual (v : Option (Nat × Nat))
  | initPrimal (shape : Nat × Nat) (overwrite : Bool)
  | initDual (shape : Nat × Nat) (overwrite : Bool)

/-- Effect of an operation; errors end it where they occur. -/
def St.step (s : St) : Op → St
  | .setPrimal v => (s.setPrimal v).2
  | .setDual v => s.setDual v
  | .initPrimal sh ow => if ow || s.primal.shape.isNone then (s.setPrimal (some sh)).2 else s
  | .initDual sh ow => if ow || s.dual.shape.isNone then s.setDual (some sh) else s

/-- A history. -/
def St.run (s : St) (ops : List Op) : St := ops.foldl St.step s

end Trainable

namespace Attach

/-- A view and the part of its multi-view it would be attached to: `_attached_primal_param is not None`, its own `_primal_param` and the current value of the
function `weight_fn` (_View.py:245-248). -/
structure St (P : Type) where
  attached : Bool
  own : Option P
  mother : P

variable {P : Type}

/-- _View.py:257-267, the getter of `primal_param`. -/
def St.read (s : St P) : Except Err P :=
  if s.attached then .ok s.mother else match s.own with
    | some p => .ok p
    | none => .error .notInitialized

/-- _View.py:269-287, the setter (line 272 raises a plain `Exception`). -/
def St.assign (s : St P) (p : P) : Except Err Unit × St P :=
  if s.attached then (.error .kerchError, s) else (.ok (), { s with own := some p })

/-- _View.py:245-248 `attach_to`. -/
def St.attach (s : St P) : Except Err Unit × St P :=
  if s.attached then (.error .assertionError, s) else (.ok (), { s with attached := true })

/-- _View.py:250-254 `detach`: line 253 sets `_attached`, an attribute that `attached` (235-243) does not look at. -/
def St.detach (s : St P) : Except Err Unit × St P :=
  match s.read with
  | .error e => (.error e, s)
  | .ok w => s.assign w

/-- Operations of a user; `mother` is a change of the parameters of the multi-view. -/
inductive Op (P : Type)
  | assign (p : P)
  | attach
  | detach
  | mother (p : P)

/-- Effect of an operation. -/
def St.step (s : St P) : Op P → St P
  | .assign p => (s.assign p).2
  | .attach => s.attach.2
  | .detach => s.detach.2
  | .mother p => { s with mother := p }

/-- A history. -/
def St.run (s : St P) (ops : List (Op P)) : St P := ops.foldl St.step s

end Attach
end Kerch
