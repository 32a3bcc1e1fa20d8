import Verif.Model.Preimage
import Mathlib.Algebra.BigOperators.Fin
/-!
# Kernels given by an encoder and a decoder network (kerch/kernel/network/explicit_nn.py)

Networks act row by row on tensors with a fixed number of columns; a tensor with another number of columns makes them raise `RuntimeError`, as a first
layer `torch.nn.Linear` does.
-/
namespace Kerch
namespace NN
open Finset

variable {n d m : ℕ} [NeZero n]

/-- A network with `a` inputs and `b` outputs. -/
abbrev Net (a b : ℕ) : Type := (Fin a → ℝ) → Fin b → ℝ

/-- A network applied to a tensor with `c` columns. -/
def applyNet {ι : Type} {a b c : ℕ} (f : Net a b) (Y : ι → Fin c → ℝ) : Except Err (ι → Fin b → ℝ) :=
  if h : a = c then .ok fun i => f fun j => Y i (Fin.cast h j) else .error .runtimeError

/-- What is given to the constructor. A `network` argument is `none` if absent; anything that is not a `torch.nn.Module` is `some none`. -/
structure Kwargs (α : Type) where
  encoder : Option (Option α)
  decoder : Option (Option α)
  networkTrainable : Option Bool
  networksTrainable : Option Bool

/-- A kernel after its construction. -/
structure Obj (α : Type) where
  encoder : α
  decoder : Option α
  trainable : Bool

/-- explicit_nn.py:43-58 `__init__`: the key read is `network_trainable` (line 46); the documented one is `networks_trainable` (line 34). -/
def construct {α : Type} (kw : Kwargs α) : Except Err (Obj α) :=
  match kw.encoder with
  | some (some e) => match kw.decoder with
    | none => .ok ⟨e, none, kw.networkTrainable.getD true⟩
    | some (some g) => .ok ⟨e, some g, kw.networkTrainable.getD true⟩
    | some none => .error .assertionError
  | _ => .error .assertionError

/-- What `self(x)` gives: kernel.py:284-310 `forward` with its default representation `"dual"`, i.e. `self.k(x)`, computed (kernel.py:245-253) from the features
of the argument and of the sample. `p` are the transforms of the sample, `q` those of the features. -/
noncomputable def callKernel (p q : List Kind) (enc : Net d m) (pts : Fin n → Fin d → ℝ) (a : Arg (Fin d → ℝ)) : Option (a.I (Fin n) → Fin n → ℝ) :=
  (Preimage.phi p q enc pts a).bind fun Φ => (Preimage.phi p q enc pts .sample).map fun S i j => ∑ l, Φ i l * S j l

/-- explicit_nn.py:80-86 `decoder` and 88-90 `decode`, `call` being what `self(x)` gives: the kernel matrix for a kernel (`callKernel`), the output of the level when a
level is built on the kernel (View.py:237-238). -/
noncomputable def decodeOf {ι : Type} {c e : ℕ} (p : List Kind) (pts : Fin n → Fin d → ℝ) (dec : Option (Net e d)) (call : Option (ι → Fin c → ℝ)) :
    Except Err (Option (ι → Fin d → ℝ)) :=
  match dec with
  | none => .error .notInitialized
  | some g => match call with
    | none => if e = c then erevert id pts p none else .error .runtimeError
    | some Y => match applyNet g Y with
      | .error err => .error err
      | .ok Z => erevert id pts p (some Z)

/-- `decode(x)` of a kernel. -/
noncomputable def decode {e : ℕ} (p q : List Kind) (enc : Net d m) (dec : Option (Net e d)) (pts : Fin n → Fin d → ℝ) (a : Arg (Fin d → ℝ)) :
    Except Err (Option (a.I (Fin n) → Fin d → ℝ)) := decodeOf p pts dec (callKernel p q enc pts a)

/-- `torch.nn.MSELoss()` (line 58) of two tensors of the same size; the mean of an empty tensor does not occur (`dim_input > 0`). -/
noncomputable def mse (A B : Fin n → Fin d → ℝ) : ℝ := (∑ i, ∑ j, (A i j - B i j) ^ 2) / (n * d)

/-- explicit_nn.py:95-99 `loss`, `recon` being the outcome of `self.decode()`. -/
noncomputable def loss {α : Type} (dec : Option α) (pts : Fin n → Fin d → ℝ) (recon : Except Err (Option (Fin n → Fin d → ℝ))) : Except Err (Option ℝ) :=
  match dec with
  | none => .ok (some 0)
  | some _ => recon.map fun r => r.map (mse pts)

/-- explicit_nn.py:108-116 `_explicit_preimage`. `loaded` is the outcome of lines 109-110: whether the object is a level, or what the import raises. -/
def preimage {e : ℕ} (loaded : Except Err Bool) (dec : Option (Net e d)) : Except Err (Net e d) :=
  match loaded with
  | .error err => .error err
  | .ok true => .error .kerchError
  | .ok false => match dec with
    | none => .error .notInitialized
    | some g => .ok g

/-- `importlib.util.find_spec(name)` without `package`, as `lazy_loader.load` calls it: a name starting with a dot cannot be resolved and raises, an `ImportError`
(the type `Err` has no such constructor: `err` stands for it). -/
def load (err : Err) (name : List Char) (found : Except Err Bool) : Except Err Bool :=
  match name with
  | '.' :: _ => .error err
  | _ => found

/-- explicit_nn.py:109, the name asked for. -/
def viewName : List Char := "..level.single_view.View".toList

end NN
end Kerch
