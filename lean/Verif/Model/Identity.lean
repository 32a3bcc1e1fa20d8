import Verif.Model.Cache
import Mathlib.Logic.Function.Basic
/-!
# Results kept under the identity of their argument

Evaluations at further points are kept under `id(x)` (Transform.py:42-52, _View.py:412). The identity of an object is its address, which is given to another object once nothing refers to the first
one any more. Modelled: objects of the user (tensors that pass `castf` unchanged, and others such as lists and arrays, for which `castf` makes a tensor, cast.py:7-45), which of them are referred to,
an allocator that chooses any address not in use, the tree of the sample of a kernel (which keeps the tensors themselves), the tree of the kernel, and the results of `forward` of a level.
Simplifications: evaluations at one argument; a chain of transforms of the sample is one function; contents do not change in place (for which see `C07_stale_violated`); no exceptions
(for which see `C07_after_error_violated`).
-/
namespace Kerch
namespace Identity

/-- The transform of the sample, if there is one, and the value of the kernel (or the output of the level) for a transformed argument. -/
structure Fns (C W : Type) where
  proj : Option (C → C)
  val : C → W

variable {C W : Type}

/-- Memory, which objects are tensors, which the user refers to; the tree of the sample (`id(x)` and the transformed tensor; Transform.py:171-175, the root holds the argument itself,
TransformTree.py:185-188), the tree of the kernel (`id` of the transformed tensor and the result), the results of `forward`. `keep`: the cache level is `normal` or more; below, nothing of these is kept
after the call (`C06_light_nothing_kept_partial`). -/
structure St (C W : Type) where
  keep : Bool
  mem : Nat → C
  tensor : Nat → Bool
  held : List Nat
  inputs : List (Nat × Nat)
  results : List (Nat × W)
  forwards : List (Nat × W)

/-- Something refers to the object, so that its address is not given to another one. -/
def St.alive (s : St C W) (i : Nat) : Bool := s.held.contains i || s.inputs.any fun e => e.1 == i || e.2 == i

/-- The first entry under a key. -/
def find {X : Type} (l : List (Nat × X)) (k : Nat) : Option X := (l.find? fun e => e.1 == k).map (·.2)

/-- cast.py:7-45 `castf`: a tensor is passed on, anything else is copied into a new tensor, at an address chosen by the allocator (`none`: the address is in use, which does not happen). -/
def St.cast (s : St C W) (i j : Nat) : Option (Nat × St C W) :=
  if s.tensor i then some (i, s)
  else if s.alive j then none
  else some (j, { s with mem := Function.update s.mem j (s.mem i), tensor := Function.update s.tensor j true })

/-- sample.py:266-273 `transform_input`: the tree of the sample. -/
def St.project (F : Fns C W) (s : St C W) (t j : Nat) : Option (Nat × St C W) :=
  match find s.inputs t with
  | some p => some (p, s)
  | none => match F.proj with
    | none => some (t, if s.keep then { s with inputs := (t, t) :: s.inputs } else s)
    | some φ => if s.alive j || j == t then none
      else some (j, { s with mem := Function.update s.mem j (φ (s.mem t)), tensor := Function.update s.tensor j true, inputs := if s.keep then (t, j) :: s.inputs else s.inputs })

/-- TransformTree.py:214-236 `apply` of the tree of the kernel. -/
def St.evaluate (F : Fns C W) (s : St C W) (p : Nat) : W × St C W :=
  match find s.results p with
  | some v => (v, s)
  | none => (F.val (s.mem p), if s.keep then { s with results := (p, F.val (s.mem p)) :: s.results } else s)

/-- kernel.py:211-262 `k(x)`, 182-209 `phi(x)`; `j`, `l`: where the allocator puts new tensors. -/
def St.kernel (F : Fns C W) (s : St C W) (i j l : Nat) : Option (W × St C W) :=
  if s.held.contains i then
    match s.cast i j with
    | none => none
    | some (t, s1) => match s1.project F t l with
      | none => none
      | some (p, s2) => some (s2.evaluate F p)
  else none

/-- _View.py:410-423 `forward(x)`: the level key is a function, hence never found, and the result is kept from the level `normal` on, under the identity of the object given. -/
def St.forward (F : Fns C W) (s : St C W) (i j l : Nat) : Option (W × St C W) :=
  if s.held.contains i then
    match find s.forwards i with
    | some v => some (v, s)
    | none => match s.kernel F i j l with
      | none => none
      | some (v, s1) => some (v, if s1.keep then { s1 with forwards := (i, v) :: s1.forwards } else s1)
  else none

/-- What can happen: the user makes an object at an address chosen by the allocator, stops referring to one, evaluates; everything is reset (another sample). -/
inductive Op (C : Type)
  | create (isTensor : Bool) (c : C) (i : Nat)
  | forget (i : Nat)
  | kernel (i j l : Nat)
  | forward (i j l : Nat)
  | reset

def St.step (F : Fns C W) (s : St C W) : Op C → St C W
  | .create b c i => if s.alive i then s else { s with mem := Function.update s.mem i c, tensor := Function.update s.tensor i b, held := i :: s.held }
  | .forget i => { s with held := s.held.filter (· != i) }
  | .kernel i j l => match s.kernel F i j l with
    | none => s
    | some r => r.2
  | .forward i j l => match s.forward F i j l with
    | none => s
    | some r => r.2
  | .reset => { s with inputs := [], results := [], forwards := [] }

def St.run (F : Fns C W) (s : St C W) (ops : List (Op C)) : St C W := ops.foldl (St.step F) s

/-- At the beginning nothing is kept. -/
def St.init (keep : Bool) (mem : Nat → C) : St C W := ⟨keep, mem, fun _ => false, [], [], [], []⟩

end Identity
end Kerch
