import Verif.Model.Cache
/-!
# Stacked random features (kerch/kernel/random_features/rf_stacked.py)

`X` are the points and the features of all layers, `S` what a layer computes from its own sample (the statistics of its transforms). The layers are kept in
a python list (line 9), not in a module: they are reached by `init_sample` only.
-/
namespace Kerch
namespace Stacked
variable {X S : Type}

/-- An inner kernel: `stat` the statistics of its sample (its sample transform), `map` its `phi(x)`, `inv` its `explicit_preimage(·, method='explicit')`;
its weights are drawn once (random_features.py:60-64) and part of the functions. -/
structure Layer (X S : Type) where
  stat : List X → S
  map : S → X → X
  inv : S → X → X

/-- What is fixed at construction: the layers, and the transform of the sample of the kernel itself, relative to its current sample. -/
structure Cfg (X S : Type) where
  layers : List (Layer X S)
  base : List X → X → X
  unbase : List X → X → X

/-- The data, the rows selected (feature/sample.py, feature/stochastic.py), and the sample of each inner kernel. -/
structure St (X : Type) where
  data : List X
  sel : Option (List Nat)
  inner : List (List X)

/-- `current_sample`. -/
def St.current (s : St X) : List X :=
  match s.sel with
  | none => s.data
  | some idx => idx.filterMap fun i => s.data[i]?

/-- `current_sample_projected`. -/
def projected (C : Cfg X S) (s : St X) : List X := s.current.map (C.base s.current)

/-- rf_stacked.py:26-37, 39-44: each layer gets as sample the features `k.phi()` of the sample in the layer before. -/
def innerSamples : List (Layer X S) → List X → List (List X)
  | [], _ => []
  | l :: t, s => s :: innerSamples t (s.map (l.map (l.stat s)))

/-- rf_stacked.py:39-44 `init_sample(sample, idx_sample)`; also construction (lines 8-18), the kernels then being created with the same samples. -/
def initSample (C : Cfg X S) (data : List X) (sel : Option (List Nat)) : St X :=
  let s : St X := { data := data, sel := sel, inner := [] }
  { s with inner := innerSamples C.layers (projected C s) }

/-- The other operations on the sample, inherited: `update_sample(values, idx)` row by row and `stochastic(idx)`, `None` on `eval()`. -/
inductive Op (X : Type)
  | init (data : List X) (sel : Option (List Nat))
  | update (i : Nat) (v : X)
  | select (idx : Option (List Nat))

/-- Effect of an operation. -/
def step (C : Cfg X S) (s : St X) : Op X → St X
  | .init data sel => initSample C data sel
  | .update i v => { s with data := s.data.set i v }
  | .select idx => { s with sel := idx }

/-- A history. -/
def run (C : Cfg X S) (s : St X) (ops : List (Op X)) : St X := ops.foldl (step C) s

/-- rf_stacked.py:67-70 `_explicit`. -/
def explicit : List (Layer X S) → List (List X) → X → X
  | l :: t, s :: r, x => explicit t r (l.map (l.stat s) x)
  | _, _, x => x

/-- `phi(x)`: the transform of the kernel itself, then `_explicit`. -/
def phi (C : Cfg X S) (s : St X) (x : X) : X := explicit C.layers s.inner (C.base s.current x)

/-- rf_stacked.py:72-75 `_explicit_preimage`: in reversed order. -/
def explicitPreimage : List (Layer X S) → List (List X) → X → X
  | l :: t, s :: r, y => l.inv (l.stat s) (explicitPreimage t r y)
  | _, _, y => y

/-- `explicit_preimage(phi, method='explicit')` (_base_kernel.py): then the transform of the sample is reverted. -/
def preimage (C : Cfg X S) (s : St X) (y : X) : X := C.unbase s.current (explicitPreimage C.layers s.inner y)

end Stacked
end Kerch
