import Verif.Model.Cache
import Mathlib.Data.Real.Basic
/-!
# Saving the state of a level on a kernel of a distance and loading it into another (kerch/monitor/Watcher.py:98-114, `torch.nn.Module.state_dict`, `load_state_dict`)

No class of /repo redefines what `torch.nn.Module` saves and loads: the parameters, each under its name. Everything else an object knows is not saved: whether the bandwidth is defined (kernel/distance/_distance.py:26, 61), and the cache.
`C` is what a sample contains, `D` what a dual parameter contains, `V` the values of the kernel matrix, `O` those of the output.
-/
namespace Kerch
namespace Restore

/-- What is given: the kernel with a bandwidth, its heuristic (distance/distance_squared.py:19-27) and the output of a level in dual (level/single_view/View.py, `forward`). -/
structure Fns (C D V O : Type) where
  kern : C → ℝ → V
  med : C → ℝ
  out : V → D → O

/-- A parameter: its shape and what it contains. -/
structure P (A : Type) where
  shape : List ℕ
  val : A

/-- A level: its parameters `_sample`, `_sigma`, `_dual_param`; `_sigma_defined`; the kernel matrix that is kept, if any. -/
structure St (C D V : Type) where
  sample : P C
  sigma : P ℝ
  dual : P D
  defined : Bool
  K : Option V

variable {C D V O : Type}

/-- The constructor (sample.py:53-70, _distance.py:25-34, _View.py:58-66): without bandwidth the parameter is a vector of one element, 1; with one, the shape is that of the number (`castf` with `tensor=False`, cast.py:24-45). -/
def St.init (sample : P C) (sigma : Option ℝ) (none : D) : St C D V where
  sample := sample
  sigma := match sigma with
    | some σ => ⟨[], σ⟩
    | Option.none => ⟨[1], 1⟩
  dual := ⟨[0], none⟩
  defined := sigma.isSome
  K := Option.none

/-- `sigma = σ` (_distance.py:58-63), which drops the kernel matrix. -/
def St.setSigma (s : St C D V) (σ : ℝ) : St C D V := { s with sigma := ⟨[], σ⟩, defined := true, K := none }

/-- Reading `sigma` (_distance.py:43-55): the heuristic is applied if nothing is defined. -/
def St.determine (f : Fns C D V O) (s : St C D V) : St C D V := if s.defined then s else s.setSigma (f.med s.sample.val)

/-- Reading the kernel matrix (kernel/kernel.py:173-193): what is kept if there is something, otherwise it is computed and kept. -/
def St.readK (f : Fns C D V O) (s : St C D V) : V × St C D V :=
  match s.K with
  | some v => (v, s)
  | none =>
    let s := s.determine f
    (f.kern s.sample.val s.sigma.val, { s with K := some (f.kern s.sample.val s.sigma.val) })

/-- What a level can be asked and told. -/
inductive Op (C D : Type)
  | readK
  | setSigma (σ : ℝ)
  | initSample (p : P C)
  | updateSample (c : C)
  | dual (p : P D)
  | reset

/-- One operation; `init_sample` (sample.py:157-205) and `update_sample` (207-236) drop what is kept, the assignment of the dual parameter (_View.py:189-213) does not concern the kernel matrix, `reset` (feature/cache.py) drops it. -/
def St.op (f : Fns C D V O) (s : St C D V) : Op C D → St C D V
  | .readK => (s.readK f).2
  | .setSigma σ => s.setSigma σ
  | .initSample p => { s with sample := p, K := none }
  | .updateSample c => { s with sample := ⟨s.sample.shape, c⟩, K := none }
  | .dual p => { s with dual := p }
  | .reset => { s with K := none }

/-- A history. -/
def St.run (f : Fns C D V O) (s : St C D V) (os : List (Op C D)) : St C D V := os.foldl (St.op f) s

/-- `torch.nn.Module._load_from_state_dict` for one parameter: a saved vector is reduced to its first element if the parameter is a number (the vectors here have one element); then the shapes have to agree, and the values are copied into the parameter.
Returns whether there was an error. -/
def loadP {A : Type} (p saved : P A) : Bool × P A :=
  let saved := if p.shape = [] ∧ saved.shape.length = 1 then ⟨[], saved.val⟩ else saved
  if saved.shape = p.shape then (false, ⟨p.shape, saved.val⟩) else (true, p)

/-- `b.load_state_dict(a.state_dict())`: all parameters that fit are loaded, and `RuntimeError` is raised in the end if one did not. -/
def load (b a : St C D V) : Except Err Unit × St C D V :=
  let r₁ := loadP b.sample a.sample
  let r₂ := loadP b.sigma a.sigma
  let r₃ := loadP b.dual a.dual
  (if r₁.1 || r₂.1 || r₃.1 then .error .runtimeError else .ok (), { b with sample := r₁.2, sigma := r₂.2, dual := r₃.2 })

/-- What a user sees of a level: the bandwidth, the kernel matrix, the output. -/
def St.observe (f : Fns C D V O) (s : St C D V) : ℝ × V × O := ((s.determine f).sigma.val, (s.readK f).1, f.out (s.readK f).1 s.dual.val)

end Restore
end Kerch
