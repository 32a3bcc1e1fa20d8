import Verif.Model.Cache
import Mathlib.Data.List.Basic
import Mathlib.Logic.Function.Basic
/-!
# The parameters an optimiser holds (kerch/opt/Optimizer.py:32-63) and those of a level (kerch/level/_View.py, kerch/level/single_view/View.py, kerch/feature/sample.py)

Parameters are objects: an assignment to a level either writes into the parameter object that is there or puts a new one in its place, and the optimiser goes on changing the objects it was given.
Objects are numbered in the order of their creation. `C` is what a tensor contains; what does not matter here is left out (gradients, the values of what is initialised at random).
-/
namespace Kerch
namespace Handles

/-- The attributes of a level that hold a parameter: `_dual_param`, `_primal_param`, `_weight`, `_sample`, `_sigma`, `_bias`. -/
inductive Slot
  | dual
  | primal
  | weight
  | sample
  | sigma
  | bias
  deriving DecidableEq

/-- A `torch.nn.Parameter`. -/
structure Par (C : Type) where
  shape : ℕ × ℕ
  content : C
  rg : Bool

/-- `nelement() != 0`. -/
def Par.full {C : Type} (p : Par C) : Bool := p.shape.1 * p.shape.2 ≠ 0

/-- `ref`: which object each attribute is; `heap`: the objects; `next`: their number; `held`: those of the optimiser; `level`, `samp`: `level_trainable`, `sample_trainable`;
`primal`: the representation; `lssvm`: LSSVM rather than KPCA; `empty`: what an empty tensor contains. -/
structure St (C : Type) where
  ref : Slot → ℕ
  heap : ℕ → Par C
  next : ℕ
  held : List ℕ
  level : Bool
  samp : Bool
  primal : Bool
  lssvm : Bool
  empty : C

variable {C : Type}

/-- The parameter of an attribute. -/
def St.get (s : St C) (x : Slot) : Par C := s.heap (s.ref x)

/-- A new object in an attribute. -/
def St.put (s : St C) (x : Slot) (p : Par C) : St C :=
  { s with ref := Function.update s.ref x s.next, heap := Function.update s.heap s.next p, next := s.next + 1 }

/-- Writing into the object of an attribute. -/
def St.write (s : St C) (x : Slot) (sh : ℕ × ℕ) (c : C) : St C :=
  { s with heap := Function.update s.heap (s.ref x) { s.get x with shape := sh, content := c } }

/-- `_reset_dual` (_View.py:78-81). -/
def St.resetDual (s : St C) : St C := s.put .dual ⟨(0, 0), s.empty, (s.get .dual).rg⟩

/-- `_reset_primal` (View.py:112-115): it assigns `_weight`, `_primal_param` stays. -/
def St.resetPrimal (s : St C) : St C := s.put .weight ⟨(0, 0), s.empty, (s.get .primal).rg⟩

/-- What is assigned. Shapes are those of the stored tensors (components as rows). -/
inductive Op (C : Type)
  | dual (sh : ℕ × ℕ) (c : C)
  | noDual
  | updateDual (sh : ℕ × ℕ) (c : C)
  | primal (sh : ℕ × ℕ) (c : C)
  | noPrimal
  | dim
  | initSample (sh : ℕ × ℕ) (c : C)
  | updateSample (c : C)
  | sigma (c : C)
  | bias (n : ℕ) (c : C)
  | optimiser
  | step (u : ℕ → C → C)

/-- `dual_param = val` (_View.py:189-213). -/
def St.setDual (s : St C) (sh : ℕ × ℕ) (c : C) : St C :=
  (if (s.get .dual).full ∧ sh = (s.get .dual).shape then s.write .dual sh c else s.put .dual ⟨sh, c, s.level⟩).resetPrimal

/-- `primal_param = val` (_View.py:269-292), not attached; line 280 compares the shape of the stored tensor with that of `val`, whose transpose is then copied into the stored tensor: with
shapes that are not square the copy raises (`copy_` does not broadcast one into the other), after the dual parameter has been dropped. -/
def St.setPrimal (s : St C) (sh : ℕ × ℕ) (c : C) : St C :=
  let s := s.resetDual
  if (s.get .primal).full ∧ (s.get .primal).shape = (sh.2, sh.1) then
    if sh.1 = sh.2 then s.write .primal sh c else s
  else s.put .primal ⟨sh, c, s.level⟩

/-- What a level hands to the optimiser: sample.py:239-241 (if it has elements), _distance.py:96-98, _KPCA.py:193-202 (the parameter of the representation, if it has elements), LSSVM.py:103-112 (in primal `_weight`). -/
def St.yields (s : St C) : List ℕ :=
  (if (s.get .sample).full then [s.ref .sample] else []) ++ [s.ref .sigma] ++
    if s.primal then
      if (s.get .primal).full then (if s.lssvm then [s.ref .weight, s.ref .bias] else [s.ref .primal]) else []
    else if (s.get .dual).full then (if s.lssvm then [s.ref .dual, s.ref .bias] else [s.ref .dual]) else []

/-- One operation. `updateDual` is `update_dual` (_View.py:176-187), which initialises (lines 87-93) if there is nothing; what it copies has the stored shape here; `noDual` and `noPrimal` are
the assignments of `None` (lines 210-213, 290-292); `dim` is `dim_output = …` (_View.py:157-161);
`sigma` writes `.data` (_distance.py:63), as `update_sample` does (sample.py:207-232); `bias` is View.py:129-150, for a view without `requires_bias`, the only ones there are (C100), hence without gradient.
The optimiser keeps the parameters that require a gradient (Optimizer.py:19-25, 36-63) and changes each one it holds in place. -/
def St.op (s : St C) : Op C → St C
  | .dual sh c => s.setDual sh c
  | .noDual => s.resetDual.resetPrimal
  | .updateDual sh c =>
    let s := if (s.get .dual).full then s else s.setDual sh c
    (s.write .dual (s.get .dual).shape c).resetPrimal
  | .primal sh c => s.setPrimal sh c
  | .noPrimal => s.resetDual.resetPrimal
  | .dim => s.resetPrimal.resetDual
  | .initSample sh c => s.put .sample ⟨sh, c, s.samp⟩
  | .updateSample c => if (s.get .sample).full then s.write .sample (s.get .sample).shape c else s
  | .sigma c => s.write .sigma (s.get .sigma).shape c
  | .bias n c => if (s.get .bias).full then s.write .bias (1, n) c else s.put .bias ⟨(1, n), c, false⟩
  | .optimiser => { s with held := s.yields.filter fun i => (s.heap i).rg }
  | .step u => { s with heap := fun i => if i ∈ s.held then { s.heap i with content := u i (s.heap i).content } else s.heap i }

/-- A history. -/
def St.run (s : St C) (os : List (Op C)) : St C := os.foldl St.op s

/-- A level that has just been constructed, without parameters, with a sample and a bandwidth (_View.py:58-60, View.py:68-69, sample.py:53-70, _distance.py:32); without a given `weight`, so that `_weight` exists). -/
def St.init (level samp sigT primal lssvm : Bool) (empty : C) (sh : ℕ × ℕ) (X σ : C) : St C where
  ref x := match x with | .dual => 0 | .primal => 1 | .weight => 2 | .sample => 3 | .sigma => 4 | .bias => 5
  heap i :=
    if i < 3 then ⟨(0, 0), empty, level⟩ else if i = 3 then ⟨sh, X, samp⟩ else if i = 4 then ⟨(1, 1), σ, sigT⟩ else ⟨(0, 0), empty, false⟩
  next := 6
  held := []
  level := level
  samp := samp
  primal := primal
  lssvm := lssvm
  empty := empty

end Handles
end Kerch
