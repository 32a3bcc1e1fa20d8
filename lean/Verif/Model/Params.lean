import Verif.Model.Cache
/-!
# Parameters by manifold (kerch/feature/module.py:49-139 and the overrides)

Each kind of parameters is produced by a generator method overridden along the class hierarchy. A *layer* is what one class of the hierarchy
contributes; the last one is `Module`'s, which goes through the children.
-/
namespace Kerch

/-- module.py:130-132, the three kinds. -/
inductive PKind
  | euclidean | stiefel | slow
  deriving DecidableEq, Repr

/-- The override of one class: the parameters it yields itself (`none`: an attribute that does not exist, reading it raises
`AttributeError`), whether `super()` comes first, and whether the generator of `super()` is consumed (`yield from`) or merely created. -/
structure PLayer where
  own : List (Option Nat)
  superFirst : Bool
  yieldsSuper : Bool

/-- A `torch.nn.Module`: whether it is a kerch `Module`; its layers for each kind, the most derived class first; whether it is a `Model`
(which replaces the recursion by a loop over its levels, model/Model.py:159-169); its children (its levels for a `Model`).
Parameters are identified by numbers (Python's object identity). -/
inductive PTree
  | node (isModule : Bool) (layers : PKind → List PLayer) (isModel : Bool) (children : List PTree)

namespace PTree

def isModule : PTree → Bool
  | .node b _ _ _ => b
def layers : PTree → PKind → List PLayer
  | .node _ l _ _ => l
def children : PTree → List PTree
  | .node _ _ _ ch => ch

/-- The nested generators; `base` is what `Module`'s own generator yields. -/
def genLayers (base : List (Option Nat)) : List PLayer → List (Option Nat)
  | [] => base
  | l :: ls =>
    let sup := if l.yieldsSuper then genLayers base ls else []
    if l.superFirst then sup ++ l.own else l.own ++ sup

mutual
/-- `_euclidean_parameters` / `_stiefel_parameters` / `_slow_parameters`: everything the generator would yield, `none` being the place where it
raises `AttributeError`. -/
def gen (k : PKind) (recurse : Bool) : PTree → List (Option Nat)
  | .node _ l isModel ch =>
    genLayers (if isModel then genLevels k recurse ch else if recurse then genChildren k recurse ch else []) (l k)
/-- module.py:60-63, 78-81, 97-100. -/
def genChildren (k : PKind) (recurse : Bool) : List PTree → List (Option Nat)
  | [] => []
  | t :: ts => (if t.isModule then gen k recurse t else []) ++ genChildren k recurse ts
/-- model/Model.py:159-169. -/
def genLevels (k : PKind) (recurse : Bool) : List PTree → List (Option Nat)
  | [] => []
  | t :: ts => gen k recurse t ++ genLevels k recurse ts
end

/-- module.py:135-139, the loop with the memo: what has been yielded and how the loop ended. -/
def collect (memo : List Nat) : List (Option Nat) → List Nat × Except Err Unit
  | [] => ([], .ok ())
  | none :: _ => ([], .error .attributeError)
  | some p :: ps =>
    if p ∈ memo then collect memo ps
    else
      let r := collect (p :: memo) ps
      (p :: r.1, r.2)

/-- module.py:130-133, the switcher. -/
def kindOf (s : String) : Option PKind :=
  if s = "euclidean" then some .euclidean else if s = "stiefel" then some .stiefel else if s = "slow" then some .slow else none

/-- module.py:102-139 `manifold_parameters`: for an unknown name `gen` is a string, and calling it raises `TypeError`. -/
def manifoldParameters (t : PTree) (recurse : Bool) (type : String) : List Nat × Except Err Unit :=
  match kindOf type with
  | none => ([], .error .typeError)
  | some k => collect [] (gen k recurse t)

/-! ### The overrides present in the code -/

/-- feature/sample.py:241-244. -/
def sampleLayer (sample : Option Nat) : PLayer := ⟨(sample.toList).map some, false, true⟩

/-- level/_KPCA.py:193-201 (`param`: the primal or dual parameter, if it exists). -/
def kpcaLayer (param : Option Nat) : PLayer := ⟨param.toList.map some, true, true⟩

/-- level/_PPCA.py:297-304: the generator of `super()` is created (of the wrong kind at that) but not consumed. -/
def ppcaLayer (param : Option Nat) : PLayer := ⟨param.toList.map some, true, false⟩

/-- kernel/network/explicit_nn.py:101-106. -/
def explicitNNLayer (trainable : Bool) (network : List Nat) : PLayer :=
  ⟨if trainable then network.map some else [], false, false⟩

/-- kernel/network/implicit_nn.py:57-59. -/
def implicitNNLayer (network : List Nat) : PLayer := ⟨network.map some, false, true⟩

/-- level/single_view/LSSVM.py:103-112; in primal, `_weight` exists only after View.py:112-115 `_reset_primal`. -/
def lssvmLayer (primal : Bool) (exists_ : Bool) (weight : Option Nat) (dual bias : Nat) : PLayer :=
  ⟨if exists_ then (if primal then [weight, some bias] else [some dual, some bias]) else [], true, true⟩

/-- kernel/distance/_distance.py:96-98. -/
def distanceLayer (sigma : Nat) : PLayer := ⟨[some sigma], true, true⟩

/-- kernel/generic/polynomial.py:223-226, kernel/vision/skewed_chi_2.py:77-79, kernel/time/hat.py:102-104,
kernel/time/indicator.py:142-145. -/
def hyperLayer (ps : List Nat) : PLayer := ⟨ps.map some, false, true⟩

/-- Following child positions. -/
def sub : PTree → List Nat → Option PTree
  | t, [] => some t
  | t, i :: p => match t.children[i]? with
    | none => none
    | some t' => sub t' p

end PTree
end Kerch
