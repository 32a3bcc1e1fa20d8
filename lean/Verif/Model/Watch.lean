import Verif.Model.HParams
/-!
# Watched properties (kerch/level/_Level.py:44-57, 152-164, kerch/model/Model.py:80-86)

Tensors are read by reference: `val.data.detach()` shares the memory of `val`, and `.cpu()` copies only what lies on another device. The list given by the user is kept by
reference as well. What is in these two memories is the state here; the rest of a level is the table of its attributes.
-/
namespace Kerch
namespace Watch

/-- Names of attributes. -/
abbrev Name := List Char

/-- A value read from an attribute: a tensor (given by its storage) or anything else. -/
inductive Val (V : Type) where
  | tensor (loc : Nat)
  | plain (v : V)

/-- The memory of tensors and of python lists. -/
structure World (V : Type) where
  mem : Nat → V
  lists : Nat → List Name

/-- A level: the name of its class, whether its tensors are on the cpu, its attributes (`none`: not in `dir(self)`; a property is evaluated in the current memory and
may raise), and the list object `_watch_properties`. A property that computes a new tensor is a plain value: nothing else holds its storage. -/
structure Lvl (V : Type) where
  cls : Name
  cpu : Bool
  attr : Name → Option (World V → Except Err (Val V))
  watch : Nat

/-- What is given to the setter: a list object or something else. -/
inductive Arg where
  | list (ref : Nat)
  | other

/-- _Level.py:52-57: the setter of `watch_properties`. -/
def setWatch {V : Type} (w : World V) (a : Arg) (l : Lvl V) : Except Err Unit × Lvl V :=
  match a with
  | .other => (.error .assertionError, l)
  | .list r => if (w.lists r).all fun n => (l.attr n).isSome then (.ok (), { l with watch := r }) else (.error .assertionError, l)

/-- _Level.py:160-161: `val.data.detach().cpu()` for a tensor. -/
def detached {V : Type} (w : World V) (cpu : Bool) : Val V → Val V
  | .plain v => .plain v
  | .tensor loc => if cpu then .tensor loc else .plain (w.mem loc)

/-- _Level.py:159: `getattr(self, name)`. -/
def getattr {V : Type} (w : World V) (l : Lvl V) (n : Name) : Except Err (Val V) :=
  match l.attr n with
  | none => .error .attributeError
  | some f => f w

/-- _Level.py:157-164: the loop of `watched_properties`. -/
def readFrom {V : Type} (w : World V) (l : Lvl V) (props : Dict Name (Val V)) : List Name → Except Err (Dict Name (Val V))
  | [] => .ok props
  | n :: ns => match getattr w l n with
    | .error e => .error e
    | .ok v => readFrom w l (props.set n (detached w l.cpu v)) ns

/-- _Level.py:152-164. -/
def watched {V : Type} (w : World V) (l : Lvl V) : Except Err (Dict Name (Val V)) := readFrom w l [] (w.lists l.watch)

/-- Model.py:80-86 (the dictionaries are merged as those of the hyper-parameters). -/
def modelWatched {V : Type} (w : World V) (levels : List (Lvl V)) : Except Err (Dict Name (Val V)) :=
  HParams.modelFixed (levels.map fun l => (l.cls, watched w l))

/-- What a value that was read before shows now. -/
def shown {V : Type} (w : World V) : Val V → V
  | .tensor loc => w.mem loc
  | .plain v => v

/-- What happens to a model between two reports. -/
inductive Op (V : Type) where
  /-- `level.watch_properties = a` -/
  | assign (i : Nat) (a : Arg)
  /-- a storage is written in place: a step of the optimiser, `load_state_dict`, `copy_` -/
  | write (loc : Nat) (v : V)
  /-- an attribute of a level is given another value (`torch.nn.Parameter`s and properties with a setter included) -/
  | bind (i : Nat) (n : Name) (f : World V → Except Err (Val V))
  /-- the user changes a list they hold -/
  | edit (ref : Nat) (ns : List Name)

/-- The levels of a model with the memory. -/
structure St (V : Type) where
  world : World V
  levels : List (Lvl V)

/-- One of these operations. -/
def step {V : Type} (s : St V) : Op V → St V
  | .assign i a => { s with levels := s.levels.modify i fun l => (setWatch s.world a l).2 }
  | .write loc v => { s with world := { s.world with mem := fun j => if j = loc then v else s.world.mem j } }
  | .bind i n f => { s with levels := s.levels.modify i fun l => { l with attr := fun m => if m = n then some f else l.attr m } }
  | .edit r ns => { s with world := { s.world with lists := fun j => if j = r then ns else s.world.lists j } }

/-- A history. -/
def run {V : Type} (s : St V) (ops : List (Op V)) : St V := ops.foldl step s

end Watch
end Kerch
