import Verif.Model.Train
/-!
# The settings of a trainer and what a fit does with them (kerch/train/Trainer.py)

Modelled: the setters (with the values Python accepts in their checks), the order in which `fit` uses them, which learning rates the optimiser is made with, and the mode and the state in which the model
is left. The batches are those of `Train` (C56); the numbers computed by the steps are elsewhere (`Train.Opt`, `LSSVMDescent`).
-/
namespace Kerch
namespace TrainerSet

/-- Values that can be assigned: integers (booleans are 0 and 1), floating point numbers (as a fraction, also if integral), strings, anything else (`None`, lists, ...). -/
inductive PyVal
  | int (z : Int)
  | frac (p : Int) (q : Nat)
  | str (s : String)
  | other
  deriving DecidableEq, Repr

/-- The settings with a setter, apart from `batch_size` (see `Train.St`) and `use_gpu`. -/
inductive Key
  | problem | epochs | stiefelLr | euclideanLr | slowLr
  deriving DecidableEq, Repr

/-- Trainer.py:36-46 `problem`: a string (assertion of line 39), `'regression'`; `'classification'` is not implemented. -/
def checkProblem : PyVal → Except Err Unit
  | .str s => if s = "regression" then .ok () else if s = "classification" then .error .notImplemented else .error .assertionError
  | _ => .error .assertionError

/-- Trainer.py:56-59 `epochs`: `assert val > 0`; the comparison raises `TypeError` for what is not a number. -/
def checkEpochs : PyVal → Except Err Unit
  | .int z => if z > 0 then .ok () else .error .assertionError
  | .frac p _ => if p > 0 then .ok () else .error .assertionError
  | .str _ => .error .typeError
  | .other => .error .typeError

/-- Trainer.py:36-46, 56-59, 129-131, 140-142, 152-154: the checks of the setters; the learning rates have none. -/
def check : Key → PyVal → Except Err Unit
  | .problem, v => checkProblem v
  | .epochs, v => checkEpochs v
  | .stiefelLr, _ => .ok ()
  | .euclideanLr, _ => .ok ()
  | .slowLr, _ => .ok ()

/-- The attributes of the trainer (`_problem`, `_epochs`, ...), the learning rates in the groups of its optimiser if there is one (line 163; groups without parameters are left out, Optimizer.py:44-58),
the mode of the model and how often it was initialised. -/
structure St where
  vals : Key → PyVal
  opt : Option (List (Key × PyVal))
  training : Bool
  inits : Nat

/-- A setter: the value is assigned after the check. -/
def St.set (s : St) (k : Key) (v : PyVal) : Except Err Unit × St :=
  match check k v with
  | .ok () => (.ok (), { s with vals := fun k' => if k' = k then v else s.vals k' })
  | .error e => (.error e, s)

/-- Trainer.py:20-28, defaults of the constructor. -/
def defaults : Key → PyVal
  | .problem => .str "regression"
  | .epochs => .int 100
  | .stiefelLr => .frac 1 1000
  | .euclideanLr => .frac 1 1000
  | .slowLr => .frac 1 10000

/-- Trainer.py:17-31, the constructor: the values given (or the defaults) pass the setters in this order; the first refused one is raised and there is no trainer. The model is in training mode, as every
new module. -/
def construct (given : Key → Option PyVal) : Except Err St :=
  let v := fun k => (given k).getD (defaults k)
  [Key.problem, .epochs, .stiefelLr, .euclideanLr, .slowLr].foldlM (fun s k => match s.set k (v k) with
    | (.ok (), s) => .ok s
    | (.error e, _) => .error e) ⟨defaults, none, true, 0⟩

/-- Optimizer.py:44-58: the groups of the optimiser, in this order, for the kinds of parameters there are. -/
def groups (has : Key → Bool) (vals : Key → PyVal) : List (Key × PyVal) :=
  ([Key.euclideanLr, .slowLr, .stiefelLr].filter has).map fun k => (k, vals k)

/-- What can go wrong in `fit`, besides the settings: the initialisation of the model (lines 160-162), the watcher (line 193), a step or an evaluation (lines 204-225; `inEval`: while `_problem_loss` has put the
model in evaluation mode). -/
inductive Fault
  | init (e : Err)
  | watcher (e : Err)
  | loop (inEval : Bool) (e : Err)

/-- What a fit that returns has done: the number of epochs and the learning rates. -/
structure Run where
  epochs : Nat
  lrs : List (Key × PyVal)
  deriving DecidableEq

/-- Trainer.py:156-166, 178-229 `fit`; `range(self.epochs)` (line 182) raises `TypeError` for a number that is not an integer. -/
def St.fit (has : Key → Bool) (f : Option Fault) (s : St) : Except Err Run × St :=
  match f with
  | some (.init e) => (.error e, s)
  | f =>
    let s := { s with inits := s.inits + 1, opt := some (groups has s.vals), training := true }
    match s.vals .epochs with
    | .int z => match f with
      | some (.watcher e) => (.error e, s)
      | some (.loop inEval e) => (.error e, { s with training := !inEval })
      | _ => (.ok ⟨z.toNat, groups has s.vals⟩, { s with training := false })
    | _ => (.error .typeError, s)

/-- What the user does; exceptions are caught. -/
inductive Op
  | set (k : Key) (v : PyVal)
  | fit (f : Option Fault)
  | mode (training : Bool)

def St.step (has : Key → Bool) (s : St) : Op → St
  | .set k v => (s.set k v).2
  | .fit f => (s.fit has f).2
  | .mode b => { s with training := b }

def St.run (has : Key → Bool) (s : St) (ops : List Op) : St := ops.foldl (St.step has) s

end TrainerSet
end Kerch
