import Verif.Model.Data
import Verif.Model.Cache
/-!
# Experiments described by a file (script/expe.py, script/_parser.py, monitor/Watcher.py)

The parsing of the command line and of yaml are by contract; factories, trainer and training are arguments.
-/
namespace Kerch
namespace Script

variable {V D M T R : Type}

/-- What a run uses: reading a yaml file (its content: `none` if it is empty, otherwise its sections, `none` for one that is empty; other contents are not modelled), the factories (script/expe.py:15, 19),
the constructor of the trainer with the section as further keywords (lines 23-24) and its `fit` (line 28). -/
structure Env (V D M T R : Type) where
  load : List Char → Except Err (Option (Dict String (Option (Dict String V))))
  data : Dict String V → Except Err D
  model : Dict String V → Except Err M
  trainer : M → D → Bool → List Char → Dict String V → Except Err T
  fit : T → Except Err R

/-- What was called, with which keywords. -/
inductive Ev (V : Type)
  | data (kw : Dict String V)
  | model (kw : Dict String V)
  | trainer (name : List Char) (kw : Dict String V)
  | fit

/-- `expe_kwargs[key]` unpacked with `**`: a missing section raises `KeyError`, an empty one `TypeError`. -/
def part (c : Dict String (Option (Dict String V))) (key : String) : Except Err (Dict String V) :=
  match c.find key with
  | none => .error .keyError
  | some none => .error .typeError
  | some (some d) => .ok d

/-- script/expe.py:10 `filename[:-len('.yaml')]`. -/
def expeName (filename : List Char) : List Char := Data.pySlice filename 0 (-5)

/-- The keywords given by the script itself (script/expe.py:23): the same in the section raises `TypeError`. -/
def given : List String := ["model", "learning_set", "verbose", "expe_name"]

/-- script/expe.py:6-29 `run` and _parser.py:32-34 `get_kwargs` (`open(None)` raises `TypeError`; nothing can be read from an empty file). Messages are not modelled. -/
def run (E : Env V D M T R) (filename : Option (List Char)) (verbose : Bool) : Except Err R × List (Ev V) :=
  match filename with
  | none => (.error .typeError, [])
  | some f => match E.load f with
    | .error e => (.error e, [])
    | .ok none => (.error .typeError, [])
    | .ok (some c) =>
      match part c "data" with
      | .error e => (.error e, [])
      | .ok d => match E.data d with
        | .error e => (.error e, [.data d])
        | .ok dataset => match part c "model" with
          | .error e => (.error e, [.data d])
          | .ok m => match E.model m with
            | .error e => (.error e, [.data d, .model m])
            | .ok mdl => match part c "train" with
              | .error e => (.error e, [.data d, .model m])
              | .ok t =>
                if t.keys.any (given.contains ·) then (.error .typeError, [.data d, .model m])
                else match E.trainer mdl dataset verbose (expeName f) t with
                  | .error e => (.error e, [.data d, .model m, .trainer (expeName f) t])
                  | .ok tr => (E.fit tr, [.data d, .model m, .trainer (expeName f) t, .fit])

/-- `os.path.join(a, b)` (posixpath): an absolute `b` replaces `a`. -/
def pathJoin (a b : List Char) : List Char :=
  if b.head? = some '/' then b
  else if a = [] ∨ a.getLast? = some '/' then a ++ b
  else a ++ '/' :: b

/-- monitor/Watcher.py:52 `_dir_project`, where everything about a run is written, from the name of the experiment and the identifier of the run. -/
def dirProject (name id : List Char) : List Char := pathJoin (pathJoin ['k', 'e', 'r', 'c', 'h'] name) id

end Script
end Kerch
