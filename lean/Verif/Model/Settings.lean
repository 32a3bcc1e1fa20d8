import Mathlib.Data.List.Basic
import Mathlib.Data.Int.Notation
import Verif.Model.Cache
/-!
# Logging levels and package-wide settings (kerch/feature/logger.py, kerch/feature/module.py:33-47, kerch/utils/type.py, kerch/__init__.py)
-/
namespace Kerch
namespace Settings

/-- logger.py:38-45: the name of the logger of an object, from the argument `logger_name` and the name of its class. -/
def logName (loggerName : Option String) (cls : String) : String :=
  match loggerName with
  | some l => if cls ≠ "Logger" then l ++ " " ++ cls else l
  | none => cls

/-- An object: its identity and the name of its logger. -/
structure Obj where
  id : ℕ
  name : String
  deriving DecidableEq

/-- An object with its children (module.py:45-47, `children()`; those that are not loggers are skipped, and not represented). -/
inductive Tree
  | node (o : Obj) (children : List Tree)

mutual
/-- The objects a change of level reaches, in order (module.py:40-47). -/
def Tree.objs : Tree → List Obj
  | .node o cs => o :: Tree.objsList cs
def Tree.objsList : List Tree → List Obj
  | [] => []
  | t :: ts => t.objs ++ Tree.objsList ts
end

/-- The global level `_GLOBALS["LOG_LEVEL"]` and the levels of the loggers of `logging.getLogger`, one per *name*. -/
structure LogSt where
  glob : ℤ
  lev : String → ℤ

/-- kerch/__init__.py:11 and logger.py:102: the level is `WARNING`, also for the logger `"global"`; the others are created at `NOTSET`. -/
def LogSt.init : LogSt := ⟨30, fun s => if s = "global" then 30 else 0⟩

/-- logger.py:95-99 and module.py:40-47: the level given, or the global one, is set on the logger of the object and on those of its offspring. -/
def LogSt.set (s : LogSt) (os : List Obj) (level : Option ℤ) : LogSt :=
  os.foldl (fun s o => { s with lev := fun nm => if nm = o.name then level.getD s.glob else s.lev nm }) s

inductive LogOp
  /-- Instantiation (logger.py:47-49). -/
  | create (o : Obj) (level : Option ℤ)
  /-- Assignment of `logging_level`. -/
  | assign (t : Tree) (level : Option ℤ)
  /-- logger.py:105-129 `set_logging_level`. -/
  | setGlobal (level : ℤ)

def LogSt.step (s : LogSt) : LogOp → LogSt
  | .create o level => s.set [o] level
  | .assign t level => s.set t.objs level
  | .setGlobal level => { glob := level, lev := fun nm => if nm = "global" then level else s.lev nm }

def LogSt.run (s : LogSt) (ops : List LogOp) : LogSt := ops.foldl LogSt.step s

/-- logger.py:86-93 `logging_level`. -/
def LogSt.read (s : LogSt) (o : Obj) : ℤ := s.lev o.name

/-! ### Settings copied by the modules that import them -/

/-- The current value of a setting (`utils.type.FTYPE`, `ITYPE`, `EPS`) and the copies held by the modules that import the value by name
(cast.py:4, rff.py:15, random_features.py:16, datasets.py:6, transform/all/Sphere.py:4, MinMaxNormalization.py:4, Variance.py:2, kerch/__init__.py:33-37). Modules
are loaded when first used (`lazy_loader`). -/
structure VarSt (V : Type) where
  cur : V
  copies : List (String × V)

inductive VarOp (V : Type)
  /-- type.py:17-35, 37-57, 60-75 `set_ftype`, `set_itype`, `set_eps`; `none`: an argument that is refused by the assertion. -/
  | set (v : Option V)
  /-- A module is loaded, explicitly or because something of it is used. -/
  | load (m : String)

variable {V : Type}

def VarSt.copy (s : VarSt V) (m : String) : Option V := (s.copies.find? fun e => e.1 = m).map Prod.snd

def VarSt.load (s : VarSt V) (m : String) : VarSt V :=
  match s.copy m with
  | some _ => s
  | none => { s with copies := (m, s.cur) :: s.copies }

def VarSt.step (s : VarSt V) : VarOp V → VarSt V
  | .set (some v) => { s with cur := v }
  | .set none => s
  | .load m => s.load m

def VarSt.run (s : VarSt V) (ops : List (VarOp V)) : VarSt V := ops.foldl VarSt.step s

/-- `import kerch`: kerch/__init__.py:33-37 copies the value in the package, the rest is loaded lazily. -/
def VarSt.init (v : V) : VarSt V := ⟨v, [("kerch", v)]⟩

/-- The value a function of module `m` uses, `m` importing the value by name: the module is loaded if it is not yet. -/
def VarSt.useCopy (s : VarSt V) (m : String) : V := ((s.load m).copy m).getD s.cur

/-- The value used through the package (`utils.FTYPE`, `utils.EPS`: looked up at each use). -/
def VarSt.useLive (s : VarSt V) : V := s.cur

end Settings
end Kerch
