import Verif.Model.Monitor
/-!
# Interrupted and concurrent monitored runs (kerch/monitor/Watcher.py)

`Verif/Model/Monitor.lean` has `save_model` and `finish` as single actions. Here they are cut into the actions on the file system, between any two of which a run may
be interrupted (an exception such as `KeyboardInterrupt` or a full disk, or the end of the process) or another run may act.
-/
namespace Kerch
namespace Crash
open Monitor

/-- A file: complete, or cut (`torch.save` opens the file for writing, which empties it, then writes). -/
inductive Content (σ : Type) where
  | whole (c : σ)
  | cut

/-- The directory `_dir_model`. -/
abbrev Disk (σ : Type) := Dir (Content σ)

/-- Actions on the directory: Watcher.py:108-109 (test and creation taken together), `torch.save` of line 113 in two, `os.remove` of line 128. -/
inductive Micro (σ : Type) where
  | mkdir
  | openF (f : List Char)
  | write (f : List Char) (c : σ)
  | remove (f : List Char)

/-- One action. Opening or removing what is not there raises `FileNotFoundError`. -/
def exec1 {σ : Type} : Disk σ → Micro σ → Except Err (Disk σ)
  | d, .mkdir => .ok (some (d.getD []))
  | none, _ => .error .osError
  | some fs, .openF f => .ok (some (fs.set f .cut))
  | some fs, .write f c => .ok (some (fs.set f (.whole c)))
  | some fs, .remove f => if fs.has f then .ok (some (fs.pop f)) else .error .osError

/-- A list of actions; the first exception ends it. -/
def exec {σ : Type} (d : Disk σ) : List (Micro σ) → Except Err (Disk σ)
  | [] => .ok d
  | a :: t => match exec1 d a with
    | .ok d' => exec d' t
    | .error e => .error e

/-- Watcher.py:99-114 `save_model`. -/
def saveSteps {σ : Type} (s : Int × σ) : List (Micro σ) := [.mkdir, .openF (fileName (.int s.1)), .write (fileName (.int s.1)) s.2]

/-- Watcher.py:123-127: the file kept and the removals; line 126 makes a set, which is iterated in any order `ord`. -/
def finishPlan {σ : Type} (ord : List (List Char) → List (List Char)) : Disk σ → Except Err (List Char × List (Micro σ))
  | none => .error .osError
  | some fs => match maxEpoch fs.keys with
    | none => .error .valueError
    | some m => .ok (fileName (.int m), (ord (fs.keys.filter (· ≠ fileName (.int m)))).map .remove)

/-- Watcher.py:116-129 `finish`, not interrupted. -/
def finishAll {σ : Type} (ord : List (List Char) → List (List Char)) (d : Disk σ) : Except Err (List Char × Disk σ) :=
  match finishPlan ord d with
  | .error e => .error e
  | .ok (last, steps) => match exec d steps with
    | .error e => .error e
    | .ok d' => .ok (last, d')

/-! ## The directory of a run -/

/-- `datetime.now()`. -/
structure Time where
  year : Nat
  month : Fin 12
  day : Nat
  hour : Nat
  minute : Nat
  second : Nat

/-- A time of a calendar. -/
def Time.Valid (t : Time) : Prop := t.day < 100 ∧ t.hour < 100 ∧ t.minute < 100 ∧ t.second < 100

/-- `%b`, in the default locale. -/
def mon (m : Fin 12) : List Char :=
  match m with
  | 0 => ['J', 'a', 'n'] | 1 => ['F', 'e', 'b'] | 2 => ['M', 'a', 'r'] | 3 => ['A', 'p', 'r'] | 4 => ['M', 'a', 'y'] | 5 => ['J', 'u', 'n']
  | 6 => ['J', 'u', 'l'] | 7 => ['A', 'u', 'g'] | 8 => ['S', 'e', 'p'] | 9 => ['O', 'c', 't'] | 10 => ['N', 'o', 'v'] | 11 => ['D', 'e', 'c']

/-- `%d`, `%H`, `%M`, `%S`: two digits. -/
def two (d : Nat) : List Char := [digitChr (d / 10), digitChr (d % 10)]

/-- Watcher.py:47-48, the identifier: `strftime('%b%d_%H-%M-%S') + '_' + gethostname()`. -/
def ident (t : Time) (host : List Char) : List Char :=
  mon t.month ++ two t.day ++ ['_'] ++ two t.hour ++ ['-'] ++ two t.minute ++ ['-'] ++ two t.second ++ ['_'] ++ host

/-- Watcher.py:52-53, the path of `_dir_model`, as the list of its parts (simplified: `os.path.join` for an experiment name that is neither empty nor contains a separator). -/
def dirModel (expe : List Char) (t : Time) (host : List Char) : List (List Char) := [['k', 'e', 'r', 'c', 'h'], expe, ident t host, ['m', 'o', 'd', 'e', 'l']]

/-- The file system: the content of each directory. -/
abbrev FS (σ : Type) := List (List Char) → Disk σ

/-- One action in a directory, an exception leaving it as it is. -/
def act {σ : Type} (fs : FS σ) (p : List (List Char)) (a : Disk σ → Except Err (Disk σ)) : FS σ :=
  match a (fs p) with
  | .ok d => fun p' => if p' = p then d else fs p'
  | .error _ => fs

/-- Several runs: the schedule tells for each action the directory of the run it belongs to. -/
def sched {σ : Type} (fs : FS σ) : List (List (List Char) × (Disk σ → Except Err (Disk σ))) → FS σ
  | [] => fs
  | (p, a) :: t => sched (act fs p a) t

end Crash
end Kerch
