import Verif.Model.Data
import Mathlib.Data.Nat.Digits.Defs
/-!
# Watchers (kerch/monitor/Watcher.py, kerch/monitor/Saver.py)
-/
namespace Kerch
namespace Monitor

/-- The character of a decimal digit. -/
def digitChr (d : Nat) : Char := Char.ofNat (48 + d)

/-- The value of a decimal digit. -/
def chrDigit (c : Char) : Option Nat := if 48 ≤ c.toNat ∧ c.toNat ≤ 57 then some (c.toNat - 48) else none

/-- `str(n)` for a natural number. -/
def natStr (n : Nat) : List Char := if n = 0 then [digitChr 0] else ((Nat.digits 10 n).reverse.map digitChr)

/-- The epoch argument of `save_model`, whose documentation allows `None`. -/
inductive Epoch where
  | int : Int → Epoch
  | none : Epoch
  deriving DecidableEq

/-- `str(z)`. -/
def intStr (z : Int) : List Char := if z < 0 then '-' :: natStr z.natAbs else natStr z.natAbs

/-- `str(epoch)`. -/
def epochStr : Epoch → List Char
  | .int z => intStr z
  | .none => ['N', 'o', 'n', 'e']

/-- Digits to their value, `none` unless all are digits. -/
def parseDigits (acc : Nat) : List Char → Option Nat
  | [] => some acc
  | c :: t => match chrDigit c with
    | some d => parseDigits (10 * acc + d) t
    | none => none

/-- `int(s)` for an unsigned decimal. -/
def parseNat (l : List Char) : Option Nat := if l = [] then none else parseDigits 0 l

/-- `int(s)`: `none` stands for `ValueError`. Simplified: Python also accepts surrounding blanks and underscores between digits, which do not occur in the
names written by `save_model`. -/
def parseInt : List Char → Option Int
  | '-' :: t => (parseNat t).map fun n => -(n : Int)
  | '+' :: t => (parseNat t).map fun n => (n : Int)
  | l => (parseNat l).map fun n => (n : Int)

/-- The prefix `'epoch-'`. -/
def pre : List Char := ['e', 'p', 'o', 'c', 'h', '-']

/-- The suffix `'.pth'`. -/
def suf : List Char := ['.', 'p', 't', 'h']

/-- Watcher.py:111-112, the name of a checkpoint. -/
def fileName (e : Epoch) : List Char := pre ++ epochStr e ++ suf

/-- The directory `_dir_model`, `none` as long as it does not exist: file names and their content. -/
abbrev Dir (σ : Type) := Option (Dict (List Char) σ)

/-- Watcher.py:99-114 `save_model`, `content` being the state dictionary of the model. Returns the file name. -/
def saveModel {σ : Type} (d : Dir σ) (e : Epoch) (content : σ) : List Char × Dir σ :=
  (fileName e, some ((d.getD []).set (fileName e) content))

/-- Line 124, `int(file[len('epoch-'):-len('.pth')])`. -/
def fileEpoch (f : List Char) : Option Int := parseInt (Data.pySlice f 6 (-4))

/-- Line 124, `max` over the files; `none` for `ValueError` (a name that cannot be read, or no file). -/
def maxEpoch : List (List Char) → Option Int
  | [] => none
  | [f] => fileEpoch f
  | f :: t => match fileEpoch f, maxEpoch t with
    | some a, some b => some (max a b)
    | _, _ => none

/-- Watcher.py:116-129 `finish`: the file kept and the directory left. `os.listdir` raises `FileNotFoundError` (an `OSError`) without directory. -/
def finish {σ : Type} (d : Dir σ) : Except Err (List Char) × Dir σ :=
  match d with
  | none => (.error .osError, none)
  | some fs =>
    match maxEpoch fs.keys with
    | none => (.error .valueError, some fs)
    | some m =>
      let last := fileName (.int m)
      (.ok last, some ((fs.keys.filter (· ≠ last)).foldl Dict.pop fs))

/-- Saver.py:13-21 `update` with `num_epochs_save = m`. -/
def update {σ : Type} (m : Nat) (d : Dir σ) (epoch : Nat) (content : σ) : Except Err (Dir σ) :=
  if m = 0 then .error .zeroDivision
  else if epoch % m = 0 then .ok (saveModel d (.int epoch) content).2 else .ok d

/-- Trainer.py:204-227, the updates of the epochs `0, …, n-1` with the contents of the model at these, `content k` after epoch `k`. -/
def runUpdates {σ : Type} (m : Nat) (content : Nat → σ) : Nat → Except Err (Dir σ)
  | 0 => .ok none
  | n + 1 => match runUpdates m content n with
    | .ok d => update m d n (content n)
    | .error e => .error e

/-- Watcher.py:34-40, the keyword arguments beyond `model`, `opt`, `expe_name` and `verbose`: line 35 passes them all to `object.__init__`, which accepts
none; the result is `num_epochs_save`. -/
def watcherInit (kwargs : List (String × Nat)) : Except Err Nat :=
  if kwargs = [] then .ok 1 else .error .typeError

end Monitor
end Kerch
