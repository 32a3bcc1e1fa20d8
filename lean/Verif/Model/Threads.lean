import Verif.Model.Cache
/-!
# Several threads using the same object (kerch/feature/cache.py:131-133, 167-180, 197-210, 297-313)

CPython switches threads between two instructions of the interpreter. A step below is one access to what the threads share: reading the attribute `_cache` (the object in it is replaced by
a full reset), one operation of a dictionary, reading or writing the inputs (sample, hyper-parameters). All else is private to a thread. There is no lock in the code.
-/
namespace Kerch
namespace Threads

variable {σ κ α : Type} [DecidableEq κ]

/-- The function given to `_get`, as far as it concerns others: it reads the inputs, asks for other elements through `_get`, and returns. -/
inductive Prog (σ κ α : Type) where
  | ret (v : α)
  | read (f : σ → Prog σ κ α)
  | get (k : κ) (f : α → Prog σ κ α)

/-- What does not change: the function of each key, whether its level allows to keep it (or `force`), whether it persists. -/
structure Cfg (σ κ α : Type) where
  prog : κ → Prog σ κ α
  keep : κ → Bool
  pers : κ → Bool

/-- What the threads share: the inputs, all dictionaries that ever were in `_cache`, numbered in
the order of their creation, and the one in it now. An entry is `(persisting, val)`. -/
structure Mem (σ κ α : Type) where
  inp : σ
  dicts : Nat → Dict κ (Bool × α)
  cur : Nat

/-- The parts of the calls below. -/
inductive Instr (σ κ α : Type) where
  /-- cache.py:167-180 `_get` -/
  | eval (k : κ)
  /-- an assignment to `.data` of the sample or a hyper-parameter -/
  | write (u : σ → σ)
  /-- cache.py:203, `self._cache = {}` -/
  | clear
  /-- cache.py:206-210, the loop of `_reset_cache` with the elements avoided and `reset_persisting` -/
  | purge (av : List κ) (rp : Bool)
  /-- iterating over the dictionary itself: cache.py:64 (`cache_level`), 88 (`_apply`), 285 (`cache_keys`), 299 (`print_cache`) -/
  | walk

/-- Where a thread is. -/
inductive Pc (σ κ α : Type) where
  | idle
  | prog (p : Prog σ κ α)
  /-- line 168, the attribute has been read, the test is next -/
  | test (k : κ) (d : Nat)
  /-- line 169, the attribute is read again -/
  | load (k : κ)
  /-- line 169, the subscript is next -/
  | fetch (k : κ) (d : Nat)
  /-- line 133, the attribute has been read, the assignment of the entry is next -/
  | store (k : κ) (v : α) (d : Nat)
  /-- line 206, `list(self._cache.keys())` -/
  | pkeys (av : List κ) (rp : Bool) (d : Nat)
  /-- line 206, the next key of this list; the attribute is read -/
  | pnext (av : List κ) (rp : Bool) (ks : List κ)
  /-- line 207 -/
  | ptest (av : List κ) (rp : Bool) (k : κ) (ks : List κ) (d : Nat)
  /-- line 208, the attribute is read -/
  | pload (av : List κ) (rp : Bool) (k : κ) (ks : List κ)
  /-- line 208, the subscript; then the test of line 209 -/
  | pfetch (av : List κ) (rp : Bool) (k : κ) (ks : List κ) (d : Nat)
  /-- line 210, the attribute is read -/
  | pdel (av : List κ) (rp : Bool) (k : κ) (ks : List κ)
  /-- line 210, `pop` -/
  | ppop (av : List κ) (rp : Bool) (k : κ) (ks : List κ) (d : Nat)
  /-- an iterator over dictionary `d`, created when it had `n` entries, `i` of them given -/
  | walking (d n i : Nat)

/-- A thread: the calls to come, the rest of the current one, the `_get` calls it is inside of with what follows
each, the key it was asked for, and what was given back or raised. -/
structure Th (σ κ α : Type) where
  calls : List (List (Instr σ κ α))
  code : List (Instr σ κ α)
  pc : Pc σ κ α
  stack : List (κ × (α → Prog σ κ α))
  op : Option κ
  log : List (Option κ × Except Err α)

/-- A thread about to make these calls. -/
def Th.start (calls : List (List (Instr σ κ α))) : Th σ κ α := ⟨calls, [], .idle, [], none, []⟩

/-- An exception ends the call. -/
def Th.raise (t : Th σ κ α) (e : Err) : Th σ κ α := { t with code := [], pc := .idle, stack := [], log := t.log ++ [(t.op, .error e)] }

/-- One dictionary changed. -/
def Mem.upd (m : Mem σ κ α) (d : Nat) (x : Dict κ (Bool × α)) : Mem σ κ α := { m with dicts := fun j => if j = d then x else m.dicts j }

/-- What begins an instruction of a call. -/
def begin (m : Mem σ κ α) (t : Th σ κ α) : Instr σ κ α → Mem σ κ α × Th σ κ α
  | .eval k => (m, { t with pc := .prog (.get k .ret), op := some k })
  | .write u => ({ m with inp := u m.inp }, t)
  | .clear => ({ m.upd (m.cur + 1) [] with cur := m.cur + 1 }, t)
  | .purge av rp => (m, { t with pc := .pkeys av rp m.cur, op := none })
  | .walk => (m, { t with pc := .walking m.cur (m.dicts m.cur).length 0, op := none })

/-- One step of a thread. -/
def step (c : Cfg σ κ α) (m : Mem σ κ α) (t : Th σ κ α) : Mem σ κ α × Th σ κ α :=
  match t.pc with
  | .idle =>
    match t.code with
    | i :: rest => begin m { t with code := rest } i
    | [] => match t.calls with
      | [] => (m, t)
      | x :: xs => (m, { t with calls := xs, code := x })
  | .prog (.ret v) =>
    match t.stack with
    | [] => (m, { t with pc := .idle, log := t.log ++ [(t.op, .ok v)] })
    | (k, f) :: s => if c.keep k then (m, { t with pc := .store k v m.cur }) else (m, { t with pc := .prog (f v), stack := s })
  | .prog (.read f) => (m, { t with pc := .prog (f m.inp) })
  | .prog (.get k f) => (m, { t with pc := .test k m.cur, stack := (k, f) :: t.stack })
  | .test k d => if (m.dicts d).has k then (m, { t with pc := .load k }) else (m, { t with pc := .prog (c.prog k) })
  | .load k => (m, { t with pc := .fetch k m.cur })
  | .fetch k d =>
    match (m.dicts d).find k, t.stack with
    | some e, (_, f) :: s => (m, { t with pc := .prog (f e.2), stack := s })
    | _, _ => (m, t.raise .keyError)
  | .store k v d =>
    match t.stack with
    | (_, f) :: s => (m.upd d ((m.dicts d).set k (c.pers k, v)), { t with pc := .prog (f v), stack := s })
    | [] => (m, t)
  | .pkeys av rp d => (m, { t with pc := .pnext av rp (m.dicts d).keys })
  | .pnext _ _ [] => (m, { t with pc := .idle })
  | .pnext av rp (k :: ks) => (m, { t with pc := .ptest av rp k ks m.cur })
  | .ptest av rp k ks d => if (m.dicts d).has k && !av.contains k then (m, { t with pc := .pload av rp k ks }) else (m, { t with pc := .pnext av rp ks })
  | .pload av rp k ks => (m, { t with pc := .pfetch av rp k ks m.cur })
  | .pfetch av rp k ks d =>
    match (m.dicts d).find k with
    | none => (m, t.raise .keyError)
    | some e => if !e.1 || rp then (m, { t with pc := .pdel av rp k ks }) else (m, { t with pc := .pnext av rp ks })
  | .pdel av rp k ks => (m, { t with pc := .ppop av rp k ks m.cur })
  | .ppop av rp k ks d =>
    if (m.dicts d).has k then (m.upd d ((m.dicts d).pop k), { t with pc := .pnext av rp ks }) else (m, t.raise .keyError)
  | .walking d n i =>
    if (m.dicts d).length ≠ n then (m, t.raise .runtimeError)
    else if i < n then (m, { t with pc := .walking d n (i + 1) })
    else (m, { t with pc := .idle })

/-- The whole: the shared part and any number of threads. -/
structure Sys (σ κ α : Type) where
  mem : Mem σ κ α
  th : Nat → Th σ κ α

/-- Thread `i` makes a step. -/
def Sys.step (c : Cfg σ κ α) (S : Sys σ κ α) (i : Nat) : Sys σ κ α :=
  let r := Threads.step c S.mem (S.th i)
  ⟨r.1, fun j => if j = i then r.2 else S.th j⟩

/-- A schedule: which thread makes each step. -/
def Sys.run (c : Cfg σ κ α) (S : Sys σ κ α) (sched : List Nat) : Sys σ κ α := sched.foldl (Sys.step c) S

/-- `_distance.py:56-60`, `polynomial.py:137-140`, `skewed_chi_2.py:52-54`, `indicator.py:98-100, 123-125`, `hat.py:66-68`, `random_features.py:84-87`: assigning a
hyper-parameter resets the cache, then writes the value. -/
def hyperCall (av : List κ) (u : σ → σ) : List (Instr σ κ α) := [.purge av false, .write u]

/-- `sample.py:232-239` (`update_sample`), `nystrom.py:81-86` (`dim`): the value is written, then the cache reset. -/
def sampleCall (u : σ → σ) : List (Instr σ κ α) := [.write u, .purge [] false]

/-- `cache.py:271` with the default arguments of `reset`. -/
def resetCall : List (Instr σ κ α) := [.clear]

end Threads
end Kerch
