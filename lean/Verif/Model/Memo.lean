import Verif.Model.Cache
/-!
# Methods that read through the cache

A module method such as `Kernel._C` (kerch/kernel/kernel.py:160-171) is `self._get(key, fun=fun, level_key=...)` where
`fun` reads other cached quantities (`_phi`, itself a `_get`) and attributes of the module (the sample, the indices,
hyper-parameters: the environment `Env`).  `Prog` is such a `fun`; `body` gives the `fun` of each key and `cfg` the
keyword arguments it is requested with.  `rank` orders the keys by nesting depth.
-/
namespace Kerch

/-- A computation: read attributes and finish (possibly with an exception), or first request a cached quantity. -/
inductive Prog (κ Env α : Type)
  | ret (f : Env → Except Err α)
  | need (key : κ) (k : α → Prog κ Env α)

/-- All cached quantities of a class of modules. -/
structure Defs (κ Env α : Type) where
  table : Dict String String
  body : κ → Prog κ Env α
  cfg : κ → CacheSt.GetArgs
  rank : κ → Nat

namespace Prog
variable {κ Env α : Type}

/-- All requested keys are of rank below `r`. -/
def Below (rank : κ → Nat) (r : Nat) : Prog κ Env α → Prop
  | .ret _ => True
  | .need key k => rank key < r ∧ ∀ v, Below rank r (k v)

/-- Run without any cache, requested quantities being computed by `rec`. -/
def runFresh (rec : κ → Except Err α) (env : Env) : Prog κ Env α → Except Err α
  | .ret f => f env
  | .need key k => match rec key with
    | .error e => .error e
    | .ok v => runFresh rec env (k v)

/-- Run with the cache, requested quantities being obtained by `rec`. -/
def runCached (rec : κ → CacheSt.M κ α α) (env : Env) : Prog κ Env α → CacheSt.M κ α α
  | .ret f, c => (f env, c)
  | .need key k, c => match rec key c with
    | (.error e, c1) => (.error e, c1)
    | (.ok v, c1) => runCached rec env (k v) c1

end Prog

namespace Defs
variable {κ Env α : Type} [DecidableEq κ] [CacheKey κ] (D : Defs κ Env α)

/-- Recursive evaluation without cache to depth `n` (Python's `RecursionError` beyond). -/
def freshN : Nat → Env → κ → Except Err α
  | 0, _, _ => .error .runtimeError
  | n + 1, env, key => (D.body key).runFresh (freshN n env) env

/-- What a fresh computation of the quantity `key` in the state `env` gives. -/
def fresh (env : Env) (key : κ) : Except Err α := D.freshN (D.rank key + 1) env key

/-- Recursive evaluation where each quantity is read through `Cache._get`. -/
def readN : Nat → Env → κ → CacheSt.M κ α α
  | 0, _, _, c => (.error .runtimeError, c)
  | n + 1, env, key, c =>
    CacheSt.get D.table key (D.cfg key) ((D.body key).runCached (readN n env) env) c

/-- Reading the quantity `key` of a module in state `env` with cache `c`. -/
def read (env : Env) (key : κ) : CacheSt.M κ α α := D.readN (D.rank key + 1) env key

/-- Operations on a module. -/
inductive Op (κ Env : Type)
  /-- read a quantity -/
  | read (key : κ)
  /-- change attributes and call `_reset_cache(rp, avoided)`, as `Stochastic.stochastic` (stochastic.py:83),
  `Sample.update_sample` (sample.py:239) or the setter of `sigma` (kernel/distance/_distance.py:58) -/
  | update (f : Env → Env) (rp : Bool) (avoided : List κ)
  /-- `reset()` without state change -/
  | reset (rp : Bool)
  /-- `_clean_cache` -/
  | clean (a : LvlArg)
  /-- `_remove_from_cache` -/
  | remove (k : CacheSt.KeyArg κ)
  /-- assignment of `cache_level` -/
  | setLevel (a : LvlArg)

/-- One operation on a module with cache; reads produce an output. -/
def step (s : Env × CacheSt κ α) : Op κ Env → (Env × CacheSt κ α) × Option (Except Err α)
  | .read key => let r := D.read s.1 key s.2; ((s.1, r.2), some r.1)
  | .update f rp av => ((f s.1, s.2.resetCache rp av), none)
  | .reset rp => ((s.1, s.2.resetCache rp), none)
  | .clean a => ((s.1, (CacheSt.clean a s.2).2), none)
  | .remove k => ((s.1, s.2.remove k), none)
  | .setLevel a => ((s.1, s.2.setLevel a), none)

/-- A history; the outputs of the reads in order, and the final state. -/
def run (s : Env × CacheSt κ α) : List (Op κ Env) → (Env × CacheSt κ α) × List (Except Err α)
  | [] => (s, [])
  | op :: ops =>
    let r := D.step s op
    let rest := run r.1 ops
    (rest.1, match r.2 with | some o => o :: rest.2 | none => rest.2)

/-- The specification: a module without cache, which computes each requested quantity afresh. -/
def specRun (env : Env) : List (Op κ Env) → List (Except Err α)
  | [] => []
  | .read key :: ops => D.fresh env key :: specRun env ops
  | .update f _ _ :: ops => specRun (f env) ops
  | _ :: ops => specRun env ops

end Defs
end Kerch
