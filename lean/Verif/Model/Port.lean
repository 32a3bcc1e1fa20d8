import Verif.Model.Cache
/-!
# Porting a module (kerch/feature/cache.py `_apply`) and the stored identity (kerch/level/_Level.py `_I_primal`, `_I_dual`)
-/
namespace Kerch
namespace Port

/-- A module: whether it is a `Cache` instance, the tensors among its cached values, the cached values that are `Cache` instances themselves, its parameters and
its children. Cached values of another kind are left alone by the code. A module reached by several ways is taken as several modules. -/
inductive Tree (α : Type)
  | node (isCache : Bool) (tensors : List α) (cached : List (Tree α)) (params : List α) (children : List (Tree α))

/-- cache.py:78-97 `_apply`: cached tensors, cached modules, the children (94-96), then `torch.nn.Module._apply` (97), which does the children again before the
parameters. Modules which are not `Cache` instances: `torch.nn.Module._apply` only. The first argument bounds the depth of the recursion. -/
def applyN (f : α → α) : Nat → Tree α → Tree α
  | 0, t => t
  | k + 1, .node true ts cs ps ch => .node true (ts.map f) (cs.map (applyN f k)) (ps.map f) ((ch.map (applyN f k)).map (applyN f k))
  | k + 1, .node false ts cs ps ch => .node false ts cs (ps.map f) (ch.map (applyN f k))

mutual
/-- Depth of a module. -/
def Tree.height : Tree α → Nat
  | .node _ _ cs _ ch => 1 + max (heightAll cs) (heightAll ch)
/-- Largest depth of a list of modules. -/
def heightAll : List (Tree α) → Nat
  | [] => 0
  | t :: l => max t.height (heightAll l)
end

/-- `_apply` on a module: the recursion ends by itself. -/
def Tree.apply (f : α → α) (t : Tree α) : Tree α := applyN f t.height t

/-- _Level.py:80-92 `_I_dual` (66-78 `_I_primal` alike), with `key` the key, `lk` the level key, `n` the current size, `eye` the identity of a given size and `size`
its number of rows. -/
def identity (table : Dict String String) (key lk : String) (eye : Nat → α) (size : α → Nat) (n : Nat) (c : CacheSt String α) :
    Except Err α × CacheSt String α :=
  match CacheSt.get table key { levelKey := some lk, persisting := true } (fun c => (.ok (eye n), c)) c with
  | (.error e, c1) => (.error e, c1)
  | (.ok v, c1) =>
    if size v ≠ n then CacheSt.get table key { levelKey := some lk, overwrite := true, persisting := true } (fun c => (.ok (eye n), c)) c1
    else (.ok v, c1)

/-- What may happen between two readings: readings of the identity with any size and representation, other cached values, resets, removals, changes of the cache
level. -/
inductive Op (α : Type)
  | read (n : Nat) (lk : String)
  | other (key : String) (a : CacheSt.GetArgs) (v : Except Err α)
  | reset (persisting : Bool)
  | remove (keys : List String)
  | level (l : LvlArg)
  | clean

/-- Effect on the cache; `key` is the key of the identity. Other values are cached under another key. -/
def step (table : Dict String String) (key : String) (eye : Nat → α) (size : α → Nat) (c : CacheSt String α) : Op α → CacheSt String α
  | .read n lk => (identity table key lk eye size n c).2
  | .other k a v => if k = key then c else (CacheSt.get table k a (fun c => (v, c)) c).2
  | .reset p => c.resetCache p
  | .remove ks => c.remove (.list ks)
  | .level l => c.setLevel l
  | .clean => (CacheSt.clean .none c).2

end Port
end Kerch
