import Verif.Model.Dict
/-!
# The cache of a module (kerch/feature/cache.py)

State after a Python exception is the state reached so far: every operation returns a result (`Except`) *and* a state.
-/
namespace Kerch

deriving instance DecidableEq for Except

/-- Python exceptions that occur in the modelled code. -/
inductive Err
  | typeError | keyError | nameError | attributeError | assertionError | indexError | valueError
  | notInitialized | implicitError | explicitError | bijectionError | representationError | multiViewError
  | notImplemented | kerchError | runtimeError | osError | zeroDivision
  deriving DecidableEq, Repr

/-- What `Cache._cache_level` may hold: an integer, or the *string* returned by
`_cache_level_switcher.get(level, "Unrecognized cache level.")` (cache.py:75), which is stored like a level. -/
inductive Lvl
  | num (n : Int)
  | msg
  deriving DecidableEq, Repr

/-- A level argument: `None`, an `int`, or a `str` (cache.py:68). -/
inductive LvlArg
  | none
  | int (n : Int)
  | str (s : String)
  deriving DecidableEq, Repr

/-- cache.py:28-32 `_cache_level_switcher`. -/
def levelSwitcher : Dict String Int :=
  [("none", 0), ("light", 1), ("normal", 2), ("heavy", 3), ("total", 4)]

/-- Python's `a <= b` on levels: int/int and str/str compare, int/str raises `TypeError`.
(The only string that can be stored is one fixed message, which is `<=` itself.) -/
def Lvl.le : Lvl → Lvl → Except Err Bool
  | .num a, .num b => .ok (decide (a ≤ b))
  | .msg, .msg => .ok true
  | _, _ => .error .typeError

/-- Python's `a > b` on levels. -/
def Lvl.gt : Lvl → Lvl → Except Err Bool
  | .num a, .num b => .ok (decide (b < a))
  | .msg, .msg => .ok false
  | _, _ => .error .typeError

/-- A cache element: the tuple `(level, persisting, val)` (cache.py:133, 164). -/
structure Entry (α : Type) where
  level : Lvl
  persisting : Bool
  val : α

/-- Keys of a cache are strings; what iterating over a key gives (cache.py:256) is a parameter because caches of transform
nodes are also represented with structured keys (`Verif.Model.TreeCache`). -/
class CacheKey (κ : Type) where
  iter : κ → List κ

/-- Iterating over a Python `str` gives its characters. -/
instance : CacheKey String := ⟨fun s => s.toList.map (fun ch => String.ofList [ch])⟩

/-- The attributes `_cache_level` and `_cache` of a `Cache` object (cache.py:38-39). -/
structure CacheSt (κ α : Type) where
  level : Lvl
  dict : Dict κ (Entry α)

namespace CacheSt
variable {κ α : Type} [DecidableEq κ] [CacheKey κ]

/-- cache.py:68-76 `_get_level`. -/
def getLevel (c : CacheSt κ α) : LvlArg → Lvl
  | .none => c.level
  | .int n => .num n
  | .str s => match levelSwitcher.find s with
    | some n => .num n
    | none => .msg

/-- cache.py:60-66, the part of the `cache_level` setter acting on the object itself (line 63).  The loop of lines 64-66
ranges over the *tuples* stored in the dictionary, none of which is a `Cache` instance, see `Verif.Model.TreeCache`. -/
def setLevel (c : CacheSt κ α) (a : LvlArg) : CacheSt κ α := { c with level := c.getLevel a }

/-- cache.py:34-39 `__init__` with the keyword `cache_level` (default `'normal'`). -/
def init (a : LvlArg := .str "normal") : CacheSt κ α :=
  setLevel { level := .num 0, dict := [] } a

/-- cache.py:41-58, the getter: inverse lookup of the level name, `KeyError` if there is none. -/
def levelName (c : CacheSt κ α) : Except Err String :=
  match levelSwitcher.find? (fun kv => Lvl.num kv.2 = c.level) with
  | some kv => .ok kv.1
  | none => .error .keyError

/-- A piece of code run with access to the cache: result or exception, and the cache afterwards. -/
abbrev M (κ α β : Type) := CacheSt κ α → Except Err β × CacheSt κ α

/-- Keyword arguments of `_save`/`_get` (cache.py:99-100, 136-137).  `levelTable` is `DEFAULT_CACHE_LEVEL`. -/
structure GetArgs where
  levelKey : Option String := none
  defaultLevel : LvlArg := .str "normal"
  force : Bool := false
  overwrite : Bool := false
  persisting : Bool := false
  destroy : Bool := false

/-- cache.py:122-126: `DEFAULT_CACHE_LEVEL[level_key]`, on `KeyError` the default level. `None` (and any other object that
is not a key, such as the lambda given at level/_View.py) is not in the table. -/
def resolveLevel (table : Dict String String) (c : CacheSt κ α) (a : GetArgs) : Lvl :=
  match a.levelKey with
  | none => c.getLevel a.defaultLevel
  | some k => match table.find k with
    | some s => c.getLevel (.str s)
    | none => c.getLevel a.defaultLevel

/-- cache.py:99-134 `_save`.  `fn` may itself use the cache (nested `_get`), hence is a cache program. -/
def save (table : Dict String String) (key : κ) (a : GetArgs) (fn : M κ α α) : M κ α α := fun c =>
  let level := resolveLevel table c a
  match fn c with
  | (.error e, c1) => (.error e, c1)
  | (.ok v, c1) =>
    match level.le c1.level with
    | .error e => (.error e, c1)
    | .ok b =>
      if b || a.force then
        (.ok v, { c1 with dict := c1.dict.set key ⟨level, a.persisting, v⟩ })
      else (.ok v, c1)

/-- The argument of `_remove_from_cache`: a string, or a list of strings (cache.py:237). -/
inductive KeyArg (κ : Type)
  | str (s : κ)
  | list (l : List κ)

/-- cache.py:253-257: what the loop `for key_item in key` ranges over.  A `str` has `__iter__`, hence is *not* wrapped into
a list and its characters are enumerated. -/
def KeyArg.items : KeyArg κ → List κ
  | .str s => CacheKey.iter s
  | .list l => l

/-- cache.py:237-257 `_remove_from_cache` (with the local `_remove_entry`, 249-251). -/
def remove (c : CacheSt κ α) (k : KeyArg κ) : CacheSt κ α :=
  { c with dict := k.items.foldl (fun d s => if d.has s then d.pop s else d) c.dict }

/-- cache.py:136-180 `_get`. -/
def get (table : Dict String String) (key : κ) (a : GetArgs) (fn : M κ α α) : M κ α α := fun c =>
  match (if a.overwrite then none else c.dict.find key) with
  | some e => (.ok e.val, c)
  | none =>
    match save table key a fn c with
    | (.error e, c1) => (.error e, c1)
    | (.ok v, c1) => (.ok v, if a.destroy then c1.remove (.str key) else c1)

/-- cache.py:182-210 `_reset_cache`.  `avoided` is the concatenation of the `_cache_elements` of `avoid_classes`. -/
def resetCache (c : CacheSt κ α) (resetPersisting : Bool := true) (avoided : List κ := []) : CacheSt κ α :=
  if resetPersisting && avoided.isEmpty then { c with dict := [] }
  else
    { c with dict := c.dict.keys.foldl (fun d key =>
        if d.has key && !(avoided.contains key) then
          match d.find key with
          | some v => if !v.persisting || resetPersisting then d.pop key else d
          | none => d
        else d) c.dict }

/-- The loop of `_clean_cache` (cache.py:231-235) over a list of keys; stops at the first exception. -/
def cleanLoop (max : Lvl) : List κ → M κ α Unit
  | [], c => (.ok (), c)
  | key :: ks, c =>
    match c.dict.find key with
    | none => cleanLoop max ks c
    | some e =>
      match e.level.gt max with
      | .error err => (.error err, c)
      | .ok true => cleanLoop max ks { c with dict := c.dict.pop key }
      | .ok false => cleanLoop max ks c

/-- cache.py:212-235 `_clean_cache`. -/
def clean (maxLevel : LvlArg := .none) : M κ α Unit := fun c =>
  let max := c.getLevel maxLevel
  if max = .num 0 then (.ok (), c.resetCache)
  else cleanLoop max c.dict.keys c

/-- cache.py:277-287 `cache_keys` (fully consumed): `key[0]` raises `IndexError` on the empty string. -/
def cacheKeys (c : CacheSt String α) (priv : Bool := false) : Except Err (List String) :=
  c.dict.keys.foldr (fun key acc =>
    match key.toList with
    | [] => .error .indexError
    | ch :: _ => match acc with
      | .error e => .error e
      | .ok l => .ok (if ch ≠ '_' || priv then key :: l else l)) (.ok [])

end CacheSt

/-- A module with its `children()` (torch): whether it is a `Cache` instance, its cache (irrelevant otherwise) and its
children.  Sharing of one child by several parents is not represented. -/
inductive ModTree (κ α : Type)
  | node (isCache : Bool) (c : CacheSt κ α) (children : List (ModTree κ α))

namespace ModTree
variable {κ α : Type} [DecidableEq κ] [CacheKey κ]

def isCache : ModTree κ α → Bool
  | .node b _ _ => b
def cache : ModTree κ α → CacheSt κ α
  | .node _ c _ => c
def children : ModTree κ α → List (ModTree κ α)
  | .node _ _ ch => ch

mutual
/-- cache.py:259-275 `reset`. -/
def reset (recurse rp : Bool) : ModTree κ α → ModTree κ α
  | .node b c ch => .node b (c.resetCache rp) (if recurse then resetChildren recurse rp ch else ch)
/-- cache.py:273-275: the loop over the children. -/
def resetChildren (recurse rp : Bool) : List (ModTree κ α) → List (ModTree κ α)
  | [] => []
  | t :: ts => (if t.isCache then reset recurse rp t else t) :: resetChildren recurse rp ts
end

/-- The sub-module reached by following child positions. -/
def sub : ModTree κ α → List Nat → Option (ModTree κ α)
  | t, [] => some t
  | t, i :: p => match t.children[i]? with
    | none => none
    | some t' => sub t' p

/-- Following child positions from `t` one meets only `Cache` instances (the start excepted). -/
def CachePath : ModTree κ α → List Nat → Prop
  | _, [] => True
  | t, i :: p => ∃ t', t.children[i]? = some t' ∧ t'.isCache = true ∧ CachePath t' p

end ModTree
end Kerch
