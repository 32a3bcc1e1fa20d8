/-!
# Python dictionaries

Insertion-ordered dictionaries as used by `Cache._cache` (kerch/feature/cache.py:38), `Transform._offspring`
(kerch/transform/Transform.py:17) and keyword dictionaries.  A dictionary is an association list; assignment to an
existing key keeps its position (as in CPython >= 3.7), assignment to a new key appends.
-/

namespace Kerch

/-- A Python `dict`, in insertion order. -/
abbrev Dict (κ ν : Type) := List (κ × ν)

namespace Dict
variable {κ ν : Type} [DecidableEq κ]

/-- `d.get(k)`: the value stored under `k`, if any. -/
def find (d : Dict κ ν) (k : κ) : Option ν :=
  match d with
  | [] => none
  | (k', v) :: t => if k' = k then some v else find t k

/-- `k in d`. -/
def has (d : Dict κ ν) (k : κ) : Bool := (find d k).isSome

/-- `d[k] = v`. -/
def set (d : Dict κ ν) (k : κ) (v : ν) : Dict κ ν :=
  match d with
  | [] => [(k, v)]
  | (k', v') :: t => if k' = k then (k, v) :: t else (k', v') :: set t k v

/-- `d.pop(k)` for a present key (and nothing if absent). -/
def pop (d : Dict κ ν) (k : κ) : Dict κ ν :=
  match d with
  | [] => []
  | (k', v') :: t => if k' = k then t else (k', v') :: pop t k

/-- `list(d.keys())`. -/
def keys (d : Dict κ ν) : List κ := d.map Prod.fst

/-- `{**d, **e}`: entries of `e` win. -/
def merge (d e : Dict κ ν) : Dict κ ν := e.foldl (fun acc kv => set acc kv.1 kv.2) d

/-- A dictionary has each key at most once. -/
def WF (d : Dict κ ν) : Prop := d.keys.Nodup

end Dict
end Kerch
