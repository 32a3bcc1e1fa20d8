import Verif.Model.Cache
/-!
# Printing a cache (kerch/feature/cache.py:289-313, kerch/transform/Transform.py:230-237)
-/
namespace Kerch
namespace PrintCache

/-- Texts. -/
abbrev Text := List Char

/-- An entry as far as printing is concerned: its key, the tuple `(level, persisting, val)` with `val` by its `str`. -/
structure Line where
  key : Text
  level : Lvl
  persisting : Bool
  text : Text

/-- A node of a transform tree: the entries of its cache (numbers and statistics, never trees) and its offspring (Transform.py:233-235). -/
inductive TNode where
  | mk (entries : List Line) (offspring : List TNode)

/-- An entry of the cache of a module; the value may be a transform tree (sample.py:261, kernel.py:135, 146). -/
structure Item where
  line : Line
  tree : Option TNode

/-- utils/dict.py:2-12 `reverse_dict` followed by `get`: the last name with this level, as dictionaries keep the last value of a key. -/
def reverseGet (d : Dict String Int) (n : Int) : Option String := (d.reverse.find? fun kv => kv.2 == n).map Prod.fst

/-- cache.py:304-305, `print(level)`: `None` for what is no level of the switcher. -/
def levelText : Lvl → Text
  | .num n => match reverseGet levelSwitcher n with
    | some s => s.toList
    | none => "None".toList
  | .msg => "None".toList

/-- cache.py:303-309, what is printed of an entry. -/
def lineText (l : Line) : Text :=
  l.key ++ " [".toList ++ levelText l.level ++ "] ".toList ++ (if l.persisting then "persisting".toList else []) ++ ": ".toList ++ l.text ++ ['\n']

/-- cache.py:300, `key[0] != "_" or private`; `IndexError` on the empty key. -/
def shown (priv : Bool) : Text → Except Err Bool
  | [] => .error .indexError
  | c :: _ => .ok (c ≠ '_' || priv)

/-- cache.py:299-309, the loop over the entries: the output, the trees to be printed later and whether it was ended by an exception. -/
def loop (priv : Bool) : List Item → Except Err Unit × Text × List (Text × TNode)
  | [] => (.ok (), [], [])
  | i :: t =>
    match shown priv i.line.key with
    | .error e => (.error e, [], [])
    | .ok false => loop priv t
    | .ok true =>
      let r := loop priv t
      (r.1, lineText i.line ++ r.2.1, (match i.tree with
        | some T => (i.line.key, T) :: r.2.2
        | none => r.2.2))

mutual
/-- Transform.py:231-237: the cache of the node, then those of its offspring. -/
def TNode.print (priv : Bool) : TNode → Except Err Unit × Text
  | .mk es os =>
    let r := loop priv (es.map fun l => ⟨l, none⟩)
    match r.1 with
    | .error e => (.error e, r.2.1)
    | .ok () =>
      let r' := TNode.printAll priv os
      (r'.1, r.2.1 ++ r'.2)
/-- The offspring one after the other. -/
def TNode.printAll (priv : Bool) : List TNode → Except Err Unit × Text
  | [] => (.ok (), [])
  | T :: t =>
    match T.print priv with
    | (.error e, out) => (.error e, out)
    | (.ok (), out) =>
      let r := TNode.printAll priv t
      (r.1, out ++ r.2)
end

/-- cache.py:311-313: the trees with their keys in capitals. -/
def trees (priv : Bool) : List (Text × TNode) → Except Err Unit × Text
  | [] => (.ok (), [])
  | (k, T) :: t =>
    let head := ['\n'] ++ k.map Char.toUpper ++ [':', '\n']
    match T.print priv with
    | (.error e, out) => (.error e, head ++ out)
    | (.ok (), out) =>
      let r := trees priv t
      (r.1, head ++ out ++ r.2)

/-- cache.py:289-313 `print_cache`. -/
def printCache (priv : Bool) (c : List Item) : Except Err Unit × Text :=
  let r := loop priv c
  match r.1 with
  | .error e => (.error e, r.2.1)
  | .ok () =>
    let r' := trees priv r.2.2
    (r'.1, r.2.1 ++ r'.2)

end PrintCache
end Kerch
