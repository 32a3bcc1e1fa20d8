import Verif.Model.TransformCache
/-!
# Resolution of lists of transforms (kerch/transform/TransformTree.py:34-88)
-/
namespace Kerch

/-- TransformTree.py:34-47 `_all_transform`. -/
def allTransform : Dict String (List Kind) :=
  [("normalize", [.sphere]), ("center", [.mean]), ("sphere", [.sphere]), ("min", [.minimum]), ("variance", [.variance]),
   ("standard", [.mean, .variance]), ("minmax", [.minmax]), ("unit_sphere_normalization", [.sphere]), ("mean_centering", [.mean]),
   ("minimum_centering", [.minimum]), ("unit_variance_normalization", [.variance]), ("minmax_normalization", [.minmax]),
   ("standardize", [.mean, .variance]), ("minmax_rescaling", [.minimum, .minmax])]

/-- An element of a list of transforms: a name, a transform class, or another class. (Other objects raise as unknown names do, or
`TypeError` if they cannot be hashed.) -/
inductive TrArg
  | name (s : String)
  | cls (k : Kind)
  | otherClass
  deriving DecidableEq, Repr

/-- TransformTree.py:60-76, the loop expanding the names. A class that is not a transform is dropped silently (line 62). -/
def expand : List TrArg → Except Err (List Kind)
  | [] => .ok []
  | .cls k :: ts => (expand ts).map (k :: ·)
  | .otherClass :: ts => expand ts
  | .name s :: ts => match allTransform.find s with
    | none => .error .nameError
    | some ks => (expand ts).map (ks ++ ·)

/-- TransformTree.py:78-86, the loop removing duplicates. `l` is the list, modified while it is iterated over: `it` is the position of the list
iterator, `idx` and `prev` are the variables of the code. -/
def dedupLoop {β : Type} [DecidableEq β] (l : List β) (it idx : Nat) (prev : Option β) : List β :=
  if h : it < l.length then
    if some l[it] = prev then dedupLoop (l.eraseIdx idx) (it + 1) idx prev
    else dedupLoop l (it + 1) (idx + 1) (some l[it])
  else l
  termination_by l.length - it
  decreasing_by
    all_goals
      have := List.length_eraseIdx_le l idx
      omega

/-- TransformTree.py:49-88 `beautify_transform` (for `None` it returns `None`, not represented). -/
def beautify (ts : List TrArg) : Except Err (List Kind) :=
  (expand ts).map (fun l => dedupLoop l 0 0 none)

end Kerch
