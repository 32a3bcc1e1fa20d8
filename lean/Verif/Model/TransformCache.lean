import Verif.Model.Memo
import Verif.Model.Defaults
/-!
# Transform trees and their caches (kerch/transform/Transform.py, kerch/transform/TransformTree.py)

Each node of a tree has a cache of its own.  All nodes of a tree have the same level (`C05_tree_level_reaches_nodes`), are created
with it (TransformTree.py:101, 209), and are cleaned together (Transform.py:239-245).  They are represented here as one cache whose
keys carry the path of the node: `⟨p, w⟩` stands for the element `w` of the cache of the node reached by the path `p`.  Which
elements are stored and with which level depends on nothing else.
-/
namespace Kerch

/-- The transform classes (kerch/transform/all). -/
inductive Kind
  | mean | minimum | variance | minmax | sphere
  deriving DecidableEq, Repr

/-- What a node stores (Transform.py:113-196).  Numbers are the `id()` of the arguments (Transform.py:42-52). -/
inductive What
  | sampleData | sampleStat
  | oosStat (x : Nat) | oosData (x : Nat) | oosData2 (x y : Nat)
  deriving DecidableEq, Repr

/-- Key of an element in a tree; `path` lists the classes from the node up to the root (excluded). -/
structure TKey where
  path : List Kind
  what : What
  deriving DecidableEq, Repr

/-- No key of a node (such as `"Mean centering data_oos_1234"`) is a single character, so removing by name (which never happens in a
tree) would remove nothing. -/
instance : CacheKey TKey := ⟨fun _ => []⟩

/-- Attributes a tree reads: the value of the base on the sample, on an argument, on two arguments, and its diagonal
(TransformTree.py:140-190).  Arguments are given by `id`; the functions return what their *current content* gives. -/
structure TEnv (V : Type) where
  base0 : Except Err V
  base1 : Nat → Except Err V
  base2 : Nat → Nat → Except Err V
  diag : Nat → Except Err V

/-- The numerical part of the transforms (kerch/transform/all/*.py), here left abstract (see `Verif.Model.Transform` for it). -/
structure TSem (V : Type) where
  /-- `_explicit_statistics`/`_implicit_statistics` of a class, given the class of the parent (used by MinMaxNormalization). -/
  stat : Kind → Option Kind → V → Except Err V
  /-- explicit: statistics of an out-of-sample batch from itself (Sphere) or `none` for the one of the sample -/
  ownStat : Kind → Option (V → Except Err V)
  /-- explicit: combine data and statistics -/
  comb : Kind → V → V → Except Err V
  /-- implicit: statistics of an out-of-sample argument (from the parent's matrix or diagonal, and the sample statistics) -/
  iStatMean : V → V → Except Err V
  iStatSphere : V → Except Err V
  /-- implicit: combine a kernel matrix with statistics of its rows and columns -/
  icomb : Kind → V → V → V → Except Err V

variable {V : Type}

/-- Keyword arguments with which the nodes request their elements (Transform.py:24-35 for the names, 113-196 for their use).  `dflt` is
the path of the default node.  The names of the oos data level are not in the table, hence the default level `'normal'`. -/
def treeCfg (dflt : List Kind) (key : TKey) : CacheSt.GetArgs :=
  let d := decide (key.path = dflt)
  match key.what with
  | .sampleData | .sampleStat =>
    { levelKey := some (if d then "transform_sample_data_default" else "transform_sample_data_nondefault") }
  | .oosStat _ =>
    { levelKey := some (if d then "transform_oos_statistics_default" else "transform_oos_statistics_nondefault"), force := true }
  | .oosData _ | .oosData2 _ _ =>
    { levelKey := some (if d then "transform_oos_data_default" else "transform_oos_data_nondefault") }

/-- Nesting depth of the requests. -/
def treeRank (key : TKey) : Nat :=
  4 * key.path.length + match key.what with
    | .sampleStat => 0
    | .sampleData => 1
    | .oosStat _ => 2
    | .oosData _ => 3
    | .oosData2 _ _ => 3

/-- Explicit trees: `_explicit_sample`, `_explicit_oos` of each class (all/*.py) and `statistics_sample`, `statistics_oos`
(Transform.py:118-174).  In `_explicit_sample` the sample of the parent is passed to `statistics_sample`; requesting it again there, as
here, gives the same value and stores nothing more. -/
def explicitBody (S : TSem V) (key : TKey) : Prog TKey (TEnv V) V :=
  match key.path, key.what with
  | [], .sampleData => .ret fun env => env.base0
  | [], .oosData x => .ret fun env => env.base1 x
  | [], _ => .ret fun _ => .error .notImplemented
  | _ :: p, .sampleData => .need ⟨p, .sampleData⟩ fun s => .need ⟨key.path, .sampleStat⟩ fun st =>
      .ret fun _ => S.comb (key.path.headD .mean) s st
  | k :: p, .sampleStat => .need ⟨p, .sampleData⟩ fun s => .ret fun _ => S.stat k p.head? s
  | k :: p, .oosStat x => .need ⟨p, .oosData x⟩ fun o => match S.ownStat k with
      | some f => .ret fun _ => f o
      | none => .need ⟨key.path, .sampleStat⟩ fun st => .ret fun _ => .ok st
  | k :: p, .oosData x => .need ⟨p, .oosData x⟩ fun o => .need ⟨key.path, .oosStat x⟩ fun st => .ret fun _ => S.comb k o st
  | _ :: _, .oosData2 _ _ => .ret fun _ => .error .notImplemented

/-- Implicit trees: `_implicit_sample`, `_implicit_oos` (MeanCentering.py:21-41, Sphere.py:24-49), `_implicit_diag`
(Transform.py:210-211; at the root TransformTree.py:161-167, `diag_fun` being never given: the diagonal of the base, computed without the
cache, is `env.diag`); the other classes have none
(Transform.py:110-111, 141-142). -/
def implicitBody (S : TSem V) (key : TKey) : Prog TKey (TEnv V) V :=
  match key.path, key.what with
  | [], .sampleData => .ret fun env => env.base0
  | [], .oosData x => .ret fun env => env.base1 x
  | [], .oosData2 x y => .ret fun env => env.base2 x y
  | [], _ => .ret fun _ => .error .notImplemented
  | .mean :: p, .sampleData => .need ⟨p, .sampleData⟩ fun m => .need ⟨.mean :: p, .sampleStat⟩ fun st =>
      .ret fun _ => S.icomb .mean m st st
  | .sphere :: p, .sampleData => .need ⟨p, .sampleData⟩ fun m => .need ⟨.sphere :: p, .sampleStat⟩ fun st =>
      .ret fun _ => S.icomb .sphere m st st
  | .mean :: p, .sampleStat => .need ⟨p, .sampleData⟩ fun m => .ret fun _ => S.stat .mean p.head? m
  | .sphere :: p, .sampleStat => .need ⟨p, .sampleData⟩ fun m => .ret fun _ => S.stat .sphere p.head? m
  | .mean :: p, .oosStat x => .need ⟨p, .oosData x⟩ fun o => .need ⟨.mean :: p, .sampleStat⟩ fun st =>
      .ret fun _ => S.iStatMean o st
  | [.sphere], .oosStat x => .ret fun env => match env.diag x with
      | .error e => .error e
      | .ok d => S.iStatSphere d
  | .sphere :: k :: p, .oosStat x => .need ⟨k :: p, .oosData2 x x⟩ fun d => .ret fun _ => S.iStatSphere d
  | .mean :: p, .oosData x => .need ⟨.mean :: p, .oosStat x⟩ fun sx => .need ⟨.mean :: p, .sampleStat⟩ fun st =>
      .need ⟨p, .oosData x⟩ fun o => .ret fun _ => S.icomb .mean o sx st
  | .sphere :: p, .oosData x => .need ⟨p, .oosData x⟩ fun o => .need ⟨.sphere :: p, .oosStat x⟩ fun sx =>
      .need ⟨.sphere :: p, .sampleStat⟩ fun st => .ret fun _ => S.icomb .sphere o sx st
  | .mean :: p, .oosData2 x y => .need ⟨.mean :: p, .oosStat x⟩ fun sx => .need ⟨.mean :: p, .oosStat y⟩ fun sy =>
      .need ⟨p, .oosData2 x y⟩ fun o => .ret fun _ => S.icomb .mean o sx sy
  | .sphere :: p, .oosData2 x y => .need ⟨p, .oosData2 x y⟩ fun o => .need ⟨.sphere :: p, .oosStat x⟩ fun sx =>
      .need ⟨.sphere :: p, .oosStat y⟩ fun sy => .ret fun _ => S.icomb .sphere o sx sy
  | _ :: _, .sampleData => .ret fun _ => .error .implicitError
  | _ :: _, _ => .ret fun _ => .error .bijectionError

def explicitTree (S : TSem V) (dflt : List Kind) : Defs TKey (TEnv V) V :=
  { table := defaultCacheLevel, body := explicitBody S, cfg := treeCfg dflt, rank := treeRank }

def implicitTree (S : TSem V) (dflt : List Kind) : Defs TKey (TEnv V) V :=
  { table := defaultCacheLevel, body := implicitBody S, cfg := treeCfg dflt, rank := treeRank }

/-- TransformTree.py:214-236 `apply` for a key of oos data, followed by `_clean_cache()` (not reached when an exception is raised). -/
def treeApply (D : Defs TKey (TEnv V) V) (env : TEnv V) (key : TKey) : CacheSt.M TKey V V := fun c =>
  match D.read env key c with
  | (.error e, c1) => (.error e, c1)
  | (.ok v, c1) => match CacheSt.clean .none c1 with
    | (.error e, c2) => (.error e, c2)
    | (.ok _, c2) => (.ok v, c2)

/-- What a user does with a tree: evaluate it at an argument, or change the content of arguments in place. -/
inductive TOp (V : Type)
  | apply (key : TKey)
  | mutate (base1 : Nat → Except Err V) (base2 : Nat → Nat → Except Err V) (diag : Nat → Except Err V)

def TEnv.mutate (env : TEnv V) (b1 : Nat → Except Err V) (b2 : Nat → Nat → Except Err V) (d : Nat → Except Err V) : TEnv V :=
  { env with base1 := b1, base2 := b2, diag := d }

/-- A history; outputs of the evaluations and final state. -/
def treeRun (D : Defs TKey (TEnv V) V) : List (TOp V) → TEnv V → CacheSt TKey V → List (Except Err V) × CacheSt TKey V
  | [], _, c => ([], c)
  | .apply key :: ops, env, c =>
    let r := treeApply D env key c
    let rest := treeRun D ops env r.2
    (r.1 :: rest.1, rest.2)
  | .mutate b1 b2 d :: ops, env, c => treeRun D ops (env.mutate b1 b2 d) c

/-- Specification: each evaluation is computed afresh from the current contents. -/
def treeSpec (D : Defs TKey (TEnv V) V) : List (TOp V) → TEnv V → List (Except Err V)
  | [], _ => []
  | .apply key :: ops, env => D.fresh env key :: treeSpec D ops env
  | .mutate b1 b2 d :: ops, env => treeSpec D ops (env.mutate b1 b2 d)

end Kerch

namespace Kerch

/-- A tree node seen through its level and its `_offspring` (Transform.py:16-22). -/
inductive TNode
  | node (kind : Option Kind) (level : Lvl) (offspring : List TNode)

namespace TNode

def level : TNode → Lvl
  | .node _ l _ => l
def offspring : TNode → List TNode
  | .node _ _ o => o

mutual
/-- Transform.py:220-228, the `cache_level` setter of a node; `a` is already an `int` (or the message) in the recursive calls. -/
def setLevel (a : Lvl) : TNode → TNode
  | .node k _ o => .node k a (setLevels a o)
def setLevels (a : Lvl) : List TNode → List TNode
  | [] => []
  | t :: ts => setLevel a t :: setLevels a ts
end

/-- Descendant reached by positions in the `_offspring` dictionaries. -/
def sub : TNode → List Nat → Option TNode
  | t, [] => some t
  | t, i :: p => match t.offspring[i]? with
    | none => none
    | some t' => sub t' p

end TNode

/-- What the cache of a `Sample` or `Kernel` may hold: a tensor, or a transform tree (sample.py:253-261, kernel.py:122-145), represented
by its cache. -/
inductive OVal (V : Type)
  | tensor (v : V)
  | tree (c : CacheSt TKey V)

/-- The value the loop `for value in self._cache.values()` (cache.py:64) sees for an element: the tuple `(level, persisting, val)`.
`isinstance(value, Cache)` (line 65) is false for a tuple, whatever it contains. -/
def tupleIsCache {V : Type} (_ : Entry (OVal V)) : Bool := false

/-- cache.py:60-66, the whole setter of `cache_level` on a module holding trees; lines 65-66 assign the level of `value`. -/
def setLevelOwner {V : Type} (c : CacheSt String (OVal V)) (a : LvlArg) : CacheSt String (OVal V) :=
  let l := c.getLevel a
  { level := l
    dict := c.dict.map fun kv =>
      if tupleIsCache kv.2 then
        (kv.1, { kv.2 with val := match kv.2.val with
          | .tensor v => .tensor v
          | .tree t => .tree { t with level := l } })
      else kv }

end Kerch
