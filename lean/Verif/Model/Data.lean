import Verif.Model.Cache
/-!
# Learning sets (kerch/data/_LearningSet.py, kerch/data/datasets.py)
-/
namespace Kerch
namespace Data

/-- A bound of a Python slice applied to a list of length `n`: negative bounds count from the end, all are clamped to `0..n`. -/
def clampIdx (n : Nat) (a : Int) : Nat := if a < 0 then (a + n).toNat else min a.toNat n

/-- `l[a:b]` of Python. -/
def pySlice {α : Type _} (l : List α) (a b : Int) : List α := (l.take (clampIdx l.length b)).drop (clampIdx l.length a)

/-- _LearningSet.py:78-86, the loop of `_indices`, from `pos_start` on. -/
def pieces {α : Type _} (idx : List α) : Int → List Int → List (List α)
  | _, [] => []
  | pos, size :: rest =>
    if size = 0 then [] :: pieces idx pos rest
    else pySlice idx pos (pos + size) :: pieces idx (pos + size) rest

/-- The argument `sizes` of `_indices`: a list of integers or a bare integer. -/
inductive SizesArg where
  | list : List Int → SizesArg
  | int : Int → SizesArg

/-- `list(range(total))` (lines 72-74), the indices before shuffling; `range` of a negative number is empty. -/
def rangeOf (total : Int) : List Nat := List.range total.toNat

/-- _LearningSet.py:68-87 `_indices`. `sh` stands for `random.shuffle` if `self._shuffle` is set and for the identity otherwise. A bare integer is refused by
`sum(sizes)` (line 73) or by the loop (line 80). -/
def indices (sh : List Nat → List Nat) (sizes : SizesArg) (total : Option Int) : Except Err (List (List Nat)) :=
  match sizes with
  | .int _ => .error .typeError
  | .list s => .ok (pieces (sh (rangeOf (total.getD s.sum))) 0 s)

/-- The data sets held by a learning set after `_init_datasets` (lines 25-39): the rows of training, validation and test, each with its label. -/
structure Sets (α : Type _) (β : Type _) where
  training : List (α × β)
  validation : List (α × β)
  test : List (α × β)

/-- `data[idx]` on the rows (torch and numpy indexing with a list), `IndexError` for an index out of range. -/
def rows {α : Type _} (data : List α) (idx : List Nat) : Except Err (List α) :=
  idx.mapM fun i => match data[i]? with
    | some x => .ok x
    | none => .error .indexError

/-- _LearningSet.py:29-39, one of the three blocks of `_init_datasets`. -/
def tensorDataset {α : Type _} {β : Type _} (d : List α) (l : List β) : Except Err (List (α × β)) :=
  if d.length = l.length then .ok (d.zip l) else .error .assertionError

/-- _LearningSet.py:25-39 `_init_datasets` on the selected rows. -/
def initDatasets {α : Type _} {β : Type _} (data : List α) (labels : List β) (tdata : List α) (tlabels : List β) (tr va te : List Nat) :
    Except Err (Sets α β) := do
  let a ← tensorDataset (← rows data tr) (← rows labels tr)
  let b ← tensorDataset (← rows data va) (← rows labels va)
  let c ← tensorDataset (← rows tdata te) (← rows tlabels te)
  return ⟨a, b, c⟩

/-- _LearningSet.py:94-112, constructor of `_LearningSetTrain`; `gen num` is `self._training(num)`. -/
def learningSetTrain {α : Type _} {β : Type _} (sh : List Nat → List Nat) (gen : Int → List α × List β) (ntr nva nte : Int) : Except Err (Sets α β) := do
  let sizes := [ntr, nva, nte]
  let (data, labels) := gen sizes.sum
  match ← indices sh (.list sizes) (some data.length) with
  | [tr, va, te] => initDatasets data labels data labels tr va te
  | _ => .error .indexError

/-- _LearningSet.py:123-141, constructor of `_LearningSetTrainTest`; line 134 passes the bare integer `num_test` to `_indices`. -/
def learningSetTrainTest {α : Type _} {β : Type _} (sh : List Nat → List Nat) (gen genTest : Int → List α × List β) (ntr nva nte : Int) :
    Except Err (Sets α β) := do
  let sizes := [ntr, nva]
  let (data, labels) := gen sizes.sum
  let (tdata, tlabels) := genTest nte
  let l ← indices sh (.list sizes) (some data.length)
  let t ← indices sh (.int nte) (some tdata.length)
  match l, t with
  | [tr, va], [te] => initDatasets data labels tdata tlabels tr va te
  | _, _ => .error .indexError

/-- datasets.py:42-53, the number of points of the inner and of the outer moon of `TwoMoons._training` (`//` rounds down). -/
def twoMoonsSizes (num : Int) : Int × Int := (num - num / 2, num / 2)

/-- datasets.py:87 and 121, `size = -(num // -2)`, the number of points of each class of `Spiral` and `Gaussians`. -/
def classSize (num : Int) : Int := -(Int.fdiv num (-2))

/-- The two moons as a list of points tagged by moon and rank, the inner one first, with labels 1 and 0 (datasets.py:51-53). The coordinates are not
modelled. -/
def twoMoons (num : Int) : List (Bool × Nat) × List Int :=
  let (i, o) := twoMoonsSizes num
  ((List.range i.toNat).map (fun k => (true, k)) ++ (List.range o.toNat).map (fun k => (false, k)),
   List.replicate i.toNat 1 ++ List.replicate o.toNat 0)

/-- `Spiral._training` and `Gaussians._training` (datasets.py:85-111 and 120-130): two classes of the same size, labels -1 and 1. Coordinates not modelled. -/
def twoClasses (num : Int) : List (Bool × Nat) × List Int :=
  let s := (classSize num).toNat
  ((List.range s).map (fun k => (false, k)) ++ (List.range s).map (fun k => (true, k)), List.replicate s (-1) ++ List.replicate s 1)

/-- `PimaIndians._training` and `Iris._training` (datasets.py:68-74 and 139-144): the whole file whatever `num`. -/
def fromFile {α : Type _} {β : Type _} (data : List α) (labels : List β) (_num : Int) : List α × List β := (data, labels)

end Data
end Kerch
