import Verif.Model.Names
import Verif.Model.KernelFun
/-!
# Lists of transforms given to kernels (kerch/kernel/kernel.py:34-56, 102-125, 312-331)

Python lists are mutable: each function returns, next to its result, the list of the caller after the call.
-/
namespace Kerch

/-- What matters of the class of a kernel: `_required_transform` (kernel.py:98-100; generic/cosine.py:29-32) and `_naturally_normalized`
(kernel.py:76-78). -/
structure KCls where
  required : Option TrArg
  natNorm : Bool

/-- generic/linear.py: nothing particular. -/
def KCls.linear : KCls := ⟨none, false⟩
/-- generic/cosine.py:29-32. -/
def KCls.cosine : KCls := ⟨some (.name "unit_sphere_normalization"), false⟩
/-- statistics/*.py. -/
def KCls.stat (s : StatKind) : KCls := ⟨none, naturallyNormalized s⟩

/-- kernel.py:113-118: a leading unit sphere normalisation is dropped if the kernel is naturally normalized. -/
def dropFirst (K : KCls) : List Kind → List Kind
  | .sphere :: r => if K.natNorm then r else .sphere :: r
  | t => t

/-- kernel.py:102-120 `_simplify_transform` on a list: `transform.append(...)` acts on the caller's list, `beautify_transform` makes a new one. -/
def simplify (K : KCls) (l : List TrArg) : List TrArg × Except Err (List Kind) :=
  let l' := l ++ K.required.toList
  (l', (beautify l').map (dropFirst K))

/-- kernel.py:34-56 `__init__`: the list of the caller and the default transforms. -/
def kernelInit (K : KCls) (center normalize : Bool) (l : List TrArg) : List TrArg × Except Err (List Kind) :=
  let l := if center then l ++ [.name "mean_centering"] else l
  let l := if normalize then l ++ [.name "unit_sphere_normalization"] else l
  simplify K l

/-- kernel.py:196-209 `phi`, 211-264 `k`, 266-282 `c` with the argument `transform`: `_get_transform` (122-125), then
`TransformTree.apply` → `_get_tree` (kerch/transform/TransformTree.py:198-212), which resolves the list once more. The result is the chain applied,
first transform first. -/
def evalChain (K : KCls) (l : List TrArg) : List TrArg × Except Err (List Kind) :=
  let r := simplify K l
  (r.1, r.2.bind fun t => beautify (t.map .cls))

/-- The chain applied without the argument `transform`, for a kernel built with the list `l` (kernel.py:122-125, TransformTree.py:96 and
198-201). -/
def defaultChain (K : KCls) (center normalize : Bool) (l : List TrArg) : Except Err (List Kind) :=
  (kernelInit K center normalize l).2.bind fun t => beautify (t.map .cls)

end Kerch
