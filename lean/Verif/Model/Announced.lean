import Verif.Model.KernelList
import Verif.Model.Transforms
/-!
# What a kernel announces of itself (kerch/kernel/kernel.py:72-97, kerch/transform/TransformTree.py:129-138)
-/
namespace Kerch
namespace Announced

/-- TransformTree.py:129-138 `final_transform`: the last default transform, `none` (the class `TransformTree`) if there is none. -/
def finalTransform (t : List Kind) : Option Kind := t.getLast?

/-- kernel.py:72-74 `_naturally_centered`: no kernel overwrites it. -/
def naturallyCentered (_ : KCls) : Bool := false

/-- kernel.py:80-87 `centered`, with the default transforms `t` (after `_simplify_transform`, kernel.py:102-120). -/
def centered (K : KCls) (t : List Kind) : Bool :=
  (naturallyCentered K && finalTransform t == none) || finalTransform t == some .mean

/-- kernel.py:89-96 `normalized`. -/
def normalized (K : KCls) (t : List Kind) : Bool :=
  (K.natNorm && finalTransform t == none) || finalTransform t == some .sphere

end Announced
end Kerch
