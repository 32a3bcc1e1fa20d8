import Verif.Model.Defaults
import Verif.Model.TransformCache
/-!
# The entries of the documented cache-level tables and the calls which store them

Documentation: docs/source/features/cache_levels/{sample,kernel,transform,level}.csv, included by docs/source/features/cache.rst.
-/
namespace Kerch

/-- The rows of the four tables, in order.  `dflt` is the column "default/other" of the key. -/
inductive DocEntry
  | sampleTransform
  | samplePhi | sampleC | sampleK | kernelExplicitTransform | kernelImplicitTransform
  | trSampleData (dflt : Bool) | trSampleStat (dflt : Bool) | trOosData (dflt : Bool) | trOosStat (dflt : Bool)
  | forwardSample (dflt : Bool) | forwardOos (dflt : Bool) | identity (dflt : Bool) | subloss (dflt : Bool)
  deriving DecidableEq, Repr

/-- The keyword arguments of the `_get` storing each entry:
feature/sample.py:261; kernel/kernel.py:158, 171, 193, 135, 146; transform/Transform.py:24-35 with 115, 127 (statistics use the level of
the data), 183-196, 156-173; level/_View.py:414-423 (a lambda is given as level key: not in the table); level/_Level.py:72-75;
level/_KPCA.py:220-221, 235-236 and level/single_view/LSSVM.py:129-130, 147-148 (`"Level_subloss_representation"`). -/
def DocEntry.call : DocEntry → CacheSt.GetArgs
  | .sampleTransform => { levelKey := some "sample_transform" }
  | .samplePhi => { levelKey := some "sample_phi" }
  | .sampleC => { levelKey := some "sample_C" }
  | .sampleK => { levelKey := some "sample_K" }
  | .kernelExplicitTransform => { levelKey := some "kernel_explicit_transform" }
  | .kernelImplicitTransform => { levelKey := some "kernel_implicit_transform" }
  | .trSampleData b => treeCfg (if b then [] else [.mean]) ⟨[], .sampleData⟩
  | .trSampleStat b => treeCfg (if b then [] else [.mean]) ⟨[], .sampleStat⟩
  | .trOosData b => treeCfg (if b then [] else [.mean]) ⟨[], .oosData 0⟩
  | .trOosStat b => treeCfg (if b then [] else [.mean]) ⟨[], .oosStat 0⟩
  | .forwardSample _ => { levelKey := none }
  | .forwardOos _ => { levelKey := none }
  | .identity b => { levelKey := some (if b then "Level_I_default_representation" else "Level_I_other_representation"), persisting := true }
  | .subloss b => { levelKey := some (if b then "Level_subloss_default_representation" else "Level_subloss_representation") }

end Kerch
