import Verif.Model.Cache
/-!
# Hyper-parameters reported by modules and models (properties `hparams_fixed`, `hparams_variable`)
-/
namespace Kerch
namespace HParams

/-- Where a definition of `hparams_fixed` or `hparams_variable` takes the remaining entries from: `**super().hparams_fixed`,
`**super().hparams_variable`, or nowhere. -/
inductive Rest
  | fixed | vari | nothing
  deriving DecidableEq

variable {κ ν : Type} [DecidableEq κ]

/-- One class of a method resolution order: its own definition of `hparams_fixed` and of `hparams_variable` (`none`: not overridden) as the entries it
writes itself and `Rest`; `asMethod` if `hparams_fixed` lacks the decorator `@property` (linear.py:41, nystrom.py:105, explicit_nn.py:71).
`hparams_variable` never refers to `hparams_fixed` in the code. -/
structure Cls (κ ν : Type) where
  fixed : Option (Dict κ ν × Rest) := none
  vari : Option (Dict κ ν × Bool) := none
  asMethod : Bool := false

/-- `hparams_variable` along the resolution order, most derived class first; every definition is `{own…, **super().hparams_variable}` (`true`) or
`{own…}` (`false`); module.py:155-171 ends the chain with `{}`. -/
def hvar : List (Cls κ ν) → Dict κ ν
  | [] => []
  | c :: cs => match c.vari with
    | none => hvar cs
    | some (own, true) => own.merge (hvar cs)
    | some (own, false) => own

/-- What reading `hparams_fixed` gives: a dictionary, or the bound method if the decorator is missing. -/
inductive Reading (κ ν : Type)
  | dict (d : Dict κ ν)
  | method

/-- `hparams_fixed` along the resolution order; module.py:173-180 ends the chain with `{}`. Unpacking a method with `**` raises TypeError. The attributes
read are supposed initialised. -/
def hread : List (Cls κ ν) → Except Err (Reading κ ν)
  | [] => .ok (.dict [])
  | c :: cs =>
    if c.asMethod then .ok .method
    else match c.fixed with
      | none => hread cs
      | some (own, .nothing) => .ok (.dict own)
      | some (own, .vari) => .ok (.dict (own.merge (hvar cs)))
      | some (own, .fixed) => match hread cs with
        | .ok (.dict d) => .ok (.dict (own.merge d))
        | .ok .method => .error .typeError
        | .error e => .error e

/-- `m.hparams_fixed.items()` (Model.py:61): a method has no such attribute. -/
def hfix (ms : List (Cls κ ν)) : Except Err (Dict κ ν) :=
  match hread ms with
  | .ok (.dict d) => .ok d
  | .ok .method => .error .attributeError
  | .error e => .error e

/-- Names of the entries; each stands for the string in the code. -/
inductive Key
  | kernel | inputDim | trainSample | defSampleTr | defKernelTr | trainSigma | sigma | squared | alpha | beta | a | b | p | trainP
  | lag | gamma | rfWeights | negSlope | baseKernel | numWeights | rfType | innerTr | trainMap
  | outDim | repr | paramsTrain | constraint | levelType | levelEta
  deriving DecidableEq

/-- Values: the name of a kernel, or the current value of the attribute reported under a key. -/
inductive Val (K : Type)
  | name (k : K)
  | attr (k : Key)
  deriving DecidableEq

/-- Kernel classes that can be instantiated. -/
inductive Kern
  | linear | cosine | polynomial | sigmoid | rbf | laplacian | exponential | wasserstein
  | triangular | epanechnikov | triweight | logistic | silverman | tricube | quartic | uniform
  | additiveChi2 | skewedChi2 | hat | indicator
  | rff | rfArcsinh | rfLReLU | rfHyperbola | rfStacked | nystrom | explicitNN | implicitNN
  deriving DecidableEq

abbrev C := Cls Key (Val Kern)

/-- The entry of a key with the current value of its attribute. -/
def at' (k : Key) : Key × Val Kern := (k, .attr k)

/-- sample.py:280-289. -/
def sample : C :=
  { fixed := some ([at' .inputDim, at' .trainSample, at' .defSampleTr], .fixed), vari := some ([], true) }

/-- _base_kernel.py:38-50 (both add nothing) and kernel.py:68-70. -/
def kernelBase : List C := [{ fixed := some ([at' .defKernelTr], .fixed) }, { fixed := some ([], .fixed), vari := some ([], true) }, sample]

/-- distance/_distance.py:74-82. -/
def distance : C := { fixed := some ([at' .trainSigma], .fixed), vari := some ([at' .sigma], true) }

/-- exponential.py:51-55. -/
def exponential : C := { fixed := some ([(.kernel, .name .exponential), at' .squared], .fixed) }

/-- random_features.py:182-184. -/
def randomFeatures : C := { vari := some ([at' .rfWeights], false) }

/-- What a kernel class defines itself (files of the class, at `hparams_fixed` and `hparams_variable`): linear.py:40-42, cosine.py:37-39,
polynomial.py:172-180, sigmoid.py:54-61, rbf.py:69-71, laplacian.py:60-62, generic/wasserstein.py:43-45, triangular.py, epanechnikov.py, triweight.py,
tricube.py, quartic.py, uniform.py:32-35, logistic.py:23-26, silverman.py:29-32, additive_chi_2.py:33-39, skewed_chi_2.py:59-65, hat.py:82-88,
indicator.py:83-86, 114-116, rff.py:54-57, rf_arcsinh.py:14-16, rf_lrelu.py:17-21, rf_hyperbola.py:70-72, rf_stacked.py:61-67, nystrom.py:104-108,
explicit_nn.py:71-74, implicit_nn.py:47-49. -/
def own : Kern → C
  | .exponential => exponential
  | .polynomial => { fixed := some ([(.kernel, .name .polynomial)], .nothing), vari := some ([at' .alpha, at' .beta], true) }
  | .sigmoid => { fixed := some ([(.kernel, .name .sigmoid)], .fixed), vari := some ([at' .a, at' .b], false) }
  | .additiveChi2 => { fixed := some ([(.kernel, .name .additiveChi2)], .fixed), vari := some ([], false) }
  | .skewedChi2 => { fixed := some ([(.kernel, .name .skewedChi2), at' .trainP], .fixed), vari := some ([at' .p], false) }
  | .hat => { fixed := some ([(.kernel, .name .hat)], .fixed), vari := some ([at' .lag], false) }
  | .indicator => { fixed := some ([(.kernel, .name .indicator)], .fixed), vari := some ([at' .lag, at' .gamma], false) }
  | .rfLReLU => { fixed := some ([(.kernel, .name .rfLReLU), at' .negSlope], .fixed) }
  | .rfStacked => { fixed := some ([(.kernel, .name .rfStacked), at' .numWeights, at' .rfType, at' .innerTr], .fixed) }
  | .nystrom => { fixed := some ([(.kernel, .name .nystrom), at' .baseKernel], .fixed), asMethod := true }
  | .explicitNN => { fixed := some ([(.kernel, .name .explicitNN), at' .trainMap], .fixed), asMethod := true }
  | .triangular => { fixed := some ([(.kernel, .name .triangular)], .vari) }
  | .epanechnikov => { fixed := some ([(.kernel, .name .epanechnikov)], .vari) }
  | .triweight => { fixed := some ([(.kernel, .name .triweight)], .vari) }
  | .logistic => { fixed := some ([(.kernel, .name .logistic)], .vari) }
  | .silverman => { fixed := some ([(.kernel, .name .silverman)], .vari) }
  | .tricube => { fixed := some ([(.kernel, .name .tricube)], .vari) }
  | .quartic => { fixed := some ([(.kernel, .name .quartic)], .vari) }
  | .uniform => { fixed := some ([(.kernel, .name .uniform)], .vari) }
  | .linear => { fixed := some ([(.kernel, .name .linear)], .fixed), asMethod := true }
  | .cosine => { fixed := some ([(.kernel, .name .cosine)], .fixed) }
  | .rbf => { fixed := some ([(.kernel, .name .rbf)], .fixed) }
  | .laplacian => { fixed := some ([(.kernel, .name .laplacian)], .fixed) }
  | .wasserstein => { fixed := some ([(.kernel, .name .wasserstein)], .fixed) }
  | .rff => { fixed := some ([(.kernel, .name .rff)], .fixed) }
  | .rfArcsinh => { fixed := some ([(.kernel, .name .rfArcsinh)], .fixed) }
  | .rfHyperbola => { fixed := some ([(.kernel, .name .rfHyperbola)], .fixed) }
  | .implicitNN => { fixed := some ([(.kernel, .name .implicitNN)], .fixed) }

/-- The classes a kernel class derives from, as far as they define something: `class Cosine(Linear)` (cosine.py:16), `class RBF(Exponential)` (rbf.py:17),
`class Laplacian(Exponential)` (laplacian.py:18), `class Wasserstein(Exponential)` (generic/wasserstein.py:18), the statistics kernels from
`SelectDistance`, the random features from `RandomFeatures`. -/
def ancestors : Kern → List C
  | .cosine => own .linear :: kernelBase
  | .rbf | .laplacian | .wasserstein => exponential :: distance :: kernelBase
  | .exponential | .triangular | .epanechnikov | .triweight | .logistic | .silverman | .tricube | .quartic | .uniform => distance :: kernelBase
  | .rff | .rfArcsinh | .rfLReLU | .rfHyperbola => randomFeatures :: kernelBase
  | _ => kernelBase

/-- Resolution order of a kernel class. -/
def mro (k : Kern) : List C := own k :: ancestors k

/-- _View.py:69-76 and _Level.py:34-42. -/
def view : C := { fixed := some ([at' .outDim, at' .repr, at' .paramsTrain, at' .constraint], .fixed) }
def level : C := { fixed := some ([at' .levelType, at' .levelEta], .fixed), vari := some ([], true) }

/-- Resolution order of a level with the kernel `k`: View.py:39-47 makes a class of the bases (level class, kernel class); `_Level` then comes before the
kernel class and this one before `Kernel`, `_BaseKernel`, `_View` and `Sample`. -/
def levelMro (k : Kern) : List C :=
  level :: own k :: ((ancestors k).dropLast ++ [view, sample])

/-- Model.py:59-60, 67-68: `f"[LEVEL{num} {cls}] "`. -/
def prefixName (num : Nat) (cls : List Char) : List Char :=
  "[LEVEL".toList ++ (Nat.toDigits 10 num ++ (' ' :: (cls ++ "] ".toList)))

/-- Model.py:56-70 (and 72-86 for the losses and the watched properties): the dictionary of a model from those of its levels, given with the names of
their classes; `num` counts from the first one. -/
def modelFrom {ν : Type} (num : Nat) (val : Dict (List Char) ν) : List (List Char × Dict (List Char) ν) → Dict (List Char) ν
  | [] => val
  | (cls, d) :: ls => modelFrom (num + 1) (val.merge (d.map fun kv => (prefixName num cls ++ kv.1, kv.2))) ls

/-- The dictionary reported by a model. -/
def modelDict {ν : Type} (levels : List (List Char × Dict (List Char) ν)) : Dict (List Char) ν := modelFrom 0 [] levels

/-- The class name of a level with its dictionary, if reading it does not raise. -/
def tagged {ν : Type} (l : List Char × Except Err (Dict (List Char) ν)) : Except Err (List Char × Dict (List Char) ν) := l.2.map fun d => (l.1, d)

/-- Model.py:56-62 with levels whose reading may raise: the exception of the first of them leaves the property. -/
def modelFixed {ν : Type} (levels : List (List Char × Except Err (Dict (List Char) ν))) : Except Err (Dict (List Char) ν) :=
  (levels.mapM tagged).map modelDict

/-- What a level of class `cls` on the kernel `k` hands to the model (`text` the strings of the keys). -/
def levelReport (text : Key → List Char) (cls : List Char) (k : Kern) : List Char × Except Err (Dict (List Char) (Val Kern)) :=
  (cls, (hfix (levelMro k)).map fun d => d.map fun kv => (text kv.1, kv.2))

end HParams
end Kerch
