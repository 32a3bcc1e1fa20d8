import Verif.Model.RandomFeatures
import Verif.Model.Transforms
import Verif.Model.Methods
/-!
# Feature maps and pre-images of a kernel (kerch/kernel/kernel.py:196-209, 293-310, 347-390; kerch/kernel/_base_kernel.py:304-346)

A kernel has a chain `p` of transforms of its sample and a chain `q` of transforms of its features (both from the last transform to the first), a
feature map `ψ` (`_explicit`) and, if the class has one, an inverse of it (`_explicit_preimage`). Points have index type `d`, features `m`.
-/
namespace Kerch
namespace Preimage

variable {n d m : Type} [Fintype n] [Nonempty n] [Fintype d] [Fintype m]

/-- kernel.py:196-209 `phi` with the default transforms: the argument is transformed like the sample (kerch/feature/sample.py:263-270, `None` stays
`None`), then mapped and transformed relative to the features of the transformed sample. -/
noncomputable def phi (p q : List Kind) (ψ : (d → ℝ) → m → ℝ) (pts : n → d → ℝ) : (a : Arg (d → ℝ)) → Option (a.I n → m → ℝ)
  | .sample => (esample id pts p).bind fun S => esample ψ S q
  | .batch ι x => (esample id pts p).bind fun S => (eoos id pts p (.batch ι x)).bind fun Y => eoos ψ S q (.batch ι Y)

/-- `_kernel_explicit_transform.revert`: as `erevert`; when the transformed sample is `NaN` (`none`) so is what any transform makes of it. -/
noncomputable def revertFeatures {ι : Type} (q : List Kind) (ψ : (d → ℝ) → m → ℝ) (S : Option (n → d → ℝ)) (F : Option (ι → m → ℝ)) :
    Except Err (Option (ι → m → ℝ)) :=
  match S with
  | some S => erevert ψ S q F
  | none => if Kind.sphere ∈ q then .error .bijectionError else .ok (if q = [] then F else none)

/-- kernel.py:374-377, the method `'explicit'` of `explicit_preimage`. `pre` is `_explicit_preimage`, which either always raises or is computed row by
row: linear.py:47-48 (identity), random_features.py:186-189 (`rfInverse`), explicit.py:48-49 and nystrom.py:169-170 (raise). -/
noncomputable def explicitPreimage {ι : Type} (p q : List Kind) (ψ : (d → ℝ) → m → ℝ) (pre : Except Err ((m → ℝ) → d → ℝ)) (pts : n → d → ℝ)
    (F : Option (ι → m → ℝ)) : Except Err (Option (ι → d → ℝ)) := do
  let φ ← revertFeatures q ψ (esample id pts p) F
  let g ← pre
  erevert id pts p (φ.map fun φ i => g (φ i))

/-- random_features.py:186-189 with the pseudo-inverse `P` (see `rfPreimage`, which is this function at one row). -/
noncomputable def rfInverse (a : Activation) (num : ℕ) (σ : ℝ) (P : Matrix d m ℝ) : Except Err ((m → ℝ) → d → ℝ) :=
  a.inv.map fun g φ j => P.mulVec (fun i => g (φ i * Real.sqrt num)) j * σ

end Preimage

namespace Methods

/-- kernel.py:378-381, the method `'knn'` of `explicit_preimage`: `phi_image @ self.Phi.T`, negated, given to `knn` with the current sample. -/
noncomputable def explicitKnn {b n m d : ℕ} (sel : Sel b n) (F : Mat b m) (Φ : Mat n m) (obs : Mat n d) (num : PyNum) : Except Err (Mat b d) :=
  knn sel (fun i j => -∑ l, F i l * Φ j l) obs num

/-- _base_kernel.py:336-338, the method `'knn'` of `implicit_preimage`. -/
noncomputable def implicitKnn {b n d : ℕ} (sel : Sel b n) (k : Mat b n) (obs : Mat n d) (num : PyNum) : Except Err (Mat b d) :=
  knn sel (fun i j => -k i j) obs num

/-- kernel.py:382-385, the method `'smoother'` of `explicit_preimage`. -/
noncomputable def explicitSmoother {b n m d : ℕ} (sel : Sel b n) (F : Mat b m) (Φ : Mat n m) (obs : Mat n d) (num : PyNum) :
    Except Err (Fin b → Fin d → Option ℝ) := smoother sel (fun i j => ∑ l, F i l * Φ j l) obs num

/-- _base_kernel.py:339-341, the method `'smoother'` of `implicit_preimage`. -/
noncomputable def implicitSmoother {b n d : ℕ} (sel : Sel b n) (k : Mat b n) (obs : Mat n d) (num : PyNum) :
    Except Err (Fin b → Fin d → Option ℝ) := smoother sel k obs num

end Methods

/-! ### What is refused -/
namespace Dispatch

/-- What a call gives: a value, an exception, or an exception (object or class) *returned* as a value. -/
inductive Res (α : Type)
  | val (a : α)
  | raised (e : Err)
  | returned (e : Err)

/-- kernel.py:293-310 `forward`: `switcher.get(representation, RepresentationError)` applied to `x`. -/
def forward {α : Type} (phi k : α) (representation : List Char) : Res α :=
  if representation = "primal".toList then .val phi
  else if representation = "dual".toList then .val k
  else .returned .representationError

/-- _base_kernel.py:228-257 `forward` (kernels that do not redefine it): the default of the switcher is an exception *object*, which is then called. -/
def forwardBase {α : Type} (phi k : α) (representation : List Char) : Res α :=
  if representation = "explicit".toList then .val phi
  else if representation = "implicit".toList then .val k
  else .raised .typeError

/-- Where `explicit_preimage` comes from: kernel.py:347-390 (explicit kernels), implicit.py:44-52 (the keyword `cms` is unknown to the exception, so that
its construction raises `TypeError`), polynomial.py:255-257 (the class is returned; a `method` is an unexpected keyword). -/
inductive Family
  | explicit
  | implicit
  | polynomial
  deriving DecidableEq

/-- The methods of `explicit_preimage`: kernel.py:373-390 (`lower` is `str.lower`). `run` is what the method named returns or raises. -/
def explicitPreimage {α : Type} (lower : List Char → List Char) (run : List Char → Except Err α) (f : Family) (method : Option (List Char)) : Res α :=
  match f with
  | .implicit => .raised .typeError
  | .polynomial => match method with
    | none => .returned .notImplemented
    | some _ => .raised .typeError
  | .explicit =>
    let s := lower (method.getD "explicit".toList)
    if s = "explicit".toList ∨ s = "knn".toList ∨ s = "smoother".toList ∨ s = "iterative".toList then
      match run s with
      | .ok a => .val a
      | .error e => .raised e
    else .raised .attributeError

/-- _base_kernel.py:334-346 `implicit_preimage`. -/
def implicitPreimage {α : Type} (lower : List Char → List Char) (run : List Char → Except Err α) (method : Option (List Char)) : Res α :=
  let s := lower (method.getD "knn".toList)
  if s = "knn".toList ∨ s = "smoother".toList ∨ s = "iterative".toList then
    match run s with
    | .ok a => .val a
    | .error e => .raised e
  else .raised .attributeError

end Dispatch
end Kerch
