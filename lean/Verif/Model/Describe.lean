import Verif.Model.Classes
/-!
# What objects say about themselves: `__str__` and `__repr__`

Every kernel, level and model describes itself with a text, which is printed and logged (level/single_view/View.py:81).  Which
bodies of `__str__` are executed is decided by the linearisation of the class of the object (`Verif.Model.Classes`); what the
bodies print is modelled here.

Simplifications: a text is its list of characters; numbers are given in their printed form (`{:1.2e}`, `str`), only what is
printed is modelled and not how digits are produced.  `MultiView` and `MVKPCA` are left out: they cannot be constructed.
-/
set_option linter.unusedSectionVars false
namespace Kerch
namespace Describe
open Classes

/-- A text. -/
abbrev Text := List Char

/-- The characters of a string literal. -/
scoped syntax "txt!" str : term
macro_rules
  | `(txt! $s:str) => do
    let cs := (s.getString.toList.map (fun c => Lean.Syntax.mkCharLit c)).toArray
    `(([$cs,*] : List Char))

/-- What the bodies read of the object, printed. -/
structure Vals where
  /-- `self.sigma`, `none` if `self._sigma_defined` is false -/
  sigma : Option Text
  alpha : Text
  beta : Text
  lag : Text
  p : Text
  /-- `self.num_weights` -/
  weights : Text
  /-- class names of the two networks of an explicit neural kernel, if there are any -/
  encoder : Option Text
  decoder : Option Text
  /-- the texts of the kernels stacked -/
  layers : List Text
  /-- the view belongs to a multi-view -/
  attached : Bool
  /-- what the classes of the user print -/
  user : ℕ → Text

/-- `(…, sigma: 1.00e+00)` or `(…, sigma undefined)` after the opening part: rbf.py:64-67, laplacian.py:55-58,
select_distance.py:46-49. -/
def sigmaText (v : Vals) : Text :=
  match v.sigma with
  | some s => txt! "sigma: " ++ s
  | none => txt! "sigma undefined"

/-- What the body of `__str__` written in the class `home` returns; `inner` is the text of the call it makes of another one, if
it makes one.  The lines are those listed in `callee` and: implicit.py:27, explicit.py:25, _distance.py:39, chebyshev.py:15,
euclidean.py:15, manhattan.py:15, minkowski.py:22, distance/wasserstein.py:16, cosine.py:34, laplacian.py:55-58, linear.py:34,
polynomial.py:91, rbf.py:64-67, sigmoid.py:51, generic/wasserstein.py:38-41, explicit_nn.py:60-69, implicit_nn.py:44, nystrom.py:93,
random_features.py:179, rf_stacked.py:20-24, epanechnikov.py:24, logistic.py:20, quartic.py:24, silverman.py:21, triangular.py:24,
tricube.py:24, triweight.py:24, uniform.py:24, hat.py:53, indicator.py:80, additive_chi_2.py:30, skewed_chi_2.py:56.
The Wasserstein kernel is given as it prints with a defined bandwidth; see `printSigmaWasserstein`. -/
def body (v : Vals) (home : CN) (inner : Text) : Text :=
  match home with
  | .implicit => txt! "Implicit kernel."
  | .explicit => txt! "Explicit kernel."
  | .distanceBase => txt! "generic distance"
  | .chebyshev => txt! "chebyshev"
  | .euclidean => txt! "euclidean"
  | .manhattan => txt! "manhattan"
  | .minkowski => txt! "manhattan"
  | .wassersteinDistance => txt! "wasserstein"
  | .selectDistance => txt! "(" ++ inner ++ txt! ", " ++ sigmaText v ++ txt! ")"
  | .cosine => txt! "Cosine kernel."
  | .laplacian => txt! "Laplacian kernel (" ++ sigmaText v ++ txt! ")"
  | .linear => txt! "linear kernel"
  | .polynomial => txt! "polynomial kernel (alpha=" ++ v.alpha ++ txt! ", beta=" ++ v.beta ++ txt! ")"
  | .rbf => txt! "RBF kernel (" ++ sigmaText v ++ txt! ")"
  | .sigmoid => txt! "Sigmoid kernel."
  | .wassersteinKernel => txt! "Wasserstein Exponential Kernel (" ++ sigmaText v ++ txt! ")"
  | .explicitNN => txt! "explicit kernel (" ++
      (match v.encoder with
        | some n => txt! "encoder: " ++ n
        | none => txt! "encoder undefined") ++ txt! ", " ++
      (match v.decoder with
        | some n => txt! "decoder: " ++ n
        | none => txt! "decoder undefined") ++ txt! ")"
  | .implicitNN => txt! "implicit kernel"
  | .nystrom => txt! "Nystrom kernel"
  | .randomFeatures => txt! " (num_weights: " ++ v.weights ++ txt! ")"
  | .rfArcsinh => txt! "random features arcsinh" ++ inner
  | .rfHyperbola => txt! "random features hyperbola" ++ inner
  | .rfLReLU => txt! "random Leaky-ReLU features" ++ inner
  | .rff => txt! "random fourier features" ++ inner
  | .rfStacked => txt! "stacked random features:" ++ v.layers.flatMap (fun k => ['\n', '\t'] ++ k)
  | .exponential => txt! "exponential kernel " ++ inner
  | .epanechnikov => txt! "Epanechnikov/parabolic kernel"
  | .logistic => txt! "Logistic kernel"
  | .quartic => txt! "quartic kernel"
  | .silverman => txt! "Silverman kernel"
  | .triangular => txt! "triangular kernel"
  | .tricube => txt! "tricube kernel"
  | .triweight => txt! "triweight kernel"
  | .uniform => txt! "uniform kernel"
  | .hat => txt! "Hat kernel (lag: " ++ v.lag ++ txt! ")"
  | .indicator => txt! "Indicator kernel (lag: " ++ v.lag ++ txt! ")"
  | .additiveChi2 => txt! "Additive Chi Squared kernel."
  | .skewedChi2 => txt! "Skewed Chi Squared kernel (p: " ++ v.p ++ txt! ")."
  | .kpca => txt! "KPCA with " ++ inner
  | .lssvm => txt! "LSSVM with " ++ inner
  | .view => if v.attached then txt! "view with " ++ inner else inner
  | .user n => v.user n
  | _ => []

/-- Where the body of `__str__` of the class `home` looks for the other one it calls, `full` being the linearisation of the
object: View.py:83-86 (`self.kernel` is `super(View, self)`), KPCA.py:25, LSSVM.py:28 (`Level.__str__(self)`), exponential.py:48
(`SelectDistance.__str__(self)`), select_distance.py:46-49, rf_arcsinh.py:11, rf_hyperbola.py:67, rf_lrelu.py:14, rff.py:59.  The
others call none. -/
def callee (full : List Classes.Entry) : CN → Option (List Classes.Entry)
  | .kpca => some (cls .level).mro
  | .lssvm => some (cls .level).mro
  | .view => some (after .view full)
  | .exponential => some (cls .selectDistance).mro
  | .selectDistance => some (after .selectDistance full)
  | .rfArcsinh => some (after .rfArcsinh full)
  | .rfHyperbola => some (after .rfHyperbola full)
  | .rfLReLU => some (after .rfLReLU full)
  | .rff => some (after .rff full)
  | _ => none

/-- The bodies executed by a call of `__str__` that starts the search at `m`, the outermost first.  Without fuel the calls have
not come to an end (`RecursionError`, a `RuntimeError`); a search that finds nothing is an `AttributeError`. -/
def plan (full : List Classes.Entry) : ℕ → List Classes.Entry → Except Err (List CN)
  | 0, _ => .error .runtimeError
  | n + 1, m =>
    match lookup m .str with
    | none => .error .attributeError
    | some (home, _) =>
      match callee full home with
      | none => .ok [home]
      | some m' => (plan full n m').map (fun l => home :: l)

/-- The text of a chain of bodies. -/
def render (v : Vals) (l : List CN) : Text := l.foldr (body v) []

/-- Calls of Python functions that may be nested. -/
def depth : ℕ := 1000

/-- `str(x)` for an object of the class `c`. -/
def str (c : Cls) (v : Vals) : Except Err Text := (plan c.mro depth c.mro).map (render v)

/-- utils/cast.py:114-123 `capitalize_only_first`.  Simplified: the capital of a character is one character. -/
def capitalize : Text → Except Err Text
  | [] => .error .indexError
  | c :: t => .ok (c.toUpper :: t)

/-- feature/module.py:31-32 `repr(x)`. -/
def repr (c : Cls) (v : Vals) : Except Err Text := (str c v).bind capitalize

/-! ### The bandwidth is not determined by printing -/

/-- kernel/distance/_distance.py:42-53, the property `sigma`: the value defined, otherwise the one of the heuristic on the
sample, which then is defined. -/
def readSigma {α σ : Type} (heuristic : σ → α) : Option α × Option σ → Except Err α × (Option α × Option σ)
  | (some s, x) => (.ok s, (some s, x))
  | (none, some x) => (.ok (heuristic x), (some (heuristic x), some x))
  | (none, none) => (.error .notInitialized, (none, none))

/-- What a description prints of the bandwidth (rbf.py:64-67, laplacian.py:55-58, select_distance.py:46-49): the property is read
only if the value is defined.  Returns the value printed and the object afterwards. -/
def printSigma {α σ : Type} (heuristic : σ → α) (s : Option α × Option σ) :
    Except Err (Option α) × (Option α × Option σ) :=
  if s.1.isSome then ((readSigma heuristic s).1.map some, (readSigma heuristic s).2) else (.ok none, s)

/-- kernel/generic/wasserstein.py:38-41 asks `self._sigma is None`, which is a parameter: the property is always read. -/
def printSigmaWasserstein {α σ : Type} (heuristic : σ → α) (s : Option α × Option σ) :
    Except Err (Option α) × (Option α × Option σ) :=
  ((readSigma heuristic s).1.map some, (readSigma heuristic s).2)

/-! ### Models -/

/-- A level as a model prints it: the sizes printed, the representation, `str(level)`. -/
structure Line where
  dimInput : Text
  dimOutput : Text
  representation : Text
  text : Text

/-- model/RKM.py:29-31: what is printed of the level number `num`, printed as `num`. -/
def levelLine (num : Text) (l : Line) : Except Err Text :=
  (capitalize l.representation).map fun r =>
    txt! "\t* L" ++ num ++ txt! "[" ++ l.dimInput ++ txt! "," ++ l.dimOutput ++ txt! "]: " ++ r ++ txt! " " ++ l.text

/-- model/RKM.py:26-31, the loop: `digits` prints the number of a level. -/
def rkmFrom (digits : ℕ → Text) : ℕ → Text → List Line → Except Err Text
  | _, acc, [] => .ok acc
  | num, acc, l :: ls =>
    match levelLine (digits num) l with
    | .error e => .error e
    | .ok t => rkmFrom digits (num + 1) (acc ++ ('\n' :: t)) ls

/-- model/RKM.py:24-32 `str(rkm)`. -/
def rkmText (digits : ℕ → Text) (ls : List Line) : Except Err Text :=
  rkmFrom digits 0 (txt! "[Model] RKM with the following levels:") ls

/-- model/LSSVM.py:9-10 `str(lssvm)`, the model: the `repr` of its level. -/
def lssvmModelText (level : Text) : Except Err Text := (capitalize level).map fun t => txt! "[Model] " ++ t

/-- model/KPCA.py:4-7: the constructor calls `self._add_level`, which no class defines (`_append_level` is the name, Model.py:178). -/
def kpcaModelNew (methods : List Text) : Except Err Unit :=
  if txt! "_add_level" ∈ methods then .ok () else .error .attributeError

/-- The methods of model/Model.py and model/KPCA.py whose name ends in `_level` (Model.py:35, 40, 178). -/
def modelMethods : List Text := [txt! "_first_level", txt! "_last_level", txt! "_append_level"]

/-! ### Transforms -/

/-- Transform.py:37-40 `str(transform)`. -/
def nodeText (name : Text) (default : Bool) : Text := if default then name ++ txt! " (default)" else name

/-- TransformTree.py:100-106: the nodes of the default branch, from the root on, with their flag `default`: only the last one has it. -/
def nodes : List Text → List (Text × Bool)
  | [] => []
  | [n] => [(n, true)]
  | n :: t => (n, false) :: nodes t

/-- TransformTree.py:112-120 `str(tree)`: from the default node to the root. -/
def treeText (names : List Text) : Text :=
  if names.length = 0 then txt! "Transforms: \n" ++ txt! "\t" ++ txt! "None (default)"
  else (nodes names).reverse.foldl (fun out n => out ++ (txt! "\t" ++ nodeText n.1 n.2)) (txt! "Transforms: \n")

end Describe
end Kerch
