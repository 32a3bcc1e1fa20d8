import Verif.Model.Describe
/-!
# What the exceptions of the package say (kerch/utils/errors.py)

Simplifications: a text is its list of characters; what is printed of an argument that is not a text is a parameter.  The bodies
that raise are not modelled here, only the calls of the constructors they contain, one by one (`sites`); `self` is an instance of
`Logger` at each of them.
-/
set_option linter.unusedSectionVars false
namespace Kerch
namespace Messages
open Describe

/-- utils/errors.py: the classes of exceptions of the package. -/
inductive Kind where
  | base | implicit | explicit | representation | bijection | notInitialized | multiView
  deriving DecidableEq

/-- The attribute `message` written by the constructors of the daughter classes: errors.py:32, 42-46, 55, 64, 74, 85-86.
`KerchError` has none. -/
def standard : Kind → Option Text
  | .base => none
  | .implicit => some (txt! "Implicit representation not available.")
  | .explicit => some (txt! "Explicit representation not available.\n[Example 1]: The explicit representation does not exist as it lies in an infinite dimensional Hilbert space.\n[Example 2]: Only the inner product (implicit representation) is known, but not the original vectors.")
  | .representation => some (txt! "Unrecognized or unspecified representation (must be primal or dual).")
  | .bijection => some (txt! "Mathematically undefined operation. A transform is not bijective, thus non invertible.")
  | .notInitialized => some (txt! "The model has not been initialized yet.")
  | .multiView => some (txt! "Primal operations are not defined a multi-view context. You must ask them for the different known separately, if it exists for it.")

/-- What is given to the constructor. -/
inductive Val where
  | none
  | text (t : Text)
  /-- an instance of `Logger`, of a class of the name given -/
  | logger (cls : Text)
  /-- something else, of no class deriving from `Logger` -/
  | other (n : ℕ)
  deriving DecidableEq

/-- The names of the keyword arguments written at a call. -/
inductive Key where
  | cls | message | unknown (t : Text)
  deriving DecidableEq

/-- The arguments of a call: by position and by keyword. -/
structure Call where
  args : List Val
  kwargs : List (Key × Val)

/-- A keyword that cannot be bound after `n` arguments by position: unknown, or of a parameter that has its value already. -/
def clash (n : ℕ) : Key → Bool
  | .unknown _ => true
  | .cls => decide (1 ≤ n)
  | .message => decide (2 ≤ n)

/-- How Python binds the arguments to the parameters `cls=None, message=""` (errors.py:15): too many arguments by position, a
parameter given twice and an unknown keyword are a `TypeError`. -/
def bind (c : Call) : Except Err (Val × Val) :=
  if 2 < c.args.length ∨ (c.kwargs.map Prod.fst).any (clash c.args.length) = true ∨ ¬ (c.kwargs.map Prod.fst).Nodup then .error .typeError
  else
    let get (k : Key) (n : ℕ) (default : Val) : Val := (c.args[n]?).getD ((c.kwargs.lookup k).getD default)
    .ok (get .cls 0 .none, get .message 1 (.text []))

/-- errors.py:14-23 `KerchError.__init__` with the parameters bound: the text given to `Exception`, i.e. `str(e)`.  Line 17-18:
without a message that of the class, if it has one.  Line 20-21: the name of the class in front, a message that is no text is a
`TypeError` there. -/
def compose (print : Val → Text) (k : Kind) (cls message : Val) : Except Err Text :=
  let msg := if message = .text [] then ((standard k).map Val.text).getD message else message
  match cls, msg with
  | .logger name, .text t => .ok (txt! "[" ++ name ++ txt! "] " ++ t)
  | .logger _, _ => .error .typeError
  | _, .text t => .ok t
  | _, v => .ok (print v)

/-- `str(K(…))`.  The constructor of `KerchError` is abstract (errors.py:14), which Python does not check for exceptions. -/
def new (print : Val → Text) (k : Kind) (c : Call) : Except Err Text :=
  match bind c with
  | .error e => .error e
  | .ok (cls, message) => compose print k cls message

/-- An argument as it is written at a call. -/
inductive Written where
  | self | lit (t : Text)
  deriving DecidableEq

/-- A call in the source: what is raised, with what, and whether it gives a message of its own. -/
structure Site where
  place : Text
  kind : Kind
  args : List Written
  kwargs : List (Key × Written)

/-- The value of an argument in an object of the class of that name. -/
def Written.val (name : Text) : Written → Val
  | .self => .logger name
  | .lit t => .text t

def Site.call (name : Text) (s : Site) : Call := ⟨s.args.map (Written.val name), s.kwargs.map fun q => (q.1, q.2.val name)⟩

/-- The text of the exception that the call makes in an object of the class of that name. -/
def Site.text (print : Val → Text) (name : Text) (s : Site) : Except Err Text := new print s.kind (s.call name)

/-- Both given by keyword, the form that is used most. -/
def both (place : Text) (k : Kind) (t : Text) : Site := ⟨place, k, [], [(.cls, .self), (.message, .lit t)]⟩

/-- The calls in the package, legacy modules aside.  The calls of `check_representation` (utils/cast.py:110) are counted twice:
with the object given by its caller and without it (level/_KPCA.py:62, _PPCA.py:65, _View.py:411). -/
def sites : List Site := [
  both (txt! "model/RKM.py:21") .base (txt! "The RKM model does not contain any level. Please add one or check if the arguments are correct."),
  both (txt! "model/Model.py:28") .notInitialized (txt! "The model does not contain any level."),
  both (txt! "model/Model.py:126") .notInitialized (txt! "Please initialize the sample and the levels first."),
  both (txt! "level/single_view/View.py:182") .notInitialized (txt! "The target values have not been set (yet)."),
  both (txt! "level/single_view/View.py:192") .notInitialized (txt! "The sample has not been initialized yet."),
  both (txt! "level/_View.py:155") .notInitialized (txt! "The output dimension has not been initialized yet."),
  both (txt! "level/_View.py:174") .notInitialized (txt! "No hidden values have been initialized or computed yet."),
  both (txt! "level/_View.py:267") .notInitialized (txt! "No weight has been initialized or computed yet."),
  both (txt! "feature/sample.py:79") .notInitialized (txt! "The input dimension has been initialized yet. Please initialize it explicitly or assign a sample to determine it."),
  both (txt! "feature/sample.py:101") .notInitialized (txt! "The sample has not been initialized yet."),
  ⟨txt! "kernel/implicit.py:42", .explicit, [], [(.cls, .self)]⟩,
  ⟨txt! "kernel/implicit.py:52", .explicit, [], [(.unknown (txt! "cms"), .self)]⟩,
  both (txt! "kernel/nystrom.py:102") .notInitialized (txt! "The base kernel has not been defined yet."),
  both (txt! "kernel/nystrom.py:170") .explicit (txt! "Explicit pre-image is not possible with the Nystrom kernel."),
  both (txt! "kernel/network/explicit_nn.py:83") .notInitialized (txt! "No decoder provided. This is necessary for the pseudo-inversion of a neural-network based explicit feature map."),
  ⟨txt! "kernel/network/explicit_nn.py:113", .base, [.lit (txt! "The decoder is not a pre-image of the explicit representation, but of the model image itself. Hence the pre-image cannot be computed directly on an explicit representation. You may directly access the decoder member of this instance and compute it yourself if you nevertheless wish to perform this operation.")], []⟩,
  both (txt! "kernel/distance/_distance.py:52") .notInitialized (txt! "The kernel bandwidth sigma value is unset. It cannot be deduced based on a heuristic as the sample is also unset."),
  both (txt! "kernel/generic/polynomial.py:185") .explicit (txt! "Explicit formulation is only possible for degrees that are natural numbers."),
  ⟨txt! "kernel/_base_kernel.py:119", .notInitialized, [.lit (txt! "The sample has not been initialized yet.")], []⟩,
  ⟨txt! "kernel/_base_kernel.py:253", .representation, [], [(.cls, .self)]⟩,
  both (txt! "kernel/random_features/rf_lrelu.py:39") .bijection (txt! "Random Leaky-ReLU Features are not invertible for alpha=0."),
  both (txt! "kernel/random_features/random_features.py:202") .bijection (txt! "The activation function is not invertible."),
  ⟨txt! "utils/cast.py:110", .representation, [.self], []⟩,
  ⟨txt! "utils/cast.py:110 without object", .representation, [], []⟩]

end Messages
end Kerch
