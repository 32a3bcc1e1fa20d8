import Verif.Model.Cache
/-!
# The factories (kerch/kernel/_factory.py, kerch/level/factory.py, kerch/model/factory.py, kerch/data/factory.py)

Strings are lists of characters.  `str.lower` of Python is Unicode-aware; it is a parameter `low` of the model, about which
only its action on ASCII strings is assumed (`LowerSpec`).
-/
namespace Kerch
namespace Factory

/-- A Python `str`. -/
abbrev Str := List Char

/-- Contract of `str.lower` on ASCII strings: the letters A-Z become a-z, the rest is kept. -/
def LowerSpec (low : Str → Str) : Prop :=
  ∀ s : Str, (∀ c ∈ s, c.val < 128) → low s = s.map Char.toLower

/-- What an attribute of one of the packages is: a class, or a function (such as the factory itself, which the stubs
export too). -/
inductive Attr
  | cls | func
  deriving DecidableEq, Repr

/-- A module as seen by `dir`/`getattr`: attribute names, sorted, with what they hold. -/
abbrev Dir := List (Str × Attr)

/-- `case_insensitive_getattr` (kernel/_factory.py:27-31, same text in the three other factories): the first attribute whose
lowered name is the lowered argument. -/
def getattrCI (low : Str → Str) (dir : Dir) (attr : Str) : Option (Str × Attr) :=
  dir.find? (fun a => low a.1 == low attr)

/-- `s.replace(c, "")` for a one-character string. -/
def removeChar (c : Char) (s : Str) : Str := s.filter (fun d => d != c)

/-- kernel/_factory.py:26-37 `class_factory`. -/
def kernelClass (low : Str → Str) (dir : Dir) (kernelType : Str) : Except Err (Str × Attr) :=
  match getattrCI low dir (removeChar '_' kernelType) with
  | none => .error .nameError
  | some k => .ok k

/-- model/factory.py:23-34 `class_factory`: no removal of separators. -/
def modelClass (low : Str → Str) (dir : Dir) (modelType : Str) : Except Err (Str × Attr) :=
  match getattrCI low dir modelType with
  | none => .error .nameError
  | some k => .ok k

/-- level/factory.py:21: the admitted names. -/
def levelNames : List Str := [['k','p','c','a'], ['l','s','s','v','m'], ['r','i','d','g','e']]

/-- level/factory.py:21-34 up to the construction of the object. -/
def levelClass (low : Str → Str) (dir : Dir) (levelType : Str) : Except Err (Str × Attr) :=
  if !(levelNames.contains (low levelType)) then .error .nameError
  else match getattrCI low dir levelType with
    | none => .error .nameError
    | some k => .ok k

/-- data/factory.py:13-14: removal of the separators. -/
def dataName (dataset : Str) : Str := removeChar ' ' (removeChar '_' dataset)

/-- data/factory.py:13-22 up to the construction of the object, with the alias of lines 16-17. -/
def dataClass (low : Str → Str) (dir : Dir) (dataset : Str) : Except Err (Str × Attr) :=
  let d := dataName dataset
  let d := if low d = ['p','i','m','a'] then ['p','i','m','a','i','n','d','i','a','n','s'] else d
  match getattrCI low dir d with
  | none => .error .nameError
  | some k => .ok k

/-- `dir(kerch.kernel)`: kernel/__init__.pyi, sorted (`lazy_loader.attach_stub` builds `__dir__` from the stub). -/
def kernelDir : Dir :=
  [(['A','d','d','i','t','i','v','e','C','h','i','2'], .cls),
   (['C','o','s','i','n','e'], .cls),
   (['D','i','s','t','a','n','c','e'], .cls),
   (['D','i','s','t','a','n','c','e','S','q','u','a','r','e','d'], .cls),
   (['E','p','a','n','e','c','h','n','i','k','o','v'], .cls),
   (['E','x','p','l','i','c','i','t'], .cls),
   (['E','x','p','l','i','c','i','t','N','N'], .cls),
   (['E','x','p','o','n','e','n','t','i','a','l'], .cls),
   (['H','a','t'], .cls),
   (['I','m','p','l','i','c','i','t'], .cls),
   (['I','m','p','l','i','c','i','t','N','N'], .cls),
   (['I','n','d','i','c','a','t','o','r'], .cls),
   (['K','e','r','n','e','l'], .cls),
   (['L','a','p','l','a','c','i','a','n'], .cls),
   (['L','i','n','e','a','r'], .cls),
   (['L','o','g','i','s','t','i','c'], .cls),
   (['N','y','s','t','r','o','m'], .cls),
   (['P','o','l','y','n','o','m','i','a','l'], .cls),
   (['Q','u','a','r','t','i','c'], .cls),
   (['R','B','F'], .cls),
   (['R','F','A','r','c','s','i','n','h'], .cls),
   (['R','F','F'], .cls),
   (['R','F','H','y','p','e','r','b','o','l','a'], .cls),
   (['R','F','L','R','e','L','U'], .cls),
   (['R','F','S','t','a','c','k','e','d'], .cls),
   (['R','a','n','d','o','m','F','e','a','t','u','r','e','s'], .cls),
   (['S','e','l','e','c','t','D','i','s','t','a','n','c','e'], .cls),
   (['S','i','g','m','o','i','d'], .cls),
   (['S','i','l','v','e','r','m','a','n'], .cls),
   (['S','k','e','w','e','d','C','h','i','2'], .cls),
   (['T','r','i','a','n','g','u','l','a','r'], .cls),
   (['T','r','i','c','u','b','e'], .cls),
   (['T','r','i','w','e','i','g','h','t'], .cls),
   (['U','n','i','f','o','r','m'], .cls),
   (['_','B','a','s','e','K','e','r','n','e','l'], .cls),
   (['f','a','c','t','o','r','y'], .func)]

/-- `dir(kerch.model)`: model/__init__.pyi. -/
def modelDir : Dir :=
  [(['K','P','C','A'], .cls),
   (['L','S','S','V','M'], .cls),
   (['M','o','d','e','l'], .cls),
   (['R','K','M'], .cls),
   (['f','a','c','t','o','r','y'], .func)]

/-- `dir(kerch.level.single_view)`: level/single_view/__init__.pyi. -/
def levelDir : Dir :=
  [(['K','P','C','A'], .cls),
   (['L','S','S','V','M'], .cls),
   (['P','P','C','A'], .cls),
   (['R','i','d','g','e'], .cls)]

/-- `dir(kerch.data)`: data/__init__.pyi. -/
def dataDir : Dir :=
  [(['G','a','u','s','s','i','a','n','s'], .cls),
   (['I','r','i','s'], .cls),
   (['P','i','m','a','I','n','d','i','a','n','s'], .cls),
   (['S','p','i','r','a','l'], .cls),
   (['T','w','o','M','o','o','n','s'], .cls),
   (['f','a','c','t','o','r','y'], .func)]

/-- `factory(name, **kwargs)` once the attribute is found (kernel/_factory.py:22-23, data/factory.py:24): calling a class
constructs an object of this class, calling the function `factory` runs the factory with its default name.  What is
returned is the name of the constructed class.  Constructors of abstract classes, which raise `TypeError`, and exceptions
raised by the constructors on bad keyword arguments are not modelled. -/
def construct (dflt : Except Err Str) : Except Err (Str × Attr) → Except Err Str
  | .error e => .error e
  | .ok (n, .cls) => .ok n
  | .ok (_, .func) => dflt

/-- The default name of kernel/_factory.py:6 (`DEFAULT_KERNEL_TYPE`, utils/defaults.py:2). -/
def kernelDefault : Str := ['r','b','f']

/-- kernel/_factory.py:6-23 `factory`. -/
def kernelFactory (low : Str → Str) (kernelType : Str) : Except Err Str :=
  construct (construct (.error .nameError) (kernelClass low kernelDir kernelDefault)) (kernelClass low kernelDir kernelType)

/-- level/factory.py:3-36 `factory`. -/
def levelFactory (low : Str → Str) (levelType : Str) : Except Err Str :=
  construct (.error .nameError) (levelClass low levelDir levelType)

/-- The default name of model/factory.py:4. -/
def modelDefault : Str := ['r','k','m']

/-- model/factory.py:4-21 `factory`. -/
def modelFactory (low : Str → Str) (modelType : Str) : Except Err Str :=
  construct (construct (.error .nameError) (modelClass low modelDir modelDefault)) (modelClass low modelDir modelType)

/-- The default name of data/factory.py:3. -/
def dataDefault : Str := ['g','a','u','s','s','i','a','n','s']

/-- data/factory.py:3-24 `factory`. -/
def dataFactory (low : Str → Str) (dataset : Str) : Except Err Str :=
  construct (construct (.error .nameError) (dataClass low dataDir dataDefault)) (dataClass low dataDir dataset)

end Factory
end Kerch
