import Verif.Model.Memo
import Verif.Model.Defaults
import Verif.Model.RandomFeatures
/-!
# Assigning the hyper-parameters of a kernel (kerch/kernel)

The quantities a kernel keeps about its sample, and what each setter does to them.
-/
namespace Kerch
namespace Assign

/-- What a class of kernels computes from its selected points `X` and its hyper-parameters `H`; `M` are matrices. `explicit` is the property of the same name, taken as fixed for
the object (it changes only when a random features kernel goes to or from an infinite number of weights). The bandwidth of a distance kernel is taken as defined (its heuristic is in
`Verif.Model.Bandwidth`). The transform trees `kernel_explicit_transform`, `kernel_implicit_transform`, `sample_transform` are taken as evaluated afresh
(`Verif.Model.TransformCache`). -/
structure Sem (X H M : Type) where
  explicit : Bool
  phi : X → H → Except Err M
  gramC : X → M → M
  gramK : M → M
  kimp : X → H → Except Err M
  dist : X → Except Err M

variable {X H M : Type} (S : Sem X H M)

/-- kernel.py:148-193 `_phi`, `_C`, `_K`; distance.py:15-17 and distance_squared.py:15-17 `_sample_dist`, `_sample_square_dist`. -/
def body : String → Prog String (X × H) M
  | "phi" => .ret fun e => S.phi e.1 e.2
  | "C" => .need "phi" fun φ => .ret fun e => .ok (S.gramC e.1 φ)
  | "K" => if S.explicit then .need "phi" fun φ => .ret fun _ => .ok (S.gramK φ) else .ret fun e => S.kimp e.1 e.2
  | "_kernel_dist_sample" => .ret fun e => S.dist e.1
  | "_kernel_square_dist_sample" => .ret fun e => S.dist e.1
  | _ => .ret fun _ => .error .keyError

/-- The keyword arguments of the same requests. -/
def cfg : String → CacheSt.GetArgs
  | "phi" => { levelKey := some "sample_phi" }
  | "C" => { levelKey := some "sample_C" }
  | "K" => { levelKey := some "sample_K" }
  | "_kernel_dist_sample" => { defaultLevel := .str "total", force := true }
  | "_kernel_square_dist_sample" => { defaultLevel := .str "total", force := true }
  | _ => {}

/-- Nesting of the requests. -/
def rank : String → Nat
  | "C" => 1
  | "K" => 1
  | _ => 0

/-- The quantities of a kernel. -/
def defs : Defs String (X × H) M := ⟨defaultCacheLevel, body S, cfg, rank⟩

/-- The hyper-parameters that can be assigned. -/
inductive Attr
  | sigma
  | lag
  | gamma
  | p
  | rfSigma
  | slope
  | hyperbola
  | weights
  | numWeights
  deriving DecidableEq

/-- What the setters do to the cache: the arguments `reset_persisting` and the keys of `avoid_classes` of `_reset_cache`, or no call at all. `_cache_elements` is `["sample_transform"]` for
`Sample` (sample.py:53) and, by inheritance, for `RandomFeatures`; _distance.py:24 for `_Distance`. -/
def Attr.reset : Attr → Option (Bool × List String)
  /- _distance.py:55-60 -/
  | .sigma => some (false, ["sample_transform", "_kernel_dist_sample", "_kernel_square_dist_sample"])
  /- hat.py:65-68, indicator.py:97-100 -/
  | .lag => some (false, [])
  /- indicator.py:122-125 -/
  | .gamma => some (false, [])
  /- skewed_chi_2.py:51-54 -/
  | .p => some (false, [])
  /- random_features.py:84-87 -/
  | .rfSigma => some (false, ["sample_transform", "sample_transform"])
  /- rf_lrelu.py:27-30 -/
  | .slope => some (true, ["sample_transform"])
  /- rf_hyperbola.py:32-65, the four setters -/
  | .hyperbola => none
  /- random_features.py:144-160 -/
  | .weights => none
  /- random_features.py:119-132 -/
  | .numWeights => none

/-- What can happen. -/
inductive Op (X H : Type)
  /-- reading `phi()`, `C`, `K` or the distances of the sample -/
  | read (key : String)
  /-- `kernel.attr = v` -/
  | assign (a : Attr) (f : H → H)
  /-- another selection or other points: `stochastic` (stochastic.py:83), `update_sample` (sample.py:239), both with `_reset_cache(reset_persisting=False)` -/
  | select (f : X → X)
  /-- an optimisation step on trainable hyper-parameters or points (a parameter moves in place, nothing is called) -/
  | train (f : X × H → X × H)
  /-- random_features.py:215-216 `after_step` -/
  | afterStep
  /-- `reset()` -/
  | reset

abbrev St (X H M : Type) : Type := (X × H) × CacheSt String M

/-- One operation. -/
def step (s : St X H M) : Op X H → St X H M × Option (Except Err M)
  | .read key => (defs S).step s (.read key)
  | .assign a f => match a.reset with
    | some (rp, av) => (defs S).step s (.update (fun e => (e.1, f e.2)) rp av)
    | none => (((s.1.1, f s.1.2), s.2), none)
  | .select f => (defs S).step s (.update (fun e => (f e.1, e.2)) false [])
  | .train f => ((f s.1, s.2), none)
  | .afterStep => (defs S).step s (.remove (.str "Kernel_RF_weights_pinv"))
  | .reset => (defs S).step s (.reset true)

/-- A history: final state and results of the reads. -/
def run (s : St X H M) : List (Op X H) → St X H M × List (Except Err M)
  | [] => (s, [])
  | o :: l =>
    let r := step S s o
    let t := run r.1 l
    (t.1, match r.2 with | some v => v :: t.2 | none => t.2)

/-! ### The hyperbola -/

/-- rf_hyperbola.py: `_alpha`, `_beta`, `_gamma`, `_delta`. -/
structure Hyp where
  alpha : ℝ
  beta : ℝ
  gamma : ℝ
  delta : ℝ

inductive HypOp
  | alpha (v : ℝ)
  | beta (v : ℝ)
  | gamma (v : ℝ)
  | delta (v : ℝ)

open Classical in
/-- rf_hyperbola.py:32-65: the four setters. -/
noncomputable def Hyp.step (h : Hyp) : HypOp → Except Err Unit × Hyp
  | .alpha v => if 0 < v then (.ok (), { h with alpha := v }) else (.error .assertionError, h)
  | .beta v => if 0 < v then if h.alpha * h.gamma < v ^ 2 then (.ok (), { h with beta := v }) else (.error .assertionError, h) else (.error .assertionError, h)
  | .gamma v => if 0 < v then (.ok (), { h with gamma := v }) else (.error .assertionError, h)
  | .delta v => if 0 < v then (.ok (), { h with delta := v }) else (.error .assertionError, h)

/-- A history of assignments, exceptions being caught by the caller. -/
noncomputable def Hyp.run (h : Hyp) : List HypOp → Hyp
  | [] => h
  | o :: l => (h.step o).2.run l

/-- rf_hyperbola.py:21-26: `__init__` with its defaults. -/
noncomputable def Hyp.construct (alpha gamma delta beta : Option ℝ) : Except Err Hyp :=
  let h0 : Hyp := ⟨0, 0, 0, 0⟩
  match h0.step (.alpha (alpha.getD 1)) with
  | (.error e, _) => .error e
  | (.ok _, h1) => match h1.step (.gamma (gamma.getD 1)) with
    | (.error e, _) => .error e
    | (.ok _, h2) => match h2.step (.delta (delta.getD 1)) with
      | (.error e, _) => .error e
      | (.ok _, h3) => match h3.step (.beta (beta.getD 2)) with
        | (.error e, _) => .error e
        | (.ok _, h4) => .ok h4

open Classical in
/-- rf_hyperbola.py:74-79: `torch.sqrt` of a negative number is `NaN` (`none`). -/
noncomputable def Hyp.fn (h : Hyp) (x : ℝ) : Option ℝ :=
  if (h.beta ^ 2 - h.gamma * h.alpha) * x ^ 2 + h.gamma * h.delta < 0 then none else some (hyperbola h.alpha h.beta h.gamma h.delta x)

/-! ### Bandwidth, trainability, parameters of the sigmoid kernel -/

/-- `_sigma_defined` and the value of `_sigma` (_distance.py:27-36, initially one). -/
structure Band where
  defined : Bool
  value : ℝ

/-- _distance.py:55-60, the setter, with a number or `None`: `castf(None)` is `None` (cast.py:23-24) and cannot be the data of a parameter. -/
def Band.assign (b : Band) : Option ℝ → Except Err Unit × Band
  | some v => (.ok (), ⟨true, v⟩)
  | none => (.error .typeError, ⟨true, b.value⟩)

/-- _distance.py:43-52, the getter; `h` is the value of the heuristic (`none` without sample). -/
def Band.get (b : Band) (h : Option ℝ) : Except Err ℝ × Band :=
  if b.defined then (.ok b.value, b) else match h with
    | some v => (.ok v, ⟨true, v⟩)
    | none => (.error .notInitialized, b)

/-- hat.py:70-75: `lag_trainable` reads `_sigma_trainable`, which the class does not have. -/
def hatLagTrainable (_lagTrainable : Bool) : Except Err Bool := .error .attributeError

/-- indicator.py:102-107. -/
def indicatorLagTrainable (lagTrainable : Bool) : Except Err Bool := .ok lagTrainable

/-- sigmoid.py:40-49: the parameters `_a`, `_b`, and the other attributes set on the object by the user. -/
structure Sig where
  a : ℝ
  b : ℝ
  extra : Dict String ℝ

/-- Python: assigning a name that is neither a property nor a parameter creates an attribute; the class has the property `params_trainable` without setter (sigmoid.py:63-68), and no
`a` nor `b`. -/
def Sig.setattr (s : Sig) (name : String) (v : ℝ) : Except Err Unit × Sig :=
  if name = "params_trainable" then (.error .attributeError, s) else (.ok (), { s with extra := s.extra.set name v })

/-- Reading such a name. -/
def Sig.getattr (s : Sig) (name : String) : Except Err ℝ :=
  match s.extra.find name with
  | some v => .ok v
  | none => .error .attributeError

/-- sigmoid.py:70-73, for the inner product `t` of two points. -/
noncomputable def Sig.kernel (s : Sig) (t : ℝ) : ℝ := 1 / (1 + Real.exp (-(s.a * t + s.b)))

end Assign
end Kerch
