import Verif.Model.Stochastic
/-!
# The random generators the library draws from

`torch`'s generator, Python's module `random` and numpy's global generator are three separate states. No function of the library seeds any of
them or takes a generator as an argument. What a generator returns in a state is by contract (`Src`).
-/
namespace Kerch.Repro
open Kerch

/-- The primitives that draw, each on the state of its own generator. -/
structure Src (T P N α : Type) where
  /-- `torch.randperm(n)` -/
  randperm : Nat → T → List Nat × T
  /-- `torch.randn`, `torch.nn.init.normal_` of `n` entries -/
  randn : Nat → T → List α × T
  /-- `torch.nn.init.orthogonal_` of an `n × d` tensor -/
  orthogonal : Nat → Nat → T → List α × T
  /-- `random.shuffle` -/
  shuffle : List Nat → P → List Nat × P
  /-- `random.randint(1, 101)` -/
  randint : P → Nat × P
  /-- `numpy.random.normal(mean, deviation, (size, 2))` -/
  normal : Nat → N → List α × N

/-- A parameter given to an optimiser of opt/stiefel/stiefel_optimizer.py: whether it has a gradient, whether its group has `stiefel` set, and the sizes
of `p.data.view(p.size()[0], -1)`. -/
structure Par (α : Type) where
  grad : Bool
  stiefel : Bool
  rows : Nat
  cols : Nat
  val : α

/-- The state of the process: the generators and the objects: a module with its parts, the dimensions and the points of a sample, the weights of a random
feature kernel, the parameters of an optimiser. -/
structure World (T P N α : Type) where
  torch : T
  py : P
  np : N
  tree : STree Unit
  dims : Option (Nat × Nat)
  sample : List α
  dimInput : Nat
  dimOutput : Nat
  weights : List α
  params : List (Par α)

/-- Calls that may draw. -/
inductive Call (α : Type)
  /-- `init_sample(sample)` with the values of a new sample of the given dimensions, or `None` -/
  | initSample (given : Option (List α × Nat × Nat))
  /-- `num_weights = val`, `none` for infinity -/
  | numWeights (val : Option Nat)
  /-- `weights = val` -/
  | setWeights (val : List α)
  | stochastic (idx : Option (List Nat)) (prop : Option ℚ)
  /-- `TwoMoons(...)._training(num)`, `noise` telling whether it differs from `0` -/
  | moons (num : Nat) (noise : Bool)
  | gaussians (num : Nat)
  /-- `_indices(sizes, total)` of a learning set -/
  | indices (shuffle : Bool) (sizes : List Nat) (total : Nat)
  /-- `draw_h(num)` of a KPCA level -/
  | latent (num : Nat)
  /-- `draw_k(num, posterior)` of a PPCA level of `numIdx` points, `useMean` being its `use_mean` -/
  | drawK (num numIdx : Nat) (posterior useMean : Bool)
  /-- `step()` of an optimiser -/
  | step

/-- What a call gives back: numbers, lists of indices, or an exception. -/
abbrev Out (α : Type) := Except Err (List α × List (List Nat))

variable {T P N α : Type}

/-- _LearningSet.py:77-87, the pieces of a list of indices, one after another. -/
def cut : List Nat → List Nat → List (List Nat)
  | _, [] => []
  | l, n :: ns => l.take n :: cut (l.drop n) ns

/-- stiefel_optimizer.py:80-95 and 203-219, the loop over the parameters: a number is drawn for each parameter with a gradient that is in a Stiefel group and has no
more rows than columns, and the parameter is retracted first if the number is one (`upd true`); `plain` is the update of the others. -/
def stepParams (s : Src T P N α) (upd : Bool → α → α) (plain : α → α) : List (Par α) → P → List (Par α) × P
  | [], p => ([], p)
  | q :: qs, p =>
    if q.grad then
      if q.stiefel && decide (q.rows ≤ q.cols) then
        let r := s.randint p
        let rest := stepParams s upd plain qs r.2
        ({ q with val := upd (r.1 == 1) q.val } :: rest.1, rest.2)
      else
        let rest := stepParams s upd plain qs p
        ({ q with val := plain q.val } :: rest.1, rest.2)
    else
      let rest := stepParams s upd plain qs p
      (q :: rest.1, rest.2)

/-- The indices chosen in each part of a tree that has any, the root first. -/
def chosen (t : STree Unit) : List (List Nat) := t.st.idx.toList ++ t.children.filterMap fun c => c.st.idx

/-- One call. -/
def call (s : Src T P N α) (upd : Bool → α → α) (plain : α → α) (w : World T P N α) : Call α → Out α × World T P N α
  -- feature/sample.py:180-204: the points given, or an orthogonal matrix of the dimensions known, or nothing at all
  | .initSample (some (x, n, d)) => (.ok (x, []), { w with sample := x, dims := some (n, d) })
  | .initSample none =>
    match w.dims with
    | none => (.ok ([], []), w)
    | some (n, d) =>
      let r := s.orthogonal n d w.torch
      (.ok (r.1, []), { w with sample := r.1, torch := r.2 })
  -- kernel/random_features/random_features.py:119-130
  | .numWeights none => (.ok ([], []), { w with weights := [] })
  | .numWeights (some n) =>
    let r := s.randn (n * w.dimInput) w.torch
    (.ok (r.1, []), { w with weights := r.1, torch := r.2 })
  -- kernel/random_features/random_features.py:144-150
  | .setWeights v => (.ok (v, []), { w with weights := v })
  -- feature/stochastic.py:60-105: the permutation is drawn at line 97, after the checks, and only with `prop`
  | .stochastic idx prop =>
    let draw : List Nat × T :=
      match w.tree.st.numTotal, idx, prop with
      | some n, none, some p => if p ≤ 1 ∧ 0 < p then s.randperm n w.torch else ([], w.torch)
      | _, _, _ => ([], w.torch)
    let r := w.tree.stochastic idx prop draw.1
    (r.1.map fun _ => ([], chosen r.2), { w with tree := r.2, torch := draw.2 })
  -- data/datasets.py:42-58: the noise added to the points; the points themselves are fixed
  | .moons num noise =>
    if noise then
      let r := s.randn (num * 2) w.torch
      (.ok (r.1, []), { w with torch := r.2 })
    else (.ok ([], []), w)
  -- data/datasets.py:120-130: two draws, each of half of the points rounded up
  | .gaussians num =>
    let r1 := s.normal ((num + 1) / 2 * 2) w.np
    let r2 := s.normal ((num + 1) / 2 * 2) r1.2
    (.ok (r1.1 ++ r2.1, []), { w with np := r2.2 })
  -- data/_LearningSet.py:68-87
  | .indices sh sizes total =>
    if sh then
      let r := s.shuffle (List.range total) w.py
      (.ok ([], cut r.1 sizes), { w with py := r.2 })
    else (.ok ([], cut (List.range total) sizes), w)
  -- level/_KPCA.py:317 `draw_h` (level/_PPCA.py:248 alike)
  | .latent num =>
    let r := s.randn (num * w.dimOutput) w.torch
    (.ok (r.1, []), { w with torch := r.2 })
  -- level/_PPCA.py:270-290 `draw_k`: the exception comes after the draw. Simplified: the numbers drawn are given back, not their images.
  | .drawK num numIdx posterior useMean =>
    let r := s.randn (num * if posterior then numIdx else w.dimOutput) w.torch
    (if posterior && useMean then .error .notImplemented else .ok (r.1, []), { w with torch := r.2 })
  -- opt/stiefel/stiefel_optimizer.py:67-, 193-
  | .step =>
    let r := stepParams s upd plain w.params w.py
    (.ok (r.1.map (·.val), []), { w with params := r.1, py := r.2 })

/-- A history of calls with what each gave back. An exception is caught by the caller. -/
def run (s : Src T P N α) (upd : Bool → α → α) (plain : α → α) : World T P N α → List (Call α) → List (Out α) × World T P N α
  | w, [] => ([], w)
  | w, c :: cs =>
    let r := call s upd plain w c
    let rest := run s upd plain r.2 cs
    (r.1 :: rest.1, rest.2)

end Kerch.Repro
