import Verif.Model.Cache
import Mathlib.Analysis.Calculus.FDeriv.Basic
import Mathlib.Analysis.Calculus.Deriv.Basic
/-!
# A kernel with a trainable sample

Kernels on a distance (kernel/distance) without sample transforms. `S` is the type of the sample, `M` of the distances, `N` of the kernel matrix. The kernel matrix is `κ σ (D X)`. Three things
are kept between two calls, each with the graph torch has recorded while it was computed: the selected rows of the sample (the entry `sample_transform` of the cache), the distances
(`_kernel_dist_sample` or `_kernel_square_dist_sample`) and the kernel matrix (`K` with `kernel_implicit_transform`). Automatic differentiation is modelled by its contract: `backward` gives the derivative of the recorded
computation at the values it was recorded with, what was computed under `no_grad` being constant; it raises if nothing requires a gradient, and if it reaches a part of the graph that
an earlier `backward` has gone through (torch frees the buffers).
-/
namespace Kerch
namespace SampleGrad

variable {S M N : Type*}

/-- Rows of the sample, or distances, in the cache: the content of the sample they were computed from, whether torch has recorded how, and whether `backward` has gone through. -/
structure Node (S : Type*) where
  src : S
  tracked : Bool
  freed : Bool

/-- A kernel matrix: the content of the sample and the bandwidth it was computed from, whether the graph reaches the sample through the distances, whether it reaches the bandwidth, and
whether `backward` has gone through. -/
structure Mat (S : Type*) where
  src : S
  sig : ℝ
  onSample : Bool
  onSigma : Bool
  freed : Bool

/-- The state of the kernel: the sample (sample.py:66-67), `sample_trainable`, the bandwidth (`none` if not given, _distance.py:31-35), `sigma_trainable`, the cache level and the cache. -/
structure St (S : Type*) where
  X : S
  rg : Bool
  sigma : Option ℝ
  srg : Bool
  level : Nat
  tree : Option (Node S)
  dist : Option (Node S)
  K : Option (Mat S)

/-- A kernel that has just been constructed. -/
def St.init (X : S) (rg : Bool) (sigma : Option ℝ) (srg : Bool) (level : Nat) : St S := ⟨X, rg, sigma, srg, level, none, none, none⟩

/-- sample.py:243-251 `_sample_transform` (cached at all levels: utils/defaults.py:20) with `self.sample[self.idx, :]`; `g` is whether torch records. -/
def St.rows (s : St S) (g : Bool) : Node S := s.tree.getD ⟨s.X, g && s.rg, false⟩

/-- distance.py:15-17, distance_squared.py:15-17: cached at all levels (`force=True`; `destroy=True` does not remove, C04). -/
def St.dists (s : St S) (g : Bool) : Node S := s.dist.getD ⟨(s.rows g).src, g && (s.rows g).tracked, false⟩

/-- `_sample_dist`, `_sample_square_dist` with what they leave in the cache. -/
def St.withDists (s : St S) (g : Bool) : St S := { s with tree := some (s.rows g), dist := some (s.dists g) }

/-- _distance.py:47-56, distance.py:19-26, distance_squared.py:19-26: the bandwidth; the heuristic `h` is evaluated under `no_grad`. The setter (_distance.py:58-63) drops everything but the rows and the distances. -/
def St.withSigma (h : M → ℝ) (D : S → M) (s : St S) : St S :=
  if s.sigma.isSome then s else { s.withDists false with sigma := some (h (D (s.dists false).src)), K := none }

/-- kernel.py:158-177 `_K` through _base_kernel.py:86-94 and distance.py:28-34, distance_squared.py:31-37: from the cache; or the rows, then the bandwidth, then the distances. Kept from level
light on (utils/defaults.py:9). -/
def St.evalK (h : M → ℝ) (D : S → M) (s : St S) (g : Bool) : Mat S × St S :=
  match s.K with
  | some k => (k, s)
  | none =>
    let s1 := ({ s with tree := some (s.rows g) }).withSigma h D
    let s2 := s1.withDists g
    let k : Mat S := ⟨(s1.dists g).src, (s1.sigma).getD 1, g && (s1.dists g).tracked, g && s.srg, false⟩
    (k, if 1 ≤ s.level then { s2 with K := some k } else s2)

/-- What a user does: read `K` (`g`: torch records; otherwise under `torch.no_grad()`), read `sigma`, assign it, call `backward` on a loss `L` of `K`, change the sample by a step of an optimiser of
torch, `stochastic`, `reset` or `update_sample` (which clear the cache: stochastic.py:83, sample.py:237; the first two leave the sample as it is), assign `sample_trainable`. -/
inductive Op (S N : Type*)
  | read (g : Bool)
  | readSigma
  | setSigma (v : ℝ)
  | backward (L : N → ℝ)
  | step (X : S)
  | clear
  | update (X : S)
  | trainable (b : Bool)

/-- What is seen of it. -/
inductive Out (S N : Type*) [NormedAddCommGroup S] [NormedSpace ℝ S]
  | none
  | sigma (v : ℝ)
  | K (v : N)
  | error
  | grads (sample : Option (S →L[ℝ] ℝ)) (sigma : Option ℝ)

variable [NormedAddCommGroup S] [NormedSpace ℝ S]

/-- `backward` on a loss of a kernel matrix: what the sample and the bandwidth receive. -/
noncomputable def Mat.grads (κ : ℝ → M → N) (D : S → M) (L : N → ℝ) (k : Mat S) : Out S N :=
  .grads (if k.onSample then some (fderiv ℝ (fun X => L (κ k.sig (D X))) k.src) else .none)
    (if k.onSigma then some (deriv (fun v => L (κ v (D k.src))) k.sig) else .none)

/-- The graph is gone through once. -/
def Node.free (n : Node S) : Node S := { n with freed := true }

/-- One operation. -/
noncomputable def St.op (h : M → ℝ) (κ : ℝ → M → N) (D : S → M) (s : St S) : Op S N → Out S N × St S
  | .read g => let r := s.evalK h D g; (.K (κ r.1.sig (D r.1.src)), r.2)
  | .readSigma => let s1 := s.withSigma h D; (.sigma (s1.sigma.getD 1), s1)
  | .setSigma v => (.none, { s with sigma := some v, K := none })
  | .backward L =>
    let k := (s.evalK h D true).1
    let s1 := (s.evalK h D true).2
    if k.onSample = false ∧ k.onSigma = false then (.error, s1)
    else
      let s2 := { s1 with K := s1.K.map fun k => { k with freed := true } }
      if k.freed || (k.onSample && (s1.tree.any (·.freed) || s1.dist.any (·.freed))) then (.error, s2)
      else (k.grads κ D L, if k.onSample then { s2 with tree := s2.tree.map Node.free, dist := s2.dist.map Node.free } else s2)
  | .step X => (.none, { s with X := X })
  | .clear => (.none, { s with tree := .none, dist := .none, K := .none })
  | .update X => (.none, { s with X := X, tree := .none, dist := .none, K := .none })
  | .trainable b => (.none, { s with rg := b })

/-- A history. -/
noncomputable def St.run (h : M → ℝ) (κ : ℝ → M → N) (D : S → M) (s : St S) : List (Op S N) → List (Out S N)
  | [] => []
  | o :: os => (s.op h κ D o).1 :: ((s.op h κ D o).2).run h κ D os

/-- The state after it. -/
noncomputable def St.after (h : M → ℝ) (κ : ℝ → M → N) (D : S → M) (s : St S) : List (Op S N) → St S
  | [] => s
  | o :: os => ((s.op h κ D o).2).after h κ D os

end SampleGrad
end Kerch
