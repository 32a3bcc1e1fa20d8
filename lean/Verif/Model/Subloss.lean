import Verif.Model.Cache
import Verif.Model.Defaults
import Mathlib.Data.Real.Basic
/-!
# Sub-losses of a level (kerch/level/_KPCA.py:211-253, kerch/level/single_view/LSSVM.py:122-158, kerch/level/_Level.py:146-176)
-/
namespace Kerch
namespace Subloss
open CacheSt

/-- A constituent of the loss: its name in the dictionary `losses()`, its cache key, its weight in `loss()` and its value as a function of
the parameters of the level (the sample and the selection being fixed). -/
structure Part (P : Type) where
  name : String
  key : String
  weight : ℝ
  val : P → ℝ

/-- The constituents of KPCA in a default representation (level/_KPCA.py:211-248): `original - projected`. -/
noncomputable def kpcaParts {P : Type} (rep : String) (original projected : P → ℝ) : List (Part P) :=
  [⟨"Original", "subloss_original_" ++ rep, 1, original⟩, ⟨"Projected", "subloss_projected_" ++ rep, -1, projected⟩]

/-- The constituents of LSSVM (level/single_view/LSSVM.py:122-154): `1/n * regularization + gamma * mse`. -/
noncomputable def lssvmParts {P : Type} (rep : String) (n γ : ℝ) (reg mse : P → ℝ) : List (Part P) :=
  [⟨"Regularization", "subloss_regularization_" ++ rep, 1 / n, reg⟩, ⟨"MSE", "subloss_mse_" ++ rep, γ, mse⟩]

variable {P : Type}

/-- _KPCA.py:230-231, 247-248, LSSVM.py:142-143, 153-154: the `_get` of a constituent in the default representation. -/
noncomputable def readPart (p : P) (q : Part P) : M String ℝ ℝ :=
  CacheSt.get defaultCacheLevel q.key { levelKey := some "Level_subloss_default_representation" } fun c => (.ok (q.val p), c)

/-- `loss()`: the weighted sum of the constituents, read one after the other (_KPCA.py:211-216, LSSVM.py:122-125). -/
noncomputable def loss (p : P) : List (Part P) → M String ℝ ℝ
  | [], c => (.ok 0, c)
  | q :: t, c => match readPart p q c with
    | (.error e, c1) => (.error e, c1)
    | (.ok v, c1) => match loss p t c1 with
      | (.error e, c2) => (.error e, c2)
      | (.ok s, c2) => (.ok (q.weight * v + s), c2)

/-- `losses()`: the constituents under their names, then `'Level loss'` (_KPCA.py:250-253, LSSVM.py:156-159, _Level.py:146-150). -/
noncomputable def losses (p : P) (all : List (Part P)) : List (Part P) → M String ℝ (List (String × ℝ))
  | [], c => match loss p all c with
    | (.error e, c1) => (.error e, c1)
    | (.ok v, c1) => (.ok [("Level loss", v)], c1)
  | q :: t, c => match readPart p q c with
    | (.error e, c1) => (.error e, c1)
    | (.ok v, c1) => match losses p all t c1 with
      | (.error e, c2) => (.error e, c2)
      | (.ok d, c2) => (.ok ((q.name, v) :: d), c2)

/-- _Level.py:165-170 `before_step`: removes the *names* of the constituents from the cache. -/
noncomputable def beforeStep (p : P) (parts : List (Part P)) : M String ℝ Unit := fun c =>
  match losses p parts parts c with
  | (.error e, c1) => (.error e, c1)
  | (.ok d, c1) => (.ok (), c1.remove (.list (d.map Prod.fst)))

/-- _Level.py:172-176 `after_step` with `_parameter_related_cache = []` (_Level.py:26). -/
def afterStep (c : CacheSt String ℝ) : CacheSt String ℝ := c.remove (.list [])

/-- What happens to a level during training. -/
inductive Op (P : Type)
  /-- the optimiser changes the parameters in place -/
  | step (p : P)
  | loss
  | beforeStep
  | afterStep
  /-- `stochastic(...)`: resets the cache (feature/stochastic.py:83) -/
  | stochastic

structure St (P : Type) where
  param : P
  cache : CacheSt String ℝ

/-- One operation: the loss returned, if one is asked. -/
noncomputable def St.step (parts : List (Part P)) (s : St P) : Op P → Except Err (Option ℝ) × St P
  | .step p => (.ok none, { s with param := p })
  | .loss => match Subloss.loss s.param parts s.cache with
    | (.error e, c) => (.error e, { s with cache := c })
    | (.ok v, c) => (.ok (some v), { s with cache := c })
  | .beforeStep => match Subloss.beforeStep s.param parts s.cache with
    | (.error e, c) => (.error e, { s with cache := c })
    | (.ok _, c) => (.ok none, { s with cache := c })
  | .afterStep => (.ok none, { s with cache := Subloss.afterStep s.cache })
  | .stochastic => (.ok none, { s with cache := s.cache.resetCache false })

/-- A history: its outputs and the final state. -/
noncomputable def St.run (parts : List (Part P)) : St P → List (Op P) → List (Except Err (Option ℝ)) × St P
  | s, [] => ([], s)
  | s, o :: ops =>
    let r := s.step parts o
    let t := St.run parts r.2 ops
    (r.1 :: t.1, t.2)

end Subloss
end Kerch
