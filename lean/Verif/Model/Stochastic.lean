import Verif.Model.Cache
import Mathlib.Data.Rat.Floor
/-!
# Stochastic selection of sample points (kerch/feature/stochastic.py)
-/
namespace Kerch

/-- Python's `round` of a number (ties to even). The product `n * prop` (stochastic.py:96) is taken exactly. -/
def pyRound (q : ℚ) : ℤ :=
  let f := ⌊q⌋
  let r := q - f
  if r < 1/2 then f else if 1/2 < r then f + 1 else if f % 2 = 0 then f else f + 1

/-- `perm[:k]` for `k ≥ 0`; (a negative `k` cannot occur, `prop > 0` being asserted). -/
def takeInt {β : Type} (k : ℤ) (l : List β) : List β := l.take k.toNat

/-- The attributes of a `Stochastic` object: `_num_total`, `_idx_stochastic` (stochastic.py:26-27), and its cache.  Indices are a list,
whatever their Python type (`range`, tensor, list). -/
structure StochSt (α : Type) where
  numTotal : Option Nat
  idx : Option (List Nat)
  cache : CacheSt String α

/-- A module with its `children()`: whether it is a `Stochastic` instance, and its attributes as such (irrelevant otherwise). -/
inductive STree (α : Type)
  | node (isStoch : Bool) (st : StochSt α) (children : List (STree α))

namespace STree
variable {α : Type}

def isStoch : STree α → Bool
  | .node b _ _ => b
def st : STree α → StochSt α
  | .node _ s _ => s
def children : STree α → List (STree α)
  | .node _ _ ch => ch

mutual
/-- stochastic.py:60-105 called with `idx` only, as for the children (line 105). -/
def setIdx (idx : List Nat) : STree α → STree α
  | .node b s ch =>
    match s.numTotal with
    | none => .node b s ch
    | some _ => .node b { s with idx := some idx, cache := s.cache.resetCache false } (setIdxChildren idx ch)
/-- stochastic.py:103-105, the loop over the children. -/
def setIdxChildren (idx : List Nat) : List (STree α) → List (STree α)
  | [] => []
  | t :: ts => (if t.isStoch then setIdx idx t else t) :: setIdxChildren idx ts
end

/-- stochastic.py:60-105 `stochastic(idx, prop)`; `perm` is what `torch.randperm` returns. -/
def stochastic (idx : Option (List Nat)) (prop : Option ℚ) (perm : List Nat) : STree α → Except Err Unit × STree α
  | .node b s ch =>
    match s.numTotal with
    | none => (.ok (), .node b s ch)                                    -- 79-81
    | some n =>
      let s1 := { s with cache := s.cache.resetCache false }            -- 83
      match idx, prop with
      | some _, some _ => (.error .assertionError, .node b s1 ch)       -- 84
      | some i, none => (.ok (), .node b { s1 with idx := some i } (setIdxChildren i ch))
      | none, some p =>
        if ¬ p ≤ 1 then (.error .assertionError, .node b s1 ch)         -- 91
        else if ¬ 0 < p then (.error .assertionError, .node b s1 ch)    -- 92
        else
          let i := takeInt (pyRound (n * p)) perm
          (.ok (), .node b { s1 with idx := some i } (setIdxChildren i ch))
      | none, none =>
        let i := List.range n
        (.ok (), .node b { s1 with idx := some i } (setIdxChildren i ch))

mutual
/-- stochastic.py:48-58 `train(False)` (= `eval()`), with `torch.nn.Module.train` (called by line 55), which calls `train(False)` of each child;
a module that is not `Stochastic` only does the latter. -/
def eval : STree α → STree α
  | .node b s ch =>
    let t := .node b s (evalChildren ch)
    if b then (stochastic none none [] t).2 else t
def evalChildren : List (STree α) → List (STree α)
  | [] => []
  | t :: ts => eval t :: evalChildren ts
end

/-- The sub-module reached by following child positions. -/
def sub : STree α → List Nat → Option (STree α)
  | t, [] => some t
  | t, i :: p => match t.children[i]? with
    | none => none
    | some t' => sub t' p

/-- Following the positions one meets (after the start) only `Stochastic` modules holding a sample. -/
def SamplePath : STree α → List Nat → Prop
  | _, [] => True
  | t, i :: p => ∃ t', t.children[i]? = some t' ∧ t'.isStoch = true ∧ t'.st.numTotal ≠ none ∧ SamplePath t' p

end STree
end Kerch
