import Verif.Model.Stochastic
/-!
# Sample manager (kerch/feature/sample.py)

Tensors are references to storages in a heap, as `torch.nn.Parameter(sample.data)` (sample.py:200) shares the storage of the tensor it is
given.
-/
namespace Kerch

/-- A two-dimensional tensor. -/
structure Mat (R : Type) where
  cols : Nat
  rows : List (List R)
  deriving DecidableEq

/-- `tensor.nelement()`. -/
def Mat.nelem {R : Type} (m : Mat R) : Nat := m.rows.length * m.cols

/-- All rows have the announced length. -/
def Mat.WF {R : Type} (m : Mat R) : Prop := ∀ r ∈ m.rows, r.length = m.cols

/-- A value given as sample, seen through `utils.castf` (cast.py:7-45): `None`; more than two dimensions (`NameError`, cast.py:42-43);
anything that is copied by the cast (list, array, other dtype); a float tensor (storage kept, zero- and one-dimensional tensors being viewed as
columns); a float `torch.nn.Parameter` with its `requires_grad` and `grad`. Simplification: a `Parameter` is two-dimensional. -/
inductive DArg (R : Type)
  | none
  | bad
  | value (m : Mat R)
  | tensor (r : Nat)
  | param (r : Nat) (rg : Bool) (grad : Option (Mat R))

/-- The values given to `update_sample`, seen through `castf`. -/
inductive UArg (R : Type)
  | none
  | bad
  | mat (m : Mat R)

/-- What `torch.nn.init.orthogonal_` fills an `n × d` tensor with (sample.py:188). -/
structure RandInit (R : Type) where
  val : Nat → Nat → Mat R
  rows : ∀ n d, (val n d).rows.length = n
  cols : ∀ n d, (val n d).cols = d
  wf : ∀ n d, (val n d).WF

/-- The order in which torch performs the assignments of an indexed assignment; torch leaves it unspecified. -/
structure Sched (β : Type) where
  ord : List β → List β
  perm : ∀ l, (ord l).Perm l

/-- Attributes of a `Sample` without children: the storages, the next unused address, `Stochastic`'s attributes, `_dim_input`, the storage of
`_sample`, `_sample_trainable`, and `_sample.grad`. -/
structure SampleSt (R α : Type) where
  heap : Nat → Mat R
  next : Nat
  st : StochSt α
  dimInput : Option Nat
  ref : Nat
  trainable : Bool
  grad : Option (Mat R)

namespace SampleSt
variable {R α : Type}

/-- The content of `_sample`. -/
def data (s : SampleSt R α) : Mat R := s.heap s.ref

/-- sample.py:93-97 `empty_sample`. -/
def empty (s : SampleSt R α) : Bool := s.data.nelem == 0

/-- stochastic.py:60-105 for an object without children. -/
def stochastic (idx : Option (List Nat)) (prop : Option ℚ) (perm : List Nat) (s : SampleSt R α) : Except Err Unit × SampleSt R α :=
  let r := STree.stochastic idx prop perm (.node true s.st [])
  (r.1, { s with st := r.2.st })

/-- sample.py:157-203 `init_sample`. -/
def initSample (arg : DArg R) (idx : Option (List Nat)) (prop : Option ℚ) (perm : List Nat) (rand : RandInit R)
    (s : SampleSt R α) : Except Err Unit × SampleSt R α :=
  match arg with
  | .bad => (.error .nameError, s)
  | .none =>
    match s.st.numTotal with
    | none => (.ok (), s)                                                     -- 182, left operand of `or`
    | some n => match s.dimInput with
      | none => (.error .notInitialized, s)                                   -- 182, the getter of dim_input raises (79)
      | some d => stochastic idx prop perm                                    -- 187-191
          { s with heap := Function.update s.heap s.next (rand.val n d), next := s.next + 1, ref := s.next, grad := none }
  | .param r rg g =>                                                          -- 192-196
    stochastic idx prop perm { s with st := { s.st with numTotal := some (s.heap r).rows.length }, dimInput := some (s.heap r).cols,
                                      trainable := rg, ref := r, grad := g }
  | .tensor r =>                                                              -- 197-201
    stochastic idx prop perm { s with st := { s.st with numTotal := some (s.heap r).rows.length }, dimInput := some (s.heap r).cols,
                                      ref := r, grad := none }
  | .value m =>                                                               -- 178 copies, then 197-201
    stochastic idx prop perm { s with heap := Function.update s.heap s.next m, next := s.next + 1,
                                      st := { s.st with numTotal := some m.rows.length }, dimInput := some m.cols,
                                      ref := s.next, grad := none }

/-- sample.py:55-70 `__init__`, on top of cache.py:34-39 and stochastic.py:24-27. An exception means that there is no object. -/
def construct (heap : Nat → Mat R) (next : Nat) (arg : DArg R) (dim num : Option Nat) (trainable : Bool) (idx : Option (List Nat))
    (prop : Option ℚ) (perm : List Nat) (rand : RandInit R) : Except Err (SampleSt R α) :=
  let s0 (n d : Option Nat) : SampleSt R α :=
    ⟨Function.update heap next ⟨0, []⟩, next + 1, ⟨n, none, CacheSt.init⟩, d, next, trainable, none⟩
  let r := match arg with
    | .none => initSample .none idx prop perm rand (s0 num dim)               -- 63-64
    | .bad => (.error .nameError, s0 none none)                               -- 60
    | .value m => initSample (.value m) idx prop perm rand (s0 (some m.rows.length) (some m.cols))
    | .tensor r => initSample (.tensor r) idx prop perm rand (s0 (some (heap r).rows.length) (some (heap r).cols))
    | .param r rg g => initSample (.param r rg g) idx prop perm rand (s0 (some (heap r).rows.length) (some (heap r).cols))
  match r.1 with
  | .error e => .error e
  | .ok () => .ok r.2

/-- sample.py:84-90, the setter of `dim_input`. -/
def setDim (d : Nat) (perm : List Nat) (rand : RandInit R) (s : SampleSt R α) : Except Err Unit × SampleSt R α :=
  if s.dimInput ≠ none then (.error .assertionError, s) else
  let s1 := { s with dimInput := some d }
  if s1.st.numTotal ≠ none then initSample .none none none perm rand s1 else (.ok (), s1)

/-- sample.py:111-117, the setter of `num_sample`. -/
def setNum (n : Nat) (perm : List Nat) (rand : RandInit R) (s : SampleSt R α) : Except Err Unit × SampleSt R α :=
  if s.st.numTotal ≠ none then (.error .assertionError, s) else
  let s1 := { s with st := { s.st with numTotal := some n } }
  if s1.dimInput ≠ none then initSample .none none none perm rand s1 else (.ok (), s1)

/-- sample.py:127-131, the setter of `sample`. -/
def setSample (arg : DArg R) (perm : List Nat) (rand : RandInit R) (s : SampleSt R α) : Except Err Unit × SampleSt R α :=
  match arg with
  | .none => (.error .assertionError, s)
  | a => initSample a none none perm rand s

/-- A tensor index along an axis of length `n`; negative ones count from the end. -/
def normIdx (n : Nat) (i : ℤ) : Option Nat :=
  if 0 ≤ i ∧ i < n then some i.toNat else if -(n : ℤ) ≤ i ∧ i < 0 then some (i + n).toNat else none

/-- Broadcasting of a row to `c` columns. -/
def bcast (c : Nat) (v : List R) : List R :=
  if v.length = c then v else match v with
    | x :: _ => List.replicate c x
    | [] => []

/-- The assignments of `data[idx, :] = values` in order; torch checks an index when it comes to it. -/
def writeRows (m : Mat R) : List (ℤ × List R) → Except Err Unit × Mat R
  | [] => (.ok (), m)
  | (i, v) :: ws => match normIdx m.rows.length i with
    | none => (.error .indexError, m)
    | some k => writeRows { m with rows := m.rows.set k v } ws

/-- sample.py:205-239 `update_sample`. The values are those at the time of the call (they do not overlap the sample in memory).
Line 237 `grad.data[idx, :].zero_()` zeroes the copy made by the indexing: the gradient remains. -/
def updateSample (vals : UArg R) (idx : Option (List ℤ)) (sched : Sched (ℤ × List R)) (s : SampleSt R α) :
    Except Err Unit × SampleSt R α :=
  if s.empty then (.ok (), s) else                                            -- 218-220
  match vals with
  | .bad => (.error .nameError, s)                                            -- 222
  | .none => match idx, s.st.numTotal with
    | none, none => (.error .typeError, s)
    | _, _ => (.error .attributeError, s)                                     -- 229: None has no shape
  | .mat m =>
    match (match idx with
      | some i => some i
      | none => s.st.numTotal.map (fun n => (List.range n).map Int.ofNat)) with
    | none => (.error .typeError, s)                                          -- 226: range(None)
    | some i =>
      if i.length ≠ m.rows.length then (.error .assertionError, s) else       -- 229
      if m.cols ≠ s.data.cols ∧ m.cols ≠ 1 then (.error .runtimeError, s) else
      let r := writeRows s.data (sched.ord (i.zip (m.rows.map (bcast s.data.cols))))    -- 233
      let s1 := { s with heap := Function.update s.heap s.ref r.2 }
      match r.1 with
      | .error e => (.error e, s1)
      | .ok () =>
        if s.trainable && s.grad.isNone then (.error .attributeError, s1) else          -- 237: None has no data
        (.ok (), { s1 with st := { s1.st with cache := s1.st.cache.resetCache false } })  -- 239

/-- What indexing with the selection gives: rows, or the whole tensor with a further axis (for `None`). -/
inductive Cur (R : Type)
  | rows (l : List (List R))
  | unsqueezed
  deriving DecidableEq

/-- sample.py:153-155 `current_sample`. -/
def currentSample (s : SampleSt R α) : Except Err (Cur R) :=
  match s.st.idx with
  | none => .ok .unsqueezed
  | some i => match i.mapM (fun j => s.data.rows[j]?) with
    | none => .error .indexError
    | some l => .ok (.rows l)

/-- What may happen to a sample, including to the caller's own tensors and to the gradient. -/
inductive Op (R : Type)
  | init (arg : DArg R) (idx : Option (List Nat)) (prop : Option ℚ) (perm : List Nat) (rand : RandInit R)
  | update (vals : UArg R) (idx : Option (List ℤ)) (sched : Sched (ℤ × List R))
  | setDim (d : Nat) (perm : List Nat) (rand : RandInit R)
  | setNum (n : Nat) (perm : List Nat) (rand : RandInit R)
  | setSample (arg : DArg R) (perm : List Nat) (rand : RandInit R)
  | setTrainable (b : Bool)
  | stochastic (idx : Option (List Nat)) (prop : Option ℚ) (perm : List Nat)
  | backward (g : Option (Mat R))
  /-- the caller assigns in place to a tensor of theirs, keeping its shape -/
  | userWrite (r : Nat) (rows : List (List R))

/-- One operation; exceptions are caught by the caller and the object is used further. -/
def step (s : SampleSt R α) : Op R → Except Err Unit × SampleSt R α
  | .init arg idx prop perm rand => initSample arg idx prop perm rand s
  | .update vals idx sched => updateSample vals idx sched s
  | .setDim d perm rand => setDim d perm rand s
  | .setNum n perm rand => setNum n perm rand s
  | .setSample arg perm rand => setSample arg perm rand s
  | .setTrainable b => (.ok (), { s with trainable := b })                    -- sample.py:140-143
  | .stochastic idx prop perm => stochastic idx prop perm s
  | .backward g => (.ok (), { s with grad := g })
  | .userWrite r rows =>
    (.ok (), if rows.length = (s.heap r).rows.length then
      { s with heap := Function.update s.heap r { s.heap r with rows := rows } } else s)

def run (s : SampleSt R α) (ops : List (Op R)) : SampleSt R α := ops.foldl (fun s o => (step s o).2) s

end SampleSt
end Kerch
