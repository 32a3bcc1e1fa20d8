import Verif.Model.Cache
import Mathlib.Data.Real.Basic
import Mathlib.Algebra.BigOperators.Group.List.Basic
/-!
# Training (kerch/train/Trainer.py) with the watchers' factory (kerch/monitor/factory.py)
-/
namespace Kerch
namespace Train

/-- `torch.utils.data.BatchSampler.__iter__` with `drop_last=False`: elements are collected and yielded each time `b` of them are there, the rest at the
end. `acc` is the batch being collected. -/
def batchLoop {α : Type _} (b : Nat) : List α → List α → List (List α)
  | acc, [] => if acc = [] then [] else [acc]
  | acc, x :: xs => if acc.length + 1 = b then (acc ++ [x]) :: batchLoop b [] xs else batchLoop b (acc ++ [x]) xs

/-- Values that can be assigned to `batch_size`. -/
inductive BArg where
  | str : String → BArg
  | int : Int → BArg
  | bool : Bool → BArg
  | other : BArg
  deriving DecidableEq

/-- The attributes `_batch_size` and `_sampler` (here: its batch size, over `range(num)`), `num` being the size of the training set. -/
structure St where
  num : Nat
  batchSize : Option BArg
  sampler : Option Nat

/-- Constructor of `BatchSampler`: `ValueError` unless the batch size is a positive integer that is not a boolean. -/
def mkSampler (b : BArg) : Except Err Nat :=
  match b with
  | .int z => if 0 < z then .ok z.toNat else .error .valueError
  | _ => .error .valueError

/-- Trainer.py:65-81 setter of `batch_size`. `bool` passes for an integer in line 74 but not for the sampler. -/
def St.setBatchSize (s : St) (v : BArg) : Except Err Unit × St :=
  let assign (r : Except Err Nat) : Except Err Unit × St :=
    match r with
    | .ok b => (.ok (), { s with sampler := some b, batchSize := some v })
    | .error e => (.error e, s)
  let check (z : Int) : Except Err Unit × St :=
    if z > 0 then
      if z ≤ s.num then assign (mkSampler v) else (.error .assertionError, s)
    else (.error .assertionError, s)
  match v with
  | .str t => if t = "all" then assign (mkSampler (.int s.num)) else (.error .assertionError, s)
  | .int z => check z
  | .bool b => check (if b then 1 else 0)
  | .other => (.error .assertionError, s)

/-- A history of assignments to `batch_size` after the construction with `v` (Trainer.py:22), failing assignments being caught by the user. -/
def St.history (num : Nat) (v : BArg) (later : List BArg) : Except Err St :=
  match (⟨num, none, none⟩ : St).setBatchSize v with
  | (.ok (), s) => .ok (later.foldl (fun s w => (s.setBatchSize w).2) s)
  | (.error e, _) => .error e

/-- The batches of an epoch (line 211), empty if there is no sampler. -/
def St.batches (s : St) : List (List Nat) :=
  match s.sampler with
  | some b => batchLoop b [] (List.range s.num)
  | none => []

variable {ι : Type _} {β : Type _}

/-- The parameters and the gradients accumulated in them (`.grad`, `None` after `zero_grad`). -/
structure Opt (ι : Type _) where
  p : ι → ℝ
  grad : Option (ι → ℝ)

/-- Optimizer.py:91-92 `zero_grad`: the gradients are set to `None`. -/
def Opt.zeroGrad (s : Opt ι) : Opt ι := { s with grad := none }

/-- `loss.backward()` (Trainer.py:196-201): the gradient `g p batch` of the loss of the batch is added to what is there. -/
def Opt.backward (g : (ι → ℝ) → β → ι → ℝ) (batch : β) (s : Opt ι) : Opt ι :=
  { s with grad := some fun i => (s.grad.getD 0) i + g s.p batch i }

/-- stiefel_optimizer.py:126-142 without momentum and weight decay (their defaults, which the trainer does not change): `p.data.add_(d_p, alpha=-lr)`. The
learning rate depends on the parameter's group. -/
def Opt.descend (lr : ι → ℝ) (s : Opt ι) : Opt ι :=
  match s.grad with
  | none => s
  | some d => { s with p := fun i => s.p i - lr i * d i }

/-- Trainer.py:211-215, one batch: `optimizer.step(closure)` calls the closure and then descends. -/
def Opt.batch (lr : ι → ℝ) (g : (ι → ℝ) → β → ι → ℝ) (s : Opt ι) (b : β) : Opt ι := (s.backward g b).descend lr

/-- Trainer.py:204-215, one epoch: the gradients are reset once. -/
def Opt.epoch (lr : ι → ℝ) (g : (ι → ℝ) → β → ι → ℝ) (batches : List β) (s : Opt ι) : Opt ι := batches.foldl (Opt.batch lr g) s.zeroGrad

/-- Trainer.py:204-225, the training loop. -/
def Opt.train (lr : ι → ℝ) (g : (ι → ℝ) → β → ι → ℝ) (batches : List β) : Nat → Opt ι → Opt ι
  | 0, s => s
  | n + 1, s => Opt.train lr g batches n (Opt.epoch lr g batches s)

/-- monitor/factory.py:7-30: `None` for `'none'`, which is then called; otherwise the module attribute `kerch.watch`, which does not exist, is read. -/
def watcherFactory (watcherType : String) : Except Err Unit :=
  if watcherType = "none" then .error .typeError else .error .attributeError

/-- Trainer.py:178-229 `fit`: the watcher is made (193) before the training loop. -/
def fit (lr : ι → ℝ) (g : (ι → ℝ) → β → ι → ℝ) (batches : List β) (epochs : Nat) (watcherType : String) (s : Opt ι) : Except Err Unit × Opt ι :=
  match watcherFactory watcherType with
  | .error e => (.error e, s)
  | .ok () => (.ok (), s.train lr g batches epochs)

end Train
end Kerch
