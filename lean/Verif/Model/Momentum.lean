import Verif.Model.Optimizer
/-!
# The Euclidean steps of the optimisers (kerch/opt/stiefel/stiefel_optimizer.py:54-143, 182-286)

One call of `step` on all parameter groups, with the momentum, the weight decay and Nesterov's variant that keyword arguments of kerch/opt/Optimizer.py hand to every group. The
step on the Stiefel manifold is a parameter here (see `Stiefel`). The entries of a parameter are numbered; the deprecated `a.add_(c, b)` of torch has its documented meaning
`a.add_(b, alpha=c)`.
-/
namespace Kerch
namespace Momentum

/-- Entries of a tensor. -/
abbrev Vec := ℕ → ℝ

/-- The two optimisers (Optimizer.py:61-62). -/
inductive Kind | sgd | adam
  deriving DecidableEq

/-- What a step reads of a parameter group. -/
structure Grp where
  params : List Nat
  stiefel : Bool
  lr : ℝ
  momentum : ℝ
  dampening : ℝ
  weightDecay : ℝ
  nesterov : Bool

/-- A parameter: its entries, its `.grad` and the `momentum_buffer` of its state. -/
structure PS where
  value : Vec
  grad : Option Vec
  buf : Option Vec

/-- The local variables of `step` bound on the way only: `dampening` and `nesterov` (stiefel_optimizer.py:91-92, 269-270). -/
structure Loc where
  dampening : Option ℝ
  nesterov : Option Bool

/-- All parameters. -/
abbrev St := Nat → PS

/-- A number held by a group. -/
def numOf (g : Optim.Group) (k : String) (dflt : ℝ) : ℝ :=
  match g.find k with
  | some (.real r) => r
  | _ => dflt

/-- stiefel_optimizer.py:54-57 (182-187): what is read of a group of Optimizer.py, the missing keys being filled by the defaults of the optimiser (`momentum=0, dampening=0,
weight_decay=0, nesterov=False`). Options that are not of the expected type are not followed. -/
def ofGroup (g : Optim.Group) : Grp where
  params := Optim.groupParams g
  stiefel := match g.find "stiefel" with
    | some (.bool b) => b
    | _ => false
  lr := numOf g "lr" 0
  momentum := numOf g "momentum" 0
  dampening := numOf g "dampening" 0
  weightDecay := numOf g "weight_decay" 0
  nesterov := match g.find "nesterov" with
    | some (.bool b) => b
    | _ => false

/-- stiefel_optimizer.py:58-59 (188-189): the check of the constructor, which reads its own arguments only. -/
noncomputable def checkArgs (momentum dampening : ℝ) (nesterov : Bool) : Except Err Unit :=
  open Classical in if nesterov = true ∧ (momentum ≤ 0 ∨ dampening ≠ 0) then .error .valueError else .ok ()

variable (stief : Grp → Nat → PS → PS)

/-- stiefel_optimizer.py:126-127 (271-272): with weight decay, `p.grad` itself is changed. -/
noncomputable def decayed (G : Grp) (v g : Vec) : Vec := open Classical in if G.weightDecay ≠ 0 then fun i => g i + G.weightDecay * v i else g

/-- stiefel_optimizer.py:128-142 (273-284) from the gradient `g` on, `l` being the local variables at this time: `nesterov` is read once a buffer is there, `dampening` only if it was
there before, after the buffer has been multiplied. An unbound local variable raises (`UnboundLocalError`, a `NameError`). -/
noncomputable def euclid (G : Grp) (l : Loc) (p : PS) (g : Vec) : Except Err Unit × PS :=
  open Classical in
  if G.momentum = 0 then (.ok (), { p with grad := some g, value := fun i => p.value i - G.lr * g i })
  else
    let move (b : Vec) : Except Err Unit × PS :=
      match l.nesterov with
      | none => (.error .nameError, { p with grad := some g, buf := some b })
      | some n =>
        let d : Vec := if n then fun i => g i + G.momentum * b i else b
        (.ok (), { value := fun i => p.value i - G.lr * d i, grad := some g, buf := some b })
    match p.buf with
    | none => move g
    | some b =>
      match l.dampening with
      | none => (.error .nameError, { p with grad := some g, buf := some fun i => G.momentum * b i })
      | some d => move fun i => G.momentum * b i + (1 - d) * g i

/-- stiefel_optimizer.py:83-142 (209-284), one parameter `q` of a group. Its matrix has `p.size()[0]` rows: `IndexError` for a parameter without dimension; the columns
cannot be inferred if there are no rows (`RuntimeError`). AdamG reads `dampening` and `nesterov` of the group in the Euclidean branch (269-270), SGDG in the Stiefel branch (91-92) only. -/
noncomputable def visit (k : Kind) (shape : Nat → List ℕ) (G : Grp) (q : Nat) (l : Loc) (s : St) : Except Err Unit × Loc × St :=
  match (s q).grad with
  | none => (.ok (), l, s)
  | some g =>
    match shape q with
    | [] => (.error .indexError, l, s)
    | m :: rest =>
      if m = 0 then (.error .runtimeError, l, s)
      else if G.stiefel = true ∧ m ≤ rest.prod then
        (.ok (), (match k with
          | .sgd => ⟨some G.dampening, some G.nesterov⟩
          | .adam => l), Function.update s q (stief G q (s q)))
      else
        let l := match k with
          | .sgd => l
          | .adam => ⟨some G.dampening, some G.nesterov⟩
        let r := euclid G l (s q) (decayed G (s q).value g)
        (r.1, l, Function.update s q r.2)

/-- The two loops of `step` (78-83, 205-209), ended by the first exception. -/
noncomputable def run (k : Kind) (shape : Nat → List ℕ) : List (Grp × Nat) → Loc → St → Except Err Unit × Loc × St
  | [], l, s => (.ok (), l, s)
  | (G, q) :: t, l, s =>
    match visit stief k shape G q l s with
    | (.ok (), l, s) => run k shape t l s
    | r => r

/-- The parameters in the order of the loops, with their groups. -/
def visits (gs : List Grp) : List (Grp × Nat) := gs.flatMap fun G => G.params.map fun q => (G, q)

/-- `step` (67-143, 194-286) once the closure has been called. -/
noncomputable def step (k : Kind) (shape : Nat → List ℕ) (gs : List Grp) (s : St) : Except Err Unit × St :=
  let r := run stief k shape (visits gs) ⟨none, none⟩ s
  (r.1, r.2.2)

/-- `zero_grad` followed by a `backward` giving the gradients `gr`. -/
def setGrad (gr : Nat → Option Vec) (s : St) : St := fun q => { s q with grad := gr q }

/-- The first `n` steps, with their own gradients each; ended by the first exception. -/
noncomputable def steps (k : Kind) (shape : Nat → List ℕ) (gs : List Grp) (gr : ℕ → Nat → Option Vec) (s : St) : ℕ → Except Err Unit × St
  | 0 => (.ok (), s)
  | n + 1 =>
    match steps k shape gs gr s n with
    | (.ok (), s) => step stief k shape gs (setGrad (gr n) s)
    | r => r

end Momentum
end Kerch
