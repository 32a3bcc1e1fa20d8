import Mathlib.Data.Real.Basic
/-!
# The gradient of a model with several levels

`X` is what a level receives (the selected points), `P` the parameters of one level (all levels of the same type, for instance a sum of those needed). Only soft levels are
modelled (`level_trainable=True`): the parameters of hard ones are solved, not descended. Automatic differentiation is modelled by its contract: `backward` gives
the derivative of the recorded computation with respect to the parameters, everything that has been written through `.data` or computed under `no_grad` being
a constant of the recorded computation.
-/
namespace Kerch
namespace DeepGrad

variable {X P : Type*}

/-- A soft level: what it gives to the next level, its loss on what it receives, and its weight `eta` (_Level.py:59-64, 142-144). -/
structure Lv (X P : Type*) where
  out : P → X → X
  loss : P → X → ℝ
  eta : ℝ

/-- Model.py:128-137: what each level receives in a pass in training mode, with the parameters `θ`; sample.py:205-233 writes it to the sample of the level. -/
def recorded : List (Lv X P) → List P → X → List X
  | l :: ls, p :: θ, x => x :: recorded ls θ (l.out p x)
  | _, _, _ => []

/-- Model.py:143-144 `loss` after the pass: each level evaluates its loss on its sample. Since sample.py:205 (`torch.no_grad`) and 233 (`.data`) write constants to the samples, this is
how the value depends on the parameters for `backward` (Trainer.py:196-201). -/
def taped : List (Lv X P) → List X → List P → ℝ
  | l :: ls, x :: xs, p :: θ => l.eta * l.loss p x + taped ls xs θ
  | _, _, _ => 0

/-- The loss the trainer works with (Trainer.py:196-198): a pass, then the loss. -/
def modelLoss (ls : List (Lv X P)) (θ : List P) (x : X) : ℝ := taped ls (recorded ls θ x) θ

end DeepGrad
end Kerch
