import Mathlib.LinearAlgebra.Matrix.NonsingularInverse
import Verif.Model.LSSVMTrain
/-!
# The systems solved by a LS-SVM and by a ridge regression, for any number of outputs
(kerch/level/single_view/LSSVM.py:47-101, kerch/level/single_view/Ridge.py:18-45)

The matrices are assembled as the code does, by concatenation. The kernel is given by its matrix `K`, or by the features `Φ` of the sample
(`kernel.phi_sample`, an attribute that does not exist, is read as these features). Where the results are stored is `Model/Refit.lean`.
-/
namespace Kerch
namespace SolveSys

/-- A matrix of `r` rows and `c` columns. -/
abbrev Mat (r c : ℕ) := Matrix (Fin r) (Fin c) ℝ

/-- `torch.cat((M, N), dim=0)`. -/
def cat0 {a b c : ℕ} (M : Mat a c) (N : Mat b c) : Mat (a + b) c := .of (Fin.append M N)

/-- `torch.cat((M, N), dim=1)`. -/
def cat1 {a b c : ℕ} (M : Mat a b) (N : Mat a c) : Mat a (b + c) := .of fun i => Fin.append (M i) (N i)

/-- `torch.ones`, `torch.zeros`, and the matrix of one entry (LSSVM.py:53-55, 77-87). -/
def full {a b : ℕ} (v : ℝ) : Mat a b := .of fun _ _ => v

/-- `torch.linalg.solve(A, B)`: the solution, or an error if `A` is singular. -/
noncomputable def linSolve {r c : ℕ} (A : Mat r r) (B : Mat r c) : Except Err (Mat r c) :=
  if A.det = 0 then .error .runtimeError else .ok (A⁻¹ * B)

/-- LSSVM.py:91-92. -/
def dualA {n : ℕ} (K : Mat n n) (γ : ℝ) : Mat (n + 1) (n + 1) :=
  cat0 (cat1 (K + γ • (1 : Mat n n)) (full 1)) (cat1 (full 1) (full 0))

/-- LSSVM.py:93. -/
def dualB {n m : ℕ} (Y : Mat n m) : Mat (n + 1) m := cat0 Y (full 0)

/-- `sol[0:-1]`, `sol[-1]`. -/
def parts {n m : ℕ} (S : Mat (n + 1) m) : Mat n m × (Fin m → ℝ) := (.of fun i => S i.castSucc, S (Fin.last n))

/-- LSSVM.py:73-101 `_solve_dual`: the dual variables and the bias. -/
noncomputable def solveDual {n m : ℕ} (K : Mat n n) (γ : ℝ) (Y : Mat n m) : Except Err (Mat n m × (Fin m → ℝ)) :=
  match linSolve (dualA K γ) (dualB Y) with
  | .error e => .error e
  | .ok S => .ok (parts S)

/-- `kernel.C` (kernel.py:160-171): the features averaged over the sample. -/
noncomputable def covC {n d : ℕ} (Φ : Mat n d) : Mat d d := .of fun j l => (1 / (n : ℝ)) * ∑ a, Φ a j * Φ a l

/-- `torch.sum(M, dim=0, keepdim=True)` (LSSVM.py:57-58): the sum of the rows, as one row. -/
def sumP {n d : ℕ} (Φ : Mat n d) : Mat 1 d := .of fun _ j => ∑ a, Φ a j

/-- LSSVM.py:61-62. -/
noncomputable def primalA {n d : ℕ} (Φ : Mat n d) (γ : ℝ) : Mat (d + 1) (d + 1) :=
  cat0 (cat1 (covC Φ + γ • (1 : Mat d d)) (sumP Φ).transpose) (cat1 (sumP Φ) (full n))

/-- LSSVM.py:58-59, 63. -/
def primalB {n d m : ℕ} (Φ : Mat n d) (Y : Mat n m) : Mat (d + 1) m := cat0 (Φ.transpose * Y) (sumP Y)

/-- LSSVM.py:47-71 `_solve_primal`: the weights and the bias. -/
noncomputable def solvePrimal {n d m : ℕ} (Φ : Mat n d) (γ : ℝ) (Y : Mat n m) : Except Err (Mat d m × (Fin m → ℝ)) :=
  match linSolve (primalA Φ γ) (primalB Φ Y) with
  | .error e => .error e
  | .ok S => .ok (parts S)

/-- Ridge.py:34-45 `_solve_dual(target)`. -/
noncomputable def ridgeDual {n m : ℕ} (K : Mat n n) (γ : ℝ) (Y : Mat n m) : Except Err (Mat n m) := linSolve (K + (1 / γ) • (1 : Mat n n)) Y

/-- Ridge.py:18-32 `_solve_primal(target)`. -/
noncomputable def ridgePrimal {n d m : ℕ} (Φ : Mat n d) (γ : ℝ) (Y : Mat n m) : Except Err (Mat d m) :=
  linSolve (covC Φ + (1 / γ) • (1 : Mat d d)) (Φ.transpose * Y)

/-- Output for a point with kernel values `kx`: one value per output (_View.py:336-337, View.py:230-236 with `kappa = 1`). -/
def outputs {n m : ℕ} (kx : Fin n → ℝ) (p : Mat n m × (Fin m → ℝ)) : Fin m → ℝ := fun c => LSSVM.outDual kx (fun i => p.1 i c) (p.2 c)

end SolveSys
end Kerch
