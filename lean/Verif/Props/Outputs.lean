import Mathlib.LinearAlgebra.Matrix.ToLinearEquiv
import Mathlib.LinearAlgebra.Matrix.PosDef
import Verif.Model.SolveSystem
import Verif.Props.LSSVM
import Verif.Props.LSSVMTrain
/-!
# C169: several outputs are fitted as each of them alone; C50 with centred features
-/
set_option linter.unusedSectionVars false
set_option linter.unusedSimpArgs false
namespace Kerch
namespace SolveSys
open Finset LSSVM LSTrain Matrix

variable {n d m r c : ℕ}

/-! ## helpers -/

theorem linSolve_ok {A : Mat r r} {B S : Mat r c} (h : linSolve A B = .ok S) : A.det ≠ 0 ∧ A * S = B := by
  unfold linSolve at h
  split at h
  · cases h
  · rename_i hd
    cases h
    exact ⟨hd, Matrix.mul_nonsing_inv_cancel_left A B (isUnit_iff_ne_zero.mpr hd)⟩

theorem linSolve_of {A : Mat r r} {B S : Mat r c} (hd : A.det ≠ 0) (h : A * S = B) : linSolve A B = .ok S := by
  unfold linSolve
  rw [if_neg hd, ← h, Matrix.nonsing_inv_mul_cancel_left A S (isUnit_iff_ne_zero.mpr hd)]

theorem linSolve_err {A : Mat r r} {B : Mat r c} : (∃ e, linSolve A B = .error e) ↔ A.det = 0 := by
  unfold linSolve
  split <;> simp_all

theorem cat0_left {a b : ℕ} (M : Mat a c) (N : Mat b c) (i : Fin a) (k : Fin c) : cat0 M N (Fin.castAdd b i) k = M i k :=
  congrFun (Fin.append_left (α := Fin c → ℝ) M N i) k

theorem cat0_right {a b : ℕ} (M : Mat a c) (N : Mat b c) (i : Fin b) (k : Fin c) : cat0 M N (Fin.natAdd a i) k = N i k :=
  congrFun (Fin.append_right (α := Fin c → ℝ) M N i) k

theorem cat1_left {a b : ℕ} (M : Mat a b) (N : Mat a c) (i : Fin a) (k : Fin b) : cat1 M N i (Fin.castAdd c k) = M i k := Fin.append_left (M i) (N i) k

theorem cat1_right {a b : ℕ} (M : Mat a b) (N : Mat a c) (i : Fin a) (k : Fin c) : cat1 M N i (Fin.natAdd b k) = N i k := Fin.append_right (M i) (N i) k

theorem full_apply {a b : ℕ} (v : ℝ) (i : Fin a) (j : Fin b) : full v i j = v := rfl

/-- `[h; b]` as one column per output. -/
def join {n m : ℕ} (H : Mat n m) (b : Fin m → ℝ) : Mat (n + 1) m := cat0 H (.of fun _ => b)

theorem parts_join (H : Mat n m) (b : Fin m → ℝ) : parts (join H b) = (H, b) := by
  unfold parts join cat0
  refine Prod.ext ?_ ?_
  · funext i
    exact Fin.append_left H (fun _ => b) i
  · exact Fin.append_right H (fun _ : Fin 1 => b) 0

theorem join_parts (S : Mat (n + 1) m) : join (parts S).1 (parts S).2 = S := by
  funext i
  refine Fin.lastCases ?_ (fun i => ?_) i
  · exact Fin.append_right (parts S).1 (fun _ : Fin 1 => (parts S).2) 0
  · exact Fin.append_left (parts S).1 (fun _ : Fin 1 => (parts S).2) i

/-- A bordered matrix times a bordered column. -/
theorem border_mul (A : Mat n n) (B : Mat n 1) (C : Mat 1 n) (D : Mat 1 1) (H : Mat n m) (b : Fin m → ℝ) (U : Mat n m) (v : Mat 1 m) :
    cat0 (cat1 A B) (cat1 C D) * join H b = cat0 U v ↔
      (∀ i k, ∑ j, A i j * H j k + B i 0 * b k = U i k) ∧ ∀ k, ∑ j, C 0 j * H j k + D 0 0 * b k = v 0 k := by
  have e1 : ∀ i k, (cat0 (cat1 A B) (cat1 C D) * join H b) (Fin.castAdd 1 i) k = ∑ j, A i j * H j k + B i 0 * b k := by
    intro i k
    rw [Matrix.mul_apply, Fin.sum_univ_add, Fin.sum_univ_one]
    simp only [join, cat0_left, cat0_right, cat1_left, cat1_right, Matrix.of_apply]
  have e2 : ∀ k, (cat0 (cat1 A B) (cat1 C D) * join H b) (Fin.natAdd n 0) k = ∑ j, C 0 j * H j k + D 0 0 * b k := by
    intro k
    rw [Matrix.mul_apply, Fin.sum_univ_add, Fin.sum_univ_one]
    simp only [join, cat0_left, cat0_right, cat1_left, cat1_right, Matrix.of_apply]
  constructor
  · intro h
    refine ⟨fun i k => ?_, fun k => ?_⟩
    · rw [← e1, h]; simp [cat0_left]
    · rw [← e2, h]; simp [cat0_right]
  · rintro ⟨h1, h2⟩
    funext i k
    refine Fin.addCases (fun i => ?_) (fun i => ?_) i
    · rw [e1, h1]; simp [cat0_left]
    · have : i = 0 := Subsingleton.elim _ _
      subst this
      rw [e2, h2]; simp [cat0_right]

theorem dual_iff (K : Mat n n) (γ : ℝ) (Y H : Mat n m) (b : Fin m → ℝ) :
    dualA K γ * join H b = dualB Y ↔ ∀ k, DualSol K γ (fun i => Y i k) (fun i => H i k) (b k) := by
  unfold dualA dualB
  rw [border_mul]
  have e : ∀ i k, ∑ j, (K + γ • (1 : Mat n n)) i j * H j k = ∑ j, K i j * H j k + γ * H i k := by
    intro i k
    simp only [Matrix.add_apply, Matrix.smul_apply, Matrix.one_apply, smul_eq_mul, add_mul, sum_add_distrib, mul_ite, mul_one, mul_zero, ite_mul, zero_mul, sum_ite_eq, mem_univ, if_true]
  simp only [e, DualSol, full_apply, one_mul, zero_mul, add_zero]
  exact ⟨fun h k => ⟨fun i => h.1 i k, h.2 k⟩, fun h => ⟨fun i k => (h k).1 i, fun k => (h k).2⟩⟩

theorem primal_iff (Φ : Mat n d) (γ : ℝ) (Y : Mat n m) (W : Mat d m) (b : Fin m → ℝ) :
    primalA Φ γ * join W b = primalB Φ Y ↔ ∀ k, PrimalSol Φ γ (fun i => Y i k) (fun j => W j k) (b k) := by
  unfold primalA primalB
  rw [border_mul]
  have e : ∀ i k, ∑ j, (covC Φ + γ • (1 : Mat d d)) i j * W j k = ∑ j, ((1 / (n : ℝ)) * ∑ a, Φ a i * Φ a j) * W j k + γ * W i k := by
    intro i k
    simp only [covC, Matrix.of_apply, Matrix.add_apply, Matrix.smul_apply, Matrix.one_apply, smul_eq_mul, add_mul, sum_add_distrib, mul_ite, mul_one, mul_zero, ite_mul, zero_mul, sum_ite_eq, mem_univ, if_true]
  simp only [e, PrimalSol, sumP, full_apply, Matrix.of_apply, Matrix.transpose_apply, Matrix.mul_apply, Fintype.card_fin]
  exact ⟨fun h k => ⟨fun i => h.1 i k, h.2 k⟩, fun h => ⟨fun i k => (h k).1 i, fun k => (h k).2⟩⟩

theorem solveDual_ok {K : Mat n n} {γ : ℝ} {Y H : Mat n m} {b : Fin m → ℝ} :
    solveDual K γ Y = .ok (H, b) ↔ (dualA K γ).det ≠ 0 ∧ dualA K γ * join H b = dualB Y := by
  unfold solveDual
  constructor
  · intro h
    cases hl : linSolve (dualA K γ) (dualB Y) with
    | error e => rw [hl] at h; cases h
    | ok S =>
      rw [hl] at h
      simp only [Except.ok.injEq] at h
      obtain ⟨h1, h2⟩ := linSolve_ok hl
      refine ⟨h1, ?_⟩
      rw [← h2, ← join_parts S, h]
  · rintro ⟨h1, h2⟩
    rw [linSolve_of h1 h2]
    simp [parts_join]

theorem solvePrimal_ok {Φ : Mat n d} {γ : ℝ} {Y : Mat n m} {W : Mat d m} {b : Fin m → ℝ} :
    solvePrimal Φ γ Y = .ok (W, b) ↔ (primalA Φ γ).det ≠ 0 ∧ primalA Φ γ * join W b = primalB Φ Y := by
  unfold solvePrimal
  constructor
  · intro h
    cases hl : linSolve (primalA Φ γ) (primalB Φ Y) with
    | error e => rw [hl] at h; cases h
    | ok S =>
      rw [hl] at h
      simp only [Except.ok.injEq] at h
      obtain ⟨h1, h2⟩ := linSolve_ok hl
      refine ⟨h1, ?_⟩
      rw [← h2, ← join_parts S, h]
  · rintro ⟨h1, h2⟩
    rw [linSolve_of h1 h2]
    simp [parts_join]

theorem dual_err {K : Mat n n} {γ : ℝ} {Y : Mat n m} : (∃ e, solveDual K γ Y = .error e) ↔ (dualA K γ).det = 0 := by
  rw [← linSolve_err (B := dualB Y)]
  unfold solveDual
  cases linSolve (dualA K γ) (dualB Y) <;> simp

theorem primal_err {Φ : Mat n d} {γ : ℝ} {Y : Mat n m} : (∃ e, solvePrimal Φ γ Y = .error e) ↔ (primalA Φ γ).det = 0 := by
  rw [← linSolve_err (B := primalB Φ Y)]
  unfold solvePrimal
  cases linSolve (primalA Φ γ) (primalB Φ Y) <;> simp

/-- The system is singular exactly if it has a solution other than zero for the targets zero. -/
theorem det_iff (A : Mat (n + 1) (n + 1)) : A.det = 0 ↔ ∃ H : Mat n 1, ∃ b : Fin 1 → ℝ, (H ≠ 0 ∨ b ≠ 0) ∧ A * join H b = 0 := by
  rw [← Matrix.exists_mulVec_eq_zero_iff]
  constructor
  · rintro ⟨v, hv, h⟩
    let S : Mat (n + 1) 1 := fun i _ => v i
    refine ⟨(parts S).1, (parts S).2, ?_, ?_⟩
    · by_contra hc
      push Not at hc
      apply hv
      have : S = 0 := by
        rw [← join_parts S, hc.1, hc.2]
        funext i k
        refine Fin.addCases (fun i => ?_) (fun i => ?_) i <;> simp [join, cat0_left, cat0_right]
      funext i
      exact congrFun (congrFun this i) 0
    · rw [join_parts]
      funext i k
      exact congrFun h i
  · rintro ⟨H, b, hne, h⟩
    refine ⟨fun i => join H b i 0, fun h0 => ?_, ?_⟩
    · have hj : join H b = 0 := by
        funext i k
        have : k = 0 := Subsingleton.elim _ _
        subst this
        exact congrFun h0 i
      have hp := parts_join H b
      rw [hj] at hp
      rcases hne with hne | hne
      · exact hne (congrArg Prod.fst hp).symm
      · exact hne (congrArg Prod.snd hp).symm
    · funext i
      exact congrFun (congrFun h i) 0

theorem cat0_zero : cat0 (0 : Mat n m) (full 0 : Mat 1 m) = 0 := by
  funext i k
  refine Fin.addCases (fun i => ?_) (fun i => ?_) i <;> simp [cat0_left, cat0_right, full_apply]

/-- A positive semi-definite matrix plus a positive multiple of the identity is regular. -/
theorem det_ridge (K : Mat n n) (hK : PSDMat K) (γ : ℝ) (hγ : 0 < γ) : (K + γ • (1 : Mat n n)).det ≠ 0 := by
  intro h
  obtain ⟨v, hv, h⟩ := Matrix.exists_mulVec_eq_zero_iff.mpr h
  apply hv
  have h1 : ∑ i, v i * ((K + γ • (1 : Mat n n)) *ᵥ v) i = 0 := by rw [h]; simp
  have h2 : ∑ i, v i * ((K + γ • (1 : Mat n n)) *ᵥ v) i = ∑ i, ∑ j, v i * v j * K i j + γ * ∑ i, v i ^ 2 := by
    simp only [Matrix.add_mulVec, Matrix.smul_mulVec, Matrix.one_mulVec, Pi.add_apply, Pi.smul_apply, smul_eq_mul, mul_add, sum_add_distrib]
    congr 1
    · refine sum_congr rfl fun i _ => ?_
      simp only [Matrix.mulVec, dotProduct, mul_sum]
      exact sum_congr rfl fun j _ => by ring
    · rw [mul_sum]
      exact sum_congr rfl fun i _ => by ring
  have h3 : 0 ≤ ∑ i, ∑ j, v i * v j * K i j := hK.2 v
  have h4 : ∑ i, v i ^ 2 = 0 := by
    have : 0 ≤ ∑ i, v i ^ 2 := sum_nonneg fun i _ => sq_nonneg _
    nlinarith
  funext i
  have := (sum_eq_zero_iff_of_nonneg fun i _ => sq_nonneg (v i)).mp h4 i (mem_univ i)
  exact pow_eq_zero_iff two_ne_zero |>.mp this

theorem psd_covC (Φ : Mat n d) : PSDMat (covC Φ) := by
  have h := psdMat_gram fun (j : Fin d) (a : Fin n) => Real.sqrt (1 / n) * Φ a j
  have e : (covC Φ : Fin d → Fin d → ℝ) = fun i j => (fun a => Real.sqrt (1 / n) * Φ a i) ⬝ᵥ fun a => Real.sqrt (1 / n) * Φ a j := by
    funext i j
    have hs : Real.sqrt (1 / (n : ℝ)) * Real.sqrt (1 / (n : ℝ)) = 1 / n := Real.mul_self_sqrt (by positivity)
    simp only [covC, Matrix.of_apply, dotProduct, mul_sum]
    refine sum_congr rfl fun a _ => ?_
    linear_combination (-(Φ a i * Φ a j)) * hs
  rw [e]
  exact h

/-! ## C169 -/

/-- A fit with any number of outputs solves the problem of each of them, and is the only one. -/
theorem C169_dual (K : Mat n n) (γ : ℝ) (Y H : Mat n m) (b : Fin m → ℝ) (h : solveDual K γ Y = .ok (H, b)) :
    (∀ k, DualSol K γ (fun i => Y i k) (fun i => H i k) (b k)) ∧
    ∀ H' b', (∀ k, DualSol K γ (fun i => Y i k) (fun i => H' i k) (b' k)) → H' = H ∧ b' = b := by
  obtain ⟨h1, h2⟩ := solveDual_ok.mp h
  refine ⟨(dual_iff K γ Y H b).mp h2, fun H' b' hs => ?_⟩
  have := solveDual_ok.mpr ⟨h1, (dual_iff K γ Y H' b').mpr hs⟩
  rw [h] at this
  simp only [Except.ok.injEq, Prod.mk.injEq] at this
  exact ⟨this.1.symm, this.2.symm⟩

/-- In the same way in primal representation. -/
theorem C169_primal (Φ : Mat n d) (γ : ℝ) (Y : Mat n m) (W : Mat d m) (b : Fin m → ℝ) (h : solvePrimal Φ γ Y = .ok (W, b)) :
    (∀ k, PrimalSol Φ γ (fun i => Y i k) (fun j => W j k) (b k)) ∧
    ∀ W' b', (∀ k, PrimalSol Φ γ (fun i => Y i k) (fun j => W' j k) (b' k)) → W' = W ∧ b' = b := by
  obtain ⟨h1, h2⟩ := solvePrimal_ok.mp h
  refine ⟨(primal_iff Φ γ Y W b).mp h2, fun W' b' hs => ?_⟩
  have := solvePrimal_ok.mpr ⟨h1, (primal_iff Φ γ Y W' b').mpr hs⟩
  rw [h] at this
  simp only [Except.ok.injEq, Prod.mk.injEq] at this
  exact ⟨this.1.symm, this.2.symm⟩

/-- A fit is refused exactly if zero targets are fitted by something else than zero: whether it is does not depend on the targets. -/
theorem C169_refused (K : Mat n n) (γ : ℝ) (Y : Mat n m) :
    (∃ e, solveDual K γ Y = .error e) ↔ ∃ (h : Fin n → ℝ) (b : ℝ), (h ≠ 0 ∨ b ≠ 0) ∧ DualSol K γ 0 h b := by
  rw [dual_err, det_iff]
  constructor
  · rintro ⟨H, b, hne, h⟩
    rw [← cat0_zero] at h
    have hd := (dual_iff K γ (0 : Mat n 1) H b).mp h 0
    refine ⟨fun i => H i 0, b 0, ?_, hd⟩
    rcases hne with hne | hne
    · refine Or.inl fun h0 => hne ?_
      funext i k
      have : k = 0 := Subsingleton.elim _ _
      subst this
      exact congrFun h0 i
    · refine Or.inr fun h0 => hne ?_
      funext k
      have : k = 0 := Subsingleton.elim _ _
      subst this
      exact h0
  · rintro ⟨h, b, hne, hs⟩
    refine ⟨fun i _ => h i, fun _ => b, ?_, ?_⟩
    · rcases hne with hne | hne
      · exact Or.inl fun h0 => hne (funext fun i => congrFun (congrFun h0 i) 0)
      · exact Or.inr fun h0 => hne (congrFun h0 0)
    · rw [← cat0_zero]
      exact (dual_iff K γ (0 : Mat n 1) _ _).mpr fun _ => hs

/-- With a kernel and a positive γ, a fit to a sample is never refused. -/
theorem C169_returns [NeZero n] (K : Mat n n) (hK : PSDMat K) (γ : ℝ) (hγ : 0 < γ) (Y : Mat n m) : ∃ H b, solveDual K γ Y = .ok (H, b) := by
  cases h : solveDual K γ Y with
  | ok p => exact ⟨p.1, p.2, rfl⟩
  | error e =>
    obtain ⟨h', b, hne, hs⟩ := (C169_refused K γ Y).mp ⟨e, h⟩
    have h0 : DualSol K γ 0 0 0 := by constructor <;> simp
    obtain ⟨e1, e2⟩ := C50_unique_partial K hK γ hγ 0 h' 0 b 0 hs h0
    rcases hne with hne | hne
    · exact absurd e1 hne
    · exact absurd e2 hne

/-- Targets mixed by a matrix are fitted by the mixed variables and biases. -/
theorem C169_mix {p : ℕ} (K : Mat n n) (γ : ℝ) (Y H : Mat n m) (b : Fin m → ℝ) (h : solveDual K γ Y = .ok (H, b)) (M : Mat m p) :
    solveDual K γ (Y * M) = .ok (H * M, fun k => ∑ l, b l * M l k) := by
  obtain ⟨h1, h2⟩ := solveDual_ok.mp h
  refine solveDual_ok.mpr ⟨h1, ?_⟩
  have e1 : join (H * M) (fun k => ∑ l, b l * M l k) = join H b * M := by
    funext i k
    refine Fin.addCases (fun i => ?_) (fun i => ?_) i <;> simp [join, cat0_left, cat0_right, Matrix.mul_apply]
  have e2 : dualB (Y * M) = dualB Y * M := by
    funext i k
    refine Fin.addCases (fun i => ?_) (fun i => ?_) i <;> simp [dualB, full_apply, cat0_left, cat0_right, Matrix.mul_apply]
  rw [e1, e2, ← Matrix.mul_assoc, h2]

/-- Each output is fitted as it would be alone, and its outputs are the same. -/
theorem C169_alone (K : Mat n n) (γ : ℝ) (Y H : Mat n m) (b : Fin m → ℝ) (h : solveDual K γ Y = .ok (H, b)) (k : Fin m) :
    ∃ p, solveDual K γ (.of fun i (_ : Fin 1) => Y i k) = .ok p ∧ (∀ i, p.1 i 0 = H i k) ∧ p.2 0 = b k ∧ ∀ kx, outputs kx p 0 = outputs kx (H, b) k := by
  have := C169_mix K γ Y H b h (.of fun l (_ : Fin 1) => if l = k then 1 else 0)
  have e : Y * (.of fun l (_ : Fin 1) => if l = k then 1 else 0 : Mat m 1) = .of fun i (_ : Fin 1) => Y i k := by
    funext i l; simp [Matrix.mul_apply]
  rw [e] at this
  refine ⟨_, this, ?_, ?_, ?_⟩
  · intro i; simp [Matrix.mul_apply]
  · simp
  · intro kx; simp [outputs, Matrix.mul_apply]

/-- Outputs of mixed targets are the mixed outputs. -/
theorem C169_outputs {p : ℕ} (K : Mat n n) (γ : ℝ) (Y H : Mat n m) (b : Fin m → ℝ) (h : solveDual K γ Y = .ok (H, b)) (M : Mat m p) :
    ∃ q, solveDual K γ (Y * M) = .ok q ∧ ∀ kx k, outputs kx q k = ∑ l, outputs kx (H, b) l * M l k := by
  refine ⟨_, C169_mix K γ Y H b h M, fun kx k => ?_⟩
  simp only [outputs, outDual, Matrix.mul_apply, add_mul, sum_add_distrib]
  congr 1
  simp only [mul_sum, sum_mul]
  rw [sum_comm]
  exact sum_congr rfl fun i _ => sum_congr rfl fun l _ => by ring

/-- The same mixing for the weights in primal representation. -/
theorem C169_primal_mix {p : ℕ} (Φ : Mat n d) (γ : ℝ) (Y : Mat n m) (W : Mat d m) (b : Fin m → ℝ) (h : solvePrimal Φ γ Y = .ok (W, b)) (M : Mat m p) :
    solvePrimal Φ γ (Y * M) = .ok (W * M, fun k => ∑ l, b l * M l k) := by
  obtain ⟨h1, h2⟩ := solvePrimal_ok.mp h
  refine solvePrimal_ok.mpr ⟨h1, ?_⟩
  have e1 : join (W * M) (fun k => ∑ l, b l * M l k) = join W b * M := by
    funext i k
    refine Fin.addCases (fun i => ?_) (fun i => ?_) i <;> simp [join, cat0_left, cat0_right, Matrix.mul_apply]
  have e2 : primalB Φ (Y * M) = primalB Φ Y * M := by
    funext i k
    refine Fin.addCases (fun i => ?_) (fun i => ?_) i
    · simp [primalB, cat0_left, Matrix.mul_apply, ← Matrix.mul_assoc]
    · simp only [primalB, cat0_right, sumP, Matrix.of_apply, Matrix.mul_apply, sum_mul]
      rw [sum_comm]
  rw [e1, e2, ← Matrix.mul_assoc, h2]

/-- Ridge regression: every output solves its own problem, whatever the others, and mixed targets have mixed variables. -/
theorem C169_ridge {p : ℕ} (K : Mat n n) (γ : ℝ) (Y H : Mat n m) (h : ridgeDual K γ Y = .ok H) (M : Mat m p) :
    (∀ k, RidgeDual K γ (fun i => Y i k) fun i => H i k) ∧ ridgeDual K γ (Y * M) = .ok (H * M) := by
  obtain ⟨h1, h2⟩ := linSolve_ok h
  refine ⟨fun k i => ?_, linSolve_of h1 (by rw [← Matrix.mul_assoc, h2])⟩
  have := congrFun (congrFun h2 i) k
  rw [Matrix.mul_apply] at this
  simp only [← this, Matrix.add_apply, Matrix.smul_apply, Matrix.one_apply, smul_eq_mul, add_mul, sum_add_distrib, mul_ite, mul_one, mul_zero, ite_mul, zero_mul, sum_ite_eq, mem_univ, if_true]

theorem C169_ridge_primal {p : ℕ} (Φ : Mat n d) (γ : ℝ) (Y : Mat n m) (W : Mat d m) (h : ridgePrimal Φ γ Y = .ok W) (M : Mat m p) :
    (∀ k, RidgePrimal Φ γ (fun i => Y i k) fun j => W j k) ∧ ridgePrimal Φ γ (Y * M) = .ok (W * M) := by
  obtain ⟨h1, h2⟩ := linSolve_ok h
  refine ⟨fun k j => ?_, linSolve_of h1 (by rw [← Matrix.mul_assoc, h2, Matrix.mul_assoc])⟩
  have := congrFun (congrFun h2 j) k
  rw [Matrix.mul_apply, Matrix.mul_apply] at this
  simp only [Matrix.transpose_apply] at this
  simp only [← this, covC, Matrix.of_apply, Matrix.add_apply, Matrix.smul_apply, Matrix.one_apply, smul_eq_mul, add_mul, sum_add_distrib, mul_ite, mul_one, mul_zero, ite_mul, zero_mul, sum_ite_eq, mem_univ, if_true]

/-- The loss minimised by gradient is not that of the outputs: with `m` outputs it is the sum of their losses with γ divided by `m`. -/
theorem C169_loss_violated (hm : 0 < m) (K : Mat n n) (γ : ℝ) (Y H : Mat n m) (b : Fin m → ℝ) :
    lossDual K γ Y H b = ∑ k, lossDual K (γ / m) (fun i (_ : Fin 1) => Y i k) (fun i _ => H i k) fun _ => b k := by
  have hm' : (m : ℝ) ≠ 0 := by exact_mod_cast hm.ne'
  simp only [lossDual, total, regDual, mse, sum_add_distrib, Fin.sum_univ_one, Nat.cast_one, mul_one]
  rw [← mul_sum, ← mul_sum, ← mul_sum, sum_comm (s := univ) (t := univ) (f := fun i c => (outDual (K i) (fun j => H j c) (b c) - Y i c) ^ 2)]
  congr 1
  rw [← mul_assoc, ← mul_assoc]
  congr 1
  field_simp

/-- Two points of feature 1: the fit is refused in primal representation, not in dual. -/
theorem C169_primal_violated (Y : Mat 2 m) :
    (∃ e, solvePrimal (full 1 : Mat 2 1) 1 Y = .error e) ∧ ∃ H b, solveDual (full 1 * (full 1 : Mat 2 1).transpose) 1 Y = .ok (H, b) := by
  constructor
  · rw [primal_err, det_iff]
    refine ⟨full 1, fun _ => -1, Or.inl fun h => one_ne_zero (congrFun (congrFun h 0) 0), ?_⟩
    rw [← cat0_zero]
    unfold primalA
    rw [border_mul]
    constructor
    · intro i k
      have : i = 0 := Subsingleton.elim _ _
      subst this
      simp [covC, sumP, full_apply]; norm_num
    · intro k; simp [sumP, full_apply]
  · exact C169_returns _ (psdMat_gram _) 1 one_pos Y

/-- A ridge regression with a positive γ is never refused, in either representation. -/
theorem C169_ridge_returns (K : Mat n n) (hK : PSDMat K) (Φ : Mat n d) (γ : ℝ) (hγ : 0 < γ) (Y : Mat n m) :
    (∃ H, ridgeDual K γ Y = .ok H) ∧ ∃ W, ridgePrimal Φ γ Y = .ok W := by
  unfold ridgeDual ridgePrimal linSolve
  rw [if_neg (det_ridge K hK _ (one_div_pos.mpr hγ)), if_neg (det_ridge _ (psd_covC Φ) _ (one_div_pos.mpr hγ))]
  exact ⟨⟨_, rfl⟩, ⟨_, rfl⟩⟩

/-- With centred features and a positive γ, neither is the primal fit of a LS-SVM, and its biases are the means of the targets. -/
theorem C169_primal_centred_partial [NeZero n] (Φ : Mat n d) (hΦ : ∀ j, ∑ a, Φ a j = 0) (γ : ℝ) (hγ : 0 < γ) (Y : Mat n m) :
    ∃ W b, solvePrimal Φ γ Y = .ok (W, b) ∧ ∀ k, b k = (∑ a, Y a k) / n := by
  have hn : (n : ℝ) ≠ 0 := by exact_mod_cast NeZero.ne n
  have hdet : (primalA Φ γ).det ≠ 0 := by
    intro h
    obtain ⟨H, b, hne, hs⟩ := (det_iff _).mp h
    rw [← cat0_zero] at hs
    unfold primalA at hs
    rw [border_mul] at hs
    have hb : b = 0 := by
      funext k
      have := hs.2 k
      simp only [sumP, Matrix.of_apply, hΦ, full_apply, zero_mul, sum_const_zero, zero_add] at this
      exact (mul_eq_zero.mp this).resolve_left hn
    have hH : H = 0 := by
      have hz : (covC Φ + γ • (1 : Mat d d)) * H = 0 := by
        funext i k
        have := hs.1 i k
        rw [Matrix.mul_apply]
        simpa [hb] using this
      have := Matrix.nonsing_inv_mul_cancel_left (covC Φ + γ • (1 : Mat d d)) H (isUnit_iff_ne_zero.mpr (det_ridge _ (psd_covC Φ) γ hγ))
      rw [← this, hz, Matrix.mul_zero]
    rcases hne with h | h
    · exact h hH
    · exact h hb
  cases h : solvePrimal Φ γ Y with
  | error e => exact absurd (primal_err.mp ⟨e, h⟩) hdet
  | ok p =>
    refine ⟨p.1, p.2, rfl, fun k => ?_⟩
    have := ((C169_primal Φ γ Y p.1 p.2 h).1 k).2
    simp only [hΦ, zero_mul, sum_const_zero, zero_add, Fintype.card_fin] at this
    rw [eq_div_iff hn, mul_comm]
    exact this

/-! ## Concrete cases -/

/-- Two points, two outputs, the kernel of the identity. -/
example : ∃ H b, solveDual (1 : Mat 2 2) 1 (.of ![![1, 5], ![3, 5]]) = .ok (H, b) ∧ H 0 0 = -1 / 2 ∧ b 0 = 2 ∧ H 0 1 = 0 ∧ b 1 = 5 := by
  have hK : PSDMat (1 : Mat 2 2) := by
    have := psdMat_gram fun (i j : Fin 2) => if i = j then (1 : ℝ) else 0
    have e : (1 : Mat 2 2) = .of fun i j => (fun l : Fin 2 => if i = l then (1 : ℝ) else 0) ⬝ᵥ fun l => if j = l then (1 : ℝ) else 0 := by
      ext i j
      fin_cases i <;> fin_cases j <;> simp [dotProduct]
    rw [e]
    exact this
  obtain ⟨H, b, h⟩ := C169_returns (m := 2) (1 : Mat 2 2) hK 1 one_pos (.of ![![1, 5], ![3, 5]])
  obtain ⟨-, hu⟩ := C169_dual _ _ _ _ _ h
  obtain ⟨e1, e2⟩ := hu (.of ![![-1 / 2, 0], ![1 / 2, 0]]) ![2, 5] (by
    intro k
    fin_cases k <;> constructor <;> simp [Fin.sum_univ_two, Fin.forall_fin_two] <;> norm_num)
  subst e1 e2
  exact ⟨_, _, h, by simp, by simp, by simp, by simp⟩

/-- Without regularisation, two equal points are refused, whatever the targets. -/
example (Y : Mat 2 m) : ∃ e, solveDual (full 1) 0 Y = .error e :=
  (C169_refused _ 0 Y).mpr ⟨![1, -1], 0, Or.inl fun h => one_ne_zero (congrFun h 0), by constructor <;> simp [full_apply, Fin.sum_univ_two]⟩

/-- The second of three outputs alone. -/
example (K : Mat 4 4) (hK : PSDMat K) (Y : Mat 4 3) : ∃ q p, solveDual K 2 Y = .ok q ∧ solveDual K 2 (.of fun i (_ : Fin 1) => Y i 1) = .ok p ∧ ∀ kx, outputs kx p 0 = outputs kx q 1 := by
  obtain ⟨H, b, h⟩ := C169_returns K hK 2 two_pos Y
  obtain ⟨p, h1, -, -, h2⟩ := C169_alone K 2 Y H b h 1
  exact ⟨_, p, h, h1, h2⟩

/-- Outputs exchanged with the targets. -/
example (K : Mat 4 4) (hK : PSDMat K) (Y : Mat 4 2) : ∃ q p, solveDual K 2 Y = .ok q ∧ solveDual K 2 (Y * .of ![![0, 1], ![1, 0]]) = .ok p ∧ ∀ kx, outputs kx p 0 = outputs kx q 1 := by
  obtain ⟨H, b, h⟩ := C169_returns K hK 2 two_pos Y
  obtain ⟨p, h1, h2⟩ := C169_outputs K 2 Y H b h (.of ![![0, 1], ![1, 0]])
  exact ⟨_, p, h, h1, fun kx => by rw [h2]; simp [Fin.sum_univ_two]⟩

/-- One feature, one point, two outputs: weights 0 and biases the targets. -/
example : ∃ W b, solvePrimal (full 1 : Mat 1 1) 2 (.of ![![3, 4]]) = .ok (W, b) ∧ W 0 0 = 0 ∧ b 1 = 4 := by
  refine ⟨0, ![3, 4], solvePrimal_ok.mpr ⟨?_, (primal_iff _ _ _ _ _).mpr ?_⟩, rfl, rfl⟩
  · intro h
    obtain ⟨H, b, hne, hs⟩ := (det_iff _).mp h
    rw [← cat0_zero] at hs
    unfold primalA at hs
    rw [border_mul] at hs
    have h1 := hs.1 0 0
    have h2 := hs.2 0
    simp [covC, sumP, full_apply] at h1 h2
    have hH : H 0 0 = 0 := by linarith
    have hb : b 0 = 0 := by linarith
    rcases hne with hne | hne
    · exact hne (by funext i k; rw [Subsingleton.elim i 0, Subsingleton.elim k 0]; exact hH)
    · exact hne (by funext k; rw [Subsingleton.elim k 0]; exact hb)
  · intro k
    constructor <;> fin_cases k <;> simp [full_apply]

example : ridgeDual (0 : Mat 2 2) 2 (.of ![![1, 5], ![3, 5]]) = .ok (.of ![![2, 10], ![6, 10]]) := by
  refine linSolve_of ?_ ?_
  · simp [Matrix.det_fin_two]
  · ext i j; fin_cases i <;> fin_cases j <;> simp [Matrix.mul_apply, Fin.sum_univ_two] <;> norm_num

/-- The loss of two outputs with γ = 2, and of each with γ = 1. -/
example (K : Mat 3 3) (Y H : Mat 3 2) (b : Fin 2 → ℝ) : lossDual K 2 Y H b =
    ∑ k, lossDual K (2 / (2 : ℕ)) (fun i (_ : Fin 1) => Y i k) (fun i _ => H i k) fun _ => b k := C169_loss_violated two_pos K 2 Y H b

example (Y : Mat 2 3) : ∃ W b, solvePrimal (.of ![![-1], ![1]] : Mat 2 1) 3 Y = .ok (W, b) ∧ ∀ k, b k = (∑ a, Y a k) / (2 : ℕ) :=
  C169_primal_centred_partial _ (fun j => by fin_cases j; simp [Fin.sum_univ_two]) 3 three_pos Y

example (Φ : Mat 4 2) (Y : Mat 4 3) : ∃ W, ridgePrimal Φ 2 Y = .ok W := (C169_ridge_returns _ (psdMat_gram Φ) Φ 2 two_pos Y).2

/-! ## C50: the two representations with centred features -/

/-- C50 for centred features: the primal fit with γ has the bias of the dual fit with `nγ`, the mean of the targets, but `n` times its weights. -/
theorem C50_centred_violated [NeZero n] (Φ : Mat n d) (hΦ : ∀ j, ∑ a, Φ a j = 0) (γ : ℝ) (hγ : 0 < γ) (y h : Fin n → ℝ) (b b' : ℝ) (w : Fin d → ℝ)
    (hs : DualSol (gramOf Φ) (n * γ) y h b) (hp : PrimalSol Φ γ y w b') :
    b = (∑ i, y i) / n ∧ b' = b ∧ (∀ j, w j = n * ∑ i, Φ i j * h i) ∧
    ∀ φ : Fin d → ℝ, outPrimal φ w b' - b = n * (outDual (fun i => ∑ j, φ j * Φ i j) h b - b) := by
  have hn : (n : ℝ) ≠ 0 := by exact_mod_cast NeZero.ne n
  obtain ⟨h1, h2⟩ := hs
  obtain ⟨p1, p2⟩ := hp
  simp only [hΦ, zero_mul, sum_const_zero, zero_add, add_zero, Fintype.card_fin] at p1 p2
  have hb' : b' = (∑ i, y i) / n := by rw [eq_div_iff hn, mul_comm]; exact p2
  have hK : ∀ i, ∑ j, gramOf Φ i j * h j = ∑ a, Φ i a * ∑ j, Φ j a * h j := by
    intro i
    simp only [gramOf, sum_mul, mul_sum]
    rw [sum_comm]
    exact sum_congr rfl fun a _ => sum_congr rfl fun j _ => by ring
  have hb : b = (∑ i, y i) / n := by
    have : ∑ i, y i = ∑ i, (∑ j, gramOf Φ i j * h j + n * γ * h i + b) := sum_congr rfl fun i _ => (h1 i).symm
    simp only [sum_add_distrib, ← mul_sum, h2, mul_zero, add_zero, hK, sum_const, card_univ, Fintype.card_fin, nsmul_eq_mul] at this
    rw [sum_comm] at this
    simp only [← sum_mul, hΦ, zero_mul, sum_const_zero, zero_add] at this
    rw [this]
    field_simp
  have hw : ∀ j, w j = n * ∑ i, Φ i j * h i := by
    let v : Fin d → ℝ := fun j => n * ∑ i, Φ i j * h i
    have hv : ∀ j, ∑ l, (1 / (n : ℝ) * ∑ a, Φ a j * Φ a l) * v l + γ * v j = ∑ a, Φ a j * y a := by
      intro j
      have e1 : ∑ l, (1 / (n : ℝ) * ∑ a, Φ a j * Φ a l) * v l = ∑ a, Φ a j * ∑ i, gramOf Φ a i * h i := by
        simp only [hK, v]
        have : ∀ l, (1 / (n : ℝ) * ∑ a, Φ a j * Φ a l) * (n * ∑ i, Φ i l * h i) = ∑ a, Φ a j * (Φ a l * ∑ i, Φ i l * h i) := by
          intro l
          rw [mul_mul_mul_comm, one_div_mul_cancel hn, one_mul, sum_mul]
          exact sum_congr rfl fun a _ => by ring
        simp only [this]
        rw [sum_comm]
        exact sum_congr rfl fun a _ => by rw [mul_sum]
      have e2 : γ * v j = ∑ a, Φ a j * (n * γ * h a) := by
        simp only [v, mul_sum]
        exact sum_congr rfl fun a _ => by ring
      have e3 : ∑ a, Φ a j * b = 0 := by rw [← sum_mul, hΦ, zero_mul]
      rw [e1, e2, ← add_zero (_ + _), ← e3, ← sum_add_distrib, ← sum_add_distrib]
      exact sum_congr rfl fun a _ => by rw [← h1 a]; ring
    have hu : (covC Φ + γ • (1 : Mat d d)) *ᵥ (w - v) = 0 := by
      funext j
      have e : ∀ u : Fin d → ℝ, ((covC Φ + γ • (1 : Mat d d)) *ᵥ u) j = ∑ l, (1 / (n : ℝ) * ∑ a, Φ a j * Φ a l) * u l + γ * u j := by
        intro u
        rw [Matrix.add_mulVec, Matrix.smul_mulVec, Matrix.one_mulVec]
        rfl
      rw [Matrix.mulVec_sub, Pi.sub_apply, e, e, p1 j, hv j, sub_self]
      rfl
    have h0 : w - v = 0 := by
      by_contra hne
      exact det_ridge _ (psd_covC Φ) γ hγ (Matrix.exists_mulVec_eq_zero_iff.mp ⟨_, hne, hu⟩)
    intro j
    have := congrFun h0 j
    simp only [Pi.sub_apply, Pi.zero_apply, v] at this
    linarith
  refine ⟨hb, hb'.trans hb.symm, hw, fun φ => ?_⟩
  rw [hb'.trans hb.symm]
  simp only [outPrimal, outDual, hw, add_sub_cancel_right, mul_sum, sum_mul]
  rw [sum_comm]
  exact sum_congr rfl fun i _ => sum_congr rfl fun j _ => by ring

/-- The points -1 and 1 with these targets: 1/2 of the dual output becomes 1. -/
example (w : Fin 1 → ℝ) (b' : ℝ) (hp : PrimalSol (.of ![![-1], ![1]] : Mat 2 1) 1 ![-1, 1] w b') : b' = 0 ∧ w 0 = 1 := by
  obtain ⟨-, h2, h3, -⟩ := C50_centred_violated (.of ![![-1], ![1]] : Mat 2 1) (fun j => by fin_cases j; simp [Fin.sum_univ_two]) 1 one_pos ![-1, 1] ![-1 / 4, 1 / 4] 0 b' w
    (by constructor <;> simp [Fin.sum_univ_two, Fin.forall_fin_two, gramOf] <;> norm_num) hp
  refine ⟨h2, ?_⟩
  rw [h3]
  simp [Fin.sum_univ_two]
  norm_num

end SolveSys
end Kerch
