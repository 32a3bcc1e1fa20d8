import Mathlib.Analysis.SpecialFunctions.Pow.Deriv
import Mathlib.Analysis.SpecialFunctions.Trigonometric.Deriv
import Mathlib.Analysis.SpecialFunctions.Sqrt
import Mathlib.Analysis.SpecialFunctions.Sigmoid
import Verif.Model.Autograd
/-!
# Soundness of the backward pass
-/
set_option linter.unusedSectionVars false
set_option linter.unusedSimpArgs false
namespace Kerch
namespace Autograd
open Filter Topology

variable {ι : Type}

@[simp] theorem num_add (a b : ℝ) : Num.add (some a) (some b) = some (a + b) := rfl
@[simp] theorem num_mul (a b : ℝ) : Num.mul (some a) (some b) = some (a * b) := rfl
@[simp] theorem num_mul_none (a : Num) : Num.mul a none = none := by cases a <;> rfl
@[simp] theorem num_none_mul (a : Num) : Num.mul none a = none := by cases a <;> rfl
@[simp] theorem num_add_none (a : Num) : Num.add a none = none := by cases a <;> rfl
@[simp] theorem num_none_add (a : Num) : Num.add none a = none := by cases a <;> rfl

theorem num_add_assoc (a b c : Num) : Num.add (Num.add a b) c = Num.add a (Num.add b c) := by
  cases a <;> cases b <;> cases c <;> simp [add_assoc]

theorem num_zero_add (a : Num) : Num.add (some 0) a = a := by cases a <;> simp

open Classical in
/-- The sum of the contributions to a parameter. -/
noncomputable def tot (i : ι) (cs : List (ι × Num)) : Num := ((cs.filter fun c => c.1 = i).map Prod.snd).foldr Num.add (some 0)

theorem tot_nil (i : ι) : tot i [] = some 0 := rfl

theorem foldr_append_num (l l' : List Num) : (l ++ l').foldr Num.add (some 0) = Num.add (l.foldr Num.add (some 0)) (l'.foldr Num.add (some 0)) := by
  induction l with
  | nil => simp [num_zero_add]
  | cons a l ih => simp [ih, num_add_assoc]

theorem tot_append (i : ι) (a b : List (ι × Num)) : tot i (a ++ b) = Num.add (tot i a) (tot i b) := by
  simp only [tot, List.filter_append, List.map_append, foldr_append_num]

theorem tot_single (i : ι) (g : Num) : tot i [(i, g)] = g := by
  cases g <;> simp [tot]

theorem tot_other {i j : ι} (h : j ≠ i) (g : Num) : tot i [(j, g)] = some 0 := by
  simp [tot, h]

/-- The functions on all reals. -/
noncomputable def Un.tval : Un → ℝ → ℝ
  | .recip, x => 1 / x
  | .powN n, x => x ^ n
  | .exp, x => Real.exp x
  | .sqrt, x => Real.sqrt x
  | .sin, x => Real.sin x
  | .cos, x => Real.cos x
  | .asinh, x => Real.arsinh x
  | .sigmoid, x => Real.sigmoid x
  | .relu, x => max x 0
  | .leaky s, x => if 0 < x then x else s * x
  | .clampMin c, x => max x c

/-- Where they are differentiable. -/
def Un.Smooth : Un → ℝ → Prop
  | .recip, x => x ≠ 0
  | .sqrt, x => 0 < x
  | .relu, x => x ≠ 0
  | .leaky _, x => x ≠ 0
  | .clampMin c, x => x ≠ c
  | _, _ => True

theorem hasDerivAt_max_of_lt {x c : ℝ} (h : c < x) : HasDerivAt (fun t : ℝ => max t c) 1 x := by
  refine (hasDerivAt_id x).congr_of_eventuallyEq ?_
  filter_upwards [lt_mem_nhds h] with t ht
  exact max_eq_left (le_of_lt ht)

theorem hasDerivAt_max_of_gt {x c : ℝ} (h : x < c) : HasDerivAt (fun t : ℝ => max t c) 0 x := by
  refine (hasDerivAt_const x c).congr_of_eventuallyEq ?_
  filter_upwards [gt_mem_nhds h] with t ht
  exact max_eq_right (le_of_lt ht)

theorem Un.sound (f : Un) (x : ℝ) (h : f.Smooth x) :
    f.val x = some (f.tval x) ∧ ∃ D, HasDerivAt f.tval D x ∧ ∀ g, f.bwd x (f.tval x) (some g) = some (g * D) := by
  cases f with
  | recip =>
    have h : x ≠ 0 := h
    refine ⟨if_neg h, -(1 / x * (1 / x)), ?_, fun g => rfl⟩
    have := hasDerivAt_inv h
    have e : (Un.recip.tval) = fun t : ℝ => t⁻¹ := by funext t; simp [Un.tval]
    rw [e, show -(1 / x * (1 / x)) = -(x ^ 2)⁻¹ by rw [one_div, ← mul_inv, sq]]
    exact this
  | powN n =>
    refine ⟨rfl, n * x ^ (n - 1), hasDerivAt_pow n x, fun g => ?_⟩
    by_cases hn : n = 0
    · subst hn; simp [Un.bwd]
    · simp [Un.bwd, hn]
  | exp => exact ⟨rfl, Real.exp x, Real.hasDerivAt_exp x, fun g => rfl⟩
  | sqrt =>
    have h : 0 < x := h
    refine ⟨if_neg (not_lt.2 h.le), 1 / (2 * Real.sqrt x), Real.hasDerivAt_sqrt h.ne', fun g => ?_⟩
    have : Un.sqrt.tval x ≠ 0 := (Real.sqrt_pos.2 h).ne'
    rw [Un.bwd, if_neg this]; rfl
  | sin => exact ⟨rfl, _, Real.hasDerivAt_sin x, fun g => rfl⟩
  | cos => exact ⟨rfl, _, Real.hasDerivAt_cos x, fun g => rfl⟩
  | asinh =>
    refine ⟨rfl, 1 / Real.sqrt (x ^ 2 + 1), ?_, fun g => rfl⟩
    have := Real.hasDerivAt_arsinh x
    rw [show (1 : ℝ) / Real.sqrt (x ^ 2 + 1) = (Real.sqrt (1 + x ^ 2))⁻¹ by rw [add_comm, one_div]]
    exact this
  | sigmoid =>
    refine ⟨rfl, (1 - Real.sigmoid x) * Real.sigmoid x, ?_, fun g => rfl⟩
    rw [mul_comm]; exact Real.hasDerivAt_sigmoid x
  | relu =>
    rcases lt_or_gt_of_ne (show x ≠ 0 from h) with h | h
    · refine ⟨rfl, 0, hasDerivAt_max_of_gt h, fun g => ?_⟩
      rw [Un.bwd, if_pos (show Un.relu.tval x ≤ 0 from (max_eq_right h.le).le), mul_zero]
    · refine ⟨rfl, 1, hasDerivAt_max_of_lt h, fun g => ?_⟩
      rw [Un.bwd, if_neg (show ¬ Un.relu.tval x ≤ 0 from not_le.2 (lt_max_of_lt_left h)), mul_one]
  | leaky s =>
    rcases lt_or_gt_of_ne (show x ≠ 0 from h) with h | h
    · refine ⟨rfl, s, ?_, fun g => ?_⟩
      · have := (hasDerivAt_id x).const_mul s
        rw [mul_one] at this
        refine this.congr_of_eventuallyEq ?_
        filter_upwards [gt_mem_nhds h] with t ht
        simp [Un.tval, not_lt.2 (le_of_lt ht)]
      · rw [Un.bwd, if_neg (not_lt.2 h.le)]; rfl
    · refine ⟨rfl, 1, ?_, fun g => ?_⟩
      · refine (hasDerivAt_id x).congr_of_eventuallyEq ?_
        filter_upwards [lt_mem_nhds h] with t ht
        simp [Un.tval, ht]
      · rw [Un.bwd, if_pos h, mul_one]
  | clampMin c =>
    rcases lt_or_gt_of_ne (show x ≠ c from h) with h | h
    · refine ⟨rfl, 0, hasDerivAt_max_of_gt h, fun g => ?_⟩
      rw [Un.bwd, if_neg (not_le.2 h), mul_zero]
    · refine ⟨rfl, 1, hasDerivAt_max_of_lt h, fun g => ?_⟩
      rw [Un.bwd, if_pos h.le, mul_one]

/-- The real function an expression stands for. -/
noncomputable def Ex.val (θ : ι → ℝ) : Ex ι → ℝ
  | .par i => θ i
  | .const c => c
  | .add a b => a.val θ + b.val θ
  | .mul a b => a.val θ * b.val θ
  | .un f a => f.tval (a.val θ)
  | .pow a b => a.val θ ^ b.val θ

/-- All operations are performed where they are differentiable. -/
def Ex.Reg (θ : ι → ℝ) : Ex ι → Prop
  | .par _ => True
  | .const _ => True
  | .add a b => a.Reg θ ∧ b.Reg θ
  | .mul a b => a.Reg θ ∧ b.Reg θ
  | .un f a => a.Reg θ ∧ f.Smooth (a.val θ)
  | .pow a b => a.Reg θ ∧ b.Reg θ ∧ (0 < a.val θ ∨ ∃ n : ℕ, b = .const (n + 1 : ℕ))

theorem powVal_pos {b : ℝ} (h : 0 < b) (e : ℝ) : powVal b e = some (b ^ e) := by
  rw [powVal, if_neg (fun h' => absurd h'.1 (not_lt.2 h.le)), if_neg (fun h' => h.ne' h'.1)]

theorem powVal_nat (b : ℝ) (n : ℕ) : powVal b (n : ℝ) = some (b ^ n) := by
  rw [powVal, if_neg (fun h' => h'.2 ⟨n, by simp⟩), if_neg (fun h' => absurd h'.2 (not_lt.2 (Nat.cast_nonneg n))), Real.rpow_natCast]

theorem back_none_or (g : Num) : g = none ∨ ∃ r, g = some r := by cases g <;> simp

open Function in
/-- Where all operations are differentiable, the value is finite and the backward pass computes the derivative. -/
theorem Ex.sound [DecidableEq ι] (θ : ι → ℝ) (i : ι) (e : Ex ι) (h : e.Reg θ) :
    e.fwd θ = some (e.val θ) ∧
      ∃ D, HasDerivAt (fun t => e.val (update θ i t)) D (θ i) ∧ ∀ g, tot i (e.back θ (some g)) = some (g * D) := by
  induction e with
  | par j =>
    refine ⟨rfl, ?_⟩
    by_cases hj : j = i
    · subst hj
      refine ⟨1, ?_, fun g => ?_⟩
      · have : (fun t => (Ex.par j).val (update θ j t)) = id := by funext t; simp [Ex.val]
        rw [this]; exact hasDerivAt_id _
      · rw [Ex.back, tot_single, mul_one]
    · refine ⟨0, ?_, fun g => ?_⟩
      · have : (fun t => (Ex.par j).val (update θ i t)) = fun _ => θ j := by funext t; simp [Ex.val, update_of_ne hj]
        rw [this]; exact hasDerivAt_const _ _
      · rw [Ex.back, tot_other hj, mul_zero]
  | const c => exact ⟨rfl, 0, hasDerivAt_const _ _, fun g => by rw [Ex.back, tot_nil, mul_zero]⟩
  | add a b iha ihb =>
    obtain ⟨fa, Da, ha, ga⟩ := iha h.1
    obtain ⟨fb, Db, hb, gb⟩ := ihb h.2
    refine ⟨by rw [Ex.fwd, fa, fb]; rfl, Da + Db, ha.add hb, fun g => ?_⟩
    rw [Ex.back, tot_append, ga, gb, num_add, mul_add]
  | mul a b iha ihb =>
    obtain ⟨fa, Da, ha, ga⟩ := iha h.1
    obtain ⟨fb, Db, hb, gb⟩ := ihb h.2
    refine ⟨by rw [Ex.fwd, fa, fb]; rfl, Da * b.val θ + a.val θ * Db, ?_, fun g => ?_⟩
    · have := ha.mul hb
      simp only [update_eq_self] at this
      exact this
    · rw [Ex.back, tot_append, fa, fb, num_mul, num_mul, ga, gb, num_add]
      congr 1; ring
  | un f a iha =>
    obtain ⟨fa, Da, ha, ga⟩ := iha h.1
    obtain ⟨fv, Df, hf, gf⟩ := f.sound _ h.2
    refine ⟨by rw [Ex.fwd, fa]; exact fv, Df * Da, ?_, fun g => ?_⟩
    · have hf' : HasDerivAt f.tval Df (a.val (update θ i (θ i))) := by rw [update_eq_self]; exact hf
      exact hf'.comp (θ i) ha
    · rw [Ex.back, fa]
      show tot i (a.back θ ((f.val (a.val θ)).bind fun y => f.bwd (a.val θ) y (some g))) = _
      rw [fv]
      show tot i (a.back θ (f.bwd (a.val θ) (f.tval (a.val θ)) (some g))) = _
      rw [gf, ga, mul_assoc]
  | pow a b iha ihb =>
    obtain ⟨fa, Da, ha, ga⟩ := iha h.1
    obtain ⟨fb, Db, hb, gb⟩ := ihb h.2.1
    rcases h.2.2 with hp | ⟨n, rfl⟩
    · refine ⟨by rw [Ex.fwd, fa, fb]; exact powVal_pos hp _, Da * b.val θ * a.val θ ^ (b.val θ - 1) + Db * a.val θ ^ b.val θ * Real.log (a.val θ), ?_, fun g => ?_⟩
      · have hp' : 0 < a.val (update θ i (θ i)) := by rw [update_eq_self]; exact hp
        have := ha.rpow hb hp'
        simp only [update_eq_self] at this
        exact this
      · rw [Ex.back, tot_append, fa, fb]
        show Num.add (tot i (a.back θ (powBase (a.val θ) (b.val θ) (some g)))) (tot i (b.back θ (powExp (a.val θ) (b.val θ) (some g)))) = _
        have h1 : powBase (a.val θ) (b.val θ) (some g) = some (g * (b.val θ * a.val θ ^ (b.val θ - 1))) := by
          rw [powBase]
          by_cases he : b.val θ = 0
          · rw [if_pos he, he]; simp
          · rw [if_neg he, powVal_pos hp]; rfl
        have h2 : powExp (a.val θ) (b.val θ) (some g) = some (g * (a.val θ ^ b.val θ * Real.log (a.val θ))) := by
          rw [powExp, if_neg (fun h' => hp.ne' h'.1), powVal_pos hp, if_neg (not_le.2 hp)]; rfl
        rw [h1, h2, ga, gb, num_add]
        congr 1; ring
    · refine ⟨?_, ((n + 1 : ℕ) : ℝ) * a.val θ ^ n * Da, ?_, fun g => ?_⟩
      · rw [Ex.fwd, fa]
        show powVal (a.val θ) ((n + 1 : ℕ) : ℝ) = _
        rw [powVal_nat]
        simp only [Ex.val, Real.rpow_natCast]
      · have := ha.pow (n + 1)
        simp only [update_eq_self, Nat.add_sub_cancel] at this
        have e : (fun t => (Ex.pow a (.const ((n + 1 : ℕ) : ℝ))).val (update θ i t)) = fun t => a.val (update θ i t) ^ (n + 1) := by
          funext t; simp only [Ex.val, Real.rpow_natCast]
        rw [e]; exact this
      · rw [Ex.back, fa]
        show tot i (a.back θ (powBase (a.val θ) ((n + 1 : ℕ) : ℝ) (some g)) ++ []) = _
        rw [List.append_nil]
        have h1 : powBase (a.val θ) ((n + 1 : ℕ) : ℝ) (some g) = some (g * (((n + 1 : ℕ) : ℝ) * a.val θ ^ n)) := by
          have e : (((n + 1 : ℕ) : ℝ) - 1) = (n : ℝ) := by push_cast; ring
          rw [powBase, if_neg (by positivity), e, powVal_nat]; rfl
        rw [h1, ga]
        congr 1; ring

/-- The same for a list of expressions, each with its upstream gradient. -/
theorem tot_backward [DecidableEq ι] (θ : ι → ℝ) (i : ι) (es : List (ℝ × Ex ι)) (h : ∀ e ∈ es, e.2.Reg θ) :
    ∃ D, HasDerivAt (fun t => (es.map fun e => e.1 * e.2.val (Function.update θ i t)).sum) D (θ i) ∧ tot i (backward θ es) = some D := by
  induction es with
  | nil => exact ⟨0, hasDerivAt_const _ _, tot_nil i⟩
  | cons e l ih =>
    obtain ⟨D, hD, tD⟩ := ih fun e' he' => h e' (List.mem_cons_of_mem _ he')
    obtain ⟨_, De, hDe, tDe⟩ := e.2.sound θ i (h e List.mem_cons_self)
    refine ⟨e.1 * De + D, ?_, ?_⟩
    · have := (hDe.const_mul e.1).add hD
      simp only [List.map_cons, List.sum_cons]
      exact this
    · have : backward θ (e :: l) = e.2.back θ (some e.1) ++ backward θ l := rfl
      rw [this, tot_append, tDe, tD, num_add]

/-- What `grad` is, from the sum of the contributions. -/
theorem gradOf_eq (i : ι) (cs : List (ι × Num)) (D : ℝ) (h : tot i cs = some D) : gradOf i cs = some (some D) ∨ (gradOf i cs = none ∧ D = 0) := by
  classical
  rw [gradOf]
  by_cases hc : (cs.filter fun c => decide (c.1 = i)) = []
  · right
    refine ⟨by simp only [if_pos hc], ?_⟩
    rw [tot] at h
    have hc' := hc
    simp only [hc', List.map_nil, List.foldr_nil, Option.some.injEq] at h
    exact h.symm
  · left
    simp only [if_neg hc]
    exact congrArg some h

theorem gradOf_none (i : ι) (cs : List (ι × Num)) (h : tot i cs = none) : gradOf i cs = some none := by
  classical
  rw [gradOf]
  by_cases hc : (cs.filter fun c => decide (c.1 = i)) = []
  · rw [tot] at h
    have hc' := hc
    simp only [hc', List.map_nil, List.foldr_nil] at h
    cases h
  · simp only [if_neg hc]
    exact congrArg some h

theorem tot_flatMap {κ : Type} (i : ι) (l : List κ) (f : κ → List (ι × Num)) (v : κ → ℝ) (h : ∀ a ∈ l, tot i (f a) = some (v a)) :
    tot i (l.flatMap f) = some ((l.map v).sum) := by
  induction l with
  | nil => rfl
  | cons a l ih =>
    rw [List.flatMap_cons, tot_append, h a List.mem_cons_self, ih fun b hb => h b (List.mem_cons_of_mem _ hb), num_add, List.map_cons, List.sum_cons]

theorem tot_flatMap_none {κ : Type} (i : ι) (l : List κ) (f : κ → List (ι × Num)) (a : κ) (ha : a ∈ l) (h : tot i (f a) = none) :
    tot i (l.flatMap f) = none := by
  induction l with
  | nil => cases ha
  | cons b l ih =>
    rw [List.flatMap_cons, tot_append]
    rcases List.mem_cons.1 ha with rfl | ha
    · rw [h, num_none_add]
    · rw [ih ha, num_add_none]

theorem backward_entries (θ : ι → ℝ) {n m : ℕ} (G : Fin n → Fin m → ℝ) (E : Fin n → Fin m → Ex ι) :
    backward θ (entries G E) = (List.finRange n).flatMap fun a => (List.finRange m).flatMap fun b => (E a b).back θ (some (G a b)) := by
  rw [backward, entries, ← List.flatMap_def, List.flatMap_assoc]
  congr 1
  funext a
  rw [List.flatMap_map]

theorem sum_finRange {n : ℕ} (v : Fin n → ℝ) : ((List.finRange n).map v).sum = ∑ a, v a := by
  rw [← List.ofFn_eq_map, List.sum_ofFn]

/-- From the entries to the loss: if the backward pass of every entry gives the derivative of a function, that of the loss gives the derivative of the loss. -/
theorem matrix_sound (θ : ι → ℝ) (i : ι) {n m : ℕ} (G : Fin n → Fin m → ℝ) (E : Fin n → Fin m → Ex ι) (F : ℝ → Fin n → Fin m → ℝ)
    (h : ∀ a b, ∃ D, HasDerivAt (fun t => F t a b) D (θ i) ∧ ∀ g, tot i ((E a b).back θ (some g)) = some (g * D)) :
    ∃ D, HasDerivAt (fun t => ∑ a, ∑ b, G a b * F t a b) D (θ i) ∧
      (gradOf i (backward θ (entries G E)) = some (some D) ∨ (gradOf i (backward θ (entries G E)) = none ∧ D = 0)) := by
  choose D hD gD using h
  refine ⟨∑ a, ∑ b, G a b * D a b, ?_, gradOf_eq _ _ _ ?_⟩
  · exact HasDerivAt.fun_sum fun a _ => HasDerivAt.fun_sum fun b _ => (hD a b).const_mul _
  · rw [backward_entries, tot_flatMap i _ _ (fun a => ∑ b, G a b * D a b), sum_finRange]
    intro a _
    rw [tot_flatMap i _ _ (fun b => G a b * D a b), sum_finRange]
    intro b _
    exact gD a b _

theorem matrix_none (θ : ι → ℝ) (i : ι) {n m : ℕ} (G : Fin n → Fin m → ℝ) (E : Fin n → Fin m → Ex ι) (a : Fin n) (b : Fin m)
    (h : ∀ g, tot i ((E a b).back θ g) = none) : gradOf i (backward θ (entries G E)) = some none := by
  apply gradOf_none
  rw [backward_entries]
  exact tot_flatMap_none i _ _ a (List.mem_finRange a) (tot_flatMap_none i _ _ b (List.mem_finRange b) (h _))

/-- Every contribution spoils the sum. -/
def Poison (θ : ι → ℝ) (i : ι) (e : Ex ι) : Prop := ∀ g, tot i (e.back θ g) = none

theorem Poison.add_left {θ : ι → ℝ} {i : ι} {a : Ex ι} (h : Poison θ i a) (b : Ex ι) : Poison θ i (.add a b) := fun g => by
  rw [Ex.back, tot_append, h, num_none_add]
theorem Poison.add_right {θ : ι → ℝ} {i : ι} {b : Ex ι} (h : Poison θ i b) (a : Ex ι) : Poison θ i (.add a b) := fun g => by
  rw [Ex.back, tot_append, h, num_add_none]
theorem Poison.mul_left {θ : ι → ℝ} {i : ι} {a : Ex ι} (h : Poison θ i a) (b : Ex ι) : Poison θ i (.mul a b) := fun g => by
  rw [Ex.back, tot_append, h, num_none_add]
theorem Poison.mul_right {θ : ι → ℝ} {i : ι} {b : Ex ι} (h : Poison θ i b) (a : Ex ι) : Poison θ i (.mul a b) := fun g => by
  rw [Ex.back, tot_append, h, num_add_none]
theorem Poison.un {θ : ι → ℝ} {i : ι} {a : Ex ι} (h : Poison θ i a) (f : Un) : Poison θ i (.un f a) := fun g => by
  rw [Ex.back]; exact h _

/-- An expression without the parameter contributes nothing. -/
def Ex.Free (i : ι) : Ex ι → Prop
  | .par j => j ≠ i
  | .const _ => True
  | .add a b => a.Free i ∧ b.Free i
  | .mul a b => a.Free i ∧ b.Free i
  | .un _ a => a.Free i
  | .pow a b => a.Free i ∧ b.Free i

theorem Ex.Free.back {i : ι} (θ : ι → ℝ) {e : Ex ι} (h : e.Free i) : ∀ g, ∀ c ∈ e.back θ g, c.1 ≠ i := by
  induction e with
  | par j => intro g c hc; rw [Ex.back, List.mem_singleton] at hc; subst hc; exact h
  | const c => intro g c hc; cases hc
  | add a b iha ihb | mul a b iha ihb | pow a b iha ihb =>
    intro g c hc
    rw [Ex.back, List.mem_append] at hc
    rcases hc with hc | hc
    · exact iha h.1 _ c hc
    · exact ihb h.2 _ c hc
  | un f a iha => intro g c hc; exact iha h _ c hc

theorem matrix_free (θ : ι → ℝ) (i : ι) {n m : ℕ} (G : Fin n → Fin m → ℝ) (E : Fin n → Fin m → Ex ι) (h : ∀ a b, (E a b).Free i) :
    gradOf i (backward θ (entries G E)) = none := by
  classical
  rw [gradOf, if_pos]
  rw [List.filter_eq_nil_iff]
  intro c hc
  rw [backward_entries] at hc
  simp only [List.mem_flatMap] at hc
  obtain ⟨a, _, b, _, hc⟩ := hc
  simpa using (h a b).back θ _ c hc

theorem Ex.sum_free {i : ι} {l : List (Ex ι)} (h : ∀ e ∈ l, e.Free i) : (Ex.sum l).Free i := by
  induction l with
  | nil => exact trivial
  | cons a l ih => exact ⟨h a List.mem_cons_self, ih fun e he => h e (List.mem_cons_of_mem _ he)⟩

theorem Ex.sum_reg {θ : ι → ℝ} {l : List (Ex ι)} (h : ∀ e ∈ l, e.Reg θ) : (Ex.sum l).Reg θ := by
  induction l with
  | nil => exact trivial
  | cons a l ih => exact ⟨h a List.mem_cons_self, ih fun e he => h e (List.mem_cons_of_mem _ he)⟩

theorem Ex.prod_reg {θ : ι → ℝ} {l : List (Ex ι)} (h : ∀ e ∈ l, e.Reg θ) : (Ex.prod l).Reg θ := by
  induction l with
  | nil => exact trivial
  | cons a l ih => exact ⟨h a List.mem_cons_self, ih fun e he => h e (List.mem_cons_of_mem _ he)⟩

theorem Ex.sum_val (θ : ι → ℝ) (l : List (Ex ι)) : (Ex.sum l).val θ = (l.map (Ex.val θ)).sum := by
  induction l with
  | nil => rfl
  | cons a l ih => rw [List.map_cons, List.sum_cons, ← ih]; rfl

theorem Ex.prod_val (θ : ι → ℝ) (l : List (Ex ι)) : (Ex.prod l).val θ = (l.map (Ex.val θ)).prod := by
  induction l with
  | nil => rfl
  | cons a l ih => rw [List.map_cons, List.prod_cons, ← ih]; rfl

/-- A function below one with a double zero. -/
theorem hasDerivAt_zero_of_le {f h : ℝ → ℝ} {a : ℝ} (hf : HasDerivAt f 0 a) (fa : f a = 0) (hle : ∀ t, |h t| ≤ |f t|) : HasDerivAt h 0 a := by
  have ha : h a = 0 := by
    have := hle a
    rw [fa, abs_zero] at this
    exact abs_nonpos_iff.1 this
  rw [hasDerivAt_iff_isLittleO] at hf ⊢
  refine Asymptotics.IsBigO.trans_isLittleO ?_ hf
  refine Asymptotics.IsBigO.of_bound 1 (Filter.Eventually.of_forall fun t => ?_)
  simp only [fa, ha, sub_zero, smul_zero, one_mul, Real.norm_eq_abs]
  exact hle t

/-! ### Distances -/

section
variable {d : Type} [Fintype d] [Nonempty d]

theorem update_unit (σ t : ℝ) : Function.update (fun _ : Unit => σ) () t = fun _ => t := by
  funext u; simp [Function.update]

theorem euclidSq_nonneg' (x y : d → ℝ) : 0 ≤ euclidSq x y := Finset.sum_nonneg fun i _ => mul_self_nonneg _

theorem dist_val (D : DistKind) (x y : d → ℝ) (t : ℝ) (u : ℝ) (h : distSigma D t x y = .ok u) : (distEx D x y).val (fun _ => t) = u := by
  cases D <;> simp only [distSigma, Except.ok.injEq, reduceCtorEq] at h <;> exact h

theorem sqDist_val (D : DistKind) (x y : d → ℝ) (t : ℝ) (u : ℝ) (h : sqDistSigma D t x y = .ok u) : (sqDistEx D x y).val (fun _ => t) = u := by
  cases D <;> simp only [sqDistSigma, Except.ok.injEq, reduceCtorEq] at h <;> exact h

theorem sqDist_reg (D : DistKind) (x y : d → ℝ) {σ : ℝ} (hσ : σ ≠ 0) : (sqDistEx D x y).Reg (fun _ => σ) := by
  cases D
  · exact ⟨⟨⟨trivial, hσ⟩, trivial⟩, trivial⟩
  · exact ⟨⟨⟨trivial, hσ⟩, trivial⟩, trivial⟩
  · exact ⟨⟨⟨trivial, hσ⟩, trivial⟩, trivial⟩
  · exact trivial

theorem dist_reg (D : DistKind) (x y : d → ℝ) {σ : ℝ} (hσ : σ ≠ 0) (hroot : D = .euclidean → euclidSq x y ≠ 0) : (distEx D x y).Reg (fun _ => σ) := by
  cases D
  · refine ⟨sqDist_reg _ x y hσ, ?_⟩
    have h1 : 0 < euclidSq x y := lt_of_le_of_ne (euclidSq_nonneg' x y) (Ne.symm (hroot rfl))
    show 0 < (1 / σ) ^ 2 * euclidSq x y
    positivity
  · exact ⟨⟨trivial, hσ⟩, trivial⟩
  · exact ⟨⟨trivial, hσ⟩, trivial⟩
  · exact trivial

theorem dist_fwd (D : DistKind) (x y : d → ℝ) {σ : ℝ} (hσ : σ ≠ 0) : (distEx D x y).fwd (fun _ => σ) = some ((distEx D x y).val fun _ => σ) := by
  cases D
  · have h0 := (Ex.sound (fun _ => σ) () _ (sqDist_reg DistKind.euclidean x y hσ)).1
    rw [distEx, Ex.fwd, h0]
    show (if (1 / σ) ^ 2 * euclidSq x y < 0 then none else _) = _
    rw [if_neg]
    · rfl
    · have := euclidSq_nonneg' x y
      push Not
      positivity
  · exact (Ex.sound (fun _ => σ) () _ (dist_reg DistKind.manhattan x y hσ (by simp))).1
  · exact (Ex.sound (fun _ => σ) () _ (dist_reg DistKind.chebyshev x y hσ (by simp))).1
  · rfl

theorem dist_cont (D : DistKind) (x y : d → ℝ) {σ : ℝ} (hσ : σ ≠ 0) : ContinuousAt (fun t => (distEx D x y).val fun _ => t) σ := by
  have h1 : ContinuousAt (fun t : ℝ => 1 / t) σ := continuousAt_const.div continuousAt_id hσ
  cases D
  · exact (Real.continuous_sqrt.continuousAt).comp ((h1.pow 2).mul continuousAt_const)
  · exact h1.mul continuousAt_const
  · exact h1.mul continuousAt_const
  · exact continuousAt_const

theorem dist_poison (x y : d → ℝ) (h : euclidSq x y = 0) {σ : ℝ} (hσ : σ ≠ 0) : Poison (fun _ => σ) () (distEx .euclidean x y) := by
  intro g
  have h0 := (Ex.sound (fun _ => σ) () _ (sqDist_reg DistKind.euclidean x y hσ)).1
  have hv : (sqDistEx DistKind.euclidean x y).val (fun _ => σ) = 0 := by
    show (1 / σ) ^ 2 * euclidSq x y = 0
    rw [h, mul_zero]
  rw [hv] at h0
  rw [distEx, Ex.back, h0]
  have hn : (some (0 : ℝ)).bind (fun x => (Un.sqrt.val x).bind fun y => Un.sqrt.bwd x y g) = none := by
    show (if (0 : ℝ) < 0 then none else some (Real.sqrt 0)).bind _ = _
    rw [if_neg (lt_irrefl 0)]
    show (if Real.sqrt 0 = 0 then none else _) = none
    rw [if_pos Real.sqrt_zero]
  rw [hn]
  have hs : (Un.recip.val σ) = some (1 / σ) := if_neg hσ
  simp only [sqDistEx, sigmaFact, Ex.back, Ex.fwd, Num.mul, Un.bwd, Option.bind_some, Option.bind_none, hs, Un.val, List.append_nil]
  simp [tot_single]
end

end Autograd
end Kerch
