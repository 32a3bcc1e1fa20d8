import Mathlib.Data.Nat.Choose.Multinomial
import Verif.Model.Polynomial
import Verif.Props.Implicit
import Verif.Props.KernelFun
set_option linter.unusedSectionVars false
set_option linter.unusedSimpArgs false
/-!
# C27, C28, C29: the polynomial kernel
-/
namespace Kerch
open Finset

/-! ## Helpers on `multichoose` -/

theorem mem_multichoose (n k : ℕ) (v : List ℕ) : v ∈ multichoose n k ↔ v.length = n ∧ v.sum = k := by
  induction n, k using multichoose.induct generalizing v with
  | case1 n =>
    simp only [multichoose, List.mem_singleton]
    constructor
    · rintro rfl; simp
    · rintro ⟨h1, h2⟩
      rw [List.sum_eq_zero_iff] at h2
      exact List.eq_replicate_iff.2 ⟨h1, h2⟩
  | case2 k =>
    simp only [multichoose, List.not_mem_nil, false_iff, not_and]
    intro h1
    rw [List.length_eq_zero_iff.1 h1]; simp
  | case3 k =>
    simp only [multichoose, List.mem_singleton]
    constructor
    · rintro rfl; simp
    · rintro ⟨h1, h2⟩
      obtain ⟨a, rfl⟩ := List.length_eq_one_iff.1 h1
      simp at h2; rw [h2]
  | case4 n k ih1 ih2 =>
    rw [multichoose, List.mem_append, List.mem_map, List.mem_map]
    constructor
    · rintro (⟨w, hw, rfl⟩ | ⟨w, hw, rfl⟩)
      · obtain ⟨h1, h2⟩ := (ih1 w).1 hw
        simp [h1, h2]
      · obtain ⟨h1, h2⟩ := (ih2 w).1 hw
        cases w with
        | nil => simp at h1
        | cons a r =>
          simp only [List.length_cons, List.sum_cons] at h1 h2 ⊢
          omega
    · rintro ⟨h1, h2⟩
      cases v with
      | nil => simp at h1
      | cons a r =>
        simp only [List.length_cons, List.sum_cons] at h1 h2
        cases a with
        | zero => exact .inl ⟨r, (ih1 r).2 ⟨by omega, by omega⟩, rfl⟩
        | succ a => exact .inr ⟨a :: r, (ih2 _).2 ⟨by simp; omega, by simp; omega⟩, rfl⟩

theorem nodup_multichoose (n k : ℕ) : (multichoose n k).Nodup := by
  induction n, k using multichoose.induct with
  | case1 n => simp [multichoose]
  | case2 k => simp [multichoose]
  | case3 k => simp [multichoose]
  | case4 n k ih1 ih2 =>
    rw [multichoose]
    refine List.Nodup.append ?_ ?_ ?_
    · exact ih1.map fun a b h => (List.cons.inj h).2
    · refine ih2.map_on fun a ha b hb h => ?_
      have ha := ((mem_multichoose _ _ _).1 ha).1
      have hb := ((mem_multichoose _ _ _).1 hb).1
      cases a with
      | nil => simp at ha
      | cons a r =>
        cases b with
        | nil => simp at hb
        | cons b r' => simpa using h
    · intro v h1 h2
      obtain ⟨w, _, rfl⟩ := List.mem_map.1 h1
      obtain ⟨w', hw', h⟩ := List.mem_map.1 h2
      have := ((mem_multichoose _ _ _).1 hw').1
      cases w' with
      | nil => simp at this
      | cons a r => simp at h

theorem length_multichoose (d k : ℕ) : (multichoose (d + 1) k).length = (d + k).choose k := by
  suffices h : ∀ n k, 0 < n → (multichoose n k).length = (n - 1 + k).choose k from h (d + 1) k (by omega)
  intro n k
  induction n, k using multichoose.induct with
  | case1 n => simp [multichoose]
  | case2 k => simp
  | case3 k => simp [multichoose]
  | case4 n k ih1 ih2 =>
    intro _
    rw [multichoose, List.length_append, List.length_map, List.length_map, ih1 (by omega), ih2 (by omega)]
    have e1 : n + 1 - 1 + (k + 1) = (n + 1 + k) := by omega
    have e2 : n + 2 - 1 + k = n + 1 + k := by omega
    have e3 : n + 2 - 1 + (k + 1) = (n + 1 + k) + 1 := by omega
    rw [e1, e2, e3, Nat.choose_succ_succ (n + 1 + k) k, add_comm]

theorem multichoose_toFinset (n k : ℕ) :
    (multichoose n k).toFinset = (piAntidiag (univ : Finset (Fin n)) k).image (fun f => List.ofFn f) := by
  ext v
  rw [List.mem_toFinset, mem_multichoose, mem_image]
  constructor
  · rintro ⟨h1, h2⟩
    subst h1
    refine ⟨fun i => v.get i, ?_, List.ofFn_get v⟩
    rw [mem_piAntidiag]
    refine ⟨?_, fun i _ => mem_univ i⟩
    rw [← h2]
    conv_rhs => rw [← List.ofFn_get v]
    rw [List.sum_ofFn]
  · rintro ⟨f, hf, rfl⟩
    rw [mem_piAntidiag] at hf
    exact ⟨by simp, by rw [List.sum_ofFn]; exact hf.1⟩

theorem sum_multichoose (n k : ℕ) (g : List ℕ → ℝ) :
    ((multichoose n k).map g).sum = ∑ f ∈ piAntidiag (univ : Finset (Fin n)) k, g (List.ofFn f) := by
  rw [← List.sum_toFinset _ (nodup_multichoose n k), multichoose_toFinset, sum_image]
  intro a _ b _ h
  exact List.ofFn_injective h

theorem permOut_mul {d : ℕ} (α : ℕ) (β : ℝ) (hβ : 0 ≤ β) (x y : Fin d → ℝ) (f : Fin (d + 1) → ℕ) (hf : ∑ i, f i = α) :
    permOut α β x (List.ofFn f) * permOut α β y (List.ofFn f)
      = (Nat.multinomial univ f : ℝ) * ∏ i, (Fin.snoc (fun i => x i * y i) β : Fin (d + 1) → ℝ) i ^ f i := by
  have hget : ∀ i : Fin d, (List.ofFn f).getD i 0 = f i.castSucc := by
    intro i
    rw [List.getD_eq_getElem _ _ (by simp), List.getElem_ofFn]; rfl
  have hlast : (List.ofFn f).getD d 0 = f (Fin.last d) := by
    rw [List.getD_eq_getElem _ _ (by simp), List.getElem_ofFn]; rfl
  have hprod : ((List.ofFn f).map Nat.factorial).prod = ∏ i, (f i).factorial := by
    rw [List.map_ofFn, List.prod_ofFn]; rfl
  rw [Fin.prod_univ_castSucc]
  simp only [Fin.snoc_castSucc, Fin.snoc_last, permOut, hget, hlast, hprod]
  have hspec : ((∏ i, (f i).factorial : ℕ) : ℝ) * Nat.multinomial univ f = α.factorial := by
    rw [← Nat.cast_mul, Nat.multinomial_spec, hf]
  have hpos : (0 : ℝ) < ((∏ i, (f i).factorial : ℕ) : ℝ) := by
    exact_mod_cast prod_pos fun i _ => Nat.factorial_pos _
  have h1 : Real.sqrt (α.factorial : ℝ) * Real.sqrt (α.factorial : ℝ) = α.factorial := Real.mul_self_sqrt (by positivity)
  have h2 : Real.sqrt ((∏ i, (f i).factorial : ℕ) : ℝ) * Real.sqrt ((∏ i, (f i).factorial : ℕ) : ℝ) = ((∏ i, (f i).factorial : ℕ) : ℝ) :=
    Real.mul_self_sqrt hpos.le
  have h3 : Real.sqrt β ^ f (Fin.last d) * Real.sqrt β ^ f (Fin.last d) = β ^ f (Fin.last d) := by
    rw [← mul_pow, Real.mul_self_sqrt hβ]
  have h4 : (∏ i : Fin d, x i ^ f i.castSucc) * (∏ i : Fin d, y i ^ f i.castSucc) = ∏ i : Fin d, (x i * y i) ^ f i.castSucc := by
    rw [← prod_mul_distrib]; simp only [mul_pow]
  have h5 : (Nat.multinomial univ f : ℝ) = α.factorial / ((∏ i, (f i).factorial : ℕ) : ℝ) := by
    rw [← hspec]; field_simp
  rw [h5, ← h4, ← h3]
  conv_rhs => enter [1]; rw [← h1, ← h2]
  ring

/-! ## C27 -/

/-- For every degree at least 1 and every dimension at least 1, the features have as inner product the polynomial kernel, and there are
`binomial(dim_input + α, α)` of them. Missing (`_partial`): degree 0 (`C27_degree_zero_violated`). -/
theorem C27_features_partial (d α : ℕ) (hα : 1 ≤ α) (hd : 1 ≤ d) (β : ℝ) (hβ : 0 ≤ β) (x y : Fin d → ℝ) :
    ∃ φx φy, polyPhi α β x = .ok φx ∧ polyPhi α β y = .ok φy ∧
      φx.length = (d + α).choose α ∧ φy.length = (d + α).choose α ∧
      (List.zipWith (· * ·) φx φy).sum = (∑ i, x i * y i + β) ^ α := by
  have hlen : ¬ (multichoose (d + 1) α).length = 1 := by
    rw [length_multichoose]
    intro h
    rcases (Nat.choose_eq_one_iff).1 h with h | h <;> omega
  refine ⟨_, _, by rw [polyPhi, if_neg (not_lt.2 hβ), if_neg hlen], by rw [polyPhi, if_neg (not_lt.2 hβ), if_neg hlen], ?_, ?_, ?_⟩
  · rw [List.length_map, length_multichoose]
  · rw [List.length_map, length_multichoose]
  · rw [List.zipWith_map]
    rw [List.zipWith_self]
    rw [sum_multichoose (d + 1) α fun p => permOut α β x p * permOut α β y p]
    have : (∑ i, x i * y i + β) = ∑ i, (Fin.snoc (fun i => x i * y i) β : Fin (d + 1) → ℝ) i := by
      rw [Fin.sum_univ_castSucc]; simp
    rw [this, sum_pow_eq_sum_piAntidiag]
    refine sum_congr rfl fun f hf => ?_
    exact permOut_mul α β hβ x y f (mem_piAntidiag.1 hf).1

/-- There is exactly one component per exponent vector: the lists of `dim_input + 1` exponents of sum `α`, each once. -/
theorem C27_exponents (n α : ℕ) : (multichoose n α).Nodup ∧ ∀ v, v ∈ multichoose n α ↔ v.length = n ∧ v.sum = α :=
  ⟨nodup_multichoose n α, mem_multichoose n α⟩

/-- The announced dimension of the features is the number of components. -/
theorem C27_dim_feature (d α : ℕ) : polyDimFeature d α = (multichoose (d + 1) α).length := by
  rw [length_multichoose]; rfl

/-- Violation: with degree 0 the feature map raises `TypeError` at every point (its single vector of exponents is squeezed). -/
theorem C27_degree_zero_violated (d : ℕ) (β : ℝ) (hβ : 0 ≤ β) (x : Fin d → ℝ) : polyPhi 0 β x = .error .typeError := by
  rw [polyPhi, if_neg (not_lt.2 hβ), if_pos (by simp [multichoose])]

/-- A negative `β` is refused. -/
theorem C27_negative (d α : ℕ) (β : ℝ) (hβ : β < 0) (x : Fin d → ℝ) : polyPhi α β x = .error .valueError := by
  rw [polyPhi, if_pos hβ]

/-- Degree 2 in two dimensions: six exponent vectors. -/
example : multichoose 3 2 = [[0, 0, 2], [0, 1, 1], [0, 2, 0], [1, 0, 1], [1, 1, 0], [2, 0, 0]] := by
  simp [multichoose]

/-! ## C28 -/

section C28
variable {X n d : Type} [Fintype n] [Nonempty n] [Fintype d] (φ : X → d → ℝ) (κ : X → X → ℝ) (pts : n → X)

/-- A single point given as a batch. -/
def single (x : X) : Arg X := .batch Unit fun _ => x

open Classical in
theorem kernelK_explicit (p : List Kind) (a b : Arg X) :
    kernelK φ κ pts p true a b = .ok ((eoos φ pts p a).bind fun A => (eoos φ pts p b).map fun B i j => A i ⬝ᵥ B j) := by
  unfold kernelK
  rw [if_pos rfl]
  have : (if h : a = b then h ▸ eoos φ pts p a else eoos φ pts p b) = eoos φ pts p b := by
    split
    · rename_i h; subst h; rfl
    · rfl
  simp only [this]

theorem kernelK_implicit (p : List Kind) (a b : Arg X) : kernelK φ κ pts p false a b = (ioos κ pts p a b).map some := by
  unfold kernelK
  rw [if_neg (by simp)]
  split
  · rename_i h; subst h; rfl
  · rfl

/-- Entry `(i, j)` of `k(x, y)` is the kernel value of the points `x_i` and `y_j` alone; explicit route, all chains. -/
theorem C28_entry_explicit (p : List Kind) (a b : Arg X) (M : a.I n → b.I n → ℝ) (h : kernelK φ κ pts p true a b = .ok (some M))
    (i : a.I n) (j : b.I n) :
    kernelK φ κ pts p true (single (a.pt pts i)) (single (b.pt pts j)) = .ok (some fun _ _ => M i j) := by
  rw [kernelK_explicit] at *
  have h := Except.ok.inj h
  have hA := C20_phi φ pts p (single (a.pt pts i)) a (fun _ => i) (fun _ => rfl)
  have hB := C20_phi φ pts p (single (b.pt pts j)) b (fun _ => j) (fun _ => rfl)
  rw [hA, hB]
  cases h1 : eoos φ pts p a with
  | none => rw [h1] at h; cases h
  | some A =>
    cases h2 : eoos φ pts p b with
    | none => rw [h1, h2] at h; cases h
    | some B =>
      rw [h1, h2] at h
      have h := Option.some.inj h
      rw [← h]
      rfl

/-- The same for the implicit route. -/
theorem C28_entry_implicit (hκ : ∀ x y, κ x y = κ y x) (p : List Kind) (hp : ∀ k ∈ p, k = .mean ∨ k = .sphere) (a b : Arg X)
    (i : a.I n) (j : b.I n) :
    ∃ M, kernelK φ κ pts p false a b = .ok (some M) ∧
      kernelK φ κ pts p false (single (a.pt pts i)) (single (b.pt pts j)) = .ok (some fun _ _ => M i j) := by
  obtain ⟨M, M', h1, h2, h⟩ := C20_k pts κ hκ p hp (single (a.pt pts i)) a (single (b.pt pts j)) b (fun _ => i) (fun _ => j)
    (fun _ => rfl) (fun _ => rfl)
  refine ⟨M, ?_, ?_⟩
  · rw [kernelK_implicit, h1]; rfl
  · rw [kernelK_implicit, h2]
    show Except.ok (some M') = _
    congr 2
    funext u v
    exact h u v

/-- Without transforms these are the values of the feature map, resp. of the kernel function. -/
theorem C28_values (hκ : ∀ x y, κ x y = κ y x) (a b : Arg X) :
    kernelK φ κ pts [] true a b = .ok (some fun i j => φ (a.pt pts i) ⬝ᵥ φ (b.pt pts j)) ∧
    kernelK φ κ pts [] false a b = .ok (some fun i j => κ (a.pt pts i) (b.pt pts j)) := by
  constructor
  · rw [kernelK_explicit, eoos_nil, eoos_nil]; rfl
  · rw [kernelK_implicit, ioos_nil κ pts hκ]; rfl

end C28

section
variable {n : Type} [Fintype n] [Nonempty n] {d : ℕ}

/-- The features of a point as a vector (degree at least 1, dimension at least 1, `β ≥ 0`). -/
noncomputable def polyVec (α : ℕ) (β : ℝ) (x : Fin d → ℝ) : Fin ((multichoose (d + 1) α).length) → ℝ :=
  fun i => permOut α β x ((multichoose (d + 1) α).get i)

theorem polyVec_spec (α : ℕ) (hα : 1 ≤ α) (hd : 1 ≤ d) (β : ℝ) (hβ : 0 ≤ β) (x : Fin d → ℝ) :
    polyPhi α β x = .ok (List.ofFn (polyVec α β x)) := by
  obtain ⟨φ, _, h1, _, _⟩ := C27_features_partial d α hα hd β hβ x x
  have hlen : ¬ (multichoose (d + 1) α).length = 1 := by
    intro h
    rw [polyPhi, if_neg (not_lt.2 hβ), if_pos h] at h1
    cases h1
  rw [polyPhi, if_neg (not_lt.2 hβ), if_neg hlen]
  congr 1
  conv_lhs => rw [← List.ofFn_get (multichoose (d + 1) α), List.map_ofFn]
  rfl

theorem polyVec_dot (α : ℕ) (β : ℝ) (hβ : 0 ≤ β) (x y : Fin d → ℝ) : polyVec α β x ⬝ᵥ polyVec α β y = polyKernel α β x y := by
  have h1 : polyVec α β x ⬝ᵥ polyVec α β y = ((multichoose (d + 1) α).map fun p => permOut α β x p * permOut α β y p).sum := by
    conv_rhs => rw [← List.ofFn_get (multichoose (d + 1) α), List.map_ofFn, List.sum_ofFn]
    rfl
  rw [h1, sum_multichoose (d + 1) α fun p => permOut α β x p * permOut α β y p, polyKernel]
  have : (x ⬝ᵥ y + β) = ∑ i, (Fin.snoc (fun i => x i * y i) β : Fin (d + 1) → ℝ) i := by
    rw [Fin.sum_univ_castSucc]; simp [dotProduct]
  rw [this, sum_pow_eq_sum_piAntidiag]
  refine sum_congr rfl fun f hf => ?_
  exact permOut_mul α β hβ x y f (mem_piAntidiag.1 hf).1

/-- The polynomial kernel (degree at least 1, `β ≥ 0`, no transform): `k(x)` and `k(x, x)` are the values `(x_i·x_j + β)^α`, whichever route is asked
or chosen automatically. Missing (`_partial`): `y` different from `x`, which is ignored (`C28_polynomial_violated`). -/
theorem C28_polynomial_partial (α : ℕ) (hα : 1 ≤ α) (hd : 1 ≤ d) (β : ℝ) (hβ : 0 ≤ β) (pts : n → Fin d → ℝ) (explicit : Option Bool)
    (a : Arg (Fin d → ℝ)) [Fintype (a.I n)] :
    (∀ x : Fin d → ℝ, polyPhi α β x = .ok (List.ofFn (polyVec α β x))) ∧
    polyK (polyVec α β) (polyKernel α β) pts [] (polyDimFeature d α) explicit a a
      = .ok (some fun i j => ((a.pt pts i) ⬝ᵥ (a.pt pts j) + β) ^ α) := by
  have hκ : ∀ x y : Fin d → ℝ, polyKernel α β x y = polyKernel α β y x := fun x y => by simp only [polyKernel, dotProduct_comm x y]
  refine ⟨polyVec_spec α hα hd β hβ, ?_⟩
  suffices h : ∀ e, kernelK (polyVec α β) (polyKernel α β) pts [] e a a
      = .ok (some fun i j => ((a.pt pts i) ⬝ᵥ (a.pt pts j) + β) ^ α) from h _
  intro e
  obtain ⟨h1, h2⟩ := C28_values (polyVec α β) (polyKernel α β) pts hκ a a
  cases e
  · exact h2
  · refine h1.trans ?_
    simp only [polyVec_dot α β hβ]; rfl

/-- Violation: `y` has no influence on `k(x, y)`; with `x = 1`, `y = 0`, degree 2 and `β = 1` (the defaults) the value is 4 and not 1. -/
theorem C28_polynomial_violated :
    polyK (polyVec 2 1) (polyKernel 2 1) (fun (_ : Unit) (_ : Fin 1) => (0 : ℝ)) [] (polyDimFeature 1 2) none
        (.batch Unit fun _ _ => 1) (.batch Unit fun _ _ => 0) = .ok (some fun _ _ => 4) ∧
      polyKernel 2 1 (fun _ : Fin 1 => (1 : ℝ)) (fun _ => 0) = 1 := by
  constructor
  · have := (C28_polynomial_partial 2 (by norm_num) (by norm_num) 1 (by norm_num) (fun (_ : Unit) (_ : Fin 1) => (0 : ℝ)) none
      (.batch Unit fun _ _ => 1)).2
    refine Eq.trans this ?_
    congr 2
    funext i j
    simp [Arg.pt, dotProduct]
    norm_num
  · simp [polyKernel, dotProduct]

end

/-! ## C29 -/

/-- Violation: after `kernel.alpha = v` with a tensor the degree is unchanged and `β` is `v`; a number is refused; `β` cannot be assigned. In all
states. -/
theorem C29_assign_violated (s : PolySt) (v : ℝ) :
    (s.step (.assignAlpha (.tensor v))).1 = .done ∧
    (s.step (.assignAlpha (.tensor v))).2.alpha = s.alpha ∧ (s.step (.assignAlpha (.tensor v))).2.beta = v ∧
    (s.step (.assignAlpha (.number v))).1 = .raised .typeError ∧
    ∀ w, (s.step (.assignBeta w)).1 = .raised .attributeError := ⟨rfl, rfl, rfl, rfl, fun _ => rfl⟩

/-- Evaluations by the kernel function use the current values after every history. Missing (`_partial`): evaluations by the feature map, see
`C29_first_explicit` and `C29_stale_violated`. -/
theorem C29_implicit_partial (s : PolySt) (l : List PolyOp) :
    ((s.run l).step .evalImplicit).1 = .used (s.run l).alpha (s.run l).beta := rfl

/-- A degree and a `β` for which there is a feature map the code can evaluate. -/
def Evaluable (a b : ℝ) : Prop := (∃ n : ℕ, 1 ≤ n ∧ a = n) ∧ 0 ≤ b

theorem step_explicit (s : PolySt) (h : Evaluable s.alpha s.beta) (h0 : s.captured = none ∨ s.alphaTrainable = true) :
    (s.step .evalExplicit).1 = .used s.alpha s.beta := by
  obtain ⟨⟨n, hn, ha⟩, hb⟩ := h
  have hpos : (0:ℝ) < s.alpha := by rw [ha]; exact_mod_cast hn
  have hz : ∃ z : ℤ, s.alpha = z := ⟨n, by simpa using ha⟩
  simp only [PolySt.step, not_not.2 hz, if_false, not_lt.2 hpos.le, not_lt.2 hb]
  have hc : s.current = (s.alpha, s.beta) := by
    unfold PolySt.current
    rcases h0 with h0 | h0
    · rw [h0]
    · cases s.captured <;> simp [h0]
  rw [hc, if_neg hpos.ne']

theorem step_trainable (s : PolySt) (o : PolyOp) : (s.step o).2.alphaTrainable = s.alphaTrainable ∧ (s.step o).2.caching = s.caching := by
  cases o with
  | assignAlpha v => cases v <;> exact ⟨rfl, rfl⟩
  | evalExplicit => simp only [PolySt.step]; split_ifs <;> exact ⟨rfl, rfl⟩
  | _ => exact ⟨rfl, rfl⟩

theorem step_uncached (s : PolySt) (o : PolyOp) (h : s.caching = false) (hc : s.captured = none) : (s.step o).2.captured = none := by
  cases o with
  | assignAlpha v => cases v <;> exact hc
  | evalExplicit => simp only [PolySt.step]; split_ifs <;> simp_all
  | reset => rfl
  | _ => exact hc

/-- Evaluations by the feature map use the current values when the cache is disabled or the degree is trainable, after every history of a fresh
kernel. Missing (`_partial`): the other cases, see `C29_first_explicit`. -/
theorem C29_explicit_partial (s : PolySt) (h0 : s.captured = none) (h : s.caching = false ∨ s.alphaTrainable = true) (l : List PolyOp)
    (he : Evaluable (s.run l).alpha (s.run l).beta) :
    ((s.run l).step .evalExplicit).1 = .used (s.run l).alpha (s.run l).beta := by
  suffices H : ∀ s : PolySt, (s.caching = false ∧ s.captured = none ∨ s.alphaTrainable = true) →
      ((s.run l).caching = false ∧ (s.run l).captured = none ∨ (s.run l).alphaTrainable = true) by
    exact step_explicit _ he ((H s (h.imp (fun h => ⟨h, h0⟩) id)).imp And.right id)
  clear h0 h he s
  induction l with
  | nil => exact fun s h => h
  | cons o l ih =>
    intro s h
    refine ih _ ?_
    rcases h with ⟨h1, h2⟩ | h
    · exact .inl ⟨(step_trainable s o).2.trans h1, step_uncached s o h1 h2⟩
    · exact .inr ((step_trainable s o).1.trans h)

/-- An evaluation by the feature map succeeds exactly for integer degrees above zero and non-negative `β`, in every state without a function in the cache; otherwise
the exception tells which condition fails. -/
theorem C29_explicit_errors (s : PolySt) (h0 : s.captured = none) :
    ((s.step .evalExplicit).1 = .used s.alpha s.beta ↔ Evaluable s.alpha s.beta) ∧
    ((s.step .evalExplicit).1 = .raised .assertionError ↔ ¬ ∃ z : ℤ, s.alpha = z) ∧
    ((s.step .evalExplicit).1 = .raised .typeError ↔ s.alpha = 0 ∧ 0 ≤ s.beta) := by
  have hc : s.current = (s.alpha, s.beta) := by unfold PolySt.current; rw [h0]
  simp only [PolySt.step, hc]
  by_cases hz : ∃ z : ℤ, s.alpha = z
  · by_cases ha : s.alpha < 0
    · refine ⟨⟨by simp [hz, ha], ?_⟩, by simp [hz, ha], by simp [hz, ha]; intro h; linarith⟩
      rintro ⟨⟨n, hn, e⟩, _⟩
      have : (0:ℝ) ≤ s.alpha := by rw [e]; positivity
      linarith
    · by_cases hb : s.beta < 0
      · refine ⟨⟨by simp [hz, ha, hb], fun h => absurd h.2 (not_le.2 hb)⟩, by simp [hz, ha, hb], by simp [hz, ha, hb]⟩
      · by_cases h : s.alpha = 0
        · have h00 : ∃ z : ℤ, (0:ℝ) = z := ⟨0, by simp⟩
          refine ⟨⟨by simp [h, hb, h00], ?_⟩, ⟨by simp [h, hb, h00], by simp [hz]⟩, by simp [h, hb, h00]; exact not_lt.1 hb⟩
          rintro ⟨⟨n, hn, e⟩, _⟩
          rw [h] at e
          have : n = 0 := by exact_mod_cast e.symm
          omega
        · refine ⟨⟨fun _ => ⟨?_, not_lt.1 hb⟩, by simp [hz, ha, hb, h]⟩, by simp [hz, ha, hb, h], by simp [hz, ha, hb, h]⟩
          obtain ⟨z, e⟩ := hz
          have hz0 : (0:ℝ) < z := by rw [← e]; exact lt_of_le_of_ne (not_lt.1 ha) (Ne.symm h)
          have hz1 : 0 < z := by exact_mod_cast hz0
          refine ⟨z.toNat, by omega, ?_⟩
          rw [e]
          have : ((z.toNat : ℤ) : ℝ) = z := by rw [Int.toNat_of_nonneg hz1.le]
          exact_mod_cast this.symm
  · refine ⟨⟨by simp [hz], ?_⟩, by simp [hz], ⟨by simp [hz], fun h => absurd ⟨0, by simp [h.1]⟩ hz⟩⟩
    rintro ⟨⟨n, hn, e⟩, _⟩
    exact absurd ⟨n, by simpa using e⟩ hz

/-- Otherwise they use, until a reset, the values of the first of them: once a feature map has been evaluated with the values `a`, `b`, all later
evaluations by the feature map use `a`, `b`, whatever is assigned or trained in between (as long as the current `β` is not negative, in which case
they raise). -/
theorem C29_first_explicit (s : PolySt) (hc : s.caching = true) (ht : s.alphaTrainable = false) (l : List PolyOp) (hl : PolyOp.reset ∉ l)
    (a b : ℝ) (h : (s.step .evalExplicit).1 = .used a b) :
    let s' := (s.step .evalExplicit).2.run l
    (s'.step .evalExplicit).1 = if s'.beta < 0 then .raised .valueError else .used a b := by
  have hs : (∃ z : ℤ, s.alpha = z) ∧ 0 ≤ s.alpha ∧ 0 ≤ s.beta := by
    by_contra hn
    simp only [PolySt.step] at h
    split_ifs at h with h1 h2 h3 <;> simp_all
    all_goals first | exact absurd (hn (not_lt.1 ‹_›)) (by push_neg; assumption) | linarith
  suffices H : ∀ s : PolySt, s.caching = true → s.alphaTrainable = false → s.captured = some (a, b) → a ≠ 0 → (∃ z : ℤ, s.alpha = z) →
      0 ≤ s.alpha → ((s.run l).step .evalExplicit).1 = if (s.run l).beta < 0 then .raised .valueError else .used a b by
    have hst : s.step .evalExplicit = (if s.current.1 = 0 then .raised .typeError else .used s.current.1 s.current.2,
        { s with captured := some s.current }) := by
      simp only [PolySt.step, not_not.2 hs.1, if_false, not_lt.2 hs.2.1, not_lt.2 hs.2.2, hc, if_true]
    rw [hst] at h ⊢
    simp only at h ⊢
    split_ifs at h with h0
    injection h with h1 h2
    exact H _ hc ht (by simp only; rw [← h1, ← h2]) (by rw [← h1]; exact h0) hs.1 hs.2.1
  clear h hc ht hs s
  induction l with
  | nil =>
    intro s h1 h2 h3 h4 h5 h6
    have hcur : s.current = (a, b) := by unfold PolySt.current; rw [h3]; simp [h2]
    change (s.step .evalExplicit).1 = if s.beta < 0 then .raised .valueError else .used a b
    simp only [PolySt.step, not_not.2 h5, if_false, not_lt.2 h6, hcur, if_neg h4]
    by_cases hb : s.beta < 0
    · rw [if_pos hb, if_pos hb]
    · rw [if_neg hb, if_neg hb]
  | cons o l ih =>
    intro s h1 h2 h3 h4 h5 h6
    have hst := step_trainable s o
    refine ih (fun h => hl (List.mem_cons_of_mem _ h)) _ (hst.2.trans h1) (hst.1.trans h2) ?_ h4 ?_ ?_
    · cases o with
      | assignAlpha v => cases v <;> exact h3
      | evalExplicit =>
        have hcur : s.current = (a, b) := by unfold PolySt.current; rw [h3]; simp [h2]
        simp only [PolySt.step]
        split_ifs <;> simp_all
      | reset => exact absurd List.mem_cons_self hl
      | _ => exact h3
    all_goals
      cases o with
      | assignAlpha v => cases v <;> first | exact h5 | exact h6
      | evalExplicit => simp only [PolySt.step]; split_ifs <;> first | exact h5 | exact h6
      | train x y => simpa [PolySt.step, h2] using ‹_›
      | _ => first | exact h5 | exact h6

/-- Violation: `phi`, then a training step changing `β` from 1 to 5, then `phi` (still with `β = 1`) and the kernel function (with `β = 5`): the two
routes now disagree. -/
theorem C29_stale_violated :
    let s : PolySt := { alpha := 2, beta := 1, alphaTrainable := false, caching := true, captured := none }
    let s' := s.run [.evalExplicit, .train 2 5]
    (s'.step .evalExplicit).1 = .used 2 1 ∧ (s'.step .evalImplicit).1 = .used 2 5 := by
  have h2 : ∃ z : ℤ, (2:ℝ) = z := ⟨2, by norm_num⟩
  have h0 : ¬ (2:ℝ) < 0 := by norm_num
  have h1 : ¬ (1:ℝ) < 0 := by norm_num
  have h5 : ¬ (5:ℝ) < 0 := by norm_num
  simp [PolySt.run, PolySt.step, PolySt.current, h2, h0, h1, h5]

/-- The hypotheses of `C29_first_explicit` and `C29_explicit_partial` on a default kernel. -/
example : let s : PolySt := { alpha := 2, beta := 1, alphaTrainable := false, caching := true, captured := none }
    s.caching = true ∧ s.alphaTrainable = false ∧ (s.step .evalExplicit).1 = .used 2 1 :=
  ⟨rfl, rfl, step_explicit _ ⟨⟨2, by norm_num, by norm_num⟩, by norm_num⟩ (.inl rfl)⟩

end Kerch
