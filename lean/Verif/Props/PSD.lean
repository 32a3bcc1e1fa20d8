import Verif.Lemmas.PSD
import Verif.Props.KernelFun
set_option linter.unusedSectionVars false
set_option linter.unusedSimpArgs false
/-!
# C26: positive semi-definiteness
-/
namespace Kerch
open Finset

/-! ## The chain as a kernel function -/

section chain
variable {X n : Type} [Fintype n] [Nonempty n]

/-- The kernel function of a chain, as a function of two points. -/
noncomputable def kchain (κ : X → X → ℝ) (pts : n → X) : List Kind → X → X → ℝ
  | [] => κ
  | .mean :: p => fun x y => kchain κ pts p x y - tmean (fun l => kchain κ pts p x (pts l)) - tmean (fun l => kchain κ pts p y (pts l))
      + tmean fun l => tmean fun l' => kchain κ pts p (pts l) (pts l')
  | .sphere :: p => fun x y => kchain κ pts p x y / clampEps (Real.sqrt (kchain κ pts p x x) * Real.sqrt (kchain κ pts p y y))
  | _ :: p => kchain κ pts p

theorem kchain_symm (κ : X → X → ℝ) (pts : n → X) (hκ : ∀ x y, κ x y = κ y x) (p : List Kind) (x y : X) :
    kchain κ pts p x y = kchain κ pts p y x := by
  induction p generalizing x y with
  | nil => exact hκ x y
  | cons k p ih =>
    cases k with
    | mean => simp only [kchain]; rw [ih x y]; ring
    | sphere => simp only [kchain]; rw [ih x y, mul_comm]
    | _ => simp only [kchain]; exact ih x y

theorem ioos_kchain (κ : X → X → ℝ) (pts : n → X) (hκ : ∀ x y, κ x y = κ y x) (p : List Kind)
    (hp : ∀ k ∈ p, k = .mean ∨ k = .sphere) (a b : Arg X) :
    ioos κ pts p a b = .ok fun i j => kchain κ pts p (a.pt pts i) (b.pt pts j) := by
  induction p generalizing a b with
  | nil => exact ioos_nil κ pts hκ a b
  | cons k p ih =>
    have ih := ih fun k hk => hp k (List.mem_cons_of_mem _ hk)
    have hk := hp k List.mem_cons_self
    have step : ∀ a b : Arg X, istep k (ioos κ pts p) a b = .ok fun i j => kchain κ pts (k :: p) (a.pt pts i) (b.pt pts j) := by
      intro a b
      rcases hk with rfl | rfl <;> simp only [istep, ih, bind, Except.bind] <;> rfl
    cases a with
    | batch ι x => rw [ioos_cons_batch]; exact step _ _
    | sample =>
      cases b with
      | sample => exact step _ _
      | batch ι y =>
        rw [ioos_cons_sample_batch, step]
        show Except.ok _ = _
        congr 1
        funext i j
        exact kchain_symm κ pts hκ _ _ _

theorem PSDOn.center {Z : Set X} {κ : X → X → ℝ} (h : PSDOn Z κ) (pts : n → X) (hpts : ∀ l, pts l ∈ Z) :
    PSDOn Z fun x y => κ x y - tmean (fun l => κ x (pts l)) - tmean (fun l => κ y (pts l))
      + tmean fun l => tmean fun l' => κ (pts l) (pts l') := by
  intro ι _ x hx
  have hbig := h (ι ⊕ n) (Sum.elim x pts) (by rintro (i | l); exacts [hx i, hpts l])
  have hsym : ∀ u ∈ Z, ∀ v ∈ Z, κ u v = κ v u := by
    intro u hu v hv
    exact (h (Fin 2) ![u, v] (by intro i; fin_cases i; exacts [hu, hv])).1 0 1
  refine ⟨fun i j => ?_, fun c => ?_⟩
  · simp only [hsym _ (hx i) _ (hx j)]; ring
  · have h1 := hbig.2 (Sum.elim c fun _ => -(∑ i, c i) / Fintype.card n)
    simp only [Fintype.sum_sum_type, Sum.elim_inl, Sum.elim_inr] at h1
    refine h1.trans_eq ?_
    clear h1
    obtain ⟨C, hC⟩ : ∃ C, C = ∑ i, c i := ⟨_, rfl⟩
    rw [← hC]
    set N : ℝ := (Fintype.card n : ℝ) with hN
    have hN0 : N ≠ 0 := (card_pos_real (n := n)).ne'
    have e1 : ∑ i, ∑ j, c i * c j * (κ (x i) (x j) - tmean (fun l => κ (x i) (pts l)) - tmean (fun l => κ (x j) (pts l))
        + tmean fun l => tmean fun l' => κ (pts l) (pts l'))
        = ∑ i, ∑ j, c i * c j * κ (x i) (x j) - C * ∑ i, c i * tmean (fun l => κ (x i) (pts l))
          - C * (∑ j, c j * tmean (fun l => κ (x j) (pts l))) + C * C * tmean fun l => tmean fun l' => κ (pts l) (pts l') := by
      have f1 : C * ∑ i, c i * tmean (fun l => κ (x i) (pts l)) = ∑ i, ∑ j, c i * c j * tmean (fun l => κ (x i) (pts l)) := by
        rw [mul_sum]
        refine sum_congr rfl fun i _ => ?_
        rw [hC, sum_mul]
        exact sum_congr rfl fun j _ => by ring
      have f2 : C * ∑ i, c i * tmean (fun l => κ (x i) (pts l)) = ∑ i, ∑ j, c i * c j * tmean (fun l => κ (x j) (pts l)) := by
        rw [hC, sum_mul]
        refine sum_congr rfl fun i _ => ?_
        rw [mul_sum]
        exact sum_congr rfl fun j _ => by ring
      have f3 : ∀ t : ℝ, C * C * t = ∑ i, ∑ j, c i * c j * t := by
        intro t
        rw [hC, sum_mul_sum, sum_mul]
        exact sum_congr rfl fun i _ => by rw [sum_mul]
      simp only [mul_add, mul_sub, sum_add_distrib, sum_sub_distrib]
      rw [← f1, ← f2, ← f3]
    rw [e1]
    have e2 : ∑ i, ∑ l, c i * (-C / N) * κ (x i) (pts l) = -(C * ∑ i, c i * tmean (fun l => κ (x i) (pts l))) := by
      rw [mul_sum, ← Finset.sum_neg_distrib]
      refine sum_congr rfl fun i _ => ?_
      rw [← mul_sum]; simp only [tmean]; ring
    have e3 : ∑ l, ∑ i, -C / N * c i * κ (pts l) (x i) = -(C * ∑ i, c i * tmean (fun l => κ (x i) (pts l))) := by
      rw [← e2, sum_comm]
      refine sum_congr rfl fun i _ => sum_congr rfl fun l _ => ?_
      rw [hsym _ (hpts l) _ (hx i)]; ring
    have e4 : ∑ l, ∑ l', -C / N * (-C / N) * κ (pts l) (pts l') = C * C * tmean fun l => tmean fun l' => κ (pts l) (pts l') := by
      simp only [← mul_sum]
      simp only [tmean, ← Finset.sum_div, ← hN]
      field_simp
    rw [sum_add_distrib, sum_add_distrib, e2, e3, e4]
    ring

theorem PSDOn.normalize {Z : Set X} {κ : X → X → ℝ} (h : PSDOn Z κ) (hg : ∀ x ∈ Z, κ x x = 0 ∨ EPS ≤ κ x x) :
    PSDOn Z fun x y => κ x y / clampEps (Real.sqrt (κ x x) * Real.sqrt (κ y y)) := by
  intro ι _ x hx
  have h0 := h ι x hx
  have key : ∀ i j, κ (x i) (x j) / clampEps (Real.sqrt (κ (x i) (x i)) * Real.sqrt (κ (x j) (x j)))
      = 1 / Real.sqrt (κ (x i) (x i)) * (1 / Real.sqrt (κ (x j) (x j))) * κ (x i) (x j) := by
    intro i j
    rcases hg _ (hx i) with hi | hi
    · have : κ (x i) (x j) = 0 := h0.zero_row hi j
      rw [this]; simp
    rcases hg _ (hx j) with hj | hj
    · have : κ (x i) (x j) = 0 := (h0.1 i j).trans (h0.zero_row hj i)
      rw [this]; simp
    have : EPS ≤ Real.sqrt (κ (x i) (x i)) * Real.sqrt (κ (x j) (x j)) := by
      rw [← Real.mul_self_sqrt EPS_pos.le]
      exact mul_le_mul (Real.sqrt_le_sqrt hi) (Real.sqrt_le_sqrt hj) (Real.sqrt_nonneg _) (Real.sqrt_nonneg _)
    rw [clampEps_of_le this]
    ring
  simp only [key]
  exact h0.scale _

end chain

/-! ## C26 -/

section kernels
variable {d : Type} [Fintype d]

/-- The linear kernel. -/
theorem C26_linear : PSDOn Set.univ (linearKernel (d := d)) := fun _ _ x _ => psdMat_gram x

/-- The polynomial kernel of natural degree and `β ≥ 0`. -/
theorem C26_polynomial (α : ℕ) (β : ℝ) (hβ : 0 ≤ β) : PSDOn Set.univ (polyKernel (d := d) α β) := by
  intro ι _ x _
  have h : PSDMat fun i j => x i ⬝ᵥ x j + β := by
    have := (psdMat_gram x).add (psdMat_one.smul hβ)
    simpa using this
  exact h.pow α

/-- `β ≥ 0` is needed: with degree 1 and `β < 0` the origin alone has a negative value. -/
theorem C26_polynomial_negative (β : ℝ) (hβ : β < 0) : ¬ PSDOn Set.univ (polyKernel (d := d) 1 β) := by
  intro h
  have := (h Unit (fun _ => 0) (fun _ => trivial)).diag_nonneg ()
  simp [polyKernel] at this
  linarith

/-- The RBF kernel (exponential kernel on the squared Euclidean distance), any bandwidth. -/
theorem C26_rbf [Nonempty d] (σ : ℝ) :
    ∃ κ : (d → ℝ) → (d → ℝ) → ℝ, (∀ x y, statKernel (.exponential true) .euclidean σ x y = .ok (κ x y)) ∧ PSDOn Set.univ κ := by
  refine ⟨fun x y => Real.exp ((1 / σ) ^ 2 * euclidSq x y * -(1 / 2)), fun x y => rfl, ?_⟩
  intro ι _ x _
  have key : ∀ i j, Real.exp ((1 / σ) ^ 2 * euclidSq (x i) (x j) * -(1 / 2))
      = Real.exp (-((1 / σ) ^ 2 / 2 * (x i ⬝ᵥ x i))) * Real.exp (-((1 / σ) ^ 2 / 2 * (x j ⬝ᵥ x j)))
        * Real.exp ((1 / σ) ^ 2 * (x i ⬝ᵥ x j)) := by
    intro i j
    rw [← Real.exp_add, ← Real.exp_add]
    congr 1
    have : euclidSq (x i) (x j) = x i ⬝ᵥ x i - 2 * (x i ⬝ᵥ x j) + x j ⬝ᵥ x j := by
      simp only [euclidSq, dotProduct, mul_sum, ← sum_sub_distrib, ← sum_add_distrib]
      exact sum_congr rfl fun k _ => by ring
    rw [this]; ring
  simp only [key]
  exact (((psdMat_gram x).smul (sq_nonneg (1 / σ))).exp).scale _

end kernels

section chains
variable {X n d : Type} [Fintype n] [Nonempty n] [Fintype d]

/-- All kernels with an explicit feature map (linear, cosine, polynomial, random features, Nyström, ...), after any chain of explicit transforms, on
the sample or on any batch. -/
theorem C26_explicit (φ : X → d → ℝ) (pts : n → X) (p : List Kind) (a : Arg X) [Fintype (a.I n)] (Y : a.I n → d → ℝ)
    (_ : eoos φ pts p a = some Y) : PSDMat fun i j => Y i ⬝ᵥ Y j := psdMat_gram Y

/-- Centering and normalising on kernel values preserve positive semi-definiteness, on the sample and on any batch. Missing (`_partial`): points
whose squared norm at a normalisation is not null but smaller than `EPS` (`C26_small_norm_violated`). -/
theorem C26_implicit_partial (Z : Set X) (κ : X → X → ℝ) (pts : n → X) (hκ : ∀ x y, κ x y = κ y x) (hZ : PSDOn Z κ)
    (hpts : ∀ l, pts l ∈ Z) (p : List Kind) (hp : ∀ k ∈ p, k = .mean ∨ k = .sphere)
    (hg : ∀ q, (Kind.sphere :: q) <:+ p → ∀ x ∈ Z, ∀ M,
      ioos κ pts q (.batch Unit fun _ => x) (.batch Unit fun _ => x) = .ok M → M () () = 0 ∨ EPS ≤ M () ())
    (a : Arg X) [Fintype (a.I n)] (ha : ∀ i, a.pt pts i ∈ Z) :
    ∃ M, ioos κ pts p a a = .ok M ∧ PSDMat M := by
  refine ⟨_, ioos_kchain κ pts hκ p hp a a, ?_⟩
  suffices h : PSDOn Z (kchain κ pts p) from h _ _ ha
  clear ha
  rename Fintype (Arg.I n a) => inst
  clear inst
  induction p with
  | nil => exact hZ
  | cons k p ih =>
    have ih := ih (fun k hk => hp k (List.mem_cons_of_mem _ hk)) (fun q hq => hg q (hq.trans (List.suffix_cons k p)))
    rcases hp k List.mem_cons_self with rfl | rfl
    · exact ih.center pts hpts
    · refine ih.normalize fun x hx => ?_
      exact hg p List.suffix_rfl x hx _ (ioos_kchain κ pts hκ p (fun k hk => hp k (List.mem_cons_of_mem _ hk)) _ _)

/-- Centering needs no condition. -/
theorem C26_centering (κ : X → X → ℝ) (pts : n → X) (hκ : ∀ x y, κ x y = κ y x) (hZ : PSDOn Set.univ κ) (p : List Kind)
    (hp : ∀ k ∈ p, k = .mean) (a : Arg X) [Fintype (a.I n)] :
    ∃ M, ioos κ pts p a a = .ok M ∧ PSDMat M := by
  refine C26_implicit_partial Set.univ κ pts hκ hZ (fun _ => trivial) p (fun k hk => .inl (hp k hk)) ?_ a (fun _ => trivial)
  intro q hq
  cases hp _ (hq.subset List.mem_cons_self)

end chains

/-- Violation: the linear kernel normalised on kernel values, on the points `1` and `10⁻⁸` of the line: the matrix has a negative quadratic form. -/
theorem C26_small_norm_violated :
    ∃ (pts : Fin 2 → Unit → ℝ) (M : Fin 2 → Fin 2 → ℝ), ioos linearKernel pts [.sphere] .sample .sample = .ok M ∧ ¬ PSDMat M := by
  refine ⟨![fun _ => 1, fun _ => 1e-8], _, rfl, ?_⟩
  intro h
  have := h.2 ![1, -100]
  have s1 : Real.sqrt (1 * 1 : ℝ) = 1 := Real.sqrt_mul_self (by norm_num)
  have s2 : Real.sqrt ((1e-8 : ℝ) * 1e-8) = 1e-8 := Real.sqrt_mul_self (by norm_num)
  have c1 : clampEps ((1 : ℝ) * 1) = 1 := by rw [mul_one]; exact clampEps_of_le EPS_lt_one.le
  have c2 : clampEps ((1 : ℝ) * 1e-8) = 1e-7 := by unfold clampEps EPS; rw [max_eq_right]; norm_num
  have c3 : clampEps ((1e-8 : ℝ) * 1) = 1e-7 := by unfold clampEps EPS; rw [max_eq_right]; norm_num
  have c4 : clampEps ((1e-8 : ℝ) * 1e-8) = 1e-7 := by unfold clampEps EPS; rw [max_eq_right]; norm_num
  simp only [Fin.sum_univ_two, Arg.pt, linearKernel, dotProduct, Finset.univ_unique, sum_singleton, Matrix.cons_val_zero,
    Matrix.cons_val_one, s1, s2, c1, c2, c3, c4] at this
  norm_num at this

/-- The hypotheses of `C26_implicit_partial` for an RBF-like kernel (unit diagonal) and a normalisation: the guard is inactive. -/
example (σ : ℝ) : ∀ q, (Kind.sphere :: q) <:+ [Kind.sphere] → ∀ x ∈ (Set.univ : Set ℝ), ∀ M,
    ioos (fun x y => Real.exp (-(x - y) ^ 2 * σ ^ 2)) (fun i : Fin 3 => (i : ℝ)) q (.batch Unit fun _ => x) (.batch Unit fun _ => x) = .ok M →
      M () () = 0 ∨ EPS ≤ M () () := by
  intro q hq x _ M hM
  have : q = [] := by
    rcases List.suffix_cons_iff.1 hq with h | h
    · exact (List.cons.inj h).2
    · exact absurd h (by simp)
  subst this
  right
  rw [← Except.ok.inj hM]
  simp [Arg.pt, EPS_lt_one.le]

end Kerch
