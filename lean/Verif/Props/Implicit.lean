import Verif.Lemmas.Transforms
import Mathlib.Algebra.BigOperators.Ring.Finset
set_option linter.unusedSectionVars false
set_option linter.unusedSimpArgs false
/-!
# C19, C20: implicit and explicit routes, independence of the batch
-/
namespace Kerch
open Finset

section helpers
variable {X n d : Type} [Fintype n] [Nonempty n] [Fintype d]

theorem tmean_dot (v : d → ℝ) (S : n → d → ℝ) : (tmean fun l => v ⬝ᵥ S l) = v ⬝ᵥ fun j => tmean fun l => S l j := by
  simp only [tmean, dotProduct]
  rw [sum_comm, Finset.sum_div]
  refine sum_congr rfl fun j _ => ?_
  rw [← mul_sum]
  ring

theorem tmean_dot' (w : d → ℝ) (S : n → d → ℝ) : (tmean fun l => S l ⬝ᵥ w) = (fun j => tmean fun l => S l j) ⬝ᵥ w := by
  rw [dotProduct_comm, ← tmean_dot]
  simp only [dotProduct_comm w]

theorem ioos_cons_batch (κ : X → X → ℝ) (pts : n → X) (k : Kind) (p : List Kind) (ι : Type) (x : ι → X) (b : Arg X) :
    ioos κ pts (k :: p) (.batch ι x) b = istep k (ioos κ pts p) (.batch ι x) b := by
  cases b <;> rfl

theorem ioos_cons_sample (κ : X → X → ℝ) (pts : n → X) (k : Kind) (p : List Kind) :
    ioos κ pts (k :: p) .sample .sample = istep k (ioos κ pts p) .sample .sample := rfl

theorem ioos_cons_sample_batch (κ : X → X → ℝ) (pts : n → X) (k : Kind) (p : List Kind) (ι : Type) (x : ι → X) :
    ioos κ pts (k :: p) .sample (.batch ι x) = (istep k (ioos κ pts p) (.batch ι x) .sample).map fun M i j => M j i := rfl

end helpers

/-! ## C19 -/

section C19
variable {X n d : Type} [Fintype n] [Nonempty n] [Fintype d] (φ : X → d → ℝ) (pts : n → X)

/-- The guard `EPS` is inactive: whenever a unit sphere normalisation of the chain `p` is reached, the features of the argument are null or of
norm at least `√EPS`. -/
def Guarded (p : List Kind) (a : Arg X) : Prop :=
  ∀ q, (Kind.sphere :: q) <:+ p → ∀ Y, eoos φ pts q a = some Y → ∀ i, tnorm (Y i) = 0 ∨ Real.sqrt EPS ≤ tnorm (Y i)

theorem Guarded.tail {k : Kind} {p : List Kind} {a : Arg X} (h : Guarded φ pts (k :: p) a) : Guarded φ pts p a :=
  fun q hq => h q (hq.trans (List.suffix_cons k p))

theorem sphere_dot (v w : d → ℝ) (hv : tnorm v = 0 ∨ Real.sqrt EPS ≤ tnorm v) (hw : tnorm w = 0 ∨ Real.sqrt EPS ≤ tnorm w) :
    (v ⬝ᵥ w) / clampEps (tnorm v * tnorm w) = (fun j => v j / clampEps (tnorm v)) ⬝ᵥ fun j => w j / clampEps (tnorm w) := by
  have hdot : ((fun j => v j / clampEps (tnorm v)) ⬝ᵥ fun j => w j / clampEps (tnorm w))
      = (v ⬝ᵥ w) / (clampEps (tnorm v) * clampEps (tnorm w)) := by
    simp only [dotProduct, Finset.sum_div]
    refine sum_congr rfl fun j _ => ?_
    rw [div_mul_div_comm]
  rw [hdot]
  rcases hv with hv | hv
  · rw [tnorm_eq_zero hv]; simp
  rcases hw with hw | hw
  · rw [tnorm_eq_zero hw]; simp
  have hs0 : 0 ≤ Real.sqrt EPS := Real.sqrt_nonneg _
  have hs : Real.sqrt EPS * Real.sqrt EPS = EPS := Real.mul_self_sqrt EPS_pos.le
  have hs1 : Real.sqrt EPS ≤ 1 := by rw [← Real.sqrt_one]; exact Real.sqrt_le_sqrt EPS_lt_one.le
  have hle : EPS ≤ Real.sqrt EPS := by nlinarith
  have hprod : EPS ≤ tnorm v * tnorm w := by rw [← hs]; exact mul_le_mul hv hw hs0 (hs0.trans hv)
  rw [clampEps_of_le hprod, clampEps_of_le (hle.trans hv), clampEps_of_le (hle.trans hw)]

/-- One node: if the parent agrees, so does the node. -/
theorem istep_spec (k : Kind) (p : List Kind) (hk : k = .mean ∨ k = .sphere)
    (par : (a b : Arg X) → Except Err (a.I n → b.I n → ℝ)) (a b : Arg X)
    (hga : Guarded φ pts (k :: p) a) (hgb : Guarded φ pts (k :: p) b)
    (FA : a.I n → d → ℝ) (FB : b.I n → d → ℝ) (FS : n → d → ℝ)
    (hA : eoos φ pts p a = some FA) (hB : eoos φ pts p b = some FB) (hS : esample φ pts p = some FS)
    (haa : par a a = .ok fun i j => FA i ⬝ᵥ FA j) (hbb : par b b = .ok fun i j => FB i ⬝ᵥ FB j)
    (hab : par a b = .ok fun i j => FA i ⬝ᵥ FB j) (has : par a .sample = .ok fun i j => FA i ⬝ᵥ FS j)
    (hbs : par b .sample = .ok fun i j => FB i ⬝ᵥ FS j) (hss : par .sample .sample = .ok fun i j => FS i ⬝ᵥ FS j) :
    ∃ GA GB, eoos φ pts (k :: p) a = some GA ∧ eoos φ pts (k :: p) b = some GB ∧
      istep k par a b = .ok fun i j => GA i ⬝ᵥ GB j := by
  rcases hk with rfl | rfl
  · refine ⟨_, _, by rw [eoos_cons, hA, hS]; rfl, by rw [eoos_cons, hB, hS]; rfl, ?_⟩
    simp only [istep, haa, hbb, hab, has, hbs, hss, bind, Except.bind]
    congr 1
    funext i j
    have h1 := tmean_dot (FA i) FS
    have h2 := tmean_dot (FB j) FS
    have h3 : (tmean fun l => tmean fun l' => FS l ⬝ᵥ FS l')
        = (fun j => tmean fun l => FS l j) ⬝ᵥ (fun j => tmean fun l => FS l j) := by
      simp only [tmean_dot]
      exact tmean_dot' _ _
    show _ - (tmean fun l => FA i ⬝ᵥ FS l) - (tmean fun l => FB j ⬝ᵥ FS l) + (tmean fun l => tmean fun l' => FS l ⬝ᵥ FS l') = _
    rw [h1, h2, h3]
    show _ = (FA i - fun j => tmean fun l => FS l j) ⬝ᵥ (FB j - fun j => tmean fun l => FS l j)
    rw [sub_dotProduct, dotProduct_sub, dotProduct_sub, dotProduct_comm (FB j)]
    ring
  · refine ⟨_, _, by rw [eoos_cons, hA, hS]; rfl, by rw [eoos_cons, hB, hS]; rfl, ?_⟩
    simp only [istep, haa, hbb, hab, has, hbs, hss, bind, Except.bind]
    congr 1
    funext i j
    simp only [sqrt_dot_self]
    exact sphere_dot _ _ (hga p List.suffix_rfl FA hA i) (hgb p List.suffix_rfl FB hB j)

/-- For every chain of centering and unit sphere normalisation, for arguments `a`, `b` (sample or batches), the matrix computed on kernel values
is that of the inner products of the transformed features. Missing (`_partial`): features whose norm is not null but smaller than `√EPS`, where the
guards of the two routes differ (`C19_small_norm_violated`). -/
theorem C19_implicit_explicit_partial (κ : X → X → ℝ) (hκ : ∀ x y, κ x y = φ x ⬝ᵥ φ y) (p : List Kind)
    (hp : ∀ k ∈ p, k = .mean ∨ k = .sphere) (hs : Guarded φ pts p .sample) (a b : Arg X)
    (ha : Guarded φ pts p a) (hb : Guarded φ pts p b) :
    ∃ A B, eoos φ pts p a = some A ∧ eoos φ pts p b = some B ∧ ioos κ pts p a b = .ok fun i j => A i ⬝ᵥ B j := by
  induction p generalizing a b with
  | nil =>
    have hsym : ∀ x y, κ x y = κ y x := fun x y => by rw [hκ, hκ, dotProduct_comm]
    refine ⟨_, _, eoos_nil φ pts a, eoos_nil φ pts b, ?_⟩
    rw [ioos_nil κ pts hsym]
    congr 1
    funext i j
    exact hκ _ _
  | cons k p ih =>
    have ih' : ∀ a b : Arg X, Guarded φ pts p a → Guarded φ pts p b →
        ∃ A B, eoos φ pts p a = some A ∧ eoos φ pts p b = some B ∧ ioos κ pts p a b = .ok fun i j => A i ⬝ᵥ B j :=
      ih (fun k hk => hp k (List.mem_cons_of_mem _ hk)) hs.tail
    have hk := hp k (List.mem_cons_self)
    have step : ∀ a b : Arg X, Guarded φ pts (k :: p) a → Guarded φ pts (k :: p) b →
        ∃ GA GB, eoos φ pts (k :: p) a = some GA ∧ eoos φ pts (k :: p) b = some GB ∧
          istep k (ioos κ pts p) a b = .ok fun i j => GA i ⬝ᵥ GB j := by
      intro a b ha hb
      obtain ⟨A, B, hA, hB, hab⟩ := ih' a b ha.tail hb.tail
      obtain ⟨S, S', hS, hS', hss⟩ := ih' .sample .sample hs.tail hs.tail
      obtain ⟨A1, A2, hA1, hA2, haa⟩ := ih' a a ha.tail ha.tail
      obtain ⟨B1, B2, hB1, hB2, hbb⟩ := ih' b b hb.tail hb.tail
      obtain ⟨A3, S3, hA3, hS3, has⟩ := ih' a .sample ha.tail hs.tail
      obtain ⟨B4, S4, hB4, hS4, hbs⟩ := ih' b .sample hb.tail hs.tail
      obtain rfl : A = A1 := Option.some.inj (hA.symm.trans hA1)
      obtain rfl : A = A2 := Option.some.inj (hA.symm.trans hA2)
      obtain rfl : A = A3 := Option.some.inj (hA.symm.trans hA3)
      obtain rfl : B = B1 := Option.some.inj (hB.symm.trans hB1)
      obtain rfl : B = B2 := Option.some.inj (hB.symm.trans hB2)
      obtain rfl : B = B4 := Option.some.inj (hB.symm.trans hB4)
      obtain rfl : S = S' := Option.some.inj (hS.symm.trans hS')
      obtain rfl : S = S3 := Option.some.inj (hS.symm.trans hS3)
      obtain rfl : S = S4 := Option.some.inj (hS.symm.trans hS4)
      exact istep_spec φ pts k p hk (ioos κ pts p) a b ha hb A B S hA hB ((eoos_sample φ pts p).symm.trans hS) haa hbb hab has hbs hss
    cases a with
    | batch ι x => rw [ioos_cons_batch]; exact step _ _ ha hb
    | sample =>
      cases b with
      | sample => rw [ioos_cons_sample]; exact step _ _ ha hb
      | batch ι y =>
        obtain ⟨B, A, hB, hA, h⟩ := step _ _ hb ha
        refine ⟨A, B, hA, hB, ?_⟩
        rw [ioos_cons_sample_batch, h]
        show Except.ok _ = _
        congr 1
        funext i j
        exact dotProduct_comm _ _

/-- Centering alone needs no condition. -/
theorem C19_centering (κ : X → X → ℝ) (hκ : ∀ x y, κ x y = φ x ⬝ᵥ φ y) (p : List Kind)
    (hp : ∀ k ∈ p, k = .mean) (a b : Arg X) :
    ∃ A B, eoos φ pts p a = some A ∧ eoos φ pts p b = some B ∧ ioos κ pts p a b = .ok fun i j => A i ⬝ᵥ B j := by
  have hg : ∀ a : Arg X, Guarded φ pts p a := by
    intro a q hq
    have := hp _ (hq.subset (List.mem_cons_self))
    cases this
  exact C19_implicit_explicit_partial φ pts κ hκ p (fun k hk => .inl (hp k hk)) (hg _) a b (hg _) (hg _)

/-- A chain with any other transform has no implicit formulation: an error is raised, never a value returned. -/
theorem C19_others_refused (κ : X → X → ℝ) (p : List Kind) (hp : ∃ k ∈ p, k ≠ .mean ∧ k ≠ .sphere) (a b : Arg X) :
    ∃ e, ioos κ pts p a b = .error e := by
  induction p generalizing a b with
  | nil => obtain ⟨k, hk, _⟩ := hp; cases hk
  | cons k p ih =>
    have step : ∀ a b : Arg X, ∃ e, istep k (ioos κ pts p) a b = .error e := by
      intro a b
      by_cases hk : k = .mean ∨ k = .sphere
      · have hp' : ∃ k ∈ p, k ≠ .mean ∧ k ≠ .sphere := by
          obtain ⟨k', hk', h1, h2⟩ := hp
          rcases List.mem_cons.1 hk' with rfl | hk'
          · rcases hk with rfl | rfl
            · exact absurd rfl h1
            · exact absurd rfl h2
          · exact ⟨k', hk', h1, h2⟩
        rcases hk with rfl | rfl
        · obtain ⟨e, he⟩ := ih hp' a .sample
          exact ⟨e, by simp [istep, he, bind, Except.bind]⟩
        · obtain ⟨e, he⟩ := ih hp' a b
          exact ⟨e, by simp [istep, he, bind, Except.bind]⟩
      · cases k <;> simp at hk <;> cases a <;> cases b <;> exact ⟨_, rfl⟩
    cases a with
    | batch ι x => rw [ioos_cons_batch]; exact step _ _
    | sample =>
      cases b with
      | sample => exact step _ _
      | batch ι y =>
        obtain ⟨e, he⟩ := step (.batch ι y) .sample
        exact ⟨e, by rw [ioos_cons_sample_batch, he]; rfl⟩

/-- Violation: one point whose feature has norm `10⁻⁴` (a thousand times the guard). Normalised on the features it has `k(x,x) = 1`, normalised
on the kernel matrix `k(x,x) = 1/10`. -/
theorem C19_small_norm_violated :
    ∃ A : Unit → Unit → ℝ, eoos (fun x : ℝ => fun _ : Unit => x) (fun _ : Unit => (1e-4 : ℝ)) [.sphere] .sample = some A ∧
      A () ⬝ᵥ A () = 1 ∧
      ioos (fun x y : ℝ => x * y) (fun _ : Unit => (1e-4 : ℝ)) [.sphere] .sample .sample = .ok fun _ _ => 1 / 10 := by
  have h4 : Real.sqrt ((1e-4 : ℝ) * 1e-4) = 1e-4 := Real.sqrt_mul_self (by norm_num)
  refine ⟨_, rfl, ?_, ?_⟩
  · have hn : tnorm (fun _ : Unit => (1e-4 : ℝ)) = 1e-4 := by simp [tnorm, sq, h4]
    have : clampEps (1e-4 : ℝ) = 1e-4 := clampEps_of_le (by norm_num [EPS])
    simp [applyKind, colStat, dotProduct, hn, this]
    norm_num
  · have : clampEps ((1e-4 : ℝ) * 1e-4) = 1e-7 := by
      unfold clampEps EPS; rw [max_eq_right]; norm_num
    show Except.ok _ = _
    congr 1
    funext i j
    show (1e-4 * 1e-4 : ℝ) / clampEps (Real.sqrt (1e-4 * 1e-4) * Real.sqrt (1e-4 * 1e-4)) = _
    rw [h4, this]
    norm_num

end C19

/-- The hypotheses of `C19_implicit_explicit_partial` on two points of the line, for `center` then `normalize`: the centered features have norm ½. -/
example : Guarded (fun x : ℝ => fun _ : Unit => x) (fun i : Fin 2 => (i : ℝ)) [.sphere, .mean] .sample := by
  intro q hq Y hY i
  right
  have hq' : q = [.mean] := by
    rcases List.suffix_cons_iff.1 hq with h | h
    · exact (List.cons.inj h).2
    · rcases List.suffix_cons_iff.1 h with h | h
      · cases (List.cons.inj h).1
      · exact absurd h (by simp)
  subst hq'
  have : Y = fun (i : Fin 2) (_ : Unit) => (i : ℝ) - 1 / 2 := by
    have := Option.some.inj hY
    rw [← this]
    funext i j
    simp [applyKind, tmean, Fin.sum_univ_two]
  subst this
  have hn : tnorm (fun _ : Unit => (i : ℝ) - 1 / 2) = 1 / 2 := by
    have : ((i : ℝ) - 1 / 2) ^ 2 = (1 / 2) ^ 2 := by fin_cases i <;> norm_num
    simp only [tnorm, this, univ_unique, sum_const, card_singleton, one_smul]
    exact Real.sqrt_sq (by norm_num)
  rw [hn]
  exact Real.sqrt_le_iff.2 ⟨by norm_num, by norm_num [EPS]⟩

/-! ## C20 -/

section C20
variable {X n d : Type} [Fintype n] [Nonempty n] [Fintype d] (φ : X → d → ℝ) (pts : n → X)

/-- The points of `a'` are points of `a`, at the places given by `f`: a part of a batch, a permutation, repetitions, or points of the sample given
as a batch. -/
def Within (a' a : Arg X) (f : a'.I n → a.I n) : Prop := ∀ i, a'.pt pts i = a.pt pts (f i)

/-- The features of part of a batch (or of sample points given as a batch) are those found in the whole. -/
theorem C20_phi (p : List Kind) (a' a : Arg X) (f : a'.I n → a.I n) (h : Within pts a' a f) :
    eoos φ pts p a' = (eoos φ pts p a).map fun Y i => Y (f i) := by
  induction p with
  | nil => rw [eoos_nil, eoos_nil]; simp only [Option.map_some]; congr 1; funext i; rw [h i]
  | cons k p ih =>
    rw [eoos_cons, eoos_cons, ih]
    cases h1 : eoos φ pts p a with
    | none => rfl
    | some Y =>
      cases h2 : esample φ pts p with
      | none => rfl
      | some S =>
        cases h3 : colStat k p.head? S with
        | none => simp [h3]
        | some st =>
          simp only [Option.map_some, Option.bind_some, h3]
          congr 1
          exact applyKind_comp k st Y f

variable (κ : X → X → ℝ)

theorem istep_swap (k : Kind) (hk : k = .mean ∨ k = .sphere) (par : (a b : Arg X) → Except Err (a.I n → b.I n → ℝ))
    (a b : Arg X) (V : (a b : Arg X) → a.I n → b.I n → ℝ) (hV : ∀ a b, par a b = .ok (V a b)) (hs : ∀ a b i j, V a b i j = V b a j i) :
    istep k par a b = (istep k par b a).map fun M i j => M j i := by
  rcases hk with rfl | rfl
  · simp only [istep, hV, bind, Except.bind, Except.map]
    congr 1
    funext i j
    rw [hs a b]; ring
  · simp only [istep, hV, bind, Except.bind, Except.map]
    congr 1
    funext i j
    rw [hs a b, mul_comm]

/-- With a symmetric kernel function the values exist, are symmetric, and each node applies the same rule to all arguments. -/
theorem ioos_values (hκ : ∀ x y, κ x y = κ y x) (p : List Kind) (hp : ∀ k ∈ p, k = .mean ∨ k = .sphere) :
    ∃ V : (a b : Arg X) → a.I n → b.I n → ℝ, (∀ a b, ioos κ pts p a b = .ok (V a b)) ∧ (∀ a b i j, V a b i j = V b a j i) ∧
      ∀ (a' a b' b : Arg X) (f : a'.I n → a.I n) (g : b'.I n → b.I n), Within pts a' a f → Within pts b' b g →
        ∀ i j, V a' b' i j = V a b (f i) (g j) := by
  induction p with
  | nil =>
    refine ⟨fun a b i j => κ (a.pt pts i) (b.pt pts j), fun a b => ioos_nil κ pts hκ a b, fun a b i j => hκ _ _, ?_⟩
    intro a' a b' b f g hf hg i j
    simp only [hf i, hg j]
  | cons k p ih =>
    obtain ⟨V, hV, hsym, hw⟩ := ih fun k hk => hp k (List.mem_cons_of_mem _ hk)
    have hk := hp k (List.mem_cons_self)
    have hall : ∀ a b : Arg X, ioos κ pts (k :: p) a b = istep k (ioos κ pts p) a b := by
      intro a b
      cases a with
      | batch ι x => exact ioos_cons_batch κ pts k p ι x b
      | sample =>
        cases b with
        | sample => rfl
        | batch ι y =>
          rw [ioos_cons_sample_batch]
          exact (istep_swap k hk _ _ _ V hV hsym).symm
    have hid : ∀ a : Arg X, Within pts a a id := fun a i => rfl
    rcases hk with rfl | rfl
    · refine ⟨fun a b i j => V a b i j - tmean (V a .sample i) - tmean (V b .sample j) + tmean fun l => tmean (V .sample .sample l),
        fun a b => ?_, fun a b i j => ?_, ?_⟩
      · rw [hall]; simp only [istep, hV, bind, Except.bind]
      · simp only [hsym a b]; ring
      · intro a' a b' b f g hf hg i j
        have h1 : V a' .sample i = V a .sample (f i) := funext fun l => hw a' a .sample .sample f id hf (hid _) i l
        have h2 : V b' .sample j = V b .sample (g j) := funext fun l => hw b' b .sample .sample g id hg (hid _) j l
        simp only [h1, h2, hw a' a b' b f g hf hg]
    · refine ⟨fun a b i j => V a b i j / clampEps (Real.sqrt (V a a i i) * Real.sqrt (V b b j j)), fun a b => ?_, fun a b i j => ?_, ?_⟩
      · rw [hall]; simp only [istep, hV, bind, Except.bind]
      · simp only [hsym a b, mul_comm]
      · intro a' a b' b f g hf hg i j
        simp only [hw a' a b' b f g hf hg, hw a' a a' a f f hf hf, hw b' b b' b g g hg hg]

/-- The kernel values between parts of batches (or sample points given as a batch) are those found in the whole matrix. -/
theorem C20_k (hκ : ∀ x y, κ x y = κ y x) (p : List Kind) (hp : ∀ k ∈ p, k = .mean ∨ k = .sphere)
    (a' a b' b : Arg X) (f : a'.I n → a.I n) (g : b'.I n → b.I n) (ha : Within pts a' a f) (hb : Within pts b' b g) :
    ∃ M M', ioos κ pts p a b = .ok M ∧ ioos κ pts p a' b' = .ok M' ∧ ∀ i j, M' i j = M (f i) (g j) := by
  obtain ⟨V, hV, _, hw⟩ := ioos_values pts κ hκ p hp
  exact ⟨_, _, hV a b, hV a' b', hw a' a b' b f g ha hb⟩

/-- In particular, evaluating at the points of the sample gives the matrix of the sample. -/
theorem C20_k_sample (hκ : ∀ x y, κ x y = κ y x) (p : List Kind) (hp : ∀ k ∈ p, k = .mean ∨ k = .sphere) :
    ioos κ pts p (.batch n pts) (.batch n pts) = ioos κ pts p .sample .sample := by
  obtain ⟨M, M', h1, h2, h⟩ := C20_k pts κ hκ p hp (.batch n pts) .sample (.batch n pts) .sample id id (fun _ => rfl) (fun _ => rfl)
  rw [h1, h2]
  congr 1
  funext i j
  exact h i j

theorem C20_phi_sample (p : List Kind) : eoos φ pts p (.batch n pts) = esample φ pts p := by
  have := C20_phi φ pts p (.batch n pts) .sample id (fun _ => rfl)
  rw [this, eoos_sample]
  simp

end C20

/-- The single rows of a batch are parts of it. -/
example {ι : Type} (x : ι → ℝ) (i : ι) : Within (n := Fin 3) (fun i => (i : ℝ)) (.batch Unit fun _ => x i) (.batch ι x) (fun _ => i) :=
  fun _ => rfl

end Kerch
