import Verif.Model.Transforms
import Mathlib.Algebra.BigOperators.Field
import Mathlib.Tactic.FieldSimp
import Mathlib.Tactic.Linarith
import Mathlib.Tactic.NormNum
set_option linter.unusedSectionVars false
set_option linter.unusedSimpArgs false
/-! Helper lemmas on the values of transforms. -/
namespace Kerch
open Finset

theorem EPS_pos : 0 < EPS := by unfold EPS; norm_num
theorem EPS_lt_one : EPS < 1 := by unfold EPS; norm_num
theorem clampEps_pos (x : ℝ) : 0 < clampEps x := lt_max_of_lt_right EPS_pos
theorem clampEps_ne (x : ℝ) : clampEps x ≠ 0 := (clampEps_pos x).ne'
theorem clampEps_of_le {x : ℝ} (h : EPS ≤ x) : clampEps x = x := max_eq_left h
theorem le_clampEps (x : ℝ) : x ≤ clampEps x := le_max_left _ _

theorem tnorm_nonneg {d : Type} [Fintype d] (v : d → ℝ) : 0 ≤ tnorm v := Real.sqrt_nonneg _

theorem tnorm_sq {d : Type} [Fintype d] (v : d → ℝ) : tnorm v ^ 2 = ∑ j, v j ^ 2 :=
  Real.sq_sqrt (sum_nonneg fun _ _ => sq_nonneg _)

theorem sqrt_dot_self {d : Type} [Fintype d] (v : d → ℝ) : Real.sqrt (v ⬝ᵥ v) = tnorm v := by
  simp [tnorm, dotProduct, sq]

theorem tnorm_eq_zero {d : Type} [Fintype d] {v : d → ℝ} (h : tnorm v = 0) : v = 0 := by
  have h2 := tnorm_sq v
  rw [h] at h2
  have := (sum_eq_zero_iff_of_nonneg (s := univ) (f := fun j => v j ^ 2) (fun _ _ => sq_nonneg _)).1 (by simpa using h2.symm)
  funext j
  simpa using this j (mem_univ j)

section
variable {n : Type} [Fintype n] [Nonempty n]

theorem card_pos_real : (0 : ℝ) < Fintype.card n := by exact_mod_cast Fintype.card_pos

theorem tmin_le (f : n → ℝ) (i : n) : tmin f ≤ f i := inf'_le _ (mem_univ i)
theorem le_tmax (f : n → ℝ) (i : n) : f i ≤ tmax f := le_sup' _ (mem_univ i)
theorem exists_tmin (f : n → ℝ) : ∃ i, tmin f = f i := by
  obtain ⟨i, _, h⟩ := exists_mem_eq_inf' (s := univ) univ_nonempty f
  exact ⟨i, h⟩
theorem exists_tmax (f : n → ℝ) : ∃ i, tmax f = f i := by
  obtain ⟨i, _, h⟩ := exists_mem_eq_sup' (s := univ) univ_nonempty f
  exact ⟨i, h⟩

theorem tmean_sub_self (f : n → ℝ) : ∑ i, (f i - tmean f) = 0 := by
  have : (Fintype.card n : ℝ) ≠ 0 := card_pos_real.ne'
  simp [sum_sub_distrib, tmean]
  field_simp
  ring

theorem tmean_div (f : n → ℝ) (c : ℝ) : tmean (fun i => f i / c) = tmean f / c := by
  simp only [tmean, ← Finset.sum_div]; ring

end

section
variable {X n d : Type} [Fintype n] [Nonempty n] [Fintype d] (φ : X → d → ℝ) (pts : n → X)

theorem eoos_sample (p : List Kind) : eoos φ pts p .sample = esample φ pts p := by
  cases p <;> rfl

theorem esample_cons_inv {k : Kind} {p : List Kind} {Y : n → d → ℝ} (h : esample φ pts (k :: p) = some Y) :
    ∃ S, esample φ pts p = some S ∧ ∃ st, colStat k p.head? S = some st ∧ applyKind k st S = Y := by
  have h' : ((esample φ pts p).bind fun S => (colStat k p.head? S).bind fun st => some (applyKind k st S)) = some Y := h
  obtain ⟨S, hS, h1⟩ := Option.bind_eq_some_iff.1 h'
  obtain ⟨st, hst, h2⟩ := Option.bind_eq_some_iff.1 h1
  exact ⟨S, hS, st, hst, Option.some.inj h2⟩

theorem eoos_nil (a : Arg X) : eoos φ pts [] a = some fun i => φ (a.pt pts i) := by
  cases a <;> rfl

theorem eoos_cons (k : Kind) (p : List Kind) (a : Arg X) :
    eoos φ pts (k :: p) a = (eoos φ pts p a).bind fun Y => (esample φ pts p).bind fun S =>
      (colStat k p.head? S).bind fun st => some (applyKind k st Y) := by
  cases a with
  | batch ι x => rfl
  | sample =>
    rw [eoos_sample, eoos_sample]
    show (esample φ pts p).bind _ = _
    cases h : esample φ pts p <;> rfl

/-- The statistics are defined: no standard deviation of a single point. -/
theorem colStat_isSome (k : Kind) (par : Option Kind) (S : n → d → ℝ) (h : k = .variance → Fintype.card n ≠ 1) :
    ∃ st, colStat k par S = some st := by
  cases k <;> simp_all [colStat]

theorem eoos_isSome (p : List Kind) (a : Arg X) (h : Kind.variance ∈ p → Fintype.card n ≠ 1) :
    ∃ Y, eoos φ pts p a = some Y := by
  induction p generalizing a with
  | nil => exact ⟨_, eoos_nil φ pts a⟩
  | cons k p ih =>
    have hp : Kind.variance ∈ p → Fintype.card n ≠ 1 := fun hm => h (List.mem_cons_of_mem _ hm)
    obtain ⟨Y, hY⟩ := ih a hp
    obtain ⟨S, hS⟩ := ih .sample hp
    rw [eoos_sample] at hS
    obtain ⟨st, hst⟩ := colStat_isSome k p.head? S (fun hk => h (by simp [hk]))
    exact ⟨applyKind k st Y, by rw [eoos_cons, hY, hS]; simp [hst]⟩

theorem revert_apply {ι : Type} (k : Kind) (hk : k ≠ .sphere) (st : d → ℝ) (Y : ι → d → ℝ) :
    revertKind k st (applyKind k st Y) = Y := by
  funext i j
  cases k <;> simp [revertKind, applyKind, clampEps_ne] at hk ⊢

theorem apply_revert {ι : Type} (k : Kind) (hk : k ≠ .sphere) (st : d → ℝ) (Y : ι → d → ℝ) :
    applyKind k st (revertKind k st Y) = Y := by
  funext i j
  cases k <;> simp [revertKind, applyKind, clampEps_ne] at hk ⊢

theorem erevert_cons {ι : Type} (k : Kind) (hk : k ≠ .sphere) (p : List Kind) (v : Option (ι → d → ℝ)) :
    erevert φ pts (k :: p) v = erevert φ pts p (v.bind fun v => (esample φ pts p).bind fun S =>
      (colStat k p.head? S).bind fun st => some (revertKind k st v)) := by
  cases k <;> first | rfl | exact absurd rfl hk

theorem applyKind_comp {ι κ : Type} (k : Kind) (st : d → ℝ) (Y : ι → d → ℝ) (f : κ → ι) :
    applyKind k st (Y ∘ f) = applyKind k st Y ∘ f := by
  funext i j
  cases k <;> rfl

end

section
variable {X n : Type} [Fintype n] [Nonempty n] (κ : X → X → ℝ) (pts : n → X)

/-- The kinds with an implicit formulation. -/
def Kind.implicit (k : Kind) : Prop := k = .mean ∨ k = .sphere

theorem ioos_nil (hκ : ∀ x y, κ x y = κ y x) (a b : Arg X) :
    ioos κ pts [] a b = .ok fun i j => κ (a.pt pts i) (b.pt pts j) := by
  cases a <;> cases b <;> first | rfl | (unfold ioos; congr 1; funext i j; exact hκ _ _)

end
end Kerch
