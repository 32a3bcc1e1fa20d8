import Verif.Lemmas.Transforms
set_option linter.unusedSectionVars false
set_option linter.unusedSimpArgs false
/-!
# C17–C20: values of chains of transforms

Chains are written from the last transform to the first.
-/
namespace Kerch
open Finset

/-! ## C17 -/

section C17
variable {X n d : Type} [Fintype n] [Nonempty n] [Fintype d] (φ : X → d → ℝ) (pts : n → X)

/-- Reverting the transformed data (sample or batch `a`) gives back the data, whatever the bijective chain and the data; constant columns
included. Missing (`_partial`): a unit variance normalisation relative to a sample of one point (`C17_single_point_violated`). -/
theorem C17_revert_apply_partial (p : List Kind) (hp : Kind.sphere ∉ p) (hv : Kind.variance ∈ p → Fintype.card n ≠ 1) (a : Arg X) :
    ∃ Y, eoos φ pts p a = some Y ∧ erevert φ pts p (some Y) = .ok (some fun i => φ (a.pt pts i)) := by
  induction p with
  | nil => exact ⟨_, eoos_nil φ pts a, rfl⟩
  | cons k p ih =>
    have hk : k ≠ .sphere := fun h => hp (by simp [h])
    have hv' : Kind.variance ∈ p → Fintype.card n ≠ 1 := fun hm => hv (List.mem_cons_of_mem _ hm)
    obtain ⟨Y, hY, hr⟩ := ih (fun h => hp (List.mem_cons_of_mem _ h)) hv'
    obtain ⟨S, hS⟩ := eoos_isSome φ pts p .sample hv'
    rw [eoos_sample] at hS
    obtain ⟨st, hst⟩ := colStat_isSome k p.head? S (fun hk => hv (by simp [hk]))
    refine ⟨applyKind k st Y, by rw [eoos_cons, hY, hS]; simp [hst], ?_⟩
    rw [erevert_cons _ _ _ hk, hS]
    simp only [Option.bind_some, hst, revert_apply k hk, hr]

/-- Conversely every transformed value is reached: reverting any data and transforming again the points found gives the data (on the space of
features itself, `φ = id`, as for the transforms of the sample). -/
theorem C17_apply_revert_partial (pts : n → d → ℝ) (p : List Kind) (hp : Kind.sphere ∉ p)
    (hv : Kind.variance ∈ p → Fintype.card n ≠ 1) {ι : Type} (Z : ι → d → ℝ) :
    ∃ x, erevert id pts p (some Z) = .ok (some x) ∧ eoos id pts p (.batch ι x) = some Z := by
  induction p generalizing Z with
  | nil => exact ⟨Z, rfl, rfl⟩
  | cons k p ih =>
    have hk : k ≠ .sphere := fun h => hp (by simp [h])
    have hv' : Kind.variance ∈ p → Fintype.card n ≠ 1 := fun hm => hv (List.mem_cons_of_mem _ hm)
    obtain ⟨S, hS⟩ := eoos_isSome id pts p .sample hv'
    rw [eoos_sample] at hS
    obtain ⟨st, hst⟩ := colStat_isSome k p.head? S (fun hk => hv (by simp [hk]))
    obtain ⟨x, h1, h2⟩ := ih (fun h => hp (List.mem_cons_of_mem _ h)) hv' (revertKind k st Z)
    refine ⟨x, ?_, ?_⟩
    · rw [erevert_cons _ _ _ hk, hS]
      simpa [hst] using h1
    · rw [eoos_cons, h2, hS]
      simp [hst, apply_revert k hk]

/-- A chain with a unit sphere normalisation anywhere is refused, whatever the value. -/
theorem C17_sphere (p : List Kind) (hp : Kind.sphere ∈ p) {ι : Type} (v : Option (ι → d → ℝ)) :
    erevert φ pts p v = .error .bijectionError := by
  induction p generalizing v with
  | nil => cases hp
  | cons k p ih =>
    by_cases hk : k = .sphere
    · subst hk; rfl
    · rw [erevert_cons _ _ _ hk]
      exact ih (by simpa [Ne.symm hk] using hp) _

/-- Violation: relative to a sample of one point a unit variance normalisation loses any data (`NaN`), and the revert does not bring them
back. -/
theorem C17_single_point_violated (h1 : Fintype.card n = 1) (p q : List Kind) (a : Arg X) :
    eoos φ pts (q ++ .variance :: p) a = none ∧
    (Kind.sphere ∉ p → ∀ {ι : Type} (v : Option (ι → d → ℝ)), erevert φ pts (.variance :: p) v = .ok none) := by
  constructor
  · induction q with
    | nil =>
      rw [List.nil_append, eoos_cons]
      cases eoos φ pts p a <;> cases esample φ pts p <;> simp [colStat, h1]
    | cons k q ih => rw [List.cons_append, eoos_cons, ih]; rfl
  · intro hp ι v
    have hnone : ∀ p : List Kind, Kind.sphere ∉ p → erevert φ pts p (none : Option (ι → d → ℝ)) = .ok none := by
      intro p hp
      induction p with
      | nil => rfl
      | cons k p ih =>
        rw [erevert_cons _ _ _ (fun h => hp (by simp [h]))]
        exact ih (fun h => hp (List.mem_cons_of_mem _ h))
    rw [erevert_cons _ _ _ (by decide)]
    have : (v.bind fun v => (esample φ pts p).bind fun S =>
      (colStat Kind.variance p.head? S).bind fun st => some (revertKind Kind.variance st v)) = none := by
      cases v <;> cases esample φ pts p <;> simp [colStat, h1]
    rw [this]
    exact hnone p hp

end C17

/-- A chain as in `minmax_rescaling` after `standard`, on a sample of two points (one column constant). -/
example : ∃ Y, eoos id (fun (i : Fin 2) (j : Fin 2) => if j = 0 then (i : ℝ) else 3) [.minmax, .minimum, .variance, .mean]
      (.batch Unit fun _ _ => 5) = some Y ∧
    erevert id (fun (i : Fin 2) (j : Fin 2) => if j = 0 then (i : ℝ) else 3) [.minmax, .minimum, .variance, .mean] (some Y)
      = .ok (some fun _ _ => 5) :=
  C17_revert_apply_partial id _ _ (by decide) (by simp) (.batch Unit fun _ _ => 5)

/-! ## C18 -/

section C18
variable {X n d : Type} [Fintype n] [Nonempty n] [Fintype d] (φ : X → d → ℝ) (pts : n → X)

/-- Specification: unbiased variance of a column. -/
noncomputable def colVar (f : n → ℝ) : ℝ := (∑ i, (f i - (∑ l, f l) / Fintype.card n) ^ 2) / ((Fintype.card n : ℝ) - 1)

/-- Specification: `r` is the range of a column. -/
def IsRange (f : n → ℝ) (r : ℝ) : Prop := (∀ i l, f i - f l ≤ r) ∧ ∃ i l, f i - f l = r

theorem C18_mean (p : List Kind) (Y : n → d → ℝ) (h : esample φ pts (.mean :: p) = some Y) (j : d) : ∑ i, Y i j = 0 := by
  obtain ⟨S, hS, st, hst, rfl⟩ := esample_cons_inv φ pts h
  simp only [colStat, Option.some.injEq] at hst
  subst hst
  exact tmean_sub_self fun i => S i j

theorem C18_minimum (p : List Kind) (Y : n → d → ℝ) (h : esample φ pts (.minimum :: p) = some Y) (j : d) :
    (∀ i, 0 ≤ Y i j) ∧ ∃ i, Y i j = 0 := by
  obtain ⟨S, hS, st, hst, rfl⟩ := esample_cons_inv φ pts h
  simp only [colStat, Option.some.injEq] at hst
  subst hst
  refine ⟨fun i => sub_nonneg.2 (tmin_le (fun i => S i j) i), ?_⟩
  obtain ⟨i, hi⟩ := exists_tmin fun i => S i j
  exact ⟨i, by simp [applyKind, hi]⟩

/-- `S` are the data before the normalisation: columns with standard deviation at least `EPS` get variance 1, all others less. -/
theorem C18_variance (p : List Kind) (S Y : n → d → ℝ) (hS : esample φ pts p = some S)
    (h : esample φ pts (.variance :: p) = some Y) (j : d) :
    2 ≤ Fintype.card n ∧ (EPS ^ 2 ≤ colVar (fun i => S i j) → colVar (fun i => Y i j) = 1) ∧
    (colVar (fun i => S i j) < EPS ^ 2 → colVar (fun i => Y i j) < 1) := by
  obtain ⟨S', hS', st, hst, rfl⟩ := esample_cons_inv φ pts h
  obtain rfl : S = S' := by rw [hS] at hS'; exact Option.some.inj hS'
  have hn : Fintype.card n ≠ 1 := by intro h1; simp [colStat, h1] at hst
  have hpos : 0 < Fintype.card n := Fintype.card_pos
  have hc : (2 : ℝ) ≤ Fintype.card n := by exact_mod_cast (by omega : 2 ≤ Fintype.card n)
  simp only [colStat, hn, if_false, Option.some.injEq] at hst
  subst hst
  have hvar : 0 ≤ colVar fun i => S i j := div_nonneg (sum_nonneg fun _ _ => sq_nonneg _) (by linarith)
  have hsd : (tstd fun i => S i j).getD 0 = Real.sqrt (colVar fun i => S i j) := by
    simp [tstd, hn, colVar, tmean]
  have hY : colVar (fun i => applyKind Kind.variance (fun j => (tstd fun i => S i j).getD 0) S i j)
      = colVar (fun i => S i j) / clampEps (Real.sqrt (colVar fun i => S i j)) ^ 2 := by
    simp only [applyKind, hsd]
    generalize clampEps (Real.sqrt (colVar fun i => S i j)) = c
    have key : ∀ i, (S i j / c - (∑ l, S l j / c) / Fintype.card n) ^ 2
        = (S i j - (∑ l, S l j) / Fintype.card n) ^ 2 / c ^ 2 := by
      intro i
      rw [← Finset.sum_div, ← div_pow]
      congr 1
      ring
    unfold colVar
    simp only [key]
    rw [← Finset.sum_div]
    ring
  rw [hY]
  refine ⟨by omega, fun hge => ?_, fun hlt => ?_⟩
  · have he : EPS ≤ Real.sqrt (colVar fun i => S i j) := Real.le_sqrt_of_sq_le hge
    rw [clampEps_of_le he, Real.sq_sqrt hvar]
    exact div_self (by have := pow_pos EPS_pos 2; linarith)
  · rw [div_lt_one (pow_pos (clampEps_pos _) 2)]
    refine lt_of_lt_of_le hlt (pow_le_pow_left₀ EPS_pos.le (le_max_right _ _) 2)

/-- Range of the columns after min-max normalisation, and values in `[0,1]` when the minimum was removed before (degenerate columns included). -/
theorem C18_minmax (p : List Kind) (S Y : n → d → ℝ) (hS : esample φ pts p = some S)
    (h : esample φ pts (.minmax :: p) = some Y) (j : d) (r : ℝ) (hr : IsRange (fun i => S i j) r) :
    (EPS ≤ r → IsRange (fun i => Y i j) 1) ∧ (∀ i l, Y i j - Y l j ≤ 1) ∧
    (p.head? = some .minimum → ∀ i, 0 ≤ Y i j ∧ Y i j ≤ 1) := by
  obtain ⟨S', hS', st, hst, rfl⟩ := esample_cons_inv φ pts h
  obtain rfl : S = S' := by rw [hS] at hS'; exact Option.some.inj hS'
  simp only [colStat, Option.some.injEq] at hst
  obtain ⟨imax, hmax⟩ := exists_tmax fun i => S i j
  obtain ⟨imin, hmin⟩ := exists_tmin fun i => S i j
  have hmm : tmax (fun i => S i j) - tmin (fun i => S i j) = r := by
    apply le_antisymm
    · rw [hmax, hmin]; exact hr.1 imax imin
    · obtain ⟨i, l, hil⟩ := hr.2
      rw [← hil]
      linarith [le_tmax (fun i => S i j) i, tmin_le (fun i => S i j) l]
  have hmin0 : p.head? = some .minimum → tmin (fun i => S i j) = 0 := by
    intro hp
    cases p with
    | nil => cases hp
    | cons k p =>
      simp only [List.head?_cons, Option.some.injEq] at hp
      subst hp
      obtain ⟨h0, i, hi⟩ := C18_minimum φ pts p S hS j
      apply le_antisymm
      · rw [← hi]; exact tmin_le (fun i => S i j) i
      · rw [hmin]; exact h0 imin
  have hst' : st j = r := by
    rw [← hst]
    by_cases hp : p.head? = some .minimum
    · simp only [hp, if_true]; rw [← hmm, hmin0 hp, sub_zero]
    · simp only [hp, if_false]; exact hmm
  have hval : ∀ i, applyKind Kind.minmax st S i j = S i j / clampEps r := by intro i; simp [applyKind, hst']
  have hdiff : ∀ i l, applyKind Kind.minmax st S i j - applyKind Kind.minmax st S l j = (S i j - S l j) / clampEps r := by
    intro i l; rw [hval, hval]; ring
  have hle : ∀ i l, applyKind Kind.minmax st S i j - applyKind Kind.minmax st S l j ≤ 1 := by
    intro i l
    rw [hdiff, div_le_one (clampEps_pos r)]
    exact (hr.1 i l).trans (le_clampEps r)
  refine ⟨fun he => ⟨hle, ?_⟩, hle, fun hp i => ?_⟩
  · obtain ⟨i, l, hil⟩ := hr.2
    refine ⟨i, l, ?_⟩
    rw [hdiff, hil, clampEps_of_le he]
    exact div_self (by linarith [EPS_pos])
  · have h0 : S imin j = 0 := by have := hmin0 hp; rw [hmin] at this; exact this
    have hpos : 0 ≤ S i j := by rw [← h0, ← hmin]; exact tmin_le (fun i => S i j) i
    rw [hval]
    refine ⟨div_nonneg hpos (clampEps_pos r).le, ?_⟩
    rw [div_le_one (clampEps_pos r)]
    have := hr.1 i imin
    linarith [le_clampEps r]

/-- Every column has a range, so that `C18_minmax` applies to all of them. -/
theorem C18_range_exists (f : n → ℝ) : ∃ r, IsRange f r := by
  obtain ⟨i, hi⟩ := exists_tmax f
  obtain ⟨l, hl⟩ := exists_tmin f
  exact ⟨f i - f l, fun i' l' => by linarith [le_tmax f i', tmin_le f l'], i, l, rfl⟩

/-- Rows after unit sphere normalisation, for the sample and for out-of-sample points. -/
theorem C18_sphere (p : List Kind) (a : Arg X) (S Y : a.I n → d → ℝ) (hS : eoos φ pts p a = some S)
    (h : eoos φ pts (.sphere :: p) a = some Y) (i : a.I n) :
    (EPS ^ 2 ≤ ∑ j, S i j ^ 2 → ∑ j, Y i j ^ 2 = 1) ∧ (∑ j, S i j ^ 2 < EPS ^ 2 → ∑ j, Y i j ^ 2 < 1) := by
  rw [eoos_cons, hS] at h
  simp only [Option.bind_some] at h
  obtain ⟨S', hS', h⟩ := Option.bind_eq_some_iff.1 h
  simp only [colStat, Option.bind_some, Option.some.injEq] at h
  subst h
  have hY : ∑ j, applyKind Kind.sphere (fun _ => 0) S i j ^ 2 = (∑ j, S i j ^ 2) / clampEps (tnorm (S i)) ^ 2 := by
    simp only [applyKind, div_pow, ← Finset.sum_div]
  rw [hY]
  constructor
  · intro hge
    have he : EPS ≤ tnorm (S i) := Real.le_sqrt_of_sq_le hge
    rw [clampEps_of_le he, tnorm_sq]
    exact div_self (by have := pow_pos EPS_pos 2; linarith)
  · intro hlt
    rw [div_lt_one (pow_pos (clampEps_pos _) 2)]
    exact lt_of_lt_of_le hlt (pow_le_pow_left₀ EPS_pos.le (le_max_right _ _) 2)

/-- `standard`: centering then unit variance keeps the column means zero. -/
theorem C18_standard (p : List Kind) (Y : n → d → ℝ) (h : esample φ pts (.variance :: .mean :: p) = some Y) (j : d) :
    ∑ i, Y i j = 0 := by
  obtain ⟨S, hS, st, hst, rfl⟩ := esample_cons_inv φ pts h
  simp only [applyKind, ← Finset.sum_div, C18_mean φ pts p S hS j, zero_div]

end C18

/-- The hypotheses on a sample of two points: standard deviation `√2/2 ≥ EPS`, range 1. -/
example : EPS ^ 2 ≤ colVar (fun i : Fin 2 => (i : ℝ)) ∧ IsRange (fun i : Fin 2 => (i : ℝ)) 1 ∧
    ∃ Y, esample id (fun (i : Fin 2) (_ : Unit) => (i : ℝ)) [.variance] = some Y := by
  refine ⟨?_, ⟨?_, 1, 0, by simp⟩, ?_⟩
  · norm_num [colVar, EPS, Fin.sum_univ_two]
  · intro i l; fin_cases i <;> fin_cases l <;> norm_num
  · exact eoos_isSome id (fun (i : Fin 2) (_ : Unit) => (i : ℝ)) [.variance] .sample (by simp)

/-! ## Cases by name -/
section
/-- Three points in the plane, the second feature constant. -/
def three (i : Fin 3) (j : Fin 2) : ℝ := if j = 0 then (i : ℝ) else 3

example (Z : Fin 4 → Fin 2 → ℝ) : ∃ x, erevert id three [.variance, .mean] (some Z) = .ok (some x) ∧ eoos id three [.variance, .mean] (.batch (Fin 4) x) = some Z :=
  C17_apply_revert_partial three _ (by decide) (fun _ => by decide) Z

example (v : Option (Fin 4 → Fin 2 → ℝ)) : erevert id three [.mean, .sphere] v = .error .bijectionError := C17_sphere _ _ _ (by decide) v

example : eoos id (fun (_ : Fin 1) (j : Fin 2) => (j : ℝ)) [.mean, .variance] .sample = none := (C17_single_point_violated _ _ (by simp) [] [.mean] .sample).1
end


end Kerch
