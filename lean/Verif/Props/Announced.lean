import Verif.Model.Announced
import Verif.Props.Transforms
import Verif.Props.KernelList
import Verif.Props.PSD
/-!
# C118: a kernel is centred and normalised when it says so
-/
set_option linter.unusedSectionVars false
set_option linter.unusedSimpArgs false
namespace Kerch
namespace Announced
open Finset

/-! ## Helper lemmas -/

theorem centered_iff (K : KCls) (t : List Kind) : centered K t = true ↔ ∃ p, t = p ++ [.mean] := by
  simp only [centered, naturallyCentered, Bool.false_and, Bool.false_or, beq_iff_eq, finalTransform, List.getLast?_eq_some_iff]

theorem normalized_iff (K : KCls) (t : List Kind) : normalized K t = true ↔ (K.natNorm = true ∧ t = []) ∨ ∃ p, t = p ++ [.sphere] := by
  simp only [normalized, Bool.or_eq_true, Bool.and_eq_true, beq_iff_eq, finalTransform, List.getLast?_eq_some_iff, List.getLast?_eq_none_iff]

section
variable {X n d : Type} [Fintype n] [Nonempty n] [Fintype d] (φ : X → d → ℝ) (κ : X → X → ℝ) (pts : n → X)

theorem sum_tmean (f : n → ℝ) : ∑ i, f i = Fintype.card n * tmean f := by
  unfold tmean
  rw [mul_div_cancel₀]
  exact_mod_cast Fintype.card_ne_zero

theorem istep_mean_sum (par : (a b : Arg X) → Except Err (a.I n → b.I n → ℝ)) (a : Arg X) (M : a.I n → n → ℝ) (h : istep .mean par a .sample = .ok M) (i : a.I n) : ∑ l, M i l = 0 := by
  simp only [istep, bind, Except.bind] at h
  split at h
  · cases h
  · rename_i A hA
    split at h
    · cases h
    · rename_i S hS
      cases h
      have e : ∑ l, (A i l - tmean (A i) - tmean (S l) + tmean fun l => tmean (S l)) = 0 := by
        rw [sum_add_distrib, sum_sub_distrib, sum_sub_distrib, sum_const, sum_const, sum_tmean (A i), sum_tmean fun l => tmean (S l), card_univ]
        simp only [nsmul_eq_mul]
        ring
      exact e

/-! ## Properties -/

/-- C118, centring of the features: if `centered` is true, the features of the sample sum to zero. -/
theorem C118_centered_features_partial (K : KCls) (t : List Kind) (hc : centered K t = true) (Y : n → d → ℝ) (h : esample φ pts t.reverse = some Y) (j : d) : ∑ i, Y i j = 0 := by
  obtain ⟨p, rfl⟩ := (centered_iff K t).mp hc
  rw [List.reverse_append, List.reverse_singleton, List.singleton_append] at h
  exact C18_mean φ pts p.reverse Y h j

/-- C118, centring of the values: if `centered` is true, the values of any point against the sample sum to zero, for every kernel. -/
theorem C118_centered_values_partial (K : KCls) (t : List Kind) (hc : centered K t = true) (a : Arg X) (M : a.I n → n → ℝ) (h : ioos κ pts t.reverse a .sample = .ok M) (i : a.I n) :
    ∑ l, M i l = 0 := by
  obtain ⟨p, rfl⟩ := (centered_iff K t).mp hc
  rw [List.reverse_append, List.reverse_singleton, List.singleton_append] at h
  cases a <;> exact istep_mean_sum _ _ M h i

/-- C118, normalisation of the features: if `normalized` is true by a transform, the features of each point have norm 1 unless they are negligible before. -/
theorem C118_normalized_features_partial (K : KCls) (t : List Kind) (hc : normalized K t = true) (ht : t ≠ []) (a : Arg X) (Y : a.I n → d → ℝ) (h : eoos φ pts t.reverse a = some Y) :
    ∃ S, eoos φ pts t.dropLast.reverse a = some S ∧ ∀ i, EPS ^ 2 ≤ ∑ j, S i j ^ 2 → ∑ j, Y i j ^ 2 = 1 := by
  rcases (normalized_iff K t).mp hc with h0 | ⟨p, rfl⟩
  · exact absurd h0.2 ht
  · rw [List.reverse_append, List.reverse_singleton, List.singleton_append] at h
    rw [List.dropLast_concat]
    obtain ⟨S, hS⟩ : ∃ S, eoos φ pts p.reverse a = some S := by
      rw [eoos_cons] at h
      obtain ⟨S, hS, -⟩ := Option.bind_eq_some_iff.1 h
      exact ⟨S, hS⟩
    exact ⟨S, hS, fun i hi => (C18_sphere φ pts p.reverse a S Y hS h i).1 hi⟩

/-- C118, normalisation of the values: likewise for the value of a point with itself. -/
theorem C118_normalized_values_partial (K : KCls) (hκ : ∀ x y, κ x y = κ y x) (t : List Kind) (hc : normalized K t = true) (ht : t ≠ []) (hk : ∀ k ∈ t, k = .mean ∨ k = .sphere)
    (a b : Arg X) (i : a.I n) (j : b.I n) (hij : a.pt pts i = b.pt pts j) :
    ∃ M P, ioos κ pts t.reverse a b = .ok M ∧ ioos κ pts t.dropLast.reverse a b = .ok P ∧ (EPS ≤ P i j → M i j = 1) := by
  rcases (normalized_iff K t).mp hc with h0 | ⟨p, rfl⟩
  · exact absurd h0.2 ht
  · rw [List.reverse_append, List.reverse_singleton, List.singleton_append, List.dropLast_concat]
    have hp : ∀ k ∈ p.reverse, k = .mean ∨ k = .sphere := fun k h => hk k (by simp at h; simp [h])
    have hp' : ∀ k ∈ Kind.sphere :: p.reverse, k = .mean ∨ k = .sphere := fun k h => by
      rcases List.mem_cons.mp h with rfl | h
      · exact .inr rfl
      · exact hp k h
    refine ⟨_, _, ioos_kchain κ pts hκ _ hp' a b, ioos_kchain κ pts hκ _ hp a b, fun hE => ?_⟩
    have h0 : (0 : ℝ) < EPS := by norm_num [EPS]
    simp only [kchain]
    rw [hij] at hE ⊢
    rw [Real.mul_self_sqrt (h0.le.trans hE), clampEps_of_le hE, div_self (h0.trans_le hE).ne']
end

/-- C118, kernels that are normalised by nature: all of the statistics but Silverman's and the logistic one say so, and have unit diagonal. -/
theorem C118_natural_partial {d : Type} [Fintype d] [Nonempty d] (s : StatKind) (hs : s ≠ .silverman) (D : DistKind) (hD : ∀ p, D ≠ .minkowski p) (σ : ℝ) (x : d → ℝ) :
    statKernel s D σ x x = .ok 1 ∧ (normalized (.stat s) [] = true ↔ s ≠ .logistic) := by
  refine ⟨C22_unit_diagonal_partial s hs D hD σ x, ?_⟩
  rw [normalized_iff]
  cases s <;> simp [KCls.stat, naturallyNormalized]

/-- C118, options: what a kernel without required transform announces, made with `center` and `normalize` and no other transform. -/
theorem C118_options (K : KCls) (hK : K.required = none) (center normalize : Bool) : ∃ t, (kernelInit K center normalize []).2 = .ok t ∧
    centered K t = (center && !normalize) ∧ normalized K t = (normalize || (K.natNorm && !center)) := by
  obtain ⟨r, nat⟩ := K
  simp only at hK
  subst hK
  have h1 : beautify [.name "mean_centering"] = .ok [.mean] := by decide +kernel
  have h2 : beautify [.name "unit_sphere_normalization"] = .ok [.sphere] := by decide +kernel
  have h3 : beautify [.name "mean_centering", .name "unit_sphere_normalization"] = .ok [.mean, .sphere] := by decide +kernel
  have h4 : beautify [] = .ok [] := by decide +kernel
  cases center <;> cases normalize <;> cases nat <;>
    simp [kernelInit, simplify, h1, h2, h3, h4, Except.map, dropFirst, centered, normalized, naturallyCentered, finalTransform]

/-- The points -1, -1, 2. -/
def tilted : Fin 3 → Fin 1 → ℝ := fun i _ => if i = 2 then 2 else -1

/-- The chain of centrings and normalisations of `tilted`: always a multiple of it, or its signs. -/
theorem tilted_chain (p : List Kind) (hp : ∀ k ∈ p, k = .mean ∨ k = .sphere) : ∃ S : Fin 3 → Fin 1 → ℝ, esample (fun x : Fin 1 → ℝ => x) tilted p = some S ∧
    (p.head? = some .sphere → S 0 0 = -1 ∧ S 1 0 = -1 ∧ S 2 0 = 1) ∧
    ((S 0 0 = -1 ∧ S 1 0 = -1 ∧ S 2 0 = 1) ∨ (S 0 0 = -1 ∧ S 1 0 = -1 ∧ S 2 0 = 2) ∨ (S 0 0 = -2 / 3 ∧ S 1 0 = -2 / 3 ∧ S 2 0 = 4 / 3)) := by
  induction p with
  | nil => exact ⟨tilted, rfl, by simp, .inr (.inl (by simp [tilted]))⟩
  | cons k p ih =>
    obtain ⟨S, hS, -, h⟩ := ih fun k hk => hp k (List.mem_cons_of_mem _ hk)
    rcases hp k List.mem_cons_self with rfl | rfl
    · refine ⟨applyKind .mean (fun j => tmean fun i => S i j) S, by simp [esample, hS, colStat], by simp, ?_⟩
      simp only [applyKind, tmean, Fin.sum_univ_three, Fintype.card_fin]
      rcases h with h | h | h <;> rw [h.1, h.2.1, h.2.2] <;> norm_num
    · have hn : ∀ i, applyKind .sphere (fun _ => 0) S i 0 = S i 0 / clampEps |S i 0| := by
        intro i
        simp [applyKind, tnorm, Real.sqrt_sq_eq_abs]
      have key : applyKind .sphere (fun _ => 0) S 0 0 = -1 ∧ applyKind .sphere (fun _ => 0) S 1 0 = -1 ∧ applyKind .sphere (fun _ => 0) S 2 0 = 1 := by
        rw [hn, hn, hn]
        rcases h with h | h | h <;> rw [h.1, h.2.1, h.2.2] <;> norm_num [clampEps, EPS, abs_of_neg, abs_of_pos]
      exact ⟨applyKind .sphere (fun _ => 0) S, by simp [esample, hS, colStat], fun _ => key, .inl key⟩

/-- C118, converse for centring: among centrings and normalisations, whenever `centered` is false there are samples whose features are not centred. -/
theorem C118_not_centered_partial (K : KCls) (t : List Kind) (ht : ∀ k ∈ t, k = .mean ∨ k = .sphere) (hc : centered K t = false) :
    ∃ (pts : Fin 3 → Fin 1 → ℝ) (Y : Fin 3 → Fin 1 → ℝ), esample (fun x : Fin 1 → ℝ => x) pts t.reverse = some Y ∧ ∑ i, Y i 0 ≠ 0 := by
  rcases List.eq_nil_or_concat t with rfl | ⟨p, k, rfl⟩
  · exact ⟨fun _ _ => 1, _, rfl, by simp⟩
  · simp only [List.concat_eq_append] at *
    rcases ht k (by simp) with rfl | rfl
    · have := (centered_iff K (p ++ [.mean])).mpr ⟨p, rfl⟩
      rw [this] at hc
      cases hc
    · obtain ⟨S, hS, h, -⟩ := tilted_chain (p ++ [Kind.sphere]).reverse (fun k hk => ht k (by simpa [or_comm] using hk))
      refine ⟨tilted, S, hS, ?_⟩
      obtain ⟨h0, h1, h2⟩ := h (by simp)
      rw [Fin.sum_univ_three, h0, h1, h2]
      norm_num

/-- C118 is violated: Silverman's kernel says it is normalised; its values on the diagonal are `√½`. -/
theorem C118_silverman_violated {d : Type} [Fintype d] [Nonempty d] (D : DistKind) (hD : ∀ p, D ≠ .minkowski p) (σ : ℝ) (x : d → ℝ) :
    normalized (.stat .silverman) [] = true ∧ statKernel .silverman D σ x x = .ok (Real.sqrt (1 / 2)) ∧ Real.sqrt (1 / 2) ≠ 1 := by
  obtain ⟨-, h1, h2, -⟩ := C22_silverman_violated D hD σ x
  exact ⟨rfl, h1, h2⟩

/-- C118 is violated: the logistic kernel has unit diagonal and says it is not normalised. -/
theorem C118_logistic_violated {d : Type} [Fintype d] [Nonempty d] (D : DistKind) (hD : ∀ p, D ≠ .minkowski p) (σ : ℝ) (x : d → ℝ) :
    normalized (.stat .logistic) [] = false ∧ statKernel .logistic D σ x x = .ok 1 :=
  ⟨rfl, C22_unit_diagonal_partial .logistic (by simp) D hD σ x⟩

/-- C118 is violated: features that are standardised (centred, then scaled) are centred; `centered` is false and a KPCA level warns. -/
theorem C118_standard_violated {X n d : Type} [Fintype n] [Nonempty n] [Fintype d] (φ : X → d → ℝ) (pts : n → X) (K : KCls) (p : List Kind) (Y : n → d → ℝ)
    (h : esample φ pts (p ++ [Kind.mean, .variance]).reverse = some Y) : centered K (p ++ [.mean, .variance]) = false ∧ ∀ j, ∑ i, Y i j = 0 := by
  refine ⟨?_, fun j => ?_⟩
  · have : p ++ [Kind.mean, .variance] = (p ++ [.mean]) ++ [.variance] := by simp
    rw [this]
    simp [centered, naturallyCentered, finalTransform]
  · rw [List.reverse_append] at h
    exact C18_standard φ pts p.reverse Y h j

/-! ## Cases -/

example : ∃ M : Fin 3 → Fin 3 → ℝ, ioos linearKernel tilted [Kind.sphere, .mean].reverse .sample .sample = .ok M ∧ ∀ i, ∑ l, M i l = 0 := by
  refine ⟨_, ioos_kchain linearKernel tilted (fun x y => dotProduct_comm _ _) _ (by simp) .sample .sample, fun i => ?_⟩
  exact C118_centered_values_partial linearKernel tilted .linear [.sphere, .mean] rfl .sample _ (ioos_kchain linearKernel tilted (fun x y => dotProduct_comm _ _) _ (by simp) .sample .sample) i

example : ∃ Y : Fin 3 → Fin 1 → ℝ, esample (fun x : Fin 1 → ℝ => x) tilted [Kind.sphere, .mean].reverse = some Y ∧ ∑ i, Y i 0 = 0 := by
  obtain ⟨Y, hY, -⟩ := tilted_chain [.mean, .sphere] (by simp)
  exact ⟨Y, hY, C118_centered_features_partial _ _ .linear [.sphere, .mean] rfl Y hY 0⟩

/-- The features 1 of three points, centred and normalised: the norm before is that of the centred features. -/
example : ∃ Y : Fin 3 → Fin 1 → ℝ, ∃ S : Fin 3 → Fin 1 → ℝ, esample (fun x : Fin 1 → ℝ => x) tilted [Kind.mean, .sphere].reverse = some Y ∧
    ∀ i, EPS ^ 2 ≤ ∑ j, S i j ^ 2 → ∑ j, Y i j ^ 2 = 1 := by
  obtain ⟨Y, hY, -⟩ := tilted_chain [.sphere, .mean] (by simp)
  obtain ⟨S, -, h⟩ := C118_normalized_features_partial (fun x : Fin 1 → ℝ => x) tilted .linear [.mean, .sphere] rfl (by simp) .sample Y (by simpa [eoos] using hY)
  exact ⟨Y, S, hY, h⟩

example : ∃ M P : Fin 3 → Fin 3 → ℝ, ioos linearKernel tilted [.sphere] .sample .sample = .ok M ∧ ioos linearKernel tilted [] .sample .sample = .ok P ∧ (EPS ≤ P 0 0 → M 0 0 = 1) :=
  C118_normalized_values_partial linearKernel tilted .cosine (fun x y => dotProduct_comm _ _) [.sphere] rfl (by simp) (by simp) .sample .sample 0 0 rfl

example : ∃ pts Y : Fin 3 → Fin 1 → ℝ, esample (fun x : Fin 1 → ℝ => x) pts [Kind.mean, .sphere].reverse = some Y ∧ ∑ i, Y i 0 ≠ 0 :=
  C118_not_centered_partial .linear [.mean, .sphere] (by simp) rfl

example : ∃ Y : Fin 3 → Fin 1 → ℝ, esample (fun x : Fin 1 → ℝ => x) tilted [Kind.mean, .variance].reverse = some Y ∧ centered .linear [.mean, .variance] = false ∧ ∀ j, ∑ i, Y i j = 0 := by
  refine ⟨_, rfl, ?_⟩
  exact C118_standard_violated (fun x : Fin 1 → ℝ => x) tilted .linear [] _ rfl

end Announced
end Kerch
