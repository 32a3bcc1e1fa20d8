import Verif.Props.LeaveOut
/-!
# C159: a LS-SVM is a ridge regression on centred data, and what a constant feature does instead of a bias
-/
set_option linter.unusedSectionVars false
set_option linter.unusedSimpArgs false
namespace Kerch
namespace RidgeBias
open Finset LSSVM LSTrain LeaveOut

variable {m : ℕ} {X : Type}

/-! ## Lemmas -/

theorem centred_mul (K : Fin m → Fin m → ℝ) (h : Fin m → ℝ) (h0 : ∑ i, h i = 0) (f : Fin m → ℝ) (c : ℝ) :
    ∑ j, (f j - c - tmean (K j) + tmean fun l => tmean (K l)) * h j = ∑ j, f j * h j - ∑ j, tmean (K j) * h j := by
  have : ∀ j, (f j - c - tmean (K j) + tmean fun l => tmean (K l)) * h j =
      f j * h j - tmean (K j) * h j + ((tmean fun l => tmean (K l)) - c) * h j := fun j => by ring
  simp only [this, sum_add_distrib, sum_sub_distrib, ← mul_sum, h0, mul_zero, add_zero]

theorem mean_mul (K : Fin m → Fin m → ℝ) (hsym : ∀ i j, K i j = K j i) (h : Fin m → ℝ) :
    ∑ j, tmean (K j) * h j = tmean fun i => ∑ j, K i j * h j := by
  simp only [tmean, div_mul_eq_mul_div, ← sum_div, sum_mul]
  rw [sum_comm]
  congr 1
  exact sum_congr rfl fun i _ => sum_congr rfl fun j _ => by rw [hsym]

theorem tmean_sub (f g : Fin m → ℝ) : tmean (fun i => f i - g i) = tmean f - tmean g := by
  simp only [tmean, sum_sub_distrib, sub_div]

theorem tmean_add (f g : Fin m → ℝ) : tmean (fun i => f i + g i) = tmean f + tmean g := by
  simp only [tmean, sum_add_distrib, add_div]

theorem tmean_const (hm : 0 < m) (c : ℝ) : tmean (fun _ : Fin m => c) = c := by
  have : (m : ℝ) ≠ 0 := by exact_mod_cast hm.ne'
  simp only [tmean, sum_const, card_univ, Fintype.card_fin, nsmul_eq_mul]
  field_simp

theorem sum_tmean (hm : 0 < m) (f : Fin m → ℝ) : ∑ i, f i = m * tmean f := by
  have : (m : ℝ) ≠ 0 := by exact_mod_cast hm.ne'
  simp only [tmean, Fintype.card_fin]
  field_simp

/-- The matrix of a centred kernel and its values at further points, from those before centring. -/
theorem centred_of [Nonempty (Fin m)] (κ : X → X → ℝ) (pts : Fin m → X) (p : List Kind) {ι : Type} (x : ι → X) (K K' : Fin m → Fin m → ℝ) (k k' : ι → Fin m → ℝ)
    (hK : ioos κ pts p .sample .sample = .ok K) (hk : ioos κ pts p (.batch ι x) .sample = .ok k)
    (hK' : ioos κ pts (.mean :: p) .sample .sample = .ok K') (hk' : ioos κ pts (.mean :: p) (.batch ι x) .sample = .ok k') :
    K' = (fun i j => K i j - tmean (K i) - tmean (K j) + tmean fun l => tmean (K l)) ∧
      k' = fun i j => k i j - tmean (k i) - tmean (K j) + tmean fun l => tmean (K l) := by
  constructor
  · have : ioos κ pts (.mean :: p) .sample .sample = .ok fun i j => K i j - tmean (K i) - tmean (K j) + tmean fun l => tmean (K l) := by
      show istep .mean (ioos κ pts p) .sample .sample = _
      unfold istep
      dsimp only
      rw [hK]
      rfl
    exact Except.ok.inj (hK'.symm.trans this)
  · have : ioos κ pts (.mean :: p) (.batch ι x) .sample = .ok fun i j => k i j - tmean (k i) - tmean (K j) + tmean fun l => tmean (K l) := by
      show istep .mean (ioos κ pts p) (.batch ι x) .sample = _
      unfold istep
      dsimp only
      rw [hK, hk]
      rfl
    exact Except.ok.inj (hk'.symm.trans this)

/-! ## Properties -/

/-- **C159** A LS-SVM is a ridge regression on a centred kernel with centred targets: for every kernel with any transforms, every sample, all targets and every `γ ≠ 0`, the dual variables of the one at
`gamma = γ` are those of the other at `gamma = 1/γ`, and at every further point the output of the LS-SVM is the mean of the targets plus the output of the ridge regression, which has no bias. -/
theorem C159_centred [Nonempty (Fin m)] (κ : X → X → ℝ) (pts : Fin m → X) (p : List Kind) {ι : Type} (x : ι → X) (K K' : Fin m → Fin m → ℝ) (k k' : ι → Fin m → ℝ)
    (hK : ioos κ pts p .sample .sample = .ok K) (hk : ioos κ pts p (.batch ι x) .sample = .ok k)
    (hK' : ioos κ pts (.mean :: p) .sample .sample = .ok K') (hk' : ioos κ pts (.mean :: p) (.batch ι x) .sample = .ok k')
    (hsym : ∀ i j, K i j = K j i) (γ : ℝ) (hγ : γ ≠ 0) (y h : Fin m → ℝ) :
    (RidgeDual K' (1 / γ) (fun i => y i - tmean y) h ↔ ∃ b, DualSol K γ y h b) ∧
      ∀ b, DualSol K γ y h b → ∀ i b₀, outDual (k i) h b = tmean y + out false (k' i) h b₀ := by
  obtain ⟨rfl, rfl⟩ := centred_of κ pts p x K K' k k' hK hk hK' hk'
  have hm : 0 < m := Fin.pos_iff_nonempty.mpr inferInstance
  have hmr : (m : ℝ) ≠ 0 := by exact_mod_cast hm.ne'
  have hb : ∀ b, DualSol K γ y h b → (tmean fun i => ∑ j, K i j * h j) = tmean y - b := by
    rintro b ⟨h1, h2⟩
    have e : y = fun i => (∑ j, K i j * h j + γ * h i) + b := funext fun i => (h1 i).symm
    have e2 : tmean (fun i => γ * h i) = 0 := by simp only [tmean, ← mul_sum, h2, mul_zero, zero_div]
    have e3 : tmean y = (tmean fun i => ∑ j, K i j * h j) + b := by
      conv_lhs => rw [e]
      rw [tmean_add, tmean_add, e2, tmean_const hm, add_zero]
    linarith
  refine ⟨⟨fun hr => ?_, ?_⟩, ?_⟩
  · have h0 : ∑ i, h i = 0 := by
      have hs : ∑ i, (∑ j, (K i j - tmean (K i) - tmean (K j) + tmean fun l => tmean (K l)) * h j + 1 / (1 / γ) * h i) = ∑ i, (y i - tmean y) :=
        sum_congr rfl fun i _ => hr i
      rw [sum_add_distrib, sum_comm] at hs
      have hc : ∀ j, ∑ i, (K i j - tmean (K i) - tmean (K j) + tmean fun l => tmean (K l)) * h j = 0 := by
        intro j
        rw [← sum_mul, sum_add_distrib, sum_sub_distrib, sum_sub_distrib, sum_const, sum_const, card_univ, Fintype.card_fin]
        have e : ∑ i, K i j = m * tmean (K j) := by rw [← sum_tmean hm]; exact sum_congr rfl fun i _ => hsym i j
        rw [e, sum_tmean hm fun l => tmean (K l)]
        simp only [nsmul_eq_mul]
        ring
      rw [sum_congr rfl fun j _ => hc j, sum_const_zero, zero_add, ← mul_sum, sum_sub_distrib, sum_const, card_univ, Fintype.card_fin, sum_tmean hm y,
        nsmul_eq_mul, sub_self, one_div_one_div] at hs
      exact (mul_eq_zero.mp hs).resolve_left hγ
    refine ⟨tmean y - ∑ j, tmean (K j) * h j, fun i => ?_, h0⟩
    have := hr i
    rw [centred_mul K h h0, one_div_one_div] at this
    linarith
  · rintro ⟨b, hs⟩ i
    rw [centred_mul K h hs.2, one_div_one_div, mean_mul K hsym, hb b hs]
    have := hs.1 i
    linarith
  · intro b hs i b₀
    simp only [out, outDual, Bool.false_eq_true, if_false, add_zero]
    rw [centred_mul K h hs.2, mean_mul K hsym, hb b hs]
    ring

/-- The features with a constant one in front. -/
def withConst {f : ℕ} (s : ℝ) (φ : Fin f → ℝ) : Fin (f + 1) → ℝ := Fin.cons s φ

theorem gram_withConst {f : ℕ} (s : ℝ) (Φ : Fin m → Fin f → ℝ) :
    gramOf (fun i => withConst s (Φ i)) = fun i j => gramOf Φ i j + s ^ 2 := by
  funext i j
  simp only [gramOf, withConst, Fin.sum_univ_succ, Fin.cons_zero, Fin.cons_succ]
  ring

/-- The differences between a ridge regression on a matrix with the constant `c` added and the LS-SVM on the matrix itself. -/
theorem const_gap (K : Fin m → Fin m → ℝ) (hK : PSDMat K) (γ : ℝ) (y h g : Fin m → ℝ) (b : ℝ) (hs : DualSol K γ y h b) (c : ℝ) (hc : 0 < c)
    (hr : RidgeDual (fun i j => K i j + c) (1 / γ) y g) :
    let β := c * ∑ i, g i - b
    (∀ i, ∑ j, K i j * (g j - h j) + γ * (g i - h i) + β = 0) ∧ γ * ∑ i, (g i - h i) ^ 2 ≤ -(β * (β + b)) / c := by
  intro β
  have h1 : ∀ i, ∑ j, K i j * (g j - h j) + γ * (g i - h i) + β = 0 := by
    intro i
    have a1 := hr i
    have a2 := hs.1 i
    simp only [one_div_one_div, add_mul, sum_add_distrib, ← mul_sum] at a1
    simp only [mul_sub, sum_sub_distrib, β]
    linarith
  refine ⟨h1, ?_⟩
  have hsum : ∑ i, (g i - h i) = (β + b) / c := by
    rw [sum_sub_distrib, hs.2, sub_zero]
    simp only [β]
    field_simp
    ring
  have h2 : ∑ i, (g i - h i) * (∑ j, K i j * (g j - h j) + γ * (g i - h i) + β) = 0 := by simp only [h1, mul_zero, sum_const_zero]
  have h3 : ∑ i, (g i - h i) * (∑ j, K i j * (g j - h j) + γ * (g i - h i) + β) =
      ∑ i, ∑ j, (g i - h i) * (g j - h j) * K i j + γ * ∑ i, (g i - h i) ^ 2 + β * ∑ i, (g i - h i) := by
    simp only [mul_add, sum_add_distrib, mul_sum]
    congr 1
    · congr 1
      · exact sum_congr rfl fun i _ => sum_congr rfl fun j _ => by ring
      · exact sum_congr rfl fun i _ => by ring
    · exact sum_congr rfl fun i _ => by ring
  have h4 := hK.2 fun i => g i - h i
  rw [hsum] at h3
  have h5 : -(β * (β + b)) / c = -(β * ((β + b) / c)) := by ring
  rw [h5]
  linarith

/-- **C159** A constant feature does not replace the bias, but nearly: a ridge regression on features with a constant one in front gives the constant a part that lies between zero and the bias of the LS-SVM. -/
theorem C159_constant_part {f : ℕ} (Φ : Fin m → Fin f → ℝ) (γ : ℝ) (hγ : 0 < γ) (y h g : Fin m → ℝ) (b : ℝ) (hs : DualSol (gramOf Φ) γ y h b) (s : ℝ) (hs0 : s ≠ 0)
    (hr : RidgeDual (gramOf fun i => withConst s (Φ i)) (1 / γ) y g) :
    let part := s * ∑ i, withConst s (Φ i) 0 * g i
    0 ≤ part * b ∧ part ^ 2 ≤ b ^ 2 := by
  intro part
  rw [gram_withConst] at hr
  have hc : 0 < s ^ 2 := by positivity
  obtain ⟨-, h2⟩ := const_gap (gramOf Φ) (psdMat_gram Φ) γ y h g b hs (s ^ 2) hc hr
  have hp : part = s ^ 2 * ∑ i, g i := by
    simp only [part, withConst, Fin.cons_zero, ← mul_sum]
    ring
  have h3 : 0 ≤ γ * ∑ i, (g i - h i) ^ 2 := mul_nonneg hγ.le (sum_nonneg fun i _ => sq_nonneg _)
  have h4 : 0 ≤ -((s ^ 2 * ∑ i, g i - b) * (s ^ 2 * ∑ i, g i - b + b)) := by
    by_contra hn
    push Not at hn
    have := div_neg_of_neg_of_pos hn hc
    linarith
  rw [← hp] at h4
  have h5 : (part - b) * part ≤ 0 := by nlinarith
  constructor
  · nlinarith [sq_nonneg part]
  · nlinarith [sq_nonneg (part - b)]

/-- **C159** The greater the constant feature, the closer: at every point the output of the ridge regression differs from that of the LS-SVM by at most a multiple of one over its square. -/
theorem C159_constant_limit {f : ℕ} (Φ : Fin m → Fin f → ℝ) (hm : 0 < m) (γ : ℝ) (hγ : 0 < γ) (y h : Fin m → ℝ) (b : ℝ) (hs : DualSol (gramOf Φ) γ y h b) (φ : Fin f → ℝ) :
    ∃ C : ℝ, ∀ s : ℝ, s ≠ 0 → ∀ g, RidgeDual (gramOf fun i => withConst s (Φ i)) (1 / γ) y g → ∀ b₀,
      |out false (fun i => ∑ a, withConst s φ a * withConst s (Φ i) a) g b₀ - outDual (fun i => ∑ a, φ a * Φ i a) h b| ≤ C / s ^ 2 := by
  obtain ⟨i₀⟩ : Nonempty (Fin m) := ⟨⟨0, hm⟩⟩
  set K := gramOf Φ with hKd
  have hK : PSDMat K := psdMat_gram Φ
  set kx : Fin m → ℝ := fun i => ∑ a, φ a * Φ i a with hkx
  set L : ℝ := Real.sqrt (∑ j, (K i₀ j + if j = i₀ then γ else 0) ^ 2) with hL
  set R : ℝ := Real.sqrt (∑ j, kx j ^ 2) with hR
  have hL0 : 0 ≤ L := Real.sqrt_nonneg _
  have hR0 : 0 ≤ R := Real.sqrt_nonneg _
  refine ⟨(R + L) * (L * |b| / γ), fun s hs0 g hr b₀ => ?_⟩
  rw [gram_withConst] at hr
  have hc : 0 < s ^ 2 := by positivity
  obtain ⟨h1, h2⟩ := const_gap K hK γ y h g b hs (s ^ 2) hc hr
  set β := s ^ 2 * ∑ i, g i - b with hβ
  set D := Real.sqrt (∑ i, (g i - h i) ^ 2) with hD
  have hD0 : 0 ≤ D := Real.sqrt_nonneg _
  have hD2 : D ^ 2 = ∑ i, (g i - h i) ^ 2 := Real.sq_sqrt (sum_nonneg fun i _ => sq_nonneg _)
  have cs : ∀ u : Fin m → ℝ, |∑ j, u j * (g j - h j)| ≤ Real.sqrt (∑ j, u j ^ 2) * D := by
    intro u
    rw [hD, ← Real.sqrt_mul (sum_nonneg fun i _ => sq_nonneg _)]
    exact Real.abs_le_sqrt (sum_mul_sq_le_sq_mul_sq univ u _)
  have hβL : |β| ≤ L * D := by
    have e : β = -∑ j, (K i₀ j + if j = i₀ then γ else 0) * (g j - h j) := by
      have := h1 i₀
      simp only [add_mul, ite_mul, zero_mul, sum_add_distrib, sum_ite_eq', mem_univ, if_true]
      linarith
    rw [e, abs_neg]
    exact cs _
  have hDle : D ≤ L * |b| / γ / s ^ 2 := by
    have h3 : γ * D ^ 2 ≤ L * D * |b| / s ^ 2 := by
      rw [hD2]
      refine h2.trans ?_
      refine div_le_div_of_nonneg_right ?_ hc.le
      calc -(β * (β + b)) ≤ |β| * |b| := by nlinarith [neg_abs_le (β * b), abs_mul β b, sq_nonneg β]
        _ ≤ L * D * |b| := mul_le_mul_of_nonneg_right hβL (abs_nonneg _)
    rcases hD0.eq_or_lt with h0 | h0
    · rw [← h0]; positivity
    · have h4 : γ * D ≤ L * |b| / s ^ 2 := by
        have : γ * D * D ≤ L * |b| / s ^ 2 * D := by
          calc γ * D * D = γ * D ^ 2 := by ring
            _ ≤ _ := h3
            _ = _ := by ring
        exact le_of_mul_le_mul_right this h0
      rw [div_div, mul_comm γ, ← div_div, le_div_iff₀ hγ]
      linarith
  have e : out false (fun i => ∑ a, withConst s φ a * withConst s (Φ i) a) g b₀ - outDual kx h b = ∑ j, kx j * (g j - h j) + β := by
    have e1 : ∀ i, ∑ a, withConst s φ a * withConst s (Φ i) a = kx i + s ^ 2 := by
      intro i
      simp only [withConst, Fin.sum_univ_succ, Fin.cons_zero, Fin.cons_succ, hkx]
      ring
    simp only [out, outDual, e1, Bool.false_eq_true, if_false, add_zero, add_mul, sum_add_distrib, ← mul_sum, mul_sub, sum_sub_distrib, hβ]
    ring
  rw [e]
  calc |∑ j, kx j * (g j - h j) + β| ≤ |∑ j, kx j * (g j - h j)| + |β| := abs_add_le _ _
    _ ≤ R * D + L * D := add_le_add (cs kx) hβL
    _ = (R + L) * D := by ring
    _ ≤ (R + L) * (L * |b| / γ / s ^ 2) := mul_le_mul_of_nonneg_left hDle (by positivity)
    _ = _ := by ring

/-! ## Cases -/

/-- The linear kernel on the points `±1` with targets `2` and `0`: dual variables `±1/3` and bias `1`. -/
theorem exLine : DualSol (gramOf (![![1], ![-1]] : Fin 2 → Fin 1 → ℝ)) 1 ![2, 0] ![1 / 3, -(1 / 3)] 1 := by
  refine ⟨fun i => ?_, by simp [Fin.sum_univ_two]⟩
  fin_cases i <;> simp [gramOf, Fin.sum_univ_two] <;> norm_num

example : RidgeDual (fun i j : Fin 2 => gramOf (![![1], ![-1]] : Fin 2 → Fin 1 → ℝ) i j - tmean (gramOf (![![1], ![-1]] : Fin 2 → Fin 1 → ℝ) i) -
      tmean (gramOf (![![1], ![-1]] : Fin 2 → Fin 1 → ℝ) j) + tmean fun l => tmean (gramOf (![![1], ![-1]] : Fin 2 → Fin 1 → ℝ) l)) (1 / 1)
    (fun i => (![2, 0] : Fin 2 → ℝ) i - tmean ![2, 0]) ![1 / 3, -(1 / 3)] :=
  (C159_centred (fun x y : Fin 1 → ℝ => ∑ a, x a * y a) ![![1], ![-1]] [] (fun _ : Unit => ![3]) _ _ _ _ rfl rfl rfl rfl (fun i j => sum_congr rfl fun a _ => mul_comm _ _) 1
    one_ne_zero ![2, 0] ![1 / 3, -(1 / 3)]).1.mpr ⟨1, exLine⟩

/-- With a constant one in front the part of the constant is `2/3`, between zero and the bias `1`. -/
example : 0 ≤ (1 : ℝ) * ∑ i, withConst 1 ((![![1], ![-1]] : Fin 2 → Fin 1 → ℝ) i) 0 * (![2 / 3, 0] : Fin 2 → ℝ) i * 1 := by
  have := (C159_constant_part _ 1 one_pos _ _ ![2 / 3, 0] _ exLine 1 one_ne_zero (by
    rw [gram_withConst]
    intro i
    fin_cases i <;> simp [gramOf, Fin.sum_univ_two] <;> norm_num)).1
  simpa using this

example := C159_constant_limit _ two_pos 1 one_pos _ _ _ exLine ![3]

end RidgeBias
end Kerch
