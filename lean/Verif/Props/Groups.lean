import Mathlib.Tactic.FinCases
import Verif.Props.KernelFun
import Verif.Props.LSSVMTrain
import Verif.Props.Methods
import Verif.Lemmas.KPCA
import Verif.Model.KPCA
set_option linter.unusedSectionVars false
set_option linter.unusedSimpArgs false
/-!
# C153: groups of points that do not see each other
-/
namespace Kerch
namespace Groups
open Finset LSSVM LSTrain

/-! ## Specification -/

/-- Points of different groups have kernel value zero. -/
def Separate {n : ℕ} {G : Type} (K : Fin n → Fin n → ℝ) (g : Fin n → G) : Prop := ∀ i j, g i ≠ g j → K i j = 0

/-! ## C153 -/

/-- Kernels of bounded support: groups that are further from each other than the bandwidth are separate. -/
theorem C153_far {d G : Type} [Fintype d] [Nonempty d] (s : StatKind) (hs : s.compact = true) (D : DistKind) (σ : ℝ) (hσ : 0 < σ) {n : ℕ} (x : Fin n → d → ℝ)
    (g : Fin n → G) (K : Fin n → Fin n → ℝ) (hK : ∀ i j, statKernel s D σ (x i) (x j) = .ok (K i j))
    (hd : ∀ i j, g i ≠ g j → ∀ δ, dist D (x i) (x j) = .ok δ → σ < δ) : Separate K g := by
  intro i j hij
  have hD : ∀ p, D ≠ .minkowski p := by
    rintro p rfl
    have := hK i j
    rw [C25_minkowski_violated] at this
    cases this
  obtain ⟨δ, hδ⟩ := C25_dist_defined D hD (x i) (x j)
  obtain ⟨v, hv, -, -, h0⟩ := C25_compact s hs D (x i) (x j) δ σ hσ hδ
  rw [hK i j] at hv
  rw [Except.ok.inj hv]
  refine h0.2 ?_
  have := hd i j hij δ hδ
  split
  · exact this
  · exact this.le

/-- Normalising the kernel keeps groups separate. -/
theorem C153_normalised {X G : Type} (κ : X → X → ℝ) {n : ℕ} (pts : Fin n → X) (g : Fin n → G) (h : Separate (fun i j => κ (pts i) (pts j)) g) :
    ∃ M : Fin n → Fin n → ℝ, ioos κ pts [.sphere] .sample .sample = .ok M ∧ Separate M g := by
  refine ⟨_, rfl, fun i j hij => ?_⟩
  have := h i j hij
  simp only at this
  simp [Arg.pt, this]

/-- Centring it does not: two points that do not see each other do afterwards. -/
theorem C153_centred_violated : ∃ M : Fin 2 → Fin 2 → ℝ,
    Separate (fun i j : Fin 2 => if i = j then (1 : ℝ) else 0) id ∧
    ioos (fun i j : Fin 2 => if i = j then (1 : ℝ) else 0) (fun i : Fin 2 => i) [.mean] .sample .sample = .ok M ∧ M 0 1 = -(1 / 2) := by
  refine ⟨_, fun i j h => if_neg h, rfl, ?_⟩
  simp [Arg.pt, tmean, Fin.sum_univ_two]

/-- Ridge regression: the dual variables of a group depend on the targets of this group only. -/
theorem C153_ridge {n : ℕ} {G : Type} (K : Fin n → Fin n → ℝ) (hK : PSDMat K) (g : Fin n → G) (hg : Separate K g) (γ : ℝ) (hγ : 0 < γ) (y y' h h' : Fin n → ℝ)
    (hs : RidgeDual K γ y h) (hs' : RidgeDual K γ y' h') (c : G) (hy : ∀ i, g i = c → y i = y' i) :
    (∀ i, g i = c → h i = h' i) ∧ ∀ kx : Fin n → ℝ, (∀ i, g i ≠ c → kx i = 0) → ∑ i, kx i * h i = ∑ i, kx i * h' i := by
  classical
  obtain ⟨u, hu⟩ : ∃ u : Fin n → ℝ, u = fun i => if g i = c then h i - h' i else 0 := ⟨_, rfl⟩
  have hKu : ∀ i, g i = c → ∑ j, K i j * u j + 1 / γ * u i = 0 := by
    intro i hi
    have e : ∑ j, K i j * u j = ∑ j, K i j * (h j - h' j) := sum_congr rfl fun j _ => by
      rw [hu]
      by_cases hj : g j = c
      · simp [hj]
      · rw [hg i j (by rw [hi]; exact fun e => hj e.symm)]; simp
    rw [e, hu]
    simp only [hi, if_true, mul_sub, sum_sub_distrib]
    have := hs i
    have := hs' i
    have := hy i hi
    linarith
  have h0 : ∑ i, ∑ j, u i * u j * K i j + 1 / γ * ∑ i, u i ^ 2 = 0 := by
    rw [mul_sum, ← sum_add_distrib]
    refine sum_eq_zero fun i _ => ?_
    by_cases hi : g i = c
    · have : ∑ j, u i * u j * K i j + 1 / γ * u i ^ 2 = u i * (∑ j, K i j * u j + 1 / γ * u i) := by
        rw [mul_add, mul_sum]
        congr 1
        · exact sum_congr rfl fun j _ => by ring
        · ring
      rw [this, hKu i hi, mul_zero]
    · have : u i = 0 := by rw [hu]; simp [hi]
      simp [this]
  have hz : ∀ i, u i = 0 := by
    have h1 := hK.2 u
    have h2 : 0 ≤ ∑ i, u i ^ 2 := sum_nonneg fun i _ => sq_nonneg _
    have h3 : 1 / γ * ∑ i, u i ^ 2 = 0 := by
      have : 0 ≤ 1 / γ * ∑ i, u i ^ 2 := by positivity
      linarith
    have h4 : ∑ i, u i ^ 2 = 0 := by
      rcases mul_eq_zero.1 h3 with h | h
      · exact absurd h (by positivity)
      · exact h
    intro i
    have := (sum_eq_zero_iff_of_nonneg fun i _ => sq_nonneg (u i)).1 h4 i (mem_univ i)
    simpa using this
  have key : ∀ i, g i = c → h i = h' i := fun i hi => by
    have := hz i
    rw [hu] at this
    simp only [hi, if_true] at this
    linarith
  refine ⟨key, fun kx hkx => sum_congr rfl fun i _ => ?_⟩
  by_cases hi : g i = c
  · rw [key i hi]
  · rw [hkx i hi]; simp

/-- LS-SVM: the output of a point that no point of the sample sees is the bias; and the groups are tied by nothing but the bias, as two fits with the same bias
and the same targets on a group agree on it. -/
theorem C153_lssvm {n : ℕ} {G : Type} (K : Fin n → Fin n → ℝ) (hK : PSDMat K) (g : Fin n → G) (hg : Separate K g) (γ : ℝ) (hγ : 0 < γ) (y y' h h' : Fin n → ℝ)
    (b b' : ℝ) (hs : DualSol K γ y h b) (hs' : DualSol K γ y' h' b') (c : G) (hy : ∀ i, g i = c → y i = y' i) :
    outDual (fun _ => 0) h b = b ∧
    (b = b' → ∀ kx : Fin n → ℝ, (∀ i, g i ≠ c → kx i = 0) → outDual kx h b = outDual kx h' b') := by
  refine ⟨by simp [outDual], ?_⟩
  rintro rfl kx hkx
  have r : RidgeDual K (1 / γ) (fun i => y i - b) h := fun i => by have := hs.1 i; rw [one_div_one_div]; linarith
  have r' : RidgeDual K (1 / γ) (fun i => y' i - b) h' := fun i => by have := hs'.1 i; rw [one_div_one_div]; linarith
  have := (C153_ridge K hK g hg (1 / γ) (by positivity) _ _ h h' r r' c fun i hi => by rw [hy i hi]).2 kx hkx
  simp only [outDual, this]

/-- Through the bias they are: the output at a point depends on the target of another one which does not see it, whatever the regularisation. -/
theorem C153_bias_violated (γ : ℝ) (hγ : 0 < γ) (t : ℝ) :
    let K : Fin 2 → Fin 2 → ℝ := fun i j => if i = j then 1 else 0
    ∃ h b, DualSol K γ ![0, t] h b ∧ outDual (K 0) h b = t / 2 * (γ / (1 + γ)) := by
  intro K
  have h1 : 1 + γ ≠ 0 := by positivity
  refine ⟨![-(t / (2 * (1 + γ))), t / (2 * (1 + γ))], t / 2, ⟨fun i => ?_, ?_⟩, ?_⟩
  · fin_cases i
    · simp [Fin.sum_univ_two, K]; field_simp; ring
    · simp [Fin.sum_univ_two, K]; field_simp; ring
  · simp [Fin.sum_univ_two]
  · simp [outDual, Fin.sum_univ_two, K]; field_simp; ring

/-- Kernel PCA: the part of a component in a group is an eigenvector too, so that a component whose eigenvalue occurs once lies in a single group. Points that see
only other groups have no part in it. -/
theorem C153_components {n : ℕ} {G : Type} (K : Fin n → Fin n → ℝ) (g : Fin n → G) (hg : Separate K g) (D : EigDecomp K) (l : Fin n)
    (hl : ∀ m, m ≠ l → D.lam m ≠ D.lam l) :
    ∃ c, (∃ i, g i = c) ∧ (∀ i, g i ≠ c → D.V i l = 0) ∧
      ∀ (k : ℕ) (hk : l.val < k ∧ EPS ≤ D.lam l) (kx : Fin n → ℝ), (∀ i, g i = c → kx i = 0) → KPCA.hK D k kx ⟨l, hk⟩ = 0 := by
  classical
  have hne : ∃ i, D.V i l ≠ 0 := by
    by_contra h
    push Not at h
    have := D.orth l l
    simp [h] at this
  obtain ⟨i₀, hi₀⟩ := hne
  have key : ∀ i, g i ≠ g i₀ → D.V i l = 0 := by
    obtain ⟨w, hw⟩ : ∃ w : Fin n → ℝ, w = fun i => if g i = g i₀ then D.V i l else 0 := ⟨_, rfl⟩
    have he : ∀ i, ∑ j, K i j * w j = D.lam l * w i := by
      intro i
      by_cases hi : g i = g i₀
      · have : w i = D.V i l := by rw [hw]; simp [hi]
        rw [this, ← D.eig i l]
        refine sum_congr rfl fun j _ => ?_
        rw [hw]
        by_cases hj : g j = g i₀
        · simp [hj]
        · rw [hg i j (by rw [hi]; exact fun e => hj e.symm)]; simp
      · have : w i = 0 := by rw [hw]; simp [hi]
        rw [this, mul_zero]
        refine sum_eq_zero fun j _ => ?_
        rw [hw]
        by_cases hj : g j = g i₀
        · rw [hg i j (by rw [hj]; exact hi)]; simp
        · simp [hj]
    have hexp : ∀ i, w i = (∑ j, w j * D.V j l) * D.V i l := by
      intro i
      refine (D.expand w i).trans (sum_eq_single l (fun m _ hm => ?_) (by simp))
      rw [D.eig_orth w (D.lam l) he m (hl m hm), zero_mul]
    have hc : ∑ j, w j * D.V j l = 1 := by
      have h1 : w i₀ = D.V i₀ l := by rw [hw]; simp
      have h2 := hexp i₀
      rw [h1] at h2
      have : (∑ j, w j * D.V j l - 1) * D.V i₀ l = 0 := by linarith
      rcases mul_eq_zero.1 this with h | h
      · linarith
      · exact absurd h hi₀
    intro i hi
    have h1 : w i = 0 := by rw [hw]; simp [hi]
    have h2 := hexp i
    rw [h1, hc, one_mul] at h2
    exact h2.symm
  refine ⟨g i₀, ⟨i₀, rfl⟩, key, fun k hk kx hkx => ?_⟩
  have : ∑ i, kx i * D.V i l = 0 := sum_eq_zero fun i _ => by
    by_cases hi : g i = g i₀
    · rw [hkx i hi, zero_mul]
    · rw [key i hi, mul_zero]
  simp only [KPCA.hK, this, zero_mul]

/-- Smoothing over all observations: the result at a point depends on the observations of the group it sees only. -/
theorem C153_smoother {p n d : ℕ} {G : Type} (sel : Methods.Sel p n) (C : Methods.Mat p n) (g : Fin n → G) (i : Fin p) (c : G) (hc : ∀ j, g j ≠ c → C i j = 0)
    (o o' : Methods.Mat n d) (ho : ∀ j, g j = c → o j = o' j) (num : Methods.PyNum) (r r' : Fin p → Fin d → Option ℝ)
    (hr : Methods.smoother sel C o num = .ok r) (hr' : Methods.smoother sel C o' num = .ok r') : r i = r' i := by
  classical
  unfold Methods.smoother at hr hr'
  simp only [dif_pos] at hr hr'
  cases hm : Methods.smootherNum n num with
  | error e => simp [hm] at hr
  | ok N =>
    simp only [hm] at hr hr'
    by_cases h0 : 0 < N
    · by_cases h1 : N ≤ n
      · simp only [h0, h1, if_true, dif_pos] at hr hr'
        obtain rfl := Except.ok.inj hr
        obtain rfl := Except.ok.inj hr'
        funext j
        simp only
        congr 2
        refine sum_congr rfl fun l _ => ?_
        by_cases hgl : g l = c
        · simp [ho l hgl]
        · have : Methods.keptCoeff sel C N.toNat (Int.toNat_le.mpr h1) i l = 0 := by
            unfold Methods.keptCoeff
            simp [hc l hgl]
          simp [this]
      · simp [h0, h1] at hr
    · simp [h0] at hr

/-! ## Concrete cases -/

/-- Two points that see each other and a third one that sees neither. -/
def K3 : Fin 3 → Fin 3 → ℝ := ![![2, 1, 0], ![1, 2, 0], ![0, 0, 2]]
def g3 : Fin 3 → Fin 2 := ![0, 0, 1]

theorem K3_separate : Separate K3 g3 := by
  intro i j h
  fin_cases i <;> fin_cases j <;> simp [K3, g3] at h ⊢

theorem K3_psd : PSDMat K3 := by
  constructor
  · intro i j; fin_cases i <;> fin_cases j <;> simp [K3]
  · intro c
    simp [Fin.sum_univ_three, K3]
    nlinarith [sq_nonneg (c 0 + c 1), sq_nonneg (c 0), sq_nonneg (c 1), sq_nonneg (c 2)]

/-- The target of the third point changes, not the dual variables of the others. -/
example : (![2, -1, 7 / 3] : Fin 3 → ℝ) 0 = (![2, -1, 3] : Fin 3 → ℝ) 0 :=
  (C153_ridge K3 K3_psd g3 K3_separate 1 one_pos ![5, -1, 7] ![5, -1, 9] ![2, -1, 7 / 3] ![2, -1, 3]
    (by intro i; fin_cases i <;> simp [Fin.sum_univ_three, K3] <;> norm_num)
    (by intro i; fin_cases i <;> simp [Fin.sum_univ_three, K3] <;> norm_num) 0
    (by intro i hi; fin_cases i <;> simp [g3] at hi ⊢)).1 0 rfl

/-- Two fits of LS-SVM with the same bias. -/
example : outDual ![1, 0, 0] ![1, 1, -2] 0 = outDual ![1, 0, 0] ![1, 1, -2] 0 ∧ DualSol K3 1 ![4, 4, -6] ![1, 1, -2] 0 := by
  have h : DualSol K3 1 ![4, 4, -6] ![1, 1, -2] 0 := by
    refine ⟨fun i => ?_, ?_⟩
    · fin_cases i <;> simp [Fin.sum_univ_three, K3] <;> norm_num
    · simp [Fin.sum_univ_three]; norm_num
  exact ⟨(C153_lssvm K3 K3_psd g3 K3_separate 1 one_pos _ _ _ _ _ _ h h 0 fun _ _ => rfl).2 rfl _ (by
    intro i hi; fin_cases i <;> simp [g3] at hi ⊢), h⟩

/-- A diagonal kernel matrix with two different eigenvalues: the first component belongs to the first point. -/
example : ∃ D : EigDecomp (fun i j : Fin 2 => if i = j then (![2, 1] : Fin 2 → ℝ) i else 0),
    ∃ c : Fin 2, ∀ i, i ≠ c → D.V i 0 = 0 := by
  refine ⟨⟨![2, 1], fun i j => if i = j then 1 else 0, ?_, ?_, ?_⟩, ?_⟩
  · intro i j h
    fin_cases i <;> fin_cases j <;> simp at h ⊢
  · intro k l; fin_cases k <;> fin_cases l <;> simp
  · intro i k; fin_cases i <;> fin_cases k <;> simp
  · obtain ⟨c, -, h, -⟩ := C153_components _ (id : Fin 2 → Fin 2) (fun i j h => if_neg h) ⟨![2, 1], fun i j => if i = j then 1 else 0, _, _, _⟩ 0 (by
      intro m hm
      fin_cases m
      · exact absurd rfl hm
      · simp)
    exact ⟨c, h⟩

/-- Points at 0, 1 and 5 of the line with a triangular kernel of bandwidth 2. -/
example : ∃ K, (∀ i j : Fin 3, statKernel .triangular .manhattan 2 (fun _ : Fin 1 => (![0, 1, 5] : Fin 3 → ℝ) i) (fun _ => (![0, 1, 5] : Fin 3 → ℝ) j) = .ok (K i j)) ∧
    Separate K g3 := by
  have hd : ∀ a b : ℝ, dist .manhattan (fun _ : Fin 1 => a) (fun _ => b) = .ok |a - b| := fun a b => by simp [dist, manhattan]
  have hK := fun i j : Fin 3 => statKernel_eq .triangular two_pos (hd ((![0, 1, 5] : Fin 3 → ℝ) i) ((![0, 1, 5] : Fin 3 → ℝ) j))
  refine ⟨_, hK, C153_far .triangular rfl .manhattan 2 two_pos _ g3 _ hK ?_⟩
  intro i j hij δ hδ
  rw [hd] at hδ
  rw [← Except.ok.inj hδ]
  fin_cases i <;> fin_cases j <;> simp [g3] at hij ⊢ <;> norm_num [abs_of_neg]

example : ∃ M : Fin 3 → Fin 3 → ℝ, ioos (fun i j => K3 i j) (fun i : Fin 3 => i) [.sphere] .sample .sample = .ok M ∧ Separate M g3 :=
  C153_normalised (fun i j => K3 i j) (fun i => i) g3 K3_separate

/-- The observation of the third point has no effect on the smoothed value at the first one. -/
example (sel : Methods.Sel 3 3) (r r' : Fin 3 → Fin 1 → Option ℝ) (hr : Methods.smoother sel K3 (fun i _ => ![1, 2, 3] i) (.int 3) = .ok r)
    (hr' : Methods.smoother sel K3 (fun i _ => ![1, 2, 4] i) (.int 3) = .ok r') : r 0 = r' 0 :=
  C153_smoother sel K3 g3 0 0 (by intro j hj; fin_cases j <;> simp [g3, K3] at hj ⊢) _ _ (by
    intro j hj; fin_cases j <;> simp [g3] at hj ⊢) _ r r' hr hr'

end Groups
end Kerch
