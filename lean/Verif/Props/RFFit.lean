import Verif.Props.RFRate
import Verif.Props.Stability
import Verif.Lemmas.PSDStat
/-!
# C167: what is fitted with random features approaches what is fitted with infinitely many of them
-/
set_option linter.unusedSectionVars false
set_option linter.unusedSimpArgs false
namespace Kerch
namespace RFLimit
open Finset MeasureTheory ProbabilityTheory Filter Topology LSSVM

variable {d : Type} [Fintype d] {Ω : Type} [MeasurableSpace Ω]

/-! ## Helper lemmas -/

section
variable {ι : Type} [Fintype ι]

theorem rff_psd {m : Type} [Fintype m] (num : ℕ) (σ : ℝ) (W : Matrix m d ℝ) (x : ι → d → ℝ) : PSDMat fun i j => rffKernel num σ W (x i) (x j) :=
  psdMat_gram fun i => rffPhi num σ W (x i)

theorem rf_psd {m : Type} [Fintype m] (f : ℝ → ℝ) (num : ℕ) (σ : ℝ) (W : Matrix m d ℝ) (x : ι → d → ℝ) : PSDMat fun i j => rfKernel f num σ W (x i) (x j) :=
  psdMat_gram fun i => rfPhi f num σ W (x i)

/-- A bound of all the changes of the entries. -/
def change (M M' : ι → ι → ℝ) : ℝ := ∑ i, ∑ j, |M i j - M' i j|

theorem le_change (M M' : ι → ι → ℝ) (i j : ι) : |M i j - M' i j| ≤ change M M' :=
  (single_le_sum (f := fun j => |M i j - M' i j|) (fun _ _ => abs_nonneg _) (mem_univ j)).trans
    (single_le_sum (f := fun i => ∑ j, |M i j - M' i j|) (fun _ _ => sum_nonneg fun _ _ => abs_nonneg _) (mem_univ i))

theorem change_tendsto (M : ℕ → ι → ι → ℝ) (M' : ι → ι → ℝ) (h : ∀ i j, Tendsto (fun n => M n i j) atTop (𝓝 (M' i j))) :
    Tendsto (fun n => change (M n) M') atTop (𝓝 0) := by
  have : Tendsto (fun n => ∑ i, ∑ j, |M n i j - M' i j|) atTop (𝓝 (∑ i : ι, ∑ j : ι, |M' i j - M' i j|)) :=
    tendsto_finsetSum _ fun i _ => tendsto_finsetSum _ fun j _ => ((h i j).sub_const _).abs
  simpa [change] using this

/-- The dual variables and the bias of a LS-SVM depend continuously on the kernel matrix. -/
theorem fit_tendsto [Nonempty ι] (M : ℕ → ι → ι → ℝ) (M' : ι → ι → ℝ) (hM : ∀ n, PSDMat (M n)) (hlim : ∀ i j, Tendsto (fun n => M n i j) atTop (𝓝 (M' i j)))
    (γ : ℝ) (hγ : 0 < γ) (y : ι → ℝ) (h : ℕ → ι → ℝ) (b : ℕ → ℝ) (h' : ι → ℝ) (b' : ℝ) (hs : ∀ᶠ n in atTop, DualSol (M n) γ y (h n) (b n)) (hs' : DualSol M' γ y h' b') :
    (∀ i, Tendsto (fun n => h n i) atTop (𝓝 (h' i))) ∧ Tendsto b atTop (𝓝 b') := by
  have hh : ∀ i, Tendsto (fun n => h n i) atTop (𝓝 (h' i)) := by
    intro i
    have hb : ∀ᶠ n in atTop, (h n i - h' i) ^ 2 ≤ (Fintype.card ι * change (M n) M') ^ 2 * (∑ i, h' i ^ 2) / γ ^ 2 := by
      filter_upwards [hs] with n hn
      have := Stability.C136_dual (M n) M' (hM n) γ hγ y (h n) h' (b n) b' hn hs' _ (le_change (M n) M')
      rw [le_div_iff₀ (by positivity), mul_comm]
      refine le_trans ?_ this
      exact mul_le_mul_of_nonneg_left (single_le_sum (f := fun i => (h n i - h' i) ^ 2) (fun i _ => sq_nonneg _) (mem_univ i)) (by positivity)
    have h0 : Tendsto (fun n => (Fintype.card ι * change (M n) M') ^ 2 * (∑ i, h' i ^ 2) / γ ^ 2) atTop (𝓝 0) := by
      have := ((((change_tendsto M M' hlim).const_mul (Fintype.card ι : ℝ)).pow 2).mul_const (∑ i, h' i ^ 2)).div_const (γ ^ 2)
      simpa using this
    have h1 : Tendsto (fun n => (h n i - h' i) ^ 2) atTop (𝓝 0) :=
      tendsto_of_tendsto_of_tendsto_of_le_of_le' tendsto_const_nhds h0 (Eventually.of_forall fun n => sq_nonneg _) hb
    have h2 : Tendsto (fun n => |h n i - h' i|) atTop (𝓝 0) := by
      have := (Real.continuous_sqrt.tendsto 0).comp h1
      simpa [Function.comp_def, Real.sqrt_sq_eq_abs] using this
    have h3 := (tendsto_zero_iff_abs_tendsto_zero _).2 h2
    simpa using h3.add_const (h' i)
  refine ⟨hh, ?_⟩
  obtain ⟨i⟩ := ‹Nonempty ι›
  have h1 : Tendsto (fun n => y i - ∑ j, M n i j * h n j - γ * h n i) atTop (𝓝 (y i - ∑ j, M' i j * h' j - γ * h' i)) :=
    (tendsto_const_nhds.sub (tendsto_finsetSum _ fun j _ => (hlim i j).mul (hh j))).sub ((hh i).const_mul γ)
  have e : y i - ∑ j, M' i j * h' j - γ * h' i = b' := by have := hs'.1 i; linarith
  rw [e] at h1
  refine h1.congr' ?_
  filter_upwards [hs] with n hn
  have := hn.1 i
  linarith

end

/-! ## The properties -/

variable {N : ℕ} {P : Measure Ω} [IsProbabilityMeasure P] {w : ℕ → Ω → d → ℝ}

/-- **C167**, LS-SVM on random Fourier features: almost surely, as the number of weights grows, the output at every point of the fit with `n` weights tends to the output of the fit with
infinitely many, for all data, targets, bandwidths and `gamma`. The fits exist and are unique (`C50_exists_partial`, `C50_unique_partial`). -/
theorem C167_lssvm (h : Drawn P w) (hN : 0 < N) (x : Fin N → d → ℝ) (σ γ : ℝ) (hγ : 0 < γ) (y : Fin N → ℝ) (z : d → ℝ) :
    ∀ᵐ ω ∂P, ∀ (α : ℕ → Fin N → ℝ) (b : ℕ → ℝ) (α' : Fin N → ℝ) (b' : ℝ),
      (∀ n, 0 < n → DualSol (fun i j => rffKernel n σ (first w n ω) (x i) (x j)) γ y (α n) (b n)) →
      DualSol (fun i j => rffClosed σ (x i) (x j)) γ y α' b' →
      Tendsto (fun n => outDual (fun i => rffKernel n σ (first w n ω) z (x i)) (α n) (b n)) atTop (𝓝 (outDual (fun i => rffClosed σ z (x i)) α' b')) := by
  have h1 : ∀ᵐ ω ∂P, ∀ i j, Tendsto (fun n : ℕ => rffKernel n σ (first w n ω) (x i) (x j)) atTop (𝓝 (rffClosed σ (x i) (x j))) :=
    ae_all_iff.2 fun i => ae_all_iff.2 fun j => C104_rff σ (x i) (x j) P w h
  have h2 : ∀ᵐ ω ∂P, ∀ i, Tendsto (fun n : ℕ => rffKernel n σ (first w n ω) z (x i)) atTop (𝓝 (rffClosed σ z (x i))) :=
    ae_all_iff.2 fun i => C104_rff σ z (x i) P w h
  have : Nonempty (Fin N) := ⟨⟨0, hN⟩⟩
  filter_upwards [h1, h2] with ω k1 k2 α b α' b' hs hs'
  obtain ⟨t1, t2⟩ := fit_tendsto (fun n i j => rffKernel n σ (first w n ω) (x i) (x j)) (fun i j => rffClosed σ (x i) (x j)) (fun n => rff_psd n σ _ x) k1 γ hγ y α b α' b'
    ((eventually_gt_atTop 0).mono fun n hn => hs n hn) hs'
  exact (tendsto_finsetSum _ fun i _ => (k2 i).mul (t1 i)).add t2

/-- **C167**, LS-SVM on leaky rectifiers, likewise for points other than the origin. -/
theorem C167_lssvm_lrelu (h : Drawn P w) (hN : 0 < N) (x : Fin N → d → ℝ) (hx : ∀ i, x i ≠ 0) (a σ γ : ℝ) (hσ : σ ≠ 0) (hγ : 0 < γ) (y : Fin N → ℝ) (z : d → ℝ) (hz : z ≠ 0)
    (K : Fin N → Fin N → ℝ) (hK : ∀ i j, lreluInf a σ (x i) (x j) = some (K i j)) (kz : Fin N → ℝ) (hkz : ∀ i, lreluInf a σ z (x i) = some (kz i)) :
    ∀ᵐ ω ∂P, ∀ (α : ℕ → Fin N → ℝ) (b : ℕ → ℝ) (α' : Fin N → ℝ) (b' : ℝ),
      (∀ n, 0 < n → DualSol (fun i j => rfKernel (lrelu a) n σ (first w n ω) (x i) (x j)) γ y (α n) (b n)) → DualSol K γ y α' b' →
      Tendsto (fun n => outDual (fun i => rfKernel (lrelu a) n σ (first w n ω) z (x i)) (α n) (b n)) atTop (𝓝 (outDual kz α' b')) := by
  have lim : ∀ (u v : d → ℝ), u ≠ 0 → v ≠ 0 → ∀ k, lreluInf a σ u v = some k →
      ∀ᵐ ω ∂P, Tendsto (fun n : ℕ => rfKernel (lrelu a) n σ (first w n ω) u v) atTop (𝓝 k) := fun u v hu hv k hk => by
    obtain ⟨k', e, ht⟩ := C104_lrelu_partial a σ hσ u v hu hv P w h
    rw [hk] at e
    cases e
    exact ht
  have h1 : ∀ᵐ ω ∂P, ∀ i j, Tendsto (fun n : ℕ => rfKernel (lrelu a) n σ (first w n ω) (x i) (x j)) atTop (𝓝 (K i j)) :=
    ae_all_iff.2 fun i => ae_all_iff.2 fun j => lim _ _ (hx i) (hx j) _ (hK i j)
  have h2 : ∀ᵐ ω ∂P, ∀ i, Tendsto (fun n : ℕ => rfKernel (lrelu a) n σ (first w n ω) z (x i)) atTop (𝓝 (kz i)) :=
    ae_all_iff.2 fun i => lim _ _ hz (hx i) _ (hkz i)
  have : Nonempty (Fin N) := ⟨⟨0, hN⟩⟩
  filter_upwards [h1, h2] with ω k1 k2 α b α' b' hs hs'
  obtain ⟨t1, t2⟩ := fit_tendsto (fun n i j => rfKernel (lrelu a) n σ (first w n ω) (x i) (x j)) K (fun n => rf_psd _ n σ _ x) k1 γ hγ y α b α' b'
    ((eventually_gt_atTop 0).mono fun n hn => hs n hn) hs'
  exact (tendsto_finsetSum _ fun i _ => (k2 i).mul (t1 i)).add t2

/-- **C167**, KPCA: almost surely all variances of the components with `n` Fourier weights tend to those with infinitely many. -/
theorem C167_kpca (h : Drawn P w) (x : Fin N → d → ℝ) (σ : ℝ) (E : EigDecomp fun i j => rffClosed σ (x i) (x j)) :
    ∀ᵐ ω ∂P, ∀ D : ∀ n, EigDecomp fun i j => rffKernel n σ (first w n ω) (x i) (x j),
      ∀ l, Tendsto (fun n => 1 / (N : ℝ) * (D n).lam l) atTop (𝓝 (1 / (N : ℝ) * E.lam l)) := by
  have h1 : ∀ᵐ ω ∂P, ∀ i j, Tendsto (fun n : ℕ => rffKernel n σ (first w n ω) (x i) (x j)) atTop (𝓝 (rffClosed σ (x i) (x j))) :=
    ae_all_iff.2 fun i => ae_all_iff.2 fun j => C104_rff σ (x i) (x j) P w h
  filter_upwards [h1] with ω k1 D l
  have ht := change_tendsto (fun n i j => rffKernel n σ (first w n ω) (x i) (x j)) (fun i j => rffClosed σ (x i) (x j)) k1
  have h2 : Tendsto (fun n => 1 / (N : ℝ) * (D n).lam l - 1 / (N : ℝ) * E.lam l) atTop (𝓝 0) :=
    squeeze_zero_norm (fun n => Stability.C136_variances (D n) E _ (le_change _ _) l) ht
  simpa using h2.add_const (1 / (N : ℝ) * E.lam l)

/-- **C167**, KPCA with a given number of weights: if there are `2 / ε² · log (2 N² / δ)` or more, all variances of the components are off by at most `ε`, up to a probability `δ`. -/
theorem C167_kpca_enough (h : DrawnAll P w) (x : Fin N → d → ℝ) (σ : ℝ) (n : ℕ) (hn : 0 < n) (ε δ : ℝ) (hε : 0 < ε) (hδ : 0 < δ)
    (hnum : 2 / ε ^ 2 * Real.log (2 * N ^ 2 / δ) ≤ n) (E : EigDecomp fun i j => rffClosed σ (x i) (x j)) :
    P.real {ω | ∃ (D : EigDecomp fun i j => rffKernel n σ (first w n ω) (x i) (x j)) (l : Fin N), ε < |1 / (N : ℝ) * D.lam l - 1 / (N : ℝ) * E.lam l|} ≤ δ := by
  refine le_trans (measureReal_mono ?_) (C166_enough h x σ n hn ε δ hε hδ hnum)
  rintro ω ⟨D, l, hl⟩
  by_contra hc
  have hc' : ∀ i j, |rffKernel n σ (first w n ω) (x i) (x j) - rffClosed σ (x i) (x j)| ≤ ε := fun i j => by
    by_contra h2
    exact hc ⟨i, j, (not_le.1 h2).le⟩
  exact absurd (Stability.C136_variances D E ε hc' l) (not_le.2 hl)

/-- **C167**, LS-SVM with a given number of weights: under the same condition the dual variables are off by at most `N ε / gamma` times the size of those with infinitely many weights (in
mean square), up to a probability `δ`. -/
theorem C167_lssvm_enough (h : DrawnAll P w) (x : Fin N → d → ℝ) (σ : ℝ) (n : ℕ) (hn : 0 < n) (ε δ : ℝ) (hε : 0 < ε) (hδ : 0 < δ)
    (hnum : 2 / ε ^ 2 * Real.log (2 * N ^ 2 / δ) ≤ n) (γ : ℝ) (hγ : 0 < γ) (y : Fin N → ℝ) (α' : Fin N → ℝ) (b' : ℝ)
    (hs' : DualSol (fun i j => rffClosed σ (x i) (x j)) γ y α' b') :
    P.real {ω | ∃ α b, DualSol (fun i j => rffKernel n σ (first w n ω) (x i) (x j)) γ y α b ∧
      (N * ε / γ) ^ 2 * ∑ i, α' i ^ 2 < ∑ i, (α i - α' i) ^ 2} ≤ δ := by
  refine le_trans (measureReal_mono ?_) (C166_enough h x σ n hn ε δ hε hδ hnum)
  rintro ω ⟨α, b, hs, hl⟩
  by_contra hc
  have hc' : ∀ i j, |rffKernel n σ (first w n ω) (x i) (x j) - rffClosed σ (x i) (x j)| ≤ ε := fun i j => by
    by_contra h2
    exact hc ⟨i, j, (not_le.1 h2).le⟩
  have := Stability.C136_dual _ _ (rff_psd n σ (first w n ω) x) γ hγ y α α' b b' hs hs' ε hc'
  rw [Fintype.card_fin] at this
  rw [div_pow, div_mul_eq_mul_div, div_lt_iff₀ (by positivity)] at hl
  linarith

/-! ## Concrete cases -/

/-- The premises can be met: all fits exist, whatever the weights. -/
example (x : Fin 3 → Fin 2 → ℝ) (y : Fin 3 → ℝ) (n : ℕ) (W : Matrix (Fin n) (Fin 2) ℝ) :
    (∃ α b, DualSol (fun i j => rffKernel n 2 W (x i) (x j)) 1 y α b) ∧ ∃ α' b', DualSol (fun i j => rffClosed 2 (x i) (x j)) 1 y α' b' := by
  refine ⟨C50_exists_partial _ (rff_psd n 2 W x) 1 one_pos y, C50_exists_partial _ ?_ 1 one_pos y⟩
  have h1 : ∀ᵐ ω ∂(Measure.infinitePi fun _ : ℕ => weightLaw (Fin 2)), ∀ i j : Fin 3,
      Tendsto (fun n : ℕ => rffKernel n 2 (first (fun i (ω : ℕ → Fin 2 → ℝ) => ω i) n ω) (x i) (x j)) atTop (𝓝 (rffClosed 2 (x i) (x j))) :=
    ae_all_iff.2 fun i => ae_all_iff.2 fun j => C104_rff 2 (x i) (x j) _ _ drawnAll_exists.drawn
  obtain ⟨ω, hω⟩ := h1.exists
  exact PSDStat.psdMat_lim _ _ (fun n => rff_psd n 2 _ x) hω

/-- Three points of the plane, the output at a fourth one. -/
example (x : Fin 3 → Fin 2 → ℝ) (y : Fin 3 → ℝ) (z : Fin 2 → ℝ) := C167_lssvm (drawnAll_exists.drawn) (by norm_num) x 2 1 one_pos y z

/-- Ten points, errors of 1/2, 8000 weights, `δ = 1/5`. -/
example (x : Fin 10 → Fin 2 → ℝ) (E : EigDecomp fun i j => rffClosed 2 (x i) (x j)) :=
  C167_kpca_enough drawnAll_exists x 2 8000 (by norm_num) (1 / 2) (1 / 5) (by norm_num) (by norm_num) (by
    have := Real.log_le_sub_one_of_pos (show (0 : ℝ) < 1000 by norm_num)
    norm_num at this ⊢
    linarith) E

end RFLimit
end Kerch
