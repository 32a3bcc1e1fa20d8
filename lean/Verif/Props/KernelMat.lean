import Mathlib.LinearAlgebra.Eigenspace.Basic
import Mathlib.LinearAlgebra.Matrix.ToLin
import Mathlib.LinearAlgebra.FiniteDimensional.Basic
import Verif.Model.KernelMat
import Verif.Props.Cache
import Verif.Props.PSD
import Verif.Props.Polynomial
set_option linter.unusedSectionVars false
set_option linter.unusedSimpArgs false
/-!
# C31, C32, C33: the matrices of a kernel on its sample
-/
namespace Kerch
open Finset

/-! ## C31 -/

section C31
variable {n d : Type} [Fintype n] [Fintype d] [DecidableEq n] [DecidableEq d]

/-- `trace K = n · trace C`. -/
theorem C31_trace [Nonempty n] (Φ : Matrix n d ℝ) : (matK Φ).trace = Fintype.card n * (matC Φ).trace := by
  have : (Fintype.card n : ℝ) ≠ 0 := (card_pos_real (n := n)).ne'
  rw [matK, matC, Matrix.trace_mul_comm, Matrix.trace_smul, smul_eq_mul]
  field_simp

theorem finrank_eigenspace_le {n d : Type} [Fintype n] [Fintype d] [DecidableEq n] [DecidableEq d] (A : Matrix n d ℝ) (B : Matrix d n ℝ) (c : ℝ)
    (hc : c ≠ 0) :
    Module.finrank ℝ (Module.End.eigenspace (Matrix.toLin' (A * B)) c) ≤ Module.finrank ℝ (Module.End.eigenspace (Matrix.toLin' (B * A)) c) := by
  let f : Module.End.eigenspace (Matrix.toLin' (A * B)) c →ₗ[ℝ] Module.End.eigenspace (Matrix.toLin' (B * A)) c :=
    LinearMap.codRestrict _ ((Matrix.toLin' B).comp (Submodule.subtype _)) (by
      rintro ⟨v, hv⟩
      rw [Module.End.mem_eigenspace_iff] at hv ⊢
      simp only [Matrix.toLin'_mul, LinearMap.comp_apply, Submodule.subtype_apply] at hv ⊢
      rw [hv, map_smul])
  refine LinearMap.finrank_le_finrank_of_injective (f := f) ?_
  rw [← LinearMap.ker_eq_bot, LinearMap.ker_eq_bot']
  rintro ⟨v, hv⟩ h
  rw [Module.End.mem_eigenspace_iff, Matrix.toLin'_mul, LinearMap.comp_apply] at hv
  have hB : Matrix.toLin' B v = 0 := congrArg Subtype.val h
  rw [hB, map_zero] at hv
  ext1
  exact (smul_eq_zero.1 hv.symm).resolve_left hc

/-- The non-zero eigenvalues of `K` are `n` times those of `C`, with the same multiplicities. -/
theorem C31_spectrum [Nonempty n] (Φ : Matrix n d ℝ) (c : ℝ) (hc : c ≠ 0) :
    Module.finrank ℝ (Module.End.eigenspace (Matrix.toLin' (matK Φ)) (Fintype.card n * c))
      = Module.finrank ℝ (Module.End.eigenspace (Matrix.toLin' (matC Φ)) c) := by
  have hn : (Fintype.card n : ℝ) ≠ 0 := (card_pos_real (n := n)).ne'
  have hnc : (Fintype.card n : ℝ) * c ≠ 0 := mul_ne_zero hn hc
  have hC : Module.End.eigenspace (Matrix.toLin' (matC Φ)) c
      = Module.End.eigenspace (Matrix.toLin' (Φ.transpose * Φ)) (Fintype.card n * c) := by
    ext v
    rw [Module.End.mem_eigenspace_iff, Module.End.mem_eigenspace_iff, matC, map_smul, LinearMap.smul_apply, mul_smul]
    constructor
    · intro h; rw [← h, smul_smul, mul_one_div_cancel hn, one_smul]
    · intro h; rw [h, smul_smul, one_div_mul_cancel hn, one_smul]
  rw [hC, matK]
  exact le_antisymm (finrank_eigenspace_le _ _ _ hnc) (finrank_eigenspace_le _ _ _ hnc)

/-- The eigenvectors correspond: through `Φ`ᵀ from `K` to `C`, through `Φ` from `C` to `K`. -/
theorem C31_eigenvectors [Nonempty n] (Φ : Matrix n d ℝ) (c : ℝ) :
    (∀ h : n → ℝ, (matK Φ).mulVec h = (Fintype.card n * c) • h → (matC Φ).mulVec (Φ.transpose.mulVec h) = c • Φ.transpose.mulVec h) ∧
    (∀ w : d → ℝ, (matC Φ).mulVec w = c • w → (matK Φ).mulVec (Φ.mulVec w) = (Fintype.card n * c) • Φ.mulVec w) := by
  have hn : (Fintype.card n : ℝ) ≠ 0 := (card_pos_real (n := n)).ne'
  constructor
  · intro h hh
    rw [matK, ← Matrix.mulVec_mulVec] at hh
    rw [matC, Matrix.smul_mulVec, ← Matrix.mulVec_mulVec, hh, Matrix.mulVec_smul, smul_smul, ← mul_assoc, one_div_mul_cancel hn, one_mul]
  · intro w hw
    rw [matC, Matrix.smul_mulVec] at hw
    have : (Φ.transpose * Φ).mulVec w = (Fintype.card n * c) • w := by
      rw [mul_smul, ← hw, smul_smul, mul_one_div_cancel hn, one_smul]
    rw [matK, ← Matrix.mulVec_mulVec, Matrix.mulVec_mulVec w, this, Matrix.mulVec_smul]

end C31

/-! ## C32 -/

section C32

instance (priority := 10000) nonempty_optionTable {n d : Type} : Nonempty (Option (n → d → ℝ)) := ⟨none⟩

variable {X n d : Type} [Fintype n] [Nonempty n] [Fintype d]

theorem kernelMats_ranked (explicit : Bool) (p : List Kind) : (kernelMats (X := X) (n := n) (d := d) explicit p).Ranked := by
  intro key
  by_cases h1 : key = "C"
  · subst h1; simp [kernelMats, Prog.Below]
  · by_cases h2 : key = "K"
    · subst h2; cases explicit <;> simp [kernelMats, Prog.Below]
    · simp [kernelMats, Prog.Below, h1, h2]

theorem kernelMats_levels (explicit : Bool) (p : List Kind) : (kernelMats (X := X) (n := n) (d := d) explicit p).KnownLevels :=
  knownLevels_default _ rfl (by intro key; show levelSwitcher.has "normal" = true; decide)

/-- `K` is `k()`, the evaluation by the route of the kernel on the sample. -/
theorem C32_K_is_k (explicit : Bool) (p : List Kind) (env : KEnv X n d) :
    (kernelMats explicit p).fresh env "K" = (kernelK env.φ env.κ env.pts p explicit .sample .sample).map .kmat := by
  rw [Defs.fresh_eq_runFresh (kernelMats_ranked explicit p)]
  cases explicit with
  | false =>
    rw [kernelK_implicit]
    simp only [kernelMats, reduceCtorEq, String.reduceEq, if_false, if_true, Bool.false_eq_true, Prog.runFresh]
    cases ioos env.κ env.pts p .sample .sample <;> rfl
  | true =>
    rw [kernelK_explicit]
    have hphi : (kernelMats true p).fresh env "phi" = .ok (.feat (esample env.φ env.pts p)) := by
      rw [Defs.fresh_eq_runFresh (kernelMats_ranked true p)]
      simp [kernelMats, Prog.runFresh]
    have hb : (kernelMats (X := X) (n := n) (d := d) true p).body "K" = .need "phi" fun v => .ret fun _ => match v with
        | .feat Y => .ok (.kmat (Y.map fun Y => matK (Matrix.of Y)))
        | _ => .error .runtimeError := by
      simp [kernelMats]
      funext v
      cases v <;> rfl
    rw [hb]
    simp only [Prog.runFresh, hphi, eoos_sample]
    cases esample env.φ env.pts p with
    | none => rfl
    | some Y => rfl

/-- In every history of reads of `K`, `C`, `Phi`, changes of sample and hyper-parameters (followed by their resets), evictions and changes of the cache
level, each read of `K` gives `k()` in the state at that time: what was evaluated before does not matter. -/
theorem C32_history (explicit : Bool) (p : List Kind) (env : KEnv X n d) (lvl : LvlArg) (hlvl : lvl.Known)
    (ops : List (Defs.Op String (KEnv X n d))) (ha : Admissible (kernelMats explicit p) env ops) (f : KEnv X n d → KEnv X n d) (rp : Bool) :
    ((kernelMats explicit p).run (env, CacheSt.init lvl) (ops ++ [.update f rp [], .read "K"])).2
      = (kernelMats explicit p).specRun env (ops ++ [.update f rp [], .read "K"]) := by
  refine C01_cache_transparent _ (kernelMats_ranked explicit p) (kernelMats_levels explicit p) env lvl hlvl _ ?_
  induction ops generalizing env with
  | nil =>
    refine ⟨fun key h => ?_, trivial⟩
    rcases h with h | ⟨h, _⟩
    · cases h
    · simp [kernelMats] at h
  | cons o ops ih =>
    cases o with
    | update g rp' av => exact ⟨ha.1, ih _ ha.2⟩
    | clean a => exact ⟨ha.1, ih _ ha.2⟩
    | setLevel a => exact ⟨ha.1, ih _ ha.2⟩
    | read key => exact ih _ ha
    | reset rp => exact ih _ ha
    | remove k => exact ih _ ha

/-- Both routes of `k` give the same matrix (chains of centering and unit sphere normalisation). Missing (`_partial`): small norms at normalisations,
see C19. -/
theorem C32_routes_partial (φ : X → d → ℝ) (κ : X → X → ℝ) (pts : n → X) (hκ : ∀ x y, κ x y = φ x ⬝ᵥ φ y) (p : List Kind)
    (hp : ∀ k ∈ p, k = .mean ∨ k = .sphere) (hs : Guarded φ pts p .sample) (a b : Arg X) (ha : Guarded φ pts p a) (hb : Guarded φ pts p b) :
    kernelK φ κ pts p true a b = kernelK φ κ pts p false a b := by
  obtain ⟨A, B, hA, hB, h⟩ := C19_implicit_explicit_partial φ pts κ hκ p hp hs a b ha hb
  rw [kernelK_explicit, kernelK_implicit, hA, hB, h]
  rfl

end C32

/-! ## C33 -/

section C33
variable {X n d : Type} [Fintype n] [Nonempty n] [Fintype d]

/-- The covariance of the columns of a table of features. -/
noncomputable def covSpec {ι : Type} [Fintype ι] (F : ι → d → ℝ) (j k : d) : ℝ :=
  (∑ i, (F i j - (∑ l, F l j) / Fintype.card ι) * (F i k - (∑ l, F l k) / Fintype.card ι)) / Fintype.card ι

/-- The chain of `cov` for kernels without required transform and not naturally normalized (all kernels with an explicit map but the cosine kernel). -/
theorem C33_chain_partial (T : List Kind) (h : T.IsChain (· ≠ ·)) :
    covChain .linear T = .ok (if T.getLast? = some .mean then T else T ++ [.mean]) := by
  have e1 : ∀ t : List Kind, expand (t.map .cls ++ [.name "center"]) = .ok (t ++ [.mean]) := by
    intro t
    induction t with
    | nil => simp [expand, allTransform, Dict.find, Except.map]
    | cons k t ih => simp [expand, ih, Except.map]
  have hdrop : ∀ l, dropFirst KCls.linear l = l := by
    intro l
    unfold dropFirst
    split <;> rfl
  set T' := (if T.getLast? = some .mean then T else T ++ [.mean]) with hT'
  have hchain : T'.IsChain (· ≠ ·) := by
    rw [hT']
    split
    · exact h
    · rename_i hl
      rw [List.isChain_append]
      refine ⟨h, by simp, ?_⟩
      intro x hx y hy
      simp only [List.head?_cons, Option.mem_def, Option.some.injEq] at hx hy
      subst hy
      intro hxy
      exact hl (by rw [← hxy]; exact hx)
  have hb : beautify (T.map .cls ++ [.name "center"]) = .ok T' := by
    simp only [beautify, e1, Except.map]
    congr 1
    by_cases hl : T.getLast? = some .mean
    · rw [hT', if_pos hl]
      obtain ⟨l, rfl⟩ := List.getLast?_eq_some_iff.1 hl
      have := (C15_single_pair_partial l [] Kind.mean h (by simp)).1
      simpa using this
    · rw [hT', if_neg hl] at hchain ⊢
      exact (C15_no_repetition_partial _ hchain).1
  have hb2 : beautify (T'.map .cls) = .ok T' := by rw [beautify_cls, (C15_no_repetition_partial _ hchain).1]
  have s1 : (simplify KCls.linear (T.map .cls ++ [.name "center"])).2 = .ok T' := by
    simp only [simplify, KCls.linear, Option.toList_none, List.append_nil, hb, Except.map]
    exact congrArg _ (hdrop _)
  have s2 : (simplify KCls.linear (T'.map .cls)).2 = .ok T' := by
    simp only [simplify, KCls.linear, Option.toList_none, List.append_nil, hb2, Except.map]
    exact congrArg _ (hdrop _)
  simp only [covChain, s1, Except.bind, evalChain, s2, hb2]

theorem tmean_center (S : n → d → ℝ) (j : d) : tmean (fun i => S i j - tmean fun i => S i j) = 0 := by
  rw [tmean, tmean_sub_self fun i => S i j, zero_div]

/-- On the sample, `cov()` is the covariance of the features after the default transforms `T`. Missing (`_partial`): the cosine kernel
(`C33_cosine_violated`) and points other than the sample (`C33_oos_violated`). -/
theorem C33_cov_partial (T : List Kind) (h : T.IsChain (· ≠ ·)) (φ : X → d → ℝ) (pts : n → X) (F : n → d → ℝ)
    (hF : esample φ pts T.reverse = some F) :
    covMat .linear T φ pts .sample = .ok (some (Matrix.of (covSpec F))) := by
  have main : ∀ G : n → d → ℝ, (∀ i j, G i j = F i j - tmean fun l => F l j) → matC (Matrix.of G) = Matrix.of (covSpec F) := by
    intro G hG
    ext j k
    simp only [matC, Matrix.smul_apply, Matrix.mul_apply, Matrix.transpose_apply, Matrix.of_apply, hG, smul_eq_mul, covSpec, tmean]
    ring
  rw [covMat, C33_chain_partial T h]
  simp only [Except.map, eoos_sample]
  congr 1
  by_cases hl : T.getLast? = some .mean
  · rw [if_pos hl, hF]
    simp only [Option.map_some]
    congr 1
    refine main F fun i j => ?_
    obtain ⟨l, rfl⟩ := List.getLast?_eq_some_iff.1 hl
    rw [List.reverse_append] at hF
    obtain ⟨S, st, h1, h2, rfl⟩ := esample_cons_inv (φ := φ) (pts := pts) (by simpa using hF)
    cases h2
    have : (tmean fun l => applyKind Kind.mean (fun j => tmean fun i => S i j) S l j) = 0 := tmean_center S j
    rw [this, sub_zero]
  · rw [if_neg hl, List.reverse_append]
    have : esample φ pts ([Kind.mean].reverse ++ T.reverse) = some fun i j => F i j - tmean fun l => F l j := by
      show (esample φ pts T.reverse).bind _ = _
      rw [hF]
      rfl
    rw [this]
    simp only [Option.map_some]
    congr 1
    exact main _ fun i j => rfl

/-- It is symmetric positive semi-definite, for all kernels, default transforms and points. -/
theorem C33_psd (K : KCls) (T : List Kind) (φ : X → d → ℝ) (pts : n → X) (a : Arg X) [Fintype (a.I n)] (M : Matrix d d ℝ)
    (h : covMat K T φ pts a = .ok (some M)) : PSDMat M := by
  unfold covMat at h
  cases hc : covChain K T with
  | error e => rw [hc] at h; cases h
  | ok t =>
    rw [hc] at h
    have h := Except.ok.inj h
    cases hY : eoos φ pts t.reverse a with
    | none => simp only [hY, Option.map_none, reduceCtorEq] at h
    | some Y =>
      simp only [hY, Option.map_some] at h
      rw [← Option.some.inj h]
      have := (psdMat_gram fun j i => Y i j).smul (a := 1 / (Fintype.card (a.I n) : ℝ)) (by positivity)
      exact this

/-- The covariance does not change when the features are translated. -/
theorem C33_translation {ι : Type} [Fintype ι] [Nonempty ι] (F : ι → d → ℝ) (t : d → ℝ) : covSpec (fun i j => F i j + t j) = covSpec F := by
  have hn : (Fintype.card ι : ℝ) ≠ 0 := (card_pos_real (n := ι)).ne'
  funext j k
  have : ∀ j, (∑ l, (F l j + t j)) / (Fintype.card ι : ℝ) = (∑ l, F l j) / Fintype.card ι + t j := by
    intro j
    rw [sum_add_distrib, sum_const, card_univ, nsmul_eq_mul]
    field_simp
  simp only [covSpec, this, add_sub_add_right_eq_sub]

theorem PSDMat.cauchy {M : d → d → ℝ} (hM : PSDMat M) (i j : d) : M i j ^ 2 ≤ M i i * M j j := by
  have h := hM.sub (![i, j] : Fin 2 → d)
  rcases eq_or_ne (M j j) 0 with hj | hj
  · have := hM.zero_row hj i
    rw [hM.1 i j, this, hj]; simp
  · have h1 := h.2 ![M j j, -M i j]
    simp [Fin.sum_univ_two, ← hM.1 i j] at h1
    have hpos : 0 < M j j := lt_of_le_of_ne (hM.diag_nonneg j) (Ne.symm hj)
    have h2 : 0 ≤ M j j * (M i i * M j j - M i j ^ 2) := by linarith
    nlinarith [le_of_mul_le_mul_left (by linarith : M j j * 0 ≤ M j j * (M i i * M j j - M i j ^ 2)) hpos]

/-- `corr` has unit diagonal and entries in `[-1, 1]` when no variance vanishes, and is symmetric. -/
theorem C33_corr (K : KCls) (T : List Kind) (φ : X → d → ℝ) (pts : n → X) (a : Arg X) [Fintype (a.I n)] (M : Matrix d d ℝ)
    (h : covMat K T φ pts a = .ok (some M)) (hv : ∀ i, M i i ≠ 0) :
    (∀ i, corrMat M i i = 1) ∧ (∀ i j, |corrMat M i j| ≤ 1) ∧ ∀ i j, corrMat M i j = corrMat M j i := by
  have hM := C33_psd K T φ pts a M h
  have h0 : ∀ i, 0 < M i i := fun i => lt_of_le_of_ne (hM.diag_nonneg i) (Ne.symm (hv i))
  refine ⟨fun i => ?_, fun i j => ?_, fun i j => ?_⟩
  · rw [corrMat, Real.mul_self_sqrt (h0 i).le, div_self (hv i)]
  · rw [corrMat, abs_div, ← Real.sqrt_mul (h0 i).le, abs_of_nonneg (Real.sqrt_nonneg _)]
    rw [div_le_one (Real.sqrt_pos.2 (mul_pos (h0 i) (h0 j))), ← Real.sqrt_sq_eq_abs]
    exact Real.sqrt_le_sqrt (hM.cauchy i j)
  · rw [corrMat, corrMat, hM.1 i j, mul_comm]

/-- Violation: the covariance of points other than the sample is taken around the mean of the sample. One point, at distance 1 of the single point of
the sample, gets variance 1 instead of 0. -/
theorem C33_oos_violated :
    covMat .linear [] (fun x : Unit → ℝ => x) (fun _ : Unit => fun _ => (0 : ℝ)) (.batch Unit fun _ _ => 1) = .ok (some fun _ _ => 1) ∧
      covSpec (fun (_ : Unit) (_ : Unit) => (1 : ℝ)) () () = 0 := by
  constructor
  · rw [covMat, C33_chain_partial [] (by simp)]
    simp only [Except.map, List.getLast?_nil, reduceCtorEq, if_false, List.nil_append, List.reverse_cons, List.reverse_nil]
    congr 1
    have : eoos (fun x : Unit → ℝ => x) (fun _ : Unit => fun _ => (0 : ℝ)) [Kind.mean] (.batch Unit fun _ _ => 1)
        = some fun _ _ => 1 := by
      rw [eoos_cons, eoos_nil]
      simp [esample, colStat, applyKind, tmean, Arg.pt]
    rw [this]
    simp only [Option.map_some]
    congr 1
    ext i j
    simp [matC, Matrix.mul_apply]
  · simp [covSpec]

/-- The cosine kernel normalises again after the centering. -/
theorem C33_cosine_chain (T : List Kind) (h : T.IsChain (· ≠ ·)) (hT : T.getLast? = some .sphere) :
    covChain .cosine T = .ok (T ++ [.mean, .sphere]) := by
  obtain ⟨l, rfl⟩ := List.getLast?_eq_some_iff.1 hT
  have e1 : ∀ t : List Kind, expand (t.map .cls ++ [.name "center"] ++ [.name "unit_sphere_normalization"]) = .ok (t ++ [.mean, .sphere]) := by
    intro t
    induction t with
    | nil => simp [expand, allTransform, Dict.find, Except.map]
    | cons k t ih => simp only [List.map_cons, List.cons_append, expand, ih, Except.map]
  have hdrop : ∀ l, dropFirst KCls.cosine l = l := by
    intro l
    unfold dropFirst
    split <;> rfl
  set T := l ++ [Kind.sphere] with hTT
  have hchain : (T ++ [Kind.mean, Kind.sphere]).IsChain (· ≠ ·) := by
    rw [List.isChain_append]
    refine ⟨h, by simp, ?_⟩
    intro x hx y hy
    rw [hTT, List.getLast?_concat] at hx
    simp only [List.head?_cons, Option.mem_def, Option.some.injEq] at hx hy
    subst hx hy
    decide
  have hb : beautify (T.map .cls ++ [.name "center"] ++ [.name "unit_sphere_normalization"]) = .ok (T ++ [.mean, .sphere]) := by
    simp only [beautify, e1, Except.map]
    rw [(C15_no_repetition_partial _ hchain).1]
  have s1 : (simplify KCls.cosine (T.map .cls ++ [.name "center"])).2 = .ok (T ++ [.mean, .sphere]) := by
    show (beautify (T.map .cls ++ [.name "center"] ++ [.name "unit_sphere_normalization"])).map _ = _
    rw [hb]
    simp only [Except.map, hdrop]
  simp only [covChain, s1, Except.bind]
  rw [C23_actual _ hchain]
  simp

/-- Violation: for the cosine kernel `cov` is not the covariance of the features. On the points `1`, `1`, `-1` of the line (which are their own
features) it is 1 instead of 8/9. -/
theorem C33_cosine_violated :
    let φ : (Unit → ℝ) → Unit → ℝ := fun x => x
    let pts : Fin 3 → Unit → ℝ := fun i _ => ![1, 1, -1] i
    esample φ pts [.sphere] = some pts ∧ (∃ M, covMat .cosine [.sphere] φ pts .sample = .ok (some M) ∧ M () () = 1) ∧
      covSpec pts () () = 8 / 9 := by
  intro φ pts
  have hE : (EPS : ℝ) ≤ 2 / 3 := by norm_num [EPS]
  have hs : ∀ F : Fin 3 → Unit → ℝ, (∀ i, 2 / 3 ≤ |F i ()|) → ∀ i, F i () / clampEps (tnorm (F i)) = F i () / |F i ()| := by
    intro F hF i
    have : tnorm (F i) = |F i ()| := by simp [tnorm, Real.sqrt_sq_eq_abs, ← sq]
    rw [this, clampEps, max_eq_left (hE.trans (hF i))]
  have h1 : esample φ pts [.sphere] = some pts := by
    have : esample φ pts [.sphere] = some fun i j => pts i j / clampEps (tnorm (pts i)) := rfl
    rw [this]
    congr 1
    funext i j
    rw [hs pts (by intro i; fin_cases i <;> norm_num [pts]) i]
    fin_cases i <;> norm_num [pts]
  refine ⟨h1, ?_, ?_⟩
  · rw [covMat, C33_cosine_chain [.sphere] (by simp) rfl]
    simp only [Except.map, eoos_sample, List.cons_append, List.nil_append, List.reverse_cons, List.reverse_nil]
    have h2 : esample φ pts [.mean, .sphere] = some fun i _ => ![2/3, 2/3, -4/3] i := by
      have : esample φ pts [.mean, .sphere] = (esample φ pts [.sphere]).bind fun S => some fun i j => S i j - tmean fun l => S l j := rfl
      rw [this, h1]
      simp only [Option.bind_some]
      congr 1
      funext i j
      have h3 : (![1, 1, -1] : Fin 3 → ℝ) 2 = -1 := rfl
      fin_cases i <;> norm_num [pts, tmean, Fin.sum_univ_three, h3]
    have h3 : esample φ pts [.sphere, .mean, .sphere] = some fun i _ => ![1, 1, -1] i := by
      have : esample φ pts [.sphere, .mean, .sphere]
          = (esample φ pts [.mean, .sphere]).bind fun S => some fun i j => S i j / clampEps (tnorm (S i)) := rfl
      rw [this, h2]
      simp only [Option.bind_some]
      congr 1
      funext i j
      have := hs (fun i _ => ![2/3, 2/3, -4/3] i) (by intro i; fin_cases i <;> norm_num [abs_of_nonneg, abs_of_nonpos]) i
      refine this.trans ?_
      fin_cases i <;> norm_num [abs_of_nonneg, abs_of_nonpos]
    rw [h3]
    refine ⟨_, rfl, ?_⟩
    simp [matC, Matrix.mul_apply, Fin.sum_univ_three, Arg.I]
    norm_num
  · simp [covSpec, Fin.sum_univ_three, pts]
    norm_num

end C33

/-- Non-vacuity: default transforms `normalize`, `center` form such a chain. -/
example : [Kind.sphere, .mean].IsChain (· ≠ ·) := by decide

end Kerch
