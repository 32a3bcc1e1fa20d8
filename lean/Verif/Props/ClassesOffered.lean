import Verif.Props.Classes
import Verif.Props.Time
/-!
# C109: the kernels and levels that the package offers
-/
set_option linter.unusedSectionVars false
set_option linter.unusedSimpArgs false
namespace Kerch
namespace Classes

theorem plain_fresh {k : CN} (hk : k ∈ plainKernels) (id : ℕ) : Fresh id (cls k).mro := by
  intro e he hd
  have := ((plain_kernels k hk).2.2 e he).2.1
  rw [hd] at this
  simp [CN.isDyn] at this

theorem plain_class {k : CN} (hk : k ∈ plainKernels) : KernelClass (cls k) := kernelClass_of (plain_kernels k hk).1

theorem distances : ∀ d ∈ [CN.euclidean, .manhattan, .chebyshev, .minkowski, .wassersteinDistance],
    (env.lookup d).isSome = true ∧ ∀ e ∈ (cls d).mro, e.name.isDyn = false ∧ e.find .bigH = none := by decide +kernel

/-- **C109.** The offered kernels that need no distance class can be used on their own, and with KPCA, LSSVM and Ridge. -/
theorem C109_offered {k : CN} (hk : k ∈ plainKernels) {L : CN} (hL : L ∈ solvableLevels) (id : ℕ) (D : Cls) :
    kernelOnly id (cls k) D = .ok (cls k) ∧ ∃ c, levelNew id (cls L) (cls k) D = .ok c := by
  obtain ⟨h1, h2, h3⟩ := plain_kernels k hk
  refine ⟨?_, (C109_construct (plain_class hk) h2 hL (plain_fresh hk id) (fun e he => (h3 e he).1) D).imp fun c h => h.1⟩
  unfold kernelOnly kernelNew
  have hany : ((cls k).mro.any fun e => e.name == CN.selectDistance) = false := by
    rw [List.any_eq_false]
    intro e he
    simpa using (h3 e he).1
  rw [hany, h2]
  rfl

/-- **C109.** The kernels based on a distance can be used on their own and with KPCA, LSSVM and Ridge, with each of the five
distances. -/
theorem C109_offered_distance : ∀ k ∈ distanceKernels, ∀ d ∈ [CN.euclidean, .manhattan, .chebyshev, .minkowski, .wassersteinDistance],
    (kernelOnly 0 (cls k) (cls d)).toOption.isSome = true ∧
    ∀ L ∈ solvableLevels, (levelNew 0 (cls L) (cls k) (cls d)).toOption.isSome = true := by decide +kernel

/-- **C109 fails.** `PPCA` with the offered kernels. -/
theorem C109_ppca_offered_violated {k d L : CN} (hk : k ∈ plainKernels ++ distanceKernels)
    (hd : d ∈ [CN.euclidean, .manhattan, .chebyshev, .minkowski, .wassersteinDistance]) (hL : L ∈ [CN.view, .level, .ppca, .wpca])
    (id : ℕ) : levelNew id (cls L) (cls k) (cls d) = .error .typeError := by
  obtain ⟨hd1, hd2⟩ := distances d hd
  have hfD : ∀ i, Fresh i (cls d).mro := by
    intro i e he hdyn
    have := (hd2 e he).1
    rw [hdyn] at this
    simp [CN.isDyn] at this
  have key : KernelClass (cls k) ∧ ∀ e ∈ (cls k).mro, e.name.isDyn = false ∧ e.find .bigH = none := by
    rcases List.mem_append.1 hk with hk | hk
    · exact ⟨plain_class hk, fun e he => ((plain_kernels k hk).2.2 e he).2⟩
    · exact ⟨kernelClass_of (distance_kernels k hk).1, (distance_kernels k hk).2⟩
  have hf : ∀ i, Fresh i (cls k).mro := by
    intro i e he hdyn
    have := (key.2 e he).1
    rw [hdyn] at this
    simp [CN.isDyn] at this
  exact C109_ppca_violated key.1 (env_lookup hd1) hL (hf id) (hf (id + 1)) (hfD (id + 1)) (n := .bigH) (by simp)
    (fun e he => (key.2 e he).2) fun e he => (hd2 e he).2

/-- **C109 fails.** The kernel `rf_hyperbola` can be used on its own or with KPCA, but an LSSVM or a ridge regression with it can
never be constructed. -/
theorem C109_hyperbola_violated {L : CN} (hL : L ∈ [CN.lssvm, .ridge]) (id : ℕ) {α γ : ℝ} (hα : 0 < α) (hγ : 0 < γ) :
    hyperbolaInit (cls .rfHyperbola) α γ = .ok γ ∧
    (∃ c, create ⟨.dyn id, ownHome (cls .kpca), ownDefs (cls .kpca)⟩ [cls .kpca, cls .rfHyperbola] = .ok c ∧
      hyperbolaInit c α γ = .ok γ) ∧
    ∃ c, create ⟨.dyn id, ownHome (cls L), ownDefs (cls L)⟩ [cls L, cls .rfHyperbola] = .ok c ∧
      hyperbolaInit c α γ = .error .attributeError := by
  have hk : CN.rfHyperbola ∈ plainKernels := by decide
  have hK := plain_class hk
  refine ⟨?_, ?_, ?_⟩
  · have : (lookup (cls .rfHyperbola).mro .gamma).map Prod.fst = some .rfHyperbola := by decide +kernel
    unfold hyperbolaInit
    rw [if_pos hα, this]
    simp [setGamma, hγ]
  · obtain ⟨c, hc⟩ := C109_level_class hK (L := .kpca) (by decide) ⟨.dyn id, ownHome (cls .kpca), ownDefs (cls .kpca)⟩
    refine ⟨c, hc, ?_⟩
    obtain ⟨R, h1, h2, h3, h4, h5⟩ := level_mro hK (L := .kpca) (by decide) hc
    have hnone : ∀ e ∈ levelPart .kpca, e.find .gamma = none := by decide +kernel
    have hown : ∀ b, (⟨b, ownHome (cls .kpca), ownDefs (cls .kpca)⟩ : Entry).find .gamma = none := by
      intro b
      have : (⟨.kpca, ownHome (cls .kpca), ownDefs (cls .kpca)⟩ : Entry).find .gamma = none := by decide +kernel
      exact this
    obtain ⟨A, B, hA⟩ := List.append_of_mem (hK.derives.subset baseKernel_mem)
    have hl : (lookup c.mro .gamma).map Prod.fst = some .rfHyperbola := by
      rw [h1, lookup_cons, hown]
      simp only
      rw [lookup_append hnone, lookup_rest hK h2 h3 h4 h5 hA (Or.inl (by decide +kernel))]
      decide +kernel
    unfold hyperbolaInit
    rw [if_pos hα, hl]
    simp [setGamma, hγ]
  · have hL' : L ∈ singleLevels := by revert L; decide
    obtain ⟨c, hc⟩ := C109_level_class hK hL' ⟨.dyn id, ownHome (cls L), ownDefs (cls L)⟩
    refine ⟨c, hc, ?_⟩
    unfold hyperbolaInit
    rw [if_pos hα]
    exact (C109_gamma_violated hK hL hc).2 γ

theorem indicator_order : executed .init none (cls .indicator).mro = [.indicator, .implicit, .kernel, .baseKernel, .sample,
    .stochastic, .cache, .module] := by decide +kernel

/-- **C109 fails.** An LSSVM (or ridge regression) on an indicator kernel: the diagonal value of the kernel is the regularisation constant
of the level, 1 by default, instead of `2 * lag + 1`, so that the kernel is not positive semi-definite. -/
theorem C109_indicator_violated {L : CN} (hL : L ∈ [CN.lssvm, .ridge]) (id : ℕ) (lag : ℝ) (g : Option ℝ) :
    ∃ c, create ⟨.dyn id, ownHome (cls L), ownDefs (cls L)⟩ [cls L, cls .indicator] = .ok c ∧
      gammaCell lag g (executed .init none (cls .indicator).mro) = some (g.getD (2 * lag + 1)) ∧
      gammaCell lag g (executed .init none c.mro) = some (g.getD 1) ∧
      (1 ≤ lag → lag < 2 → ∀ γ, gammaCell lag none (executed .init none c.mro) = some γ →
        ¬ PSDOn (Set.range fun z : ℤ => (z : ℝ)) (indicatorKernel lag γ)) := by
  have hk : CN.indicator ∈ plainKernels := by decide
  have hK := plain_class hk
  have hL' : L ∈ singleLevels := by revert L; decide
  obtain ⟨c, hc⟩ := C109_level_class hK hL' ⟨.dyn id, ownHome (cls L), ownDefs (cls L)⟩
  have hcell : ∀ g, gammaCell lag g (executed .init none c.mro) = some (g.getD 1) := by
    intro g
    have hsplit : ∃ X' Y', (cls .indicator).mro = X' ++ entry .module :: Y' ∧
        ∀ e ∈ X', e.home = e.name ∧ (e.find .init).all Body.callsSuper = true := by
      refine ⟨(cls .indicator).mro.takeWhile (fun e => e.name != .module),
        ((cls .indicator).mro.dropWhile (fun e => e.name != .module)).tail, ?_, ?_⟩ <;> decide +kernel
    obtain ⟨X', Y', hX', hsup⟩ := hsplit
    obtain ⟨X, Y, h1, h2, h3, h4⟩ := C109_init hK hL' hc hX' (fun e he => ⟨(hsup e he).1, fun b hb => by
      have := (hsup e he).2; rw [hb] at this; simpa using this⟩)
    -- the outermost writer is the level
    have hout : ∃ P Q, executed .init none c.mro = P ++ .lssvm :: Q ∧ ∀ x ∈ P, x ≠ .indicator ∧ x ≠ .lssvm := by
      rw [h4]
      simp only [List.mem_cons, List.not_mem_nil, or_false] at hL
      rcases hL with rfl | rfl
      · refine ⟨[], ((levelPart .lssvm).tail.filter (fun e => (e.find .init).isSome)).map Entry.name
          ++ (X.filter (fun e => (e.find .init).isSome)).map Entry.name ++ [.module], ?_, by simp⟩
        have : (levelPart .lssvm).filter (fun e => (e.find .init).isSome) = entry .lssvm ::
            (levelPart .lssvm).tail.filter (fun e => (e.find .init).isSome) ∧ (entry .lssvm).name = .lssvm := by decide +kernel
        rw [List.filter_append, this.1]
        simp [this.2]
      · refine ⟨[.ridge], ((levelPart .ridge).tail.tail.filter (fun e => (e.find .init).isSome)).map Entry.name
          ++ (X.filter (fun e => (e.find .init).isSome)).map Entry.name ++ [.module], ?_, by simp⟩
        have : (levelPart .ridge).filter (fun e => (e.find .init).isSome) = entry .ridge :: entry .lssvm ::
            (levelPart .ridge).tail.tail.filter (fun e => (e.find .init).isSome) ∧ (entry .lssvm).name = .lssvm ∧
            (entry .ridge).name = .ridge := by decide +kernel
        rw [List.filter_append, this.1]
        simp [this.2]
    obtain ⟨P, Q, hPQ, hP⟩ := hout
    unfold gammaCell
    rw [hPQ, List.reverse_append, List.reverse_cons, List.foldl_append, List.foldl_append]
    have hstay : ∀ (l : List CN) (st : Option ℝ), (∀ x ∈ l, x ≠ .indicator ∧ x ≠ .lssvm) →
        l.foldl (fun st c => (gammaWrite lag g c).or st) st = st := by
      intro l
      induction l with
      | nil => intro st _; rfl
      | cons x l ih =>
        intro st h
        have hx := h x (by simp)
        have : gammaWrite lag g x = none := by
          unfold gammaWrite
          split
          · exact absurd rfl hx.2
          · exact absurd rfl hx.1
          · rfl
        rw [List.foldl_cons, this]
        exact ih _ fun y hy => h y (by simp [hy])
    rw [hstay P.reverse _ (fun x hx => hP x (by simpa using hx))]
    simp [gammaWrite]
  refine ⟨c, hc, ?_, hcell g, ?_⟩
  · rw [indicator_order]; simp [gammaCell, gammaWrite]
  · intro h1 h2 γ hγ
    rw [hcell none] at hγ
    simp at hγ
    subst hγ
    intro hp
    have h3 := (hp (Fin 3) (fun i => ((i.val : ℤ) : ℝ)) fun i => ⟨_, rfl⟩).2 ![2, -3, 2]
    have h4 : (![2, -3, 2] : Fin 3 → ℝ) 2 = 2 := rfl
    have a1 : (2 : ℝ) ≤ lag ↔ False := by simp [h2]
    simp only [Fin.sum_univ_three, indicatorKernel] at h3
    norm_num [Fin.isValue, abs_of_nonneg, abs_of_nonpos, h4, h1, a1] at h3

/-- A class of the user deriving from the implicit kernels, which implements `_implicit`. -/
def userKernel : Entry := ⟨.user 0, .user 0, [(.init, sup), (.implicitP, con)]⟩

/-- Non-vacuity of `C109_construct`, `C109_init` and `C109_kernel`: the class of the user is a kernel class, it can be instantiated,
and so can the levels on it. -/
example : ∃ K, create userKernel [cls .implicit] = .ok K ∧ KernelClass K ∧ instantiate K = .ok () ∧
    ∃ c, levelNew 0 (cls .lssvm) K K = .ok c ∧ ∀ n, ¬ AbstractIn c.mro n := by
  have hb : Built (cls .implicit) := env_lookup (by decide +kernel)
  have hf : ∀ x ∈ (cls .implicit).mro, x.name ≠ userKernel.name := by decide +kernel
  have hex : ((create userKernel [cls .implicit]).toOption.isSome) = true := by decide +kernel
  cases hc : create userKernel [cls .implicit] with
  | error e => rw [hc] at hex; simp [Except.toOption] at hex
  | ok K =>
    have hK' : (create userKernel [cls .implicit]).toOption = some K := by rw [hc]; rfl
    have hm : (create userKernel [cls .implicit]).toOption.map Cls.mro = some (userKernel :: (cls .implicit).mro) := by decide +kernel
    have hab : (create userKernel [cls .implicit]).toOption.map Cls.abs = some [] := by decide +kernel
    rw [hK'] at hm hab
    simp only [Option.map_some, Option.some.injEq] at hm hab
    have hKC : KernelClass K := by
      refine ⟨.mk _ _ _ (by simpa using hb) (by simpa using hf) hc, ?_, ?_, ?_⟩
      · rw [hm]; exact List.Sublist.cons _ (by decide +kernel)
      · rw [hm]; intro e he; simp at he; subst he; decide +kernel
      · rw [hm]; decide +kernel
    have hi : instantiate K = .ok () := by unfold instantiate; rw [hab]; rfl
    refine ⟨K, rfl, hKC, hi, C109_construct hKC hi (by decide) ?_ ?_ K⟩
    · intro e he; rw [hm] at he; revert he e; decide +kernel
    · intro e he; rw [hm] at he; revert he e; decide +kernel

/-- Non-vacuity of the failing theorems. -/
example : ∃ c, levelNew 3 (cls .kpca) (cls .rbf) (cls .euclidean) = .ok c := by
  have := (C109_offered_distance .rbf (by decide) .euclidean (by decide)).2 .kpca (by decide)
  have h3 : (levelNew 3 (cls .kpca) (cls .rbf) (cls .euclidean)).toOption.isSome = true := by decide +kernel
  cases hc : levelNew 3 (cls .kpca) (cls .rbf) (cls .euclidean) with
  | error e => rw [hc] at h3; simp [Except.toOption] at h3
  | ok c => exact ⟨c, rfl⟩
example : levelNew 3 (cls .ppca) (cls .rbf) (cls .manhattan) = .error .typeError :=
  C109_ppca_offered_violated (by decide) (by decide) (by decide) 3

end Classes
end Kerch
