import Mathlib.Analysis.SpecificLimits.Basic
import Verif.Props.Optimizer
import Verif.Model.Momentum
set_option linter.unusedSectionVars false
set_option linter.unusedSimpArgs false
/-!
# C154: momentum, weight decay and Nesterov's variant
-/
namespace Kerch
namespace Momentum
open Finset

/-! ## Specification -/

/-- A parameter that can be seen as a matrix: at least one dimension, of positive size. -/
def Fit (shape : Nat → List ℕ) (q : Nat) : Prop := ∃ m rest, shape q = m :: rest ∧ m ≠ 0

/-- A parameter updated on the Stiefel manifold: asked for, and at most as many rows as columns. -/
def OnStiefel (shape : Nat → List ℕ) (G : Grp) (q : Nat) : Prop := G.stiefel = true ∧ ∃ m rest, shape q = m :: rest ∧ m ≤ rest.prod

/-- Every parameter belongs to one group, once. -/
def Once (gs : List Grp) : Prop := (gs.flatMap Grp.params).Nodup

/-- The velocity after the gradients `g 0 … g k`: the first one in full, the following ones dampened, all fading with the power of the momentum. -/
noncomputable def velocity (μ d : ℝ) (g : ℕ → Vec) (k : ℕ) (i : ℕ) : ℝ := μ ^ k * g 0 i + (1 - d) * ∑ j ∈ range k, μ ^ (k - 1 - j) * g (j + 1) i

/-! ## Helper lemmas -/

variable (stief : Grp → Nat → PS → PS) (k : Kind) (shape : Nat → List ℕ)

theorem visits_snd (gs : List Grp) : (visits gs).map Prod.snd = gs.flatMap Grp.params := by
  induction gs with
  | nil => rfl
  | cons G t ih =>
    simp only [visits, List.flatMap_cons, List.map_append] at ih ⊢
    rw [ih]
    simp [List.map_map, Function.comp_def]

theorem mem_visits {gs : List Grp} {G : Grp} {q : Nat} : (G, q) ∈ visits gs ↔ G ∈ gs ∧ q ∈ G.params := by
  simp only [visits, List.mem_flatMap, List.mem_map, Prod.mk.injEq]
  constructor
  · rintro ⟨G', h, q', hq, rfl, rfl⟩; exact ⟨h, hq⟩
  · rintro ⟨h, hq⟩; exact ⟨G, h, q, hq, rfl, rfl⟩

theorem visits_split (A B : List Grp) (G : Grp) (a b : List Nat) (q : Nat) (h : G.params = a ++ q :: b) :
    visits (A ++ G :: B) = (visits A ++ a.map fun q => (G, q)) ++ (G, q) :: (b.map (fun q => (G, q)) ++ visits B) := by
  simp [visits, List.flatMap_append, h]

theorem visit_frame (G : Grp) (q r : Nat) (l : Loc) (s : St) (h : r ≠ q) : (visit stief k shape G q l s).2.2 r = s r := by
  unfold visit
  split
  · rfl
  · split
    · rfl
    · split
      · rfl
      · split
        · simp [Function.update_of_ne h]
        · simp [Function.update_of_ne h]

theorem run_frame (L : List (Grp × Nat)) (r : Nat) : ∀ (l : Loc) (s : St), r ∉ L.map Prod.snd → (run stief k shape L l s).2.2 r = s r := by
  induction L with
  | nil => intro l s _; rfl
  | cons a t ih =>
    obtain ⟨G, q⟩ := a
    intro l s h
    simp only [List.map_cons, List.mem_cons, not_or] at h
    have h1 := visit_frame stief k shape G q r l s h.1
    unfold run
    split
    · next l' s' he =>
      rw [he] at h1
      exact (ih _ _ h.2).trans h1
    · exact h1

theorem run_append (L M : List (Grp × Nat)) : ∀ (l : Loc) (s : St), run stief k shape (L ++ M) l s =
    match run stief k shape L l s with
    | (.ok (), l, s) => run stief k shape M l s
    | r => r := by
  induction L with
  | nil => intro l s; rfl
  | cons a t ih =>
    obtain ⟨G, q⟩ := a
    intro l s
    simp only [List.cons_append, run]
    rcases hv : visit stief k shape G q l s with ⟨r, l', s'⟩
    cases r with
    | error e => rfl
    | ok u => simpa using ih l' s'

/-- The parameter after a visit that cannot fail. -/
noncomputable def next (G : Grp) (q : Nat) (p : PS) : PS :=
  open Classical in
  match p.grad with
  | none => p
  | some g => if OnStiefel shape G q then stief G q p else (euclid G ⟨some G.dampening, some G.nesterov⟩ p (decayed G p.value g)).2

theorem euclid_bound (G : Grp) (d : ℝ) (n : Bool) (p : PS) (g : Vec) : (euclid G ⟨some d, some n⟩ p g).1 = .ok () := by
  unfold euclid
  by_cases h : G.momentum = 0
  · simp [h]
  · cases hb : p.buf <;> simp [h]

theorem euclid_still (G : Grp) (l l' : Loc) (p : PS) (g : Vec) (h : G.momentum = 0) : euclid G l p g = euclid G l' p g := by
  unfold euclid
  simp [h]

theorem visit_good (G : Grp) (q : Nat) (l : Loc) (s : St) (hk : k = .adam ∨ G.momentum = 0) (hf : (s q).grad = none ∨ Fit shape q) :
    ∃ l', visit stief k shape G q l s = (.ok (), l', Function.update s q (next stief shape G q (s q))) := by
  unfold visit next
  cases hg : (s q).grad with
  | none => exact ⟨l, by simp⟩
  | some g =>
    obtain ⟨m, rest, hs, hm⟩ : Fit shape q := by
      rcases hf with h | h
      · rw [hg] at h; cases h
      · exact h
    have ho : OnStiefel shape G q ↔ (G.stiefel = true ∧ m ≤ rest.prod) := by
      unfold OnStiefel
      rw [hs]
      constructor
      · rintro ⟨h, m', r', h1, h2⟩
        obtain ⟨rfl, rfl⟩ := List.cons.inj h1
        exact ⟨h, h2⟩
      · rintro ⟨h, h2⟩; exact ⟨h, m, rest, rfl, h2⟩
    simp only [hs, hm, if_false, ho]
    by_cases h : G.stiefel = true ∧ m ≤ rest.prod
    · simp only [h, and_self, if_true]
      exact ⟨_, rfl⟩
    · simp only [h, if_false]
      rcases hk with rfl | hk
      · simp only [euclid_bound]
        exact ⟨_, rfl⟩
      · rw [euclid_still G _ ⟨some G.dampening, some G.nesterov⟩ _ _ hk]
        simp only [euclid_bound]
        exact ⟨_, rfl⟩

theorem run_good (L : List (Grp × Nat)) : ∀ (l : Loc) (s : St), (L.map Prod.snd).Nodup → (∀ a ∈ L, k = .adam ∨ a.1.momentum = 0) →
    (∀ a ∈ L, (s a.2).grad = none ∨ Fit shape a.2) →
    ∃ l' s', run stief k shape L l s = (.ok (), l', s') ∧ (∀ a ∈ L, s' a.2 = next stief shape a.1 a.2 (s a.2)) ∧ ∀ q, q ∉ L.map Prod.snd → s' q = s q := by
  induction L with
  | nil => intro l s _ _ _; exact ⟨l, s, rfl, by simp, by simp⟩
  | cons a t ih =>
    obtain ⟨G, q⟩ := a
    intro l s hn hk hf
    simp only [List.map_cons, List.nodup_cons] at hn
    obtain ⟨l1, h1⟩ := visit_good stief k shape G q l s (hk _ List.mem_cons_self) (hf _ List.mem_cons_self)
    have hne : ∀ b ∈ t, b.2 ≠ q := fun b hb e => hn.1 (e ▸ List.mem_map_of_mem hb)
    obtain ⟨l2, s2, h2, h3, h4⟩ := ih l1 (Function.update s q (next stief shape G q (s q))) hn.2 (fun b hb => hk b (List.mem_cons_of_mem _ hb)) (fun b hb => by
      rw [Function.update_of_ne (hne b hb)]; exact hf b (List.mem_cons_of_mem _ hb))
    refine ⟨l2, s2, ?_, ?_, ?_⟩
    · unfold run
      rw [h1]
      exact h2
    · intro b hb
      rcases List.mem_cons.1 hb with rfl | hb
      · rw [h4 _ hn.1]; simp
      · rw [h3 b hb, Function.update_of_ne (hne b hb)]
    · intro r hr
      simp only [List.map_cons, List.mem_cons, not_or] at hr
      rw [h4 r hr.2, Function.update_of_ne hr.1]

theorem next_still (G : Grp) (q : Nat) (p : PS) (g : Vec) (hg : p.grad = some g) (hs : ¬OnStiefel shape G q) (hm : G.momentum = 0) :
    (next stief shape G q p).value = (fun i => (1 - G.lr * G.weightDecay) * p.value i - G.lr * g i) ∧ (next stief shape G q p).buf = p.buf ∧
    (next stief shape G q p).grad = some fun i => g i + G.weightDecay * p.value i := by
  unfold next
  simp only [hg, hs, if_false, euclid, hm, if_true, decayed]
  by_cases hw : G.weightDecay = 0
  · simp [hw]
  · simp only [ne_eq, hw, not_false_eq_true, if_true, and_true, true_and]
    funext i; ring

theorem run_first (L M : List (Grp × Nat)) (l : Loc) (hl : l.dampening = none ∧ l.nesterov = none) (s : St)
    (h : ∀ a ∈ L, (s a.2).grad = none ∨ (a.1.momentum ≠ 0 ∧ ¬OnStiefel shape a.1 a.2 ∧ Fit shape a.2)) (he : ∃ a ∈ L, (s a.2).grad ≠ none) :
    ∃ l' s', run stief .sgd shape (L ++ M) l s = (.error .nameError, l', s') ∧ ∀ r, (s' r).value = (s r).value := by
  induction L with
  | nil => obtain ⟨a, ha, -⟩ := he; cases ha
  | cons a t ih =>
    obtain ⟨G, q⟩ := a
    simp only [List.cons_append, run]
    cases hg : (s q).grad with
    | none =>
      have hv : visit stief .sgd shape G q l s = (.ok (), l, s) := by unfold visit; simp [hg]
      rw [hv]
      refine ih (fun b hb => h b (List.mem_cons_of_mem _ hb)) ?_
      obtain ⟨b, hb, hb'⟩ := he
      rcases List.mem_cons.1 hb with rfl | hb
      · exact absurd hg hb'
      · exact ⟨b, hb, hb'⟩
    | some g =>
      obtain ⟨hμ, hst, m, rest, hs, hm⟩ := (h _ List.mem_cons_self).resolve_left (by simp [hg])
      have hst' : ¬(G.stiefel = true ∧ m ≤ rest.prod) := fun hc => hst ⟨hc.1, m, rest, hs, hc.2⟩
      simp only at hμ hs
      have key : ∃ p, visit stief .sgd shape G q l s = (.error .nameError, l, Function.update s q p) ∧ p.value = (s q).value := by
        unfold visit
        simp only [hg, hs, hm, if_false, hst', euclid, hμ, hl.1, hl.2]
        cases hb : (s q).buf with
        | none => exact ⟨_, rfl, rfl⟩
        | some b => exact ⟨_, rfl, rfl⟩
      obtain ⟨p, hv, hp⟩ := key
      refine ⟨l, Function.update s q p, ?_, fun r => ?_⟩
      · rw [hv]
      · by_cases hr : r = q
        · subst hr; simp [hp]
        · rw [Function.update_of_ne hr]

theorem torchGroups_eq : ∀ (gs acc out : List Optim.Group), Optim.torchGroups acc gs = .ok out → out = acc ++ gs := by
  intro gs
  induction gs with
  | nil => intro acc out h; simpa [Optim.torchGroups] using (Except.ok.inj h).symm
  | cons g t ih =>
    intro acc out h
    unfold Optim.torchGroups at h
    split at h
    · cases h
    · rw [ih _ _ h]; simp

/-- The groups of a constructed optimiser. -/
theorem constructed (t : PTree) (rg : Nat → Bool) (type : String) (kw : Dict String Optim.GVal) (w : kw.WF) (hr : Readable t) (gs : List Optim.Group) (b : Bool)
    (h : Optim.construct t rg type kw = .ok ⟨some gs, b⟩) : gs = allGroups t rg kw := by
  rw [construct_eq t rg type kw w hr] at h
  cases ha : allGroups t rg kw with
  | nil => simp [ha] at h
  | cons x y =>
    simp only [ha] at h
    by_cases ht : type = "sgd" ∨ type = "adam"
    · simp only [ht, if_true] at h
      cases hT : Optim.torchGroups [] (x :: y) with
      | error e => simp [hT] at h
      | ok out =>
        simp only [hT, Except.ok.injEq, Optim.St.mk.injEq, Option.some.injEq] at h
        rw [← h.1, torchGroups_eq _ _ _ hT]; rfl
    · simp [ht] at h

theorem find_kw (kw : Dict String Optim.GVal) (w : kw.WF) (ps : List Nat) (st : Bool) (lr v : Optim.GVal) (key : String)
    (hk : key ≠ "params" ∧ key ≠ "stiefel" ∧ key ≠ "lr") (h : kw.find key = some v) : (grp (Optim.defaults.merge kw) ps st lr).find key = some v := by
  unfold grp
  rw [Dict.find_merge _ _ (wf3 ..), Dict.find_merge _ _ w, h]
  simp [Dict.find, hk.1.symm, hk.2.1.symm, hk.2.2.symm]

theorem visits_grps (kw : Dict String Optim.GVal) (ps : List Nat) (st : Bool) (lr : Optim.GVal) :
    visits ((grps kw ps st lr).map ofGroup) = ps.map fun q => (ofGroup (grp kw ps st lr), q) := by
  unfold grps
  split
  · next h => subst h; rfl
  · simp [visits, ofGroup, grp_params]

theorem visits_append (A B : List Grp) : visits (A ++ B) = visits A ++ visits B := by simp [visits]

theorem velocity_zero (μ d : ℝ) (g : ℕ → Vec) : velocity μ d g 0 = g 0 := by
  funext i; simp [velocity]

theorem velocity_succ (μ d : ℝ) (g : ℕ → Vec) (n i : ℕ) : velocity μ d g (n + 1) i = μ * velocity μ d g n i + (1 - d) * g (n + 1) i := by
  unfold velocity
  rw [sum_range_succ, mul_add, mul_add, mul_sum, mul_sum, mul_sum]
  have : ∑ j ∈ range n, (1 - d) * (μ ^ (n + 1 - 1 - j) * g (j + 1) i) = ∑ j ∈ range n, μ * ((1 - d) * (μ ^ (n - 1 - j) * g (j + 1) i)) := by
    refine sum_congr rfl fun j hj => ?_
    have hj := mem_range.1 hj
    have : n + 1 - 1 - j = (n - 1 - j) + 1 := by omega
    rw [this, pow_succ]; ring
  rw [this]
  simp only [Nat.add_sub_cancel, Nat.sub_self, pow_zero, one_mul]
  rw [pow_succ]
  ring

/-! ## C154 -/

/-- Without momentum, both optimisers move every parameter with a gradient down the gradient of the loss plus half the weight decay times the squared norm, by the learning rate of
its group; nothing else changes but the gradients themselves. -/
theorem C154_plain (gs : List Grp) (s : St) (ho : Once gs) (hm : ∀ G ∈ gs, G.momentum = 0) (hf : ∀ G ∈ gs, ∀ q ∈ G.params, (s q).grad = none ∨ Fit shape q) :
    ∃ s', step stief k shape gs s = (.ok (), s') ∧
      (∀ G ∈ gs, ∀ q ∈ G.params, ∀ g, (s q).grad = some g → ¬OnStiefel shape G q →
        (s' q).value = (fun i => (s q).value i - G.lr * (g i + G.weightDecay * (s q).value i)) ∧ (s' q).buf = (s q).buf) ∧
      (∀ G ∈ gs, ∀ q ∈ G.params, ∀ g, (s q).grad = some g → OnStiefel shape G q → s' q = stief G q (s q)) ∧
      ∀ q, (s q).grad = none ∨ (∀ G ∈ gs, q ∉ G.params) → s' q = s q := by
  obtain ⟨l', s', h1, h2, h3⟩ := run_good stief k shape (visits gs) ⟨none, none⟩ s (by rw [visits_snd]; exact ho)
    (fun a ha => .inr (hm _ (mem_visits.1 ha).1)) (fun a ha => hf _ (mem_visits.1 ha).1 _ (mem_visits.1 ha).2)
  refine ⟨s', by simp [step, h1], ?_, ?_, ?_⟩
  · intro G hG q hq g hg hs
    have := next_still stief shape G q (s q) g hg hs (hm G hG)
    rw [h2 _ (mem_visits.2 ⟨hG, hq⟩)]
    refine ⟨?_, this.2.1⟩
    rw [this.1]
    funext i; ring
  · intro G hG q hq g hg hs
    rw [h2 _ (mem_visits.2 ⟨hG, hq⟩)]
    unfold next
    simp only [hg, hs, if_true]
  · intro q hq
    by_cases hv : q ∈ (visits gs).map Prod.snd
    · obtain ⟨a, ha, rfl⟩ := List.mem_map.1 hv
      rcases hq with hq | hq
      · rw [h2 a ha]; unfold next; simp [hq]
      · exact absurd (mem_visits.1 ha).2 (hq _ (mem_visits.1 ha).1)
    · exact h3 q hv

/-- A parameter without dimension that has a gradient, as are the bandwidth and the other hyper-parameters of kernels, stops the step with an `IndexError` whatever the optimiser:
the parameters before it have been moved, itself and those after it not. -/
theorem C154_scalar_violated (A B : List Grp) (G : Grp) (a b : List Nat) (q : Nat) (hG : G.params = a ++ q :: b) (s : St) (ho : Once (A ++ G :: B))
    (hm : ∀ G' ∈ A ++ [G], G'.momentum = 0) (hA : ∀ G' ∈ A, ∀ r ∈ G'.params, (s r).grad = none ∨ Fit shape r) (ha : ∀ r ∈ a, (s r).grad = none ∨ Fit shape r)
    (hq : shape q = []) (g : Vec) (hg : (s q).grad = some g) :
    ∃ s', step stief k shape (A ++ G :: B) s = (.error .indexError, s') ∧
      (∀ G' r g', (G' ∈ A ∧ r ∈ G'.params ∨ G' = G ∧ r ∈ a) → (s r).grad = some g' → ¬OnStiefel shape G' r →
        (s' r).value = fun i => (s r).value i - G'.lr * (g' i + G'.weightDecay * (s r).value i)) ∧
      ∀ r, r = q ∨ r ∈ b ∨ (∃ G' ∈ B, r ∈ G'.params) → s' r = s r := by
  have hs := visits_split A B G a b q hG
  have hn : ((visits (A ++ G :: B)).map Prod.snd).Nodup := by rw [visits_snd]; exact ho
  rw [hs, List.map_append, List.map_cons] at hn
  have hn' := List.nodup_append.1 hn
  obtain ⟨l', s', h1, h2, h3⟩ := run_good stief k shape (visits A ++ a.map fun q => (G, q)) ⟨none, none⟩ s hn'.1
    (by
      intro c hc
      rcases List.mem_append.1 hc with hc | hc
      · exact .inr (hm _ (List.mem_append_left _ (mem_visits.1 hc).1))
      · obtain ⟨r, hr, rfl⟩ := List.mem_map.1 hc
        exact .inr (hm _ (by simp)))
    (by
      intro c hc
      rcases List.mem_append.1 hc with hc | hc
      · exact hA _ (mem_visits.1 hc).1 _ (mem_visits.1 hc).2
      · obtain ⟨r, hr, rfl⟩ := List.mem_map.1 hc
        exact ha r hr)
  have hout : ∀ r, r = q ∨ r ∈ b ∨ (∃ G' ∈ B, r ∈ G'.params) → s' r = s r := by
    intro r hr
    refine h3 r fun hc => ?_
    refine hn'.2.2 r hc r ?_ rfl
    rw [List.mem_cons, List.map_append, List.mem_append, visits_snd]
    rcases hr with hr | hr | ⟨G', h, hr⟩
    · exact .inl hr
    · exact .inr (.inl (by simpa [List.map_map, Function.comp_def] using hr))
    · exact .inr (.inr (List.mem_flatMap.2 ⟨G', h, hr⟩))
  refine ⟨s', ?_, ?_, hout⟩
  · unfold step
    rw [hs, run_append, h1]
    have hq' : s' q = s q := hout q (.inl rfl)
    simp [run, visit, hq', hg, hq]
  · intro G' r g' hr hg' hst
    have hmem : (G', r) ∈ visits A ++ a.map fun q => (G, q) := by
      rcases hr with hr | ⟨rfl, hr⟩
      · exact List.mem_append_left _ (mem_visits.2 hr)
      · exact List.mem_append_right _ (List.mem_map_of_mem hr)
    rw [h2 _ hmem, (next_still stief shape G' r (s r) g' hg' hst (hm G' (by
      rcases hr with hr | ⟨rfl, hr⟩
      · exact List.mem_append_left _ hr.1
      · simp))).1]
    funext i; ring

/-- So it is for every module whose kernel has a trainable hyper-parameter: these are held without dimension and slow, and the optimiser, of either type, raises at the first of them that
has a gradient, the Euclidean parameters having been moved. -/
theorem C154_hyperparameter_violated (t : PTree) (rg : Nat → Bool) (type : String) (kw : Dict String Optim.GVal) (w : kw.WF) (hr : Readable t) (gs : List Optim.Group) (b : Bool)
    (h : Optim.construct t rg type kw = .ok ⟨some gs, b⟩) (ho : Once (gs.map ofGroup)) (hk : kw.find "momentum" = none) (η : ℝ) (hη : lrOf kw .euclidean = .real η) (hd : kw.find "weight_decay" = none)
    (s : St) (hf : ∀ q, rg q = true → q ∈ ofKind t .euclidean → Fit shape q) (A B : List Nat) (q : Nat) (hq : Optim.paramState rg (ofKind t .slow) = A ++ q :: B)
    (hA : ∀ r ∈ A, (s r).grad = none) (hsh : shape q = []) (hg : (s q).grad ≠ none) :
    ∃ s', step stief k shape (gs.map ofGroup) s = (.error .indexError, s') ∧
      (∀ r g, rg r = true → r ∈ ofKind t .euclidean → (s r).grad = some g → (s' r).value = fun i => (s r).value i - η * g i) ∧
      ∀ r, rg r = true → r = q ∨ r ∈ ofKind t .stiefel → s' r = s r := by
  have hgs := constructed t rg type kw w hr gs b h
  subst hgs
  have hnone : ∀ ps st lr key, (key ≠ "params" ∧ key ≠ "stiefel" ∧ key ≠ "lr") → (key ≠ "stiefel_lr" ∧ key ≠ "euclidean_lr" ∧ key ≠ "slow_lr") → kw.find key = none →
      (grp (Optim.defaults.merge kw) ps st lr).find key = none := fun ps st lr key hk hk' h => by
    unfold grp
    rw [Dict.find_merge _ _ (wf3 ..), Dict.find_merge _ _ w, h]
    simp [Dict.find, Optim.defaults, hk.1.symm, hk.2.1.symm, hk.2.2.symm, hk'.1.symm, hk'.2.1.symm, hk'.2.2.symm]
  have hmom : ∀ ps st lr, (ofGroup (grp (Optim.defaults.merge kw) ps st lr)).momentum = 0 := fun ps st lr => by
    simp only [ofGroup, numOf]
    rw [hnone ps st lr "momentum" ⟨by decide, by decide, by decide⟩ ⟨by decide, by decide, by decide⟩ hk]
  have hwd : ∀ ps st lr, (ofGroup (grp (Optim.defaults.merge kw) ps st lr)).weightDecay = 0 := fun ps st lr => by
    simp only [ofGroup, numOf]
    rw [hnone ps st lr "weight_decay" ⟨by decide, by decide, by decide⟩ ⟨by decide, by decide, by decide⟩ hd]
  have hst : ∀ ps st lr, (ofGroup (grp (Optim.defaults.merge kw) ps st lr)).stiefel = st := fun ps st lr => by
    simp only [ofGroup]
    rw [grp_stiefel]
  have hlr : ∀ ps st r, (ofGroup (grp (Optim.defaults.merge kw) ps st (.real r))).lr = r := fun ps st r => by
    simp only [ofGroup, numOf]
    rw [grp_lr]
  have hpar : ∀ ps st lr, (ofGroup (grp (Optim.defaults.merge kw) ps st lr)).params = ps := fun ps st lr => by
    simp only [ofGroup]
    rw [grp_params]
  have hslow : grps (Optim.defaults.merge kw) (Optim.paramState rg (ofKind t .slow)) false (lrOf kw .slow) =
      [grp (Optim.defaults.merge kw) (Optim.paramState rg (ofKind t .slow)) false (lrOf kw .slow)] := by
    unfold grps; rw [hq]; simp
  have hall : (allGroups t rg kw).map ofGroup = (grps (Optim.defaults.merge kw) (Optim.paramState rg (ofKind t .euclidean)) false (lrOf kw .euclidean)).map ofGroup ++
      ofGroup (grp (Optim.defaults.merge kw) (Optim.paramState rg (ofKind t .slow)) false (lrOf kw .slow)) ::
      (grps (Optim.defaults.merge kw) (Optim.paramState rg (ofKind t .stiefel)) true (lrOf kw .stiefel)).map ofGroup := by
    unfold allGroups
    rw [hslow]
    simp
  rw [hall] at ho ⊢
  obtain ⟨g, hg⟩ := Option.ne_none_iff_exists'.1 hg
  have hmemE : ∀ G ∈ (grps (Optim.defaults.merge kw) (Optim.paramState rg (ofKind t .euclidean)) false (lrOf kw .euclidean)).map ofGroup,
      G = ofGroup (grp (Optim.defaults.merge kw) (Optim.paramState rg (ofKind t .euclidean)) false (lrOf kw .euclidean)) := by
    intro G hG
    obtain ⟨g, hg, rfl⟩ := List.mem_map.1 hG
    rw [grps_mem hg]
  obtain ⟨s', h1, h2, h3⟩ := C154_scalar_violated stief k shape _ _ _ A B q (by rw [hpar]; exact hq) s ho
    (by
      intro G hG
      rcases List.mem_append.1 hG with hG | hG
      · rw [hmemE G hG]; exact hmom ..
      · rw [List.mem_singleton.1 hG]; exact hmom ..)
    (by
      intro G hG r hr
      rw [hmemE G hG, hpar] at hr
      obtain ⟨h4, h5⟩ := List.mem_filter.1 hr
      exact .inr (hf r h5 h4))
    (fun r hr => .inl (hA r hr)) hsh g hg
  refine ⟨s', h1, ?_, ?_⟩
  · intro r g' hrg hr hg'
    have hmem : r ∈ Optim.paramState rg (ofKind t .euclidean) := List.mem_filter.2 ⟨hr, hrg⟩
    have hne : grp (Optim.defaults.merge kw) (Optim.paramState rg (ofKind t .euclidean)) false (lrOf kw .euclidean) ∈
        grps (Optim.defaults.merge kw) (Optim.paramState rg (ofKind t .euclidean)) false (lrOf kw .euclidean) := by
      unfold grps; simp [List.ne_nil_of_mem hmem]
    rw [h2 _ r g' (.inl ⟨List.mem_map_of_mem hne, by rw [hpar]; exact hmem⟩) hg' (fun hc => by have := hc.1; rw [hst] at this; cases this)]
    rw [hwd, hη, hlr]
    simp
  · intro r hrg hr
    refine h3 r ?_
    rcases hr with hr | hr
    · exact .inl hr
    · have hmem : r ∈ Optim.paramState rg (ofKind t .stiefel) := List.mem_filter.2 ⟨hr, hrg⟩
      have hne : grp (Optim.defaults.merge kw) (Optim.paramState rg (ofKind t .stiefel)) true (lrOf kw .stiefel) ∈
          grps (Optim.defaults.merge kw) (Optim.paramState rg (ofKind t .stiefel)) true (lrOf kw .stiefel) := by
        unfold grps; simp [List.ne_nil_of_mem hmem]
      exact .inr (.inr ⟨_, List.mem_map_of_mem hne, by rw [hpar]; exact hmem⟩)

/-- The optimiser `'sgd'` cannot be used with momentum: the variable `nesterov` read by the Euclidean branch is bound by the Stiefel branch only. If the parameters that have a gradient
are not updated on the Stiefel manifold, or come before those that are, every step raises and no parameter ever moves. -/
theorem C154_momentum_violated (A B : List Grp) (s : St) (hA : ∀ G ∈ A, G.momentum ≠ 0 ∧ ∀ q ∈ G.params, ¬OnStiefel shape G q ∧ Fit shape q)
    (he : ∃ G ∈ A, ∃ q ∈ G.params, (s q).grad ≠ none) :
    ∃ s', step stief .sgd shape (A ++ B) s = (.error .nameError, s') ∧ ∀ q, (s' q).value = (s q).value := by
  obtain ⟨G, hG, q, hq, hg⟩ := he
  obtain ⟨l', s', h1, h2⟩ := run_first stief shape (visits A) (visits B) ⟨none, none⟩ ⟨rfl, rfl⟩ s (fun a ha => by
    have hm := mem_visits.1 (show (a.1, a.2) ∈ visits A from ha)
    exact .inr ⟨(hA _ hm.1).1, (hA _ hm.1).2 _ hm.2⟩) ⟨(G, q), mem_visits.2 ⟨hG, hq⟩, hg⟩
  exact ⟨s', by simp [step, visits_append, h1], h2⟩

/-- So it is for every module: constructed with a keyword `momentum`, the optimiser `'sgd'` of a module raises at each step in which a trainable Euclidean or slow parameter has a gradient. -/
theorem C154_keyword_violated (t : PTree) (rg : Nat → Bool) (kw : Dict String Optim.GVal) (w : kw.WF) (hr : Readable t) (gs : List Optim.Group) (b : Bool)
    (h : Optim.construct t rg "sgd" kw = .ok ⟨some gs, b⟩) (μ : ℝ) (hμ : μ ≠ 0) (hk : kw.find "momentum" = some (.real μ)) (s : St)
    (hf : ∀ q, rg q = true → q ∈ ofKind t .euclidean ∨ q ∈ ofKind t .slow → Fit shape q)
    (he : ∃ q, rg q = true ∧ (q ∈ ofKind t .euclidean ∨ q ∈ ofKind t .slow) ∧ (s q).grad ≠ none) :
    ∃ s', step stief .sgd shape (gs.map ofGroup) s = (.error .nameError, s') ∧ ∀ q, (s' q).value = (s q).value := by
  have hgs := constructed t rg "sgd" kw w hr gs b h
  subst hgs
  unfold allGroups
  rw [List.map_append]
  have hmom : ∀ ps st lr, (ofGroup (grp (Optim.defaults.merge kw) ps st lr)).momentum = μ := fun ps st lr => by
    simp only [ofGroup, numOf]
    rw [find_kw kw w ps st lr (.real μ) "momentum" ⟨by decide, by decide, by decide⟩ hk]
  have hst : ∀ ps lr, (ofGroup (grp (Optim.defaults.merge kw) ps false lr)).stiefel = false := fun ps lr => by
    simp only [ofGroup]
    rw [grp_stiefel]
  have hpar : ∀ ps st lr, (ofGroup (grp (Optim.defaults.merge kw) ps st lr)).params = ps := fun ps st lr => by
    simp only [ofGroup]
    rw [grp_params]
  have hmemg : ∀ ps lr, ps ≠ [] → grp (Optim.defaults.merge kw) ps false lr ∈ grps (Optim.defaults.merge kw) ps false lr := fun ps lr h => by
    unfold grps; simp [h]
  refine C154_momentum_violated stief shape _ _ s ?_ ?_
  · intro G hG
    obtain ⟨g, hg, rfl⟩ := List.mem_map.1 hG
    have key : ∀ kd : PKind, (kd = .euclidean ∨ kd = .slow) → g = grp (Optim.defaults.merge kw) (Optim.paramState rg (ofKind t kd)) false (lrOf kw kd) →
        (ofGroup g).momentum ≠ 0 ∧ ∀ q ∈ (ofGroup g).params, ¬OnStiefel shape (ofGroup g) q ∧ Fit shape q := by
      rintro kd hkd rfl
      refine ⟨by rw [hmom]; exact hμ, fun q hq => ⟨fun ho => ?_, ?_⟩⟩
      · have := ho.1
        rw [hst] at this
        cases this
      · rw [hpar] at hq
        obtain ⟨h1, h2⟩ := List.mem_filter.1 hq
        exact hf q h2 (by rcases hkd with rfl | rfl; exacts [.inl h1, .inr h1])
    rcases List.mem_append.1 hg with hg | hg
    · exact key .euclidean (.inl rfl) (grps_mem hg)
    · exact key .slow (.inr rfl) (grps_mem hg)
  · obtain ⟨q, hrg, hq, hgr⟩ := he
    have key : ∀ kd : PKind, q ∈ ofKind t kd → ∃ g ∈ grps (Optim.defaults.merge kw) (Optim.paramState rg (ofKind t kd)) false (lrOf kw kd), q ∈ (ofGroup g).params := by
      intro kd hq
      have hmem : q ∈ Optim.paramState rg (ofKind t kd) := List.mem_filter.2 ⟨hq, hrg⟩
      exact ⟨_, hmemg _ _ (List.ne_nil_of_mem hmem), by rw [hpar]; exact hmem⟩
    rcases hq with hq | hq
    · obtain ⟨g, hg, h1⟩ := key _ hq
      exact ⟨ofGroup g, List.mem_map_of_mem (List.mem_append_left _ hg), q, h1, hgr⟩
    · obtain ⟨g, hg, h1⟩ := key _ hq
      exact ⟨ofGroup g, List.mem_map_of_mem (List.mem_append_right _ hg), q, h1, hgr⟩

/-- If a parameter on the Stiefel manifold comes first, the options of its group are those used for the others: Nesterov's variant asked for there is done here. -/
theorem C154_leak_violated (S G : Grp) (p q : Nat) (hp : S.params = [p]) (hq : G.params = [q]) (hpq : p ≠ q) (s : St) (gp g : Vec) (hgp : (s p).grad = some gp)
    (hg : (s q).grad = some g) (hS : OnStiefel shape S p) (hfp : Fit shape p) (hG : ¬OnStiefel shape G q) (hfq : Fit shape q) (hμ : G.momentum ≠ 0) (hw : G.weightDecay = 0)
    (hb : (s q).buf = none) :
    ∃ s', step stief .sgd shape [S, G] s = (.ok (), s') ∧
      (s' q).value = fun i => (s q).value i - G.lr * (if S.nesterov then (1 + G.momentum) * g i else g i) := by
  obtain ⟨hS1, m, rest, hm, hm2⟩ := hS
  obtain ⟨m', rest', hm', hm0⟩ := hfp
  rw [hm] at hm'
  obtain ⟨rfl, rfl⟩ := List.cons.inj hm'
  obtain ⟨mq, rq, hmq, hmq0⟩ := hfq
  have hG' : ¬(G.stiefel = true ∧ mq ≤ rq.prod) := fun hc => hG ⟨hc.1, mq, rq, hmq, hc.2⟩
  have hne : q ≠ p := fun e => hpq e.symm
  have h1 : visit stief .sgd shape S p ⟨none, none⟩ s = (.ok (), ⟨some S.dampening, some S.nesterov⟩, Function.update s p (stief S p (s p))) := by
    unfold visit
    simp [hgp, hm, hm0, hS1, hm2]
  have h2 : (Function.update s p (stief S p (s p))) q = s q := Function.update_of_ne hne _ _
  simp only [step, visits, List.flatMap_cons, List.flatMap_nil, hp, hq, List.map_cons, List.map_nil, List.append_nil, List.cons_append, List.nil_append, run, h1]
  unfold visit
  simp only [h2, hg, hmq, hmq0, if_false, hG', euclid, hμ, hb, decayed, hw, ne_eq, not_true_eq_false]
  refine ⟨_, rfl, ?_⟩
  simp only [Function.update_self]
  funext i
  cases S.nesterov
  · simp
  · simp only [if_true]; ring

/-- With the optimiser `'adam'`, momentum does what is expected outside the Stiefel manifold: after any number of steps a parameter has moved by the sum of the velocities (of the
gradients plus momentum times velocity in Nesterov's variant) times the learning rate, the velocity being that of the specification. -/
theorem C154_momentum (gs : List Grp) (ho : Once gs) (hf : ∀ G ∈ gs, ∀ q ∈ G.params, Fit shape q) (gr : ℕ → Nat → Option Vec) (s : St) (G : Grp) (hG : G ∈ gs) (q : Nat)
    (hq : q ∈ G.params) (hs : ¬OnStiefel shape G q) (hμ : G.momentum ≠ 0) (hw : G.weightDecay = 0) (hb : (s q).buf = none) (g : ℕ → Vec) (hg : ∀ n, gr n q = some (g n)) (n : ℕ) :
    ∃ s', steps stief .adam shape gs gr s n = (.ok (), s') ∧
      ∀ i, (s' q).value i = (s q).value i - G.lr * ∑ j ∈ range n,
        if G.nesterov then g j i + G.momentum * velocity G.momentum G.dampening g j i else velocity G.momentum G.dampening g j i := by
  suffices H : ∃ s', steps stief .adam shape gs gr s n = (.ok (), s') ∧
      (∀ i, (s' q).value i = (s q).value i - G.lr * ∑ j ∈ range n,
        if G.nesterov then g j i + G.momentum * velocity G.momentum G.dampening g j i else velocity G.momentum G.dampening g j i) ∧
      (s' q).buf = match n with
        | 0 => none
        | n + 1 => some (velocity G.momentum G.dampening g n) by
    obtain ⟨s', h1, h2, -⟩ := H
    exact ⟨s', h1, h2⟩
  induction n with
  | zero => exact ⟨s, rfl, by simp, hb⟩
  | succ n ih =>
    obtain ⟨s', h1, h2, h3⟩ := ih
    obtain ⟨l'', s'', h4, h5, -⟩ := run_good stief .adam shape (visits gs) ⟨none, none⟩ (setGrad (gr n) s') (by rw [visits_snd]; exact ho) (fun _ _ => .inl rfl)
      (fun a ha => .inr (hf _ (mem_visits.1 ha).1 _ (mem_visits.1 ha).2))
    have h6 := h5 (G, q) (mem_visits.2 ⟨hG, hq⟩)
    have hgrad : (setGrad (gr n) s' q).grad = some (g n) := hg n
    have hbuf : (setGrad (gr n) s' q).buf = (s' q).buf := rfl
    have hval : (setGrad (gr n) s' q).value = (s' q).value := rfl
    simp only [next, hgrad, hs, if_false, decayed, hw, ne_eq, not_true_eq_false, euclid, hμ, hbuf, hval] at h6
    refine ⟨s'', by simp [steps, h1, step, h4], ?_⟩
    cases n with
    | zero =>
      simp only at h3
      simp only [h3] at h6
      rw [h6]
      refine ⟨fun i => ?_, by simp [velocity_zero]⟩
      simp only [h2 i]
      cases G.nesterov <;> simp [velocity_zero]
    | succ n =>
      simp only at h3
      simp only [h3] at h6
      have hv : (fun i => G.momentum * velocity G.momentum G.dampening g n i + (1 - G.dampening) * g (n + 1) i) = velocity G.momentum G.dampening g (n + 1) := by
        funext i; rw [velocity_succ]
      rw [hv] at h6
      rw [h6]
      refine ⟨fun i => ?_, rfl⟩
      simp only [h2 i]
      rw [sum_range_succ _ (n + 1), mul_add, ← sub_sub]
      cases G.nesterov <;> simp [velocity_succ]

/-- Under a gradient that stays the same and a momentum below one, the moves tend to that of a learning rate multiplied by `(1 - d) / (1 - μ)`. -/
theorem C154_effective (μ d : ℝ) (h0 : 0 ≤ μ) (h1 : μ < 1) (g : Vec) (i : ℕ) :
    Filter.Tendsto (fun n => velocity μ d (fun _ => g) n i) Filter.atTop (nhds ((1 - d) / (1 - μ) * g i)) := by
  have h1' : 1 - μ ≠ 0 := by linarith
  have e : ∀ n, velocity μ d (fun _ => g) n i = (1 - d) / (1 - μ) * g i + μ ^ n * ((1 - (1 - d) / (1 - μ)) * g i) := by
    intro n
    induction n with
    | zero => simp [velocity]; ring
    | succ n ih => rw [velocity_succ, ih, pow_succ]; field_simp; ring
  simp only [e]
  have := (tendsto_pow_atTop_nhds_zero_of_lt_one h0 h1).mul_const ((1 - (1 - d) / (1 - μ)) * g i)
  simpa using this.const_add ((1 - d) / (1 - μ) * g i)

/-- Weight decay is added to the gradient that the parameter holds. If the gradients are not reset before the next step, which is so for the batches of an epoch, it is counted again:
without any loss, two steps shrink by more than twice the factor of one. -/
theorem C154_decay_violated (G : Grp) (q : Nat) (hq : G.params = [q]) (hm : G.momentum = 0) (hst : G.stiefel = false) (hf : Fit shape q) (s : St) (hg : (s q).grad = some 0) :
    ∃ s' s'', step stief k shape [G] s = (.ok (), s') ∧ step stief k shape [G] s' = (.ok (), s'') ∧
      (s' q).value = (fun i => (1 - G.lr * G.weightDecay) * (s q).value i) ∧
      (s'' q).value = fun i => ((1 - G.lr * G.weightDecay) ^ 2 - G.lr * G.weightDecay) * (s q).value i := by
  have hs : ¬OnStiefel shape G q := fun h => by have := h.1; rw [hst] at this; cases this
  have hv : visits [G] = [(G, q)] := by simp [visits, hq]
  have one : ∀ (s : St) g, (s q).grad = some g → ∃ s', step stief k shape [G] s = (.ok (), s') ∧
      (s' q).value = (fun i => (1 - G.lr * G.weightDecay) * (s q).value i - G.lr * g i) ∧ (s' q).grad = some fun i => g i + G.weightDecay * (s q).value i := by
    intro s g hg
    obtain ⟨l', s', h1, h2, -⟩ := run_good stief k shape (visits [G]) ⟨none, none⟩ s (by simp [hv]) (by simp [hv, hm]) (by simp [hv, hf])
    have h3 := h2 (G, q) (by simp [hv])
    have h4 := next_still stief shape G q (s q) g hg hs hm
    exact ⟨s', by simp [step, h1], by rw [h3]; exact h4.1, by rw [h3]; exact h4.2.2⟩
  obtain ⟨s', h1, h2, h3⟩ := one s 0 hg
  obtain ⟨s'', h4, h5, -⟩ := one s' _ h3
  refine ⟨s', s'', h1, h4, ?_, ?_⟩
  · rw [h2]; funext i; simp
  · rw [h5, h2]; funext i; simp; ring

/-- Nesterov's variant without momentum is refused by the optimisers themselves, but as a keyword argument of `Optimizer` it is accepted and has no effect. -/
theorem C154_nesterov_violated (gs : List Grp) (s : St) (hm : ∀ G ∈ gs, G.momentum = 0) (hst : ∀ G ∈ gs, G.stiefel = false) (d : Grp → ℝ) (n : Grp → Bool) :
    checkArgs 0 0 true = .error .valueError ∧
    step stief k shape (gs.map fun G => { G with dampening := d G, nesterov := n G }) s = step stief k shape gs s := by
  refine ⟨by simp [checkArgs], ?_⟩
  have hv : visits (gs.map fun G => { G with dampening := d G, nesterov := n G }) = (visits gs).map fun a => ({ a.1 with dampening := d a.1, nesterov := n a.1 }, a.2) := by
    simp [visits, List.flatMap_map, List.map_flatMap, Function.comp_def]
  have key : ∀ (L : List (Grp × Nat)), (∀ a ∈ L, a.1.momentum = 0 ∧ a.1.stiefel = false) → ∀ (l l' : Loc) (s : St),
      (run stief k shape (L.map fun a => ({ a.1 with dampening := d a.1, nesterov := n a.1 }, a.2)) l s).1 = (run stief k shape L l' s).1 ∧
      (run stief k shape (L.map fun a => ({ a.1 with dampening := d a.1, nesterov := n a.1 }, a.2)) l s).2.2 = (run stief k shape L l' s).2.2 := by
    intro L hL
    induction L with
    | nil => intro l l' s; exact ⟨rfl, rfl⟩
    | cons a t ih =>
      obtain ⟨G, q⟩ := a
      intro l l' s
      obtain ⟨hG1, hG2⟩ := hL _ List.mem_cons_self
      have ih := ih fun b hb => hL b (List.mem_cons_of_mem _ hb)
      simp only at hG1 hG2
      simp only [List.map_cons, run, visit]
      cases hg : (s q).grad with
      | none => exact ih l l' s
      | some g =>
        rcases hs : shape q with _ | ⟨m, rest⟩
        · exact ⟨rfl, rfl⟩
        · by_cases hm0 : m = 0
          · simp [hm0]
          · simp only [hm0, if_false, hG2, Bool.false_eq_true, false_and, euclid, hG1, if_true, decayed]
            exact ih _ _ _
  obtain ⟨h1, h2⟩ := key (visits gs) (fun a ha => ⟨hm _ (mem_visits.1 ha).1, hst _ (mem_visits.1 ha).1⟩) ⟨none, none⟩ ⟨none, none⟩ s
  simp only [step, hv]
  rw [h1, h2]

/-- The optimiser `'adam'` is plain gradient descent outside the Stiefel manifold: without momentum the two types do the same. -/
theorem C154_types (stief' : Grp → Nat → PS → PS) (gs : List Grp) (s : St) (hm : ∀ G ∈ gs, G.momentum = 0) (hst : ∀ G ∈ gs, G.stiefel = false) :
    step stief .adam shape gs s = step stief' .sgd shape gs s := by
  have key : ∀ (L : List (Grp × Nat)), (∀ a ∈ L, a.1.momentum = 0 ∧ a.1.stiefel = false) → ∀ (l l' : Loc) (s : St),
      (run stief .adam shape L l s).1 = (run stief' .sgd shape L l' s).1 ∧ (run stief .adam shape L l s).2.2 = (run stief' .sgd shape L l' s).2.2 := by
    intro L hL
    induction L with
    | nil => intro l l' s; exact ⟨rfl, rfl⟩
    | cons a t ih =>
      obtain ⟨G, q⟩ := a
      intro l l' s
      obtain ⟨hG1, hG2⟩ := hL _ List.mem_cons_self
      have ih := ih fun b hb => hL b (List.mem_cons_of_mem _ hb)
      simp only at hG1 hG2
      simp only [run, visit]
      cases hg : (s q).grad with
      | none => exact ih l l' s
      | some g =>
        rcases hs : shape q with _ | ⟨m, rest⟩
        · exact ⟨rfl, rfl⟩
        · by_cases hm0 : m = 0
          · simp [hm0]
          · simp only [hm0, if_false, hG2, Bool.false_eq_true, false_and, euclid, hG1, if_true, decayed]
            exact ih _ _ _
  obtain ⟨h1, h2⟩ := key (visits gs) (fun a ha => ⟨hm _ (mem_visits.1 ha).1, hst _ (mem_visits.1 ha).1⟩) ⟨none, none⟩ ⟨none, none⟩ s
  simp only [step]
  rw [h1, h2]

/-! ## Concrete cases -/

/-- A group of two parameters, the first a matrix of two rows and three columns, the second a scalar. -/
noncomputable def exG : Grp := ⟨[0, 1], false, 1 / 10, 0, 0, 0, false⟩
def exShape : Nat → List ℕ := fun q => if q = 0 then [2, 3] else []
def exSt (g0 g1 : Option Vec) : St := fun q => ⟨fun _ => 1, if q = 0 then g0 else g1, none⟩

theorem exFit : Fit exShape 0 := ⟨2, [3], rfl, by norm_num⟩

/-- The scalar has no gradient: the matrix moves. -/
example (k : Kind) : ∃ s', step (fun _ _ p => p) k exShape [exG] (exSt (some fun _ => 2) none) = (.ok (), s') ∧ (s' 0).value 0 = 4 / 5 := by
  obtain ⟨s', h1, h2, -⟩ := C154_plain (fun _ _ p => p) k exShape [exG] (exSt (some fun _ => 2) none) (by simp [Once, exG]) (by simp [exG]) (by
    intro G hG q hq
    simp only [List.mem_singleton] at hG
    subst hG
    simp only [exG, List.mem_cons, List.not_mem_nil, or_false] at hq
    rcases hq with rfl | rfl
    · exact .inr exFit
    · exact .inl rfl)
  refine ⟨s', h1, ?_⟩
  rw [(h2 exG (by simp) 0 (by simp [exG]) _ rfl (by simp [OnStiefel, exG])).1]
  norm_num [exG, exSt]

/-- It has one: the matrix has moved when the step raises. -/
example (k : Kind) : ∃ s', step (fun _ _ p => p) k exShape [exG] (exSt (some fun _ => 2) (some fun _ => 1)) = (.error .indexError, s') ∧ (s' 0).value 0 = 4 / 5 ∧
    (s' 1).value 0 = 1 := by
  obtain ⟨s', h1, h2, h3⟩ := C154_scalar_violated (fun _ _ p => p) k exShape [] [] exG [0] [] 1 rfl (exSt (some fun _ => 2) (some fun _ => 1)) (by simp [Once, exG])
    (by simp [exG]) (by simp) (by simp [exFit]) rfl _ rfl
  refine ⟨s', h1, ?_, ?_⟩
  · rw [h2 exG 0 _ (.inr ⟨rfl, by simp⟩) rfl (by simp [OnStiefel, exG])]
    norm_num [exG, exSt]
  · rw [h3 1 (.inl rfl)]; rfl

/-- With a momentum of 9/10, `'sgd'` raises; `'adam'` moves by the first gradient, then by 19/10 of it. -/
noncomputable def exM : Grp := ⟨[0], false, 1 / 10, 9 / 10, 0, 0, false⟩

example : ∃ s', step (fun _ _ p => p) .sgd exShape [exM] (exSt (some fun _ => 2) none) = (.error .nameError, s') ∧ ∀ q, (s' q).value = (exSt (some fun _ => 2) none q).value :=
  C154_momentum_violated (fun _ _ p => p) exShape [exM] [] (exSt (some fun _ => 2) none) (by simp [exM, OnStiefel, exFit]) ⟨exM, by simp, 0, by simp [exM], by simp [exSt]⟩

example : ∃ s', steps (fun _ _ p => p) .adam exShape [exM] (fun _ _ => some fun _ => 1) (exSt none none) 2 = (.ok (), s') ∧ (s' 0).value 0 = 1 - 1 / 10 * (1 + 19 / 10) := by
  obtain ⟨s', h1, h2⟩ := C154_momentum (fun _ _ p => p) exShape [exM] (by simp [Once, exM]) (by simp [exM, exFit]) (fun _ _ => some fun _ => 1) (exSt none none) exM (by simp) 0
    (by simp [exM]) (by simp [OnStiefel, exM]) (by norm_num [exM]) rfl rfl (fun _ _ => 1) (fun _ => rfl) 2
  refine ⟨s', h1, ?_⟩
  rw [h2 0]
  norm_num [sum_range_succ, velocity, exM, exSt]

/-- A Stiefel parameter first, with Nesterov's variant. -/
example : ∃ s', step (fun _ _ p => p) .sgd (fun _ => [2, 3]) [⟨[7], true, 1, 1 / 2, 0, 0, true⟩, exM] (fun _ => ⟨fun _ => 1, some fun _ => 1, none⟩) = (.ok (), s') ∧
    (s' 0).value 0 = 1 - 1 / 10 * (19 / 10) := by
  obtain ⟨s', h1, h2⟩ := C154_leak_violated (fun _ _ p => p) (fun _ => [2, 3]) ⟨[7], true, 1, 1 / 2, 0, 0, true⟩ exM 7 0 rfl rfl (by norm_num)
    (fun _ => ⟨fun _ => 1, some fun _ => 1, none⟩) _ _ rfl rfl ⟨rfl, 2, [3], rfl, by norm_num⟩ ⟨2, [3], rfl, by norm_num⟩ (by simp [OnStiefel, exM]) ⟨2, [3], rfl, by norm_num⟩
    (by norm_num [exM]) rfl rfl
  refine ⟨s', h1, ?_⟩
  rw [h2]
  norm_num [exM]

example : Filter.Tendsto (fun n => velocity (9 / 10) 0 (fun _ _ => 1) n 0) Filter.atTop (nhds ((1 - 0) / (1 - 9 / 10) * 1)) :=
  C154_effective (9 / 10) 0 (by norm_num) (by norm_num) (fun _ => 1) 0

/-- Weight decay of one half and learning rate one: after two steps a quarter is expected, and minus a quarter found. -/
example (k : Kind) : ∃ s' s'', step (fun _ _ p => p) k exShape [⟨[0], false, 1, 0, 0, 1 / 2, false⟩] (exSt (some 0) none) = (.ok (), s') ∧
    step (fun _ _ p => p) k exShape [⟨[0], false, 1, 0, 0, 1 / 2, false⟩] s' = (.ok (), s'') ∧ (s'' 0).value 0 = -(1 / 4) := by
  obtain ⟨s', s'', h1, h2, -, h4⟩ := C154_decay_violated (fun _ _ p => p) k exShape ⟨[0], false, 1, 0, 0, 1 / 2, false⟩ 0 rfl rfl rfl exFit (exSt (some 0) none) rfl
  refine ⟨s', s'', h1, h2, ?_⟩
  rw [h4]
  norm_num [exSt]

example (k : Kind) (s : St) : step (fun _ _ p => p) k exShape ([exG].map fun G => { G with dampening := 0, nesterov := true }) s = step (fun _ _ p => p) k exShape [exG] s :=
  (C154_nesterov_violated (fun _ _ p => p) k exShape [exG] s (by simp [exG]) (by simp [exG]) (fun _ => 0) (fun _ => true)).2

example (s : St) : step (fun _ _ p => p) .adam exShape [exG] s = step (fun _ _ p => p) .sgd exShape [exG] s :=
  C154_types _ exShape _ [exG] s (by simp [exG]) (by simp [exG])

/-- The module of C60: a trainable Euclidean parameter 1, the hyper-parameter 2 of its kernel without dimension, a parameter 0 on the Stiefel manifold. -/
def exRg : Nat → Bool := fun p => decide (p ≠ 3)

theorem exKinds : ofKind exTree .euclidean = [1] ∧ ofKind exTree .stiefel = [0] ∧ ofKind exTree .slow = [2, 3] := ⟨by decide, by decide, by decide⟩
theorem exReadable : Readable exTree := by intro k; cases k <;> decide

theorem exConstruct (type : String) (ht : type = "sgd" ∨ type = "adam") (kw : Dict String Optim.GVal) (w : kw.WF) :
    ∃ gs b, Optim.construct exTree exRg type kw = .ok ⟨some gs, b⟩ := by
  obtain ⟨st, h, -, -, h3⟩ := C60_groups exTree exRg type ht kw w exReadable (by
    intro p k k' hp h h'
    obtain ⟨e1, e2, e3⟩ := exKinds
    cases k <;> cases k' <;> simp_all)
  rw [h]
  rcases st with ⟨o, b⟩
  cases o with
  | some gs => exact ⟨gs, b, rfl⟩
  | none =>
    rw [construct_eq exTree exRg type kw w exReadable] at h
    have hne : allGroups exTree exRg kw ≠ [] := by
      unfold allGroups grps
      rw [exKinds.1]
      simp [Optim.paramState, exRg]
    cases ha : allGroups exTree exRg kw with
    | nil => exact absurd ha hne
    | cons x y =>
      simp only [ha, ht, if_true] at h
      cases hT : Optim.torchGroups [] (x :: y) <;> simp [hT] at h

example : ∃ gs b s', Optim.construct exTree exRg "sgd" [("momentum", .real (9 / 10))] = .ok ⟨some gs, b⟩ ∧
    step (fun _ _ p => p) .sgd (fun _ => [2, 3]) (gs.map ofGroup) (exSt (some fun _ => 1) (some fun _ => 1)) = (.error .nameError, s') := by
  obtain ⟨gs, b, h⟩ := exConstruct "sgd" (.inl rfl) [("momentum", .real (9 / 10))] (by simp [Dict.WF, Dict.keys])
  obtain ⟨s', h1, -⟩ := C154_keyword_violated (fun _ _ p => p) (fun _ => [2, 3]) exTree exRg _ (by simp [Dict.WF, Dict.keys]) exReadable gs b h (9 / 10) (by norm_num) rfl
    (exSt (some fun _ => 1) (some fun _ => 1)) (fun _ _ _ => ⟨2, [3], rfl, by norm_num⟩) ⟨1, by decide, .inl (by rw [exKinds.1]; simp), by simp [exSt]⟩
  exact ⟨gs, b, s', h, h1⟩

/-- Default options: the step raises because of the hyper-parameter, the Euclidean parameter has moved by a thousandth of its gradient. -/
example (k : Kind) : ∃ gs b s', Optim.construct exTree exRg "adam" [] = .ok ⟨some gs, b⟩ ∧
    step (fun _ _ p => p) k (fun q => if q = 2 then [] else [2, 3]) (gs.map ofGroup) (exSt (some fun _ => 1) (some fun _ => 1)) = (.error .indexError, s') ∧
    (s' 1).value 0 = 1 - 1e-3 := by
  obtain ⟨gs, b, h⟩ := exConstruct "adam" (.inr rfl) [] (by simp [Dict.WF, Dict.keys])
  have hgs := constructed exTree exRg "adam" [] (by simp [Dict.WF, Dict.keys]) exReadable gs b h
  have ho : Once (gs.map ofGroup) := by
    obtain ⟨e1, e2, e3⟩ := exKinds
    rw [hgs]
    unfold Once allGroups grps
    rw [e1, e2, e3]
    simp [Optim.paramState, exRg, ofGroup, grp_params]
  obtain ⟨s', h1, h2, -⟩ := C154_hyperparameter_violated (fun _ _ p => p) k (fun q => if q = 2 then [] else [2, 3]) exTree exRg "adam" [] (by simp [Dict.WF, Dict.keys]) exReadable gs b h ho
    rfl 1e-3 rfl rfl (exSt (some fun _ => 1) (some fun _ => 1)) (by
      intro q _ hq
      rw [exKinds.1] at hq
      rw [List.mem_singleton.1 hq]
      exact ⟨2, [3], rfl, by norm_num⟩) [] [] 2 (by rw [exKinds.2.2]; rfl) (by simp) rfl (by simp [exSt])
  refine ⟨gs, b, s', h, h1, ?_⟩
  rw [h2 1 (fun _ => 1) (by decide) (by rw [exKinds.1]; simp) rfl]
  simp [exSt]

end Momentum
end Kerch
