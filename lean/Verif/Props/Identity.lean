import Verif.Model.Identity
import Mathlib.Data.List.Basic
/-!
# C164: a result belongs to the object it was asked for
-/
set_option linter.unusedSectionVars false
set_option linter.unusedSimpArgs false
namespace Kerch
namespace Identity
variable {C W : Type}

/-! ## Specification -/

/-- What the evaluation at a content has to give. -/
def truth (F : Fns C W) (c : C) : W := F.val (match F.proj with | none => c | some φ => φ c)

/-- Only tensors are given to `forward`. -/
def OnlyTensors (F : Fns C W) (s : St C W) (ops : List (Op C)) : Prop :=
  ∀ pre i j l post, ops = pre ++ .forward i j l :: post → (s.run F pre).held.contains i = true → (s.run F pre).tensor i = true

/-! ## Lemmas -/

theorem find_mem {X : Type} {l : List (Nat × X)} {k : Nat} {x : X} (h : find l k = some x) : (k, x) ∈ l := by
  unfold find at h
  cases hf : l.find? fun e => e.1 == k with
  | none => rw [hf] at h; cases h
  | some e =>
    rw [hf] at h
    have h1 := List.find?_some hf
    have h2 := List.mem_of_find?_eq_some hf
    simp only [beq_iff_eq] at h1
    simp only [Option.map_some, Option.some.injEq] at h
    rw [← h1, ← h]
    exact h2

theorem alive_input {s : St C W} {t p : Nat} (h : (t, p) ∈ s.inputs) : s.alive t = true ∧ s.alive p = true := by
  unfold St.alive
  constructor <;>
  · rw [Bool.or_eq_true]
    exact Or.inr (List.any_eq_true.2 ⟨(t, p), h, by simp⟩)

theorem alive_held {s : St C W} {i : Nat} (h : s.held.contains i = true) : s.alive i = true := by
  unfold St.alive
  rw [h]; rfl

/-- What is kept is right: transformed tensors are those of their arguments, results those of the transformed tensors, which are themselves kept. -/
structure Inv (F : Fns C W) (s : St C W) : Prop where
  inputs : ∀ t p, (t, p) ∈ s.inputs → F.val (s.mem p) = truth F (s.mem t)
  results : ∀ p v, (p, v) ∈ s.results → v = F.val (s.mem p) ∧ ∃ t, (t, p) ∈ s.inputs
  light : s.keep = false → s.inputs = [] ∧ s.results = [] ∧ s.forwards = []

/-- Writing at an address that is not in use changes nothing that is kept. -/
theorem Inv.write {F : Fns C W} {s : St C W} (h : Inv F s) {j : Nat} (hj : s.alive j = false) (c : C) (b : Bool) :
    Inv F { s with mem := Function.update s.mem j c, tensor := Function.update s.tensor j b } := by
  have ne : ∀ {k}, s.alive k = true → k ≠ j := fun hk e => by rw [e, hj] at hk; cases hk
  refine ⟨fun t p hp => ?_, fun p v hv => ?_, h.light⟩
  · have := alive_input hp
    simp only [Function.update_of_ne (ne this.1), Function.update_of_ne (ne this.2)]
    exact h.inputs t p hp
  · obtain ⟨e, t, ht⟩ := h.results p v hv
    simp only [Function.update_of_ne (ne (alive_input ht).2)]
    exact ⟨e, t, ht⟩

theorem cast_spec {F : Fns C W} {s s1 : St C W} (h : Inv F s) {i j t : Nat} (hc : s.cast i j = some (t, s1)) :
    Inv F s1 ∧ s1.mem t = s.mem i ∧ s1.keep = s.keep ∧ s1.inputs = s.inputs ∧ s1.forwards = s.forwards ∧ s1.held = s.held ∧ (∀ k, s.alive k = true → s1.mem k = s.mem k ∧ s1.tensor k = s.tensor k) ∧
      (s.tensor i = true → t = i ∧ s1 = s) := by
  unfold St.cast at hc
  by_cases ht : s.tensor i = true
  · rw [if_pos ht] at hc
    cases hc
    exact ⟨h, rfl, rfl, rfl, rfl, rfl, fun _ _ => ⟨rfl, rfl⟩, fun _ => ⟨rfl, rfl⟩⟩
  · rw [if_neg ht] at hc
    by_cases ha : s.alive j = true
    · rw [if_pos ha] at hc; cases hc
    · rw [if_neg ha] at hc
      cases hc
      have ha' : s.alive j = false := by simpa using ha
      refine ⟨h.write ha' _ _, by simp, rfl, rfl, rfl, rfl, fun k hk => ?_, fun h => absurd h ht⟩
      have : k ≠ j := fun e => by rw [e, ha'] at hk; cases hk
      simp only [Function.update_of_ne this, and_self]

theorem alive_congr {s s1 : St C W} (h1 : s1.held = s.held) (h2 : s1.inputs = s.inputs) (k : Nat) : s1.alive k = s.alive k := by
  unfold St.alive; rw [h1, h2]

theorem project_spec {F : Fns C W} {s s1 : St C W} (h : Inv F s) {t j p : Nat} (hp : s.project F t j = some (p, s1)) :
    Inv F s1 ∧ F.val (s1.mem p) = truth F (s.mem t) ∧ s1.keep = s.keep ∧ s1.forwards = s.forwards ∧ s1.held = s.held ∧ (∀ k, s.alive k = true → s1.mem k = s.mem k ∧ s1.tensor k = s.tensor k) ∧
      (s.keep = true → (t, p) ∈ s1.inputs) ∧ (∀ e ∈ s.inputs, e ∈ s1.inputs) := by
  unfold St.project at hp
  cases hf : find s.inputs t with
  | some q =>
    rw [hf] at hp
    cases hp
    exact ⟨h, h.inputs _ _ (find_mem hf), rfl, rfl, rfl, fun _ _ => ⟨rfl, rfl⟩, fun _ => find_mem hf, fun _ he => he⟩
  | none =>
    rw [hf] at hp
    cases hF : F.proj with
    | none =>
      rw [hF] at hp
      have htr : F.val (s.mem t) = truth F (s.mem t) := by simp only [truth, hF]
      simp only [Option.some.injEq, Prod.mk.injEq] at hp
      obtain ⟨rfl, rfl⟩ := hp
      cases hk : s.keep with
      | false => exact ⟨h, htr, hk, rfl, rfl, fun _ _ => ⟨rfl, rfl⟩, fun e => (by cases e), fun _ he => he⟩
      | true =>
        refine ⟨⟨fun a b hab => ?_, fun a v hv => ?_, fun e => ?_⟩, htr, rfl, rfl, rfl, fun _ _ => ⟨rfl, rfl⟩, fun _ => ?_, fun _ he => List.mem_cons_of_mem _ he⟩
        · rcases List.mem_cons.1 hab with e | hab
          · cases e; exact htr
          · exact h.inputs a b hab
        · obtain ⟨e, b, hb⟩ := h.results a v hv
          exact ⟨e, b, List.mem_cons_of_mem _ hb⟩
        · cases (show true = false from e)
        · exact List.mem_cons_self ..
    | some φ =>
      rw [hF] at hp
      simp only at hp
      by_cases ha : (s.alive j || j == t) = true
      · rw [if_pos ha] at hp; cases hp
      · rw [if_neg ha] at hp
        have ha' : s.alive j = false ∧ j ≠ t := by simpa using ha
        cases hp
        have ne : ∀ {k}, s.alive k = true → k ≠ j := fun hk e => by rw [e, ha'.1] at hk; cases hk
        have hw := h.write ha'.1 (φ (s.mem t)) true
        have htr : F.val (Function.update s.mem j (φ (s.mem t)) j) = truth F (s.mem t) := by simp only [truth, hF, Function.update_self]
        have htm : Function.update s.mem j (φ (s.mem t)) t = s.mem t := Function.update_of_ne (fun e => ha'.2 e.symm) _ _
        refine ⟨⟨fun a b hab => ?_, fun a v hv => ?_, fun e => ?_⟩, htr, rfl, rfl, rfl, fun k hk => ?_, fun hk => ?_, fun e he => ?_⟩
        · simp only at hab ⊢
          cases hk : s.keep with
          | false => rw [hk] at hab; exact hw.inputs a b hab
          | true =>
            rw [hk] at hab
            rcases List.mem_cons.1 hab with e | hab
            · cases e
              rw [htr, htm]
            · exact hw.inputs a b hab
        · obtain ⟨e, b, hb⟩ := hw.results a v hv
          refine ⟨e, b, ?_⟩
          simp only
          cases s.keep with
          | false => exact hb
          | true => exact List.mem_cons_of_mem _ hb
        · have hk : s.keep = false := e
          simp only [hk, Bool.false_eq_true, if_false]
          exact h.light hk
        · simp only [Function.update_of_ne (ne hk), and_self]
        · simp only [hk, if_true]; exact List.mem_cons_self ..
        · simp only
          cases s.keep with
          | false => exact he
          | true => exact List.mem_cons_of_mem _ he

theorem evaluate_spec {F : Fns C W} {s : St C W} (h : Inv F s) {p : Nat} (hp : s.keep = true → ∃ t, (t, p) ∈ s.inputs) :
    Inv F (s.evaluate F p).2 ∧ (s.evaluate F p).1 = F.val (s.mem p) ∧ (s.evaluate F p).2.mem = s.mem ∧ (s.evaluate F p).2.keep = s.keep ∧ (s.evaluate F p).2.inputs = s.inputs ∧
      (s.evaluate F p).2.forwards = s.forwards ∧ (s.evaluate F p).2.held = s.held ∧ (s.evaluate F p).2.tensor = s.tensor := by
  unfold St.evaluate
  cases hf : find s.results p with
  | some v => exact ⟨h, (h.results p v (find_mem hf)).1, rfl, rfl, rfl, rfl, rfl, rfl⟩
  | none =>
    cases hk : s.keep with
    | false => exact ⟨h, rfl, rfl, hk, rfl, rfl, rfl, rfl⟩
    | true =>
      refine ⟨⟨h.inputs, fun a v hv => ?_, fun e => ?_⟩, rfl, rfl, rfl, rfl, rfl, rfl, rfl⟩
      · rcases List.mem_cons.1 hv with e | hv
        · cases e; exact ⟨rfl, hp hk⟩
        · exact h.results a v hv
      · cases (show true = false from e)

theorem kernel_spec {F : Fns C W} {s s' : St C W} (h : Inv F s) {i j l : Nat} {v : W} (hk : s.kernel F i j l = some (v, s')) :
    Inv F s' ∧ v = truth F (s.mem i) ∧ s'.keep = s.keep ∧ s'.forwards = s.forwards ∧ s'.held = s.held ∧ (∀ k, s.alive k = true → s'.mem k = s.mem k ∧ s'.tensor k = s.tensor k) ∧
      (∀ e ∈ s.inputs, e ∈ s'.inputs) ∧ (s.keep = true → s.tensor i = true → ∃ p, (i, p) ∈ s'.inputs) ∧ s.held.contains i = true := by
  unfold St.kernel at hk
  by_cases hi : s.held.contains i = true
  swap
  · rw [if_neg hi] at hk; cases hk
  rw [if_pos hi] at hk
  cases hc : s.cast i j with
  | none => rw [hc] at hk; cases hk
  | some r =>
    obtain ⟨t, s1⟩ := r
    rw [hc] at hk
    simp only at hk
    obtain ⟨h1, hm, hke, hin, hfo, hhe, hal, hte⟩ := cast_spec h hc
    cases hp : s1.project F t l with
    | none => rw [hp] at hk; cases hk
    | some r =>
      obtain ⟨p, s2⟩ := r
      rw [hp] at hk
      simp only [Option.some.injEq] at hk
      obtain ⟨h2, htr, hke2, hfo2, hhe2, hal2, hst2, hin2⟩ := project_spec h1 hp
      obtain ⟨h3, hv, hm3, hke3, hin3, hfo3, hhe3, hte3⟩ := evaluate_spec h2 (p := p) fun e => ⟨t, hst2 (by rw [← hke2]; exact e)⟩
      rw [hk] at h3 hv hm3 hke3 hin3 hfo3 hhe3 hte3
      simp only at h3 hv hm3 hke3 hin3 hfo3 hhe3 hte3
      refine ⟨h3, ?_, by rw [hke3, hke2, hke], by rw [hfo3, hfo2, hfo], by rw [hhe3, hhe2, hhe], fun k hka => ?_, fun e he => ?_, fun hkeep hti => ?_, hi⟩
      · rw [hv, htr, hm]
      · have a1 := hal k hka
        have a2 := hal2 k (by rw [alive_congr hhe hin]; exact hka)
        rw [hm3, hte3]
        exact ⟨a2.1.trans a1.1, a2.2.trans a1.2⟩
      · rw [hin3]
        exact hin2 e (by rw [hin]; exact he)
      · obtain ⟨rfl, rfl⟩ := hte hti
        exact ⟨p, by rw [hin3]; exact hst2 hkeep⟩

theorem forward_inv {F : Fns C W} {s s' : St C W} (h : Inv F s) {i j l : Nat} {v : W} (hk : s.forward F i j l = some (v, s')) : Inv F s' := by
  unfold St.forward at hk
  by_cases hi : s.held.contains i = true
  swap
  · rw [if_neg hi] at hk; cases hk
  rw [if_pos hi] at hk
  cases hf : find s.forwards i with
  | some w => rw [hf] at hk; cases hk; exact h
  | none =>
    rw [hf] at hk
    simp only at hk
    cases hke : s.kernel F i j l with
    | none => rw [hke] at hk; cases hk
    | some r =>
      obtain ⟨w, s1⟩ := r
      rw [hke] at hk
      simp only [Option.some.injEq, Prod.mk.injEq] at hk
      obtain ⟨rfl, rfl⟩ := hk
      have h1 := (kernel_spec h hke).1
      cases hkeep : s1.keep with
      | false => exact h1
      | true => exact ⟨h1.inputs, h1.results, fun e => by cases (show true = false from e)⟩

theorem inv_step {F : Fns C W} {s : St C W} (h : Inv F s) (x : Op C) : Inv F (s.step F x) := by
  cases x with
  | create b c i =>
    simp only [St.step]
    by_cases ha : s.alive i = true
    · rw [if_pos ha]; exact h
    · rw [if_neg ha]
      have := h.write (j := i) (by simpa using ha) c b
      exact ⟨this.inputs, this.results, this.light⟩
  | forget i => exact ⟨h.inputs, h.results, h.light⟩
  | kernel i j l =>
    simp only [St.step]
    cases hk : s.kernel F i j l with
    | none => exact h
    | some r => exact (kernel_spec h (v := r.1) (s' := r.2) hk).1
  | forward i j l =>
    simp only [St.step]
    cases hk : s.forward F i j l with
    | none => exact h
    | some r => exact forward_inv h (v := r.1) (s' := r.2) hk
  | reset => exact ⟨fun _ _ h => absurd h (by simp [St.step]), fun _ _ h => absurd h (by simp [St.step]), fun _ => ⟨rfl, rfl, rfl⟩⟩

theorem inv_run (F : Fns C W) : ∀ (ops : List (Op C)) (s : St C W), Inv F s → Inv F (s.run F ops)
  | [], _, h => h
  | x :: ops, s, h => inv_run F ops (s.step F x) (inv_step h x)

theorem inv_init (F : Fns C W) (keep : Bool) (mem : Nat → C) : Inv F (St.init keep mem) :=
  ⟨fun _ _ h => by simp [St.init] at h, fun _ _ h => by simp [St.init] at h, fun _ => ⟨rfl, rfl, rfl⟩⟩

/-- The results of `forward` are right and their objects cannot be replaced: something other than the user refers to them. -/
def FInv (F : Fns C W) (s : St C W) : Prop := ∀ i v, (i, v) ∈ s.forwards → v = truth F (s.mem i) ∧ ∃ p, (i, p) ∈ s.inputs

theorem forward_spec {F : Fns C W} {s s' : St C W} (h : Inv F s) (hf : FInv F s) {i j l : Nat} {v : W} (ht : s.tensor i = true) (hk : s.forward F i j l = some (v, s')) :
    v = truth F (s.mem i) ∧ FInv F s' := by
  unfold St.forward at hk
  by_cases hi : s.held.contains i = true
  swap
  · rw [if_neg hi] at hk; cases hk
  rw [if_pos hi] at hk
  cases hfi : find s.forwards i with
  | some w => rw [hfi] at hk; cases hk; exact ⟨(hf i v (find_mem hfi)).1, hf⟩
  | none =>
    rw [hfi] at hk
    simp only at hk
    cases hke : s.kernel F i j l with
    | none => rw [hke] at hk; cases hk
    | some r =>
      obtain ⟨w, s1⟩ := r
      rw [hke] at hk
      simp only [Option.some.injEq, Prod.mk.injEq] at hk
      obtain ⟨rfl, rfl⟩ := hk
      obtain ⟨h1, hv, hkeep, hfo, hhe, hal, hin, hti, -⟩ := kernel_spec h hke
      refine ⟨hv, ?_⟩
      have base : ∀ i v, (i, v) ∈ s1.forwards → v = truth F (s1.mem i) ∧ ∃ p, (i, p) ∈ s1.inputs := fun a u hau => by
        obtain ⟨e, p, hp⟩ := hf a u (by rw [← hfo]; exact hau)
        rw [(hal a (alive_input hp).1).1]
        exact ⟨e, p, hin _ hp⟩
      cases hs : s1.keep with
      | false => exact base
      | true =>
        intro a u hau
        rcases List.mem_cons.1 hau with e | hau
        · cases e
          refine ⟨?_, hti (by rw [← hkeep]; exact hs) ht⟩
          exact hv.trans (congrArg (truth F) (hal i (alive_held hi)).1.symm)
        · exact base a u hau

theorem finv_step {F : Fns C W} {s : St C W} (h : Inv F s) (hf : FInv F s) (x : Op C) (hx : ∀ i j l, x = .forward i j l → s.held.contains i = true → s.tensor i = true) : FInv F (s.step F x) := by
  cases x with
  | create b c i =>
    simp only [St.step]
    by_cases ha : s.alive i = true
    · rw [if_pos ha]; exact hf
    · rw [if_neg ha]
      intro a u hau
      obtain ⟨e, p, hp⟩ := hf a u hau
      have : a ≠ i := fun e => ha (e ▸ (alive_input hp).1)
      simp only [Function.update_of_ne this]
      exact ⟨e, p, hp⟩
  | forget i => exact hf
  | kernel i j l =>
    simp only [St.step]
    cases hk : s.kernel F i j l with
    | none => exact hf
    | some r =>
      obtain ⟨h1, hv, hkeep, hfo, hhe, hal, hin, hti, -⟩ := kernel_spec h (v := r.1) (s' := r.2) hk
      intro a u hau
      obtain ⟨e, p, hp⟩ := hf a u (by rw [← hfo]; exact hau)
      simp only
      rw [(hal a (alive_input hp).1).1]
      exact ⟨e, p, hin _ hp⟩
  | forward i j l =>
    simp only [St.step]
    cases hk : s.forward F i j l with
    | none => exact hf
    | some r =>
      have hi : s.held.contains i = true := by
        unfold St.forward at hk
        by_contra hc
        rw [if_neg hc] at hk
        cases hk
      exact (forward_spec h hf (hx i j l rfl hi) (v := r.1) (s' := r.2) hk).2
  | reset => exact fun _ _ h => absurd h (by simp [St.step])

theorem finv_run (F : Fns C W) : ∀ (ops : List (Op C)) (s : St C W), Inv F s → FInv F s → OnlyTensors F s ops → FInv F (s.run F ops)
  | [], _, _, hf, _ => hf
  | x :: ops, s, h, hf, ho => by
    refine finv_run F ops (s.step F x) (inv_step h x) (finv_step h hf x fun i j l e => ?_) fun pre i j l post e => ?_
    · exact ho [] i j l ops (by rw [e]; rfl)
    · exact ho (x :: pre) i j l post (by rw [e]; rfl)

/-! ## Properties -/

/-- **C164** After any history of objects made, forgotten and evaluated, with addresses given again to other objects, every evaluation of a kernel is that of the content of its argument, at every
cache level: at the level `normal` and above the tree of the sample keeps the argument, so that its address is not given to another object; below, nothing is kept. -/
theorem C164_kernel (F : Fns C W) (keep : Bool) (mem : Nat → C) (ops : List (Op C)) (i j l : Nat) (v : W) (s' : St C W)
    (h : ((St.init keep mem).run F ops).kernel F i j l = some (v, s')) : v = truth F (((St.init keep mem).run F ops).mem i) :=
  (kernel_spec (inv_run F ops _ (inv_init F keep mem)) h).2.1

/-- **C164**, the price: at the level `normal` and above a tensor given once to a kernel is referred to until the next reset, however often the user forgets it. -/
theorem C164_retained (F : Fns C W) (mem : Nat → C) (ops : List (Op C)) (i j l : Nat) (v : W) (s' : St C W) (hk : ((St.init true mem).run F ops).keep = true)
    (ht : ((St.init true mem).run F ops).tensor i = true) (h : ((St.init true mem).run F ops).kernel F i j l = some (v, s')) (post : List (Op C)) (hp : Op.reset ∉ post) :
    (s'.run F post).alive i = true := by
  obtain ⟨h1, -, -, -, -, -, -, hin, -⟩ := kernel_spec (inv_run F ops _ (inv_init F true mem)) h
  obtain ⟨p, hp'⟩ := hin hk ht
  have grow : ∀ (post : List (Op C)) (s : St C W), Inv F s → Op.reset ∉ post → ∀ e ∈ s.inputs, e ∈ (s.run F post).inputs := by
    intro post
    induction post with
    | nil => exact fun _ _ _ _ he => he
    | cons x post ih =>
      intro s hs hr e he
      refine ih (s.step F x) (inv_step hs x) (fun hh => hr (List.mem_cons_of_mem _ hh)) e ?_
      cases x with
      | create b c i => simp only [St.step]; by_cases ha : s.alive i = true <;> simp [ha, he]
      | forget i => exact he
      | kernel i j l =>
        simp only [St.step]
        cases hk : s.kernel F i j l with
        | none => exact he
        | some r => exact (kernel_spec hs (v := r.1) (s' := r.2) hk).2.2.2.2.2.2.1 e he
      | forward i j l =>
        simp only [St.step, St.forward]
        by_cases hi : s.held.contains i = true
        swap
        · rw [if_neg hi]; exact he
        rw [if_pos hi]
        cases find s.forwards i with
        | some w => exact he
        | none =>
          cases hk : s.kernel F i j l with
          | none => exact he
          | some r =>
            have := (kernel_spec hs (v := r.1) (s' := r.2) hk).2.2.2.2.2.2.1 e he
            simp only
            cases hs1 : r.2.keep <;> simpa [hs1] using this
      | reset => exact absurd (List.mem_cons_self ..) hr
  exact (alive_input (grow post s' h1 hp _ hp')).1

/-- **C164**, partial (levels): after any such history the output of a level is that for the content of its argument if only tensors are given to `forward`. Missing (`_partial`): lists and arrays,
`C164_forward_violated`. -/
theorem C164_forward_partial (F : Fns C W) (keep : Bool) (mem : Nat → C) (ops : List (Op C)) (ho : OnlyTensors F (St.init keep mem) ops) (i j l : Nat)
    (ht : ((St.init keep mem).run F ops).tensor i = true) (v : W) (s' : St C W) (h : ((St.init keep mem).run F ops).forward F i j l = some (v, s')) :
    v = truth F (((St.init keep mem).run F ops).mem i) :=
  (forward_spec (inv_run F ops _ (inv_init F keep mem)) (finv_run F ops _ (inv_init F keep mem) (fun _ _ h => by simp [St.init] at h) ho) ht h).1

/-- **C164** Below the level `normal` the output of a level is that for the content of its argument, whatever is given. -/
theorem C164_forward_light (F : Fns C W) (mem : Nat → C) (ops : List (Op C)) (i j l : Nat) (v : W) (s' : St C W) (h : ((St.init false mem).run F ops).forward F i j l = some (v, s')) :
    v = truth F (((St.init false mem).run F ops).mem i) := by
  have hinv := inv_run F ops _ (inv_init F false mem)
  have keepF : ∀ (ops : List (Op C)) (s : St C W), Inv F s → s.keep = false → (s.run F ops).keep = false := by
    intro ops
    induction ops with
    | nil => exact fun _ _ h => h
    | cons x ops ih =>
      intro s hs hk
      refine ih (s.step F x) (inv_step hs x) ?_
      cases x with
      | create b c i => simp only [St.step]; by_cases ha : s.alive i = true <;> simp [ha, hk]
      | forget i => exact hk
      | kernel i j l =>
        simp only [St.step]
        cases hke : s.kernel F i j l with
        | none => exact hk
        | some r => exact ((kernel_spec hs (v := r.1) (s' := r.2) hke).2.2.1).trans hk
      | forward i j l =>
        simp only [St.step, St.forward]
        by_cases hi : s.held.contains i = true
        swap
        · rw [if_neg hi]; exact hk
        rw [if_pos hi]
        cases find s.forwards i with
        | some w => exact hk
        | none =>
          cases hke : s.kernel F i j l with
          | none => exact hk
          | some r =>
            have := ((kernel_spec hs (v := r.1) (s' := r.2) hke).2.2.1).trans hk
            simp [this]
      | reset => exact hk
  have hl := hinv.light (keepF ops _ (inv_init F false mem) rfl)
  generalize (St.init false mem : St C W).run F ops = s at h hinv hl
  unfold St.forward at h
  by_cases hi : s.held.contains i = true
  swap
  · rw [if_neg hi] at h; cases h
  rw [if_pos hi, hl.2.2] at h
  simp only [find, List.find?_nil, Option.map_none] at h
  cases hke : s.kernel F i j l with
  | none => rw [hke] at h; cases h
  | some r =>
    obtain ⟨w, s1⟩ := r
    rw [hke] at h
    simp only [Option.some.injEq, Prod.mk.injEq] at h
    obtain ⟨rfl, -⟩ := h
    exact (kernel_spec hinv hke).2.1

/-- **C164 is violated** by levels at the default cache level: a list (or array) given to `forward` is referred to by nothing, so that its address may be given to the next one; then the output of the
first is returned for the second, whatever they contain. -/
theorem C164_forward_violated (F : Fns C W) (mem : Nat → C) (c c' : C) (i j l : Nat) (hij : j ≠ i) (hil : l ≠ i) (hjl : l ≠ j) :
    ((St.init true mem).run F [.create false c i, .forward i j l, .forget i, .create false c' i]).mem i = c' ∧
      ((St.init true mem).run F [.create false c i, .forward i j l, .forget i, .create false c' i]).held = [i] ∧
      (((St.init true mem).run F [.create false c i, .forward i j l, .forget i, .create false c' i]).forward F i j l).map Prod.fst = some (truth F c) := by
  have e1 : (j == i) = false := by simpa using hij
  have e2 : (l == i) = false := by simpa using hil
  have e3 : (i == j) = false := by simpa using fun h => hij h.symm
  have e4 : (i == l) = false := by simpa using fun h => hil h.symm
  have e5 : (l == j) = false := by simpa using hjl
  have e6 : (j == l) = false := by simpa using fun h => hjl h.symm
  cases hF : F.proj with
  | none =>
    simp [St.run, St.step, St.init, St.alive, St.forward, St.kernel, St.cast, St.project, St.evaluate, find, hF, e1, e2, e3, e4, truth, Function.update_of_ne, hij, hil, hij.symm]
  | some φ =>
    simp [St.run, St.step, St.init, St.alive, St.forward, St.kernel, St.cast, St.project, St.evaluate, find, hF, e1, e2, e3, e4, e5, e6, truth, Function.update_of_ne, hij, hil, hjl, hij.symm, hil.symm, hjl.symm]

/-! ## Cases -/

/-- Contents are numbers, the sample is shifted by 1, the value is the square. -/
def sq : Fns Nat Nat := ⟨some (· + 1), fun c => c * c⟩

/-- The same without a transform of the sample. -/
def sq0 : Fns Nat Nat := ⟨none, fun c => c * c⟩

/-- A tensor is evaluated and forgotten; its address is not available any more (the second `create` does nothing), and another one is right. -/
def reuse : List (Op Nat) := [.create true 5 7, .kernel 7 0 1, .forget 7, .create true 6 7, .create true 6 8]

example : (((St.init true fun _ => 0).run sq reuse).kernel sq 8 0 2).map Prod.fst = some (truth sq 6) := by decide
example : ((St.init true fun _ => 0).run sq reuse).kernel sq 7 0 2 = none := by decide
example : ((St.init true fun _ => 0).run sq reuse).alive 7 = true := by decide
example : ((St.init false fun _ => 0).run sq reuse).mem 7 = 6 ∧ (((St.init false fun _ => 0).run sq reuse).kernel sq 7 0 2).map Prod.fst = some (truth sq 6) := by decide
example : (((St.init false fun _ => 0).run sq reuse).forward sq 7 0 2).map Prod.fst = some 49 := by decide

/-- The hypotheses of `C164_kernel`, `C164_retained`, `C164_forward_partial` and `C164_forward_light` are met. -/
example : ∃ v s', ((St.init true fun _ => 0).run sq reuse).kernel sq 8 0 2 = some (v, s') ∧ v = 49 := ⟨_, _, rfl, by decide⟩
example (s' : St Nat Nat) (v : Nat) (h : ((St.init true fun _ => 0).run sq [.create true 5 7]).kernel sq 7 0 1 = some (v, s')) :
    (s'.run sq [.forget 7, .create true 6 7, .kernel 7 2 3]).alive 7 = true :=
  C164_retained sq (fun _ => 0) [.create true 5 7] 7 0 1 v s' (by decide) (by decide) h _ (by simp)

example : OnlyTensors sq (St.init true fun _ => 0) [.create true 5 7, .forward 7 0 1, .forget 7, .create true 6 8] := by
  intro pre i j l post e _
  match pre, e with
  | [], e => simp at e
  | [_], e =>
    simp only [List.cons_append, List.nil_append, List.cons.injEq, Op.forward.injEq] at e
    obtain ⟨rfl, ⟨rfl, rfl, rfl⟩, -⟩ := e
    decide
  | [_, _], e => simp at e
  | [_, _, _], e => simp at e
  | _ :: _ :: _ :: _ :: pre, e => simp at e

/-- A list with content 5, then one with content 6 at the same address: the output is that of the first. -/
example : (((St.init true fun _ => 0).run sq [.create false 5 7, .forward 7 0 1, .forget 7, .create false 6 7]).forward sq 7 0 1).map Prod.fst = some 36 ∧ truth sq 6 = 49 := by decide

/-- Also without a transform of the sample. -/
example : (((St.init true fun _ => 0).run sq0 [.create false 5 7, .forward 7 0 1, .forget 7, .create false 6 7]).forward sq0 7 0 1).map Prod.fst = some 25 ∧ truth sq0 6 = 36 := by decide

/-- The kernel itself is right for the second list. -/
example : (((St.init true fun _ => 0).run sq [.create false 5 7, .forward 7 0 1, .forget 7, .create false 6 7]).kernel sq 7 2 3).map Prod.fst = some 49 := by decide

end Identity
end Kerch
