import Verif.Model.SampleGrad
import Mathlib.Tactic.Linarith
import Mathlib.Analysis.Calculus.Deriv.Pow
set_option linter.unusedSectionVars false
set_option linter.unusedSimpArgs false
/-!
# C113: training the sample of a kernel

The specification is a kernel that keeps nothing: every reading is computed from the current sample and bandwidth, and every `backward` gives the derivative at them.
-/
namespace Kerch
namespace SampleGrad

variable {S M N : Type*} [NormedAddCommGroup S] [NormedSpace ℝ S]

/-! ## Specification -/

/-- What a kernel without memory consists of. -/
structure Ref (S : Type*) where
  X : S
  rg : Bool
  sigma : Option ℝ
  srg : Bool

/-- The bandwidth: given, or that of the heuristic. -/
def Ref.bandwidth (h : M → ℝ) (D : S → M) (r : Ref S) : ℝ := r.sigma.getD (h (D r.X))

/-- One operation: what is seen, from the current sample and bandwidth. -/
noncomputable def Ref.out (h : M → ℝ) (κ : ℝ → M → N) (D : S → M) (r : Ref S) : Op S N → Out S N
  | .read _ => .K (κ (r.bandwidth h D) (D r.X))
  | .readSigma => .sigma (r.bandwidth h D)
  | .backward L => if r.rg = false ∧ r.srg = false then .error else
      .grads (if r.rg then some (fderiv ℝ (fun X => L (κ (r.bandwidth h D) (D X))) r.X) else none) (if r.srg then some (deriv (fun v => L (κ v (D r.X))) (r.bandwidth h D)) else none)
  | _ => .none

/-- And what it changes. The heuristic is evaluated once. -/
def Ref.next (h : M → ℝ) (D : S → M) (r : Ref S) : Op S N → Ref S
  | .read _ | .readSigma | .backward _ => { r with sigma := some (r.bandwidth h D) }
  | .setSigma v => { r with sigma := some v }
  | .step X | .update X => { r with X := X }
  | .clear => r
  | .trainable b => { r with rg := b }

/-- A history. -/
noncomputable def Ref.run (h : M → ℝ) (κ : ℝ → M → N) (D : S → M) (r : Ref S) : List (Op S N) → List (Out S N)
  | [] => []
  | o :: os => r.out h κ D o :: (r.next h D o).run h κ D os

/-- After a step of an optimiser the cache is cleared before anything is looked at. -/
def Cleared : Bool → List (Op S N) → Prop
  | _, [] => True
  | _, .step _ :: os => Cleared true os
  | _, .clear :: os => Cleared false os
  | _, .update _ :: os => Cleared false os
  | d, .setSigma _ :: os => Cleared d os
  | d, .trainable _ :: os => Cleared d os
  | d, _ :: os => d = false ∧ Cleared d os

/-- The cache is cleared before every `backward` if since the last clearing there was a `backward`, a reading under `no_grad`, an assignment of `sample_trainable`, or a step. -/
def Fresh : Bool → List (Op S N) → Prop
  | _, [] => True
  | _, .clear :: os => Fresh false os
  | _, .update _ :: os => Fresh false os
  | d, .read g :: os => Fresh (d || !g) os
  | d, .readSigma :: os => Fresh d os
  | d, .setSigma _ :: os => Fresh d os
  | _, .step _ :: os => Fresh true os
  | _, .trainable _ :: os => Fresh true os
  | d, .backward _ :: os => d = false ∧ Fresh true os

/-! ## Invariants -/

/-- What is kept comes from the current sample and bandwidth. -/
structure Current (s : St S) : Prop where
  tree : ∀ n ∈ s.tree, n.src = s.X
  dist : ∀ n ∈ s.dist, n.src = s.X
  K : ∀ k ∈ s.K, k.src = s.X ∧ s.sigma = some k.sig

/-- The state of the specification of a state. -/
def St.ref (s : St S) : Ref S := ⟨s.X, s.rg, s.sigma, s.srg⟩

theorem rows_src {s : St S} (c : Current s) (g : Bool) : (s.rows g).src = s.X := by
  unfold St.rows
  cases ht : s.tree with
  | none => rfl
  | some n => exact c.tree n ht

theorem dists_src {s : St S} (c : Current s) (g : Bool) : (s.dists g).src = s.X := by
  unfold St.dists
  cases ht : s.dist with
  | none => exact rows_src c g
  | some n => exact c.dist n ht

theorem withDists_current {s : St S} (c : Current s) (g : Bool) : Current (s.withDists g) :=
  ⟨fun n hn => by cases hn; exact rows_src c g, fun n hn => by cases hn; exact dists_src c g, c.K⟩

theorem withSigma_spec (h : M → ℝ) (D : S → M) {s : St S} (c : Current s) :
    Current (s.withSigma h D) ∧ (s.withSigma h D).sigma = some (s.ref.bandwidth h D) ∧ (s.withSigma h D).X = s.X ∧ (s.withSigma h D).rg = s.rg ∧ (s.withSigma h D).srg = s.srg ∧
      (s.withSigma h D).level = s.level := by
  unfold St.withSigma
  cases hs : s.sigma with
  | some v => simp [Ref.bandwidth, St.ref, hs, c]
  | none =>
    simp only [Option.isSome_none, Bool.false_eq_true, if_false]
    refine ⟨⟨(withDists_current c false).tree, (withDists_current c false).dist, fun k hk => by cases hk⟩, ?_, rfl, rfl, rfl, rfl⟩
    simp [Ref.bandwidth, St.ref, hs, dists_src c false]

theorem evalK_some (h : M → ℝ) (D : S → M) {s : St S} (g : Bool) {k : Mat S} (hk : s.K = some k) : s.evalK h D g = (k, s) := by
  rw [St.evalK, hk]

/-- The state in which a new kernel matrix finds the bandwidth. -/
def St.mid (h : M → ℝ) (D : S → M) (s : St S) (g : Bool) : St S := ({ s with tree := some (s.rows g) }).withSigma h D

/-- A new kernel matrix. -/
def St.newK (h : M → ℝ) (D : S → M) (s : St S) (g : Bool) : Mat S :=
  ⟨((s.mid h D g).dists g).src, ((s.mid h D g).sigma).getD 1, g && ((s.mid h D g).dists g).tracked, g && s.srg, false⟩

theorem evalK_none (h : M → ℝ) (D : S → M) {s : St S} (g : Bool) (hk : s.K = none) :
    s.evalK h D g = (s.newK h D g, if 1 ≤ s.level then { (s.mid h D g).withDists g with K := some (s.newK h D g) } else (s.mid h D g).withDists g) := by
  obtain ⟨X, rg, σ, srg, l, t, d, K⟩ := s
  cases hk
  rfl

/-- The kernel matrix that is returned comes from the current sample and bandwidth if everything kept does. -/
theorem evalK_spec (h : M → ℝ) (D : S → M) {s : St S} (c : Current s) (g : Bool) :
    Current (s.evalK h D g).2 ∧ (s.evalK h D g).1.src = s.X ∧ (s.evalK h D g).1.sig = s.ref.bandwidth h D ∧ (s.evalK h D g).2.ref = { s.ref with sigma := some (s.ref.bandwidth h D) } := by
  rcases hk : s.K with _ | k
  rotate_left
  · rw [evalK_some h D g hk]
    obtain ⟨h1, h2⟩ := c.K k hk
    have : s.ref.bandwidth h D = k.sig := by simp [Ref.bandwidth, St.ref, h2]
    refine ⟨c, h1, this.symm, ?_⟩
    rw [this]
    simp [St.ref, h2]
  · rw [evalK_none h D g hk]
    have c0 : Current { s with tree := some (s.rows g) } := ⟨fun n hn => by cases hn; exact rows_src c g, c.dist, c.K⟩
    obtain ⟨c1, e1, e2, e3, e4, e5⟩ := withSigma_spec h D c0
    change Current (s.mid h D g) at c1
    change (s.mid h D g).sigma = _ at e1
    change (s.mid h D g).X = s.X at e2
    change (s.mid h D g).rg = s.rg at e3
    change (s.mid h D g).srg = s.srg at e4
    have c2 := withDists_current c1 g
    have eb : (({ s with tree := some (s.rows g) } : St S).ref.bandwidth h D) = s.ref.bandwidth h D := rfl
    rw [eb] at e1
    have hs := (dists_src c1 g).trans e2
    refine ⟨?_, hs, by simp [St.newK, e1], ?_⟩
    · by_cases hl : 1 ≤ s.level
      · simp only [if_pos hl]
        refine ⟨c2.tree, c2.dist, fun k hk => ?_⟩
        cases hk
        exact ⟨(dists_src c1 g), by simpa [St.withDists, St.newK, e1] using e1⟩
      · simp only [if_neg hl]
        exact c2
    · by_cases hl : 1 ≤ s.level
      · simp only [if_pos hl]
        simp only [St.ref, St.withDists, e1, e2, e3, e4]
      · simp only [if_neg hl]
        simp only [St.ref, St.withDists, e1, e2, e3, e4]

theorem free_src (o : Option (Node S)) (x : S) (h : ∀ n ∈ o, n.src = x) : ∀ n ∈ o.map Node.free, n.src = x := by
  intro n hn
  cases o with
  | none => cases hn
  | some m => cases hn; exact h m rfl

theorem freeK_src (o : Option (Mat S)) (x : S) (σ : Option ℝ) (h : ∀ k ∈ o, k.src = x ∧ σ = some k.sig) : ∀ k ∈ o.map (fun k => ({ k with freed := true } : Mat S)), k.src = x ∧ σ = some k.sig := by
  intro n hn
  cases o with
  | none => cases hn
  | some m => cases hn; exact h m rfl

/-- What `backward` leaves. -/
theorem backward_current (h : M → ℝ) (κ : ℝ → M → N) (D : S → M) {s : St S} (c : Current s) (L : N → ℝ) :
    Current (s.op h κ D (.backward L)).2 ∧ (s.op h κ D (.backward L)).2.ref = { s.ref with sigma := some (s.ref.bandwidth h D) } := by
  obtain ⟨c1, -, -, e⟩ := evalK_spec h D c true
  simp only [St.op]
  split
  · exact ⟨c1, e⟩
  · split
    · exact ⟨⟨c1.tree, c1.dist, freeK_src _ _ _ c1.K⟩, e⟩
    · split
      · exact ⟨⟨free_src _ _ c1.tree, free_src _ _ c1.dist, freeK_src _ _ _ c1.K⟩, e⟩
      · exact ⟨⟨c1.tree, c1.dist, freeK_src _ _ _ c1.K⟩, e⟩

theorem withSigma_ref (h : M → ℝ) (D : S → M) {s : St S} (c : Current s) : (s.withSigma h D).ref = { s.ref with sigma := some (s.ref.bandwidth h D) } := by
  obtain ⟨-, h1, h2, h3, h4, -⟩ := withSigma_spec h D c
  simp [St.ref, h1, h2, h3, h4]

theorem cleared_current (s : St S) (h1 : s.tree = none) (h2 : s.dist = none) (h3 : s.K = none) : Current s :=
  ⟨fun n hn => (by rw [h1] at hn; cases hn), fun n hn => (by rw [h2] at hn; cases hn), fun n hn => (by rw [h3] at hn; cases hn)⟩

/-- Current states stay so, and follow the specification, except for steps. -/
theorem op_ref (h : M → ℝ) (κ : ℝ → M → N) (D : S → M) {s : St S} (c : Current s) (o : Op S N) :
    (s.op h κ D o).2.ref = s.ref.next h D o ∧ ((∀ X, o ≠ .step X) → Current (s.op h κ D o).2) := by
  cases o with
  | read g => exact ⟨(evalK_spec h D c g).2.2.2, fun _ => (evalK_spec h D c g).1⟩
  | readSigma => exact ⟨withSigma_ref h D c, fun _ => (withSigma_spec h D c).1⟩
  | setSigma v => exact ⟨rfl, fun _ => ⟨c.tree, c.dist, fun k hk => by cases hk⟩⟩
  | backward L => exact ⟨(backward_current h κ D c L).2, fun _ => (backward_current h κ D c L).1⟩
  | step X => exact ⟨rfl, fun hh => absurd rfl (hh X)⟩
  | clear => exact ⟨rfl, fun _ => cleared_current (S := S) _ rfl rfl rfl⟩
  | update X => exact ⟨rfl, fun _ => cleared_current (S := S) _ rfl rfl rfl⟩
  | trainable b => exact ⟨rfl, fun _ => ⟨c.tree, c.dist, c.K⟩⟩

/-- What is kept has been recorded if the sample is trainable, and `backward` has not gone through it. -/
structure Live (s : St S) : Prop where
  sigma : s.sigma.isSome
  tree : ∀ n ∈ s.tree, n.tracked = s.rg ∧ n.freed = false
  dist : ∀ n ∈ s.dist, n.tracked = s.rg ∧ n.freed = false
  K : ∀ k ∈ s.K, k.onSample = s.rg ∧ k.onSigma = s.srg ∧ k.freed = false

theorem withSigma_some (h : M → ℝ) (D : S → M) {s : St S} (hs : s.sigma.isSome) : s.withSigma h D = s := by rw [St.withSigma, if_pos hs]

theorem rows_live {s : St S} (c : Live s) : (s.rows true).tracked = s.rg ∧ (s.rows true).freed = false := by
  unfold St.rows
  cases ht : s.tree with
  | none => simp
  | some n => exact c.tree n ht

theorem evalK_live (h : M → ℝ) (D : S → M) {s : St S} (c : Live s) :
    Live (s.evalK h D true).2 ∧ (s.evalK h D true).1.onSample = s.rg ∧ (s.evalK h D true).1.onSigma = s.srg ∧ (s.evalK h D true).1.freed = false := by
  rcases hk : s.K with _ | k
  rotate_left
  · rw [evalK_some h D true hk]
    exact ⟨c, c.K k hk⟩
  · rw [evalK_none h D true hk]
    have hr := rows_live c
    have e : s.mid h D true = { s with tree := some (s.rows true) } := withSigma_some h D c.sigma
    simp only [St.newK, e]
    have hd : (({ s with tree := some (s.rows true) } : St S).dists true).tracked = s.rg ∧ (({ s with tree := some (s.rows true) } : St S).dists true).freed = false := by
      unfold St.dists
      cases ht : s.dist with
      | none => simpa [St.rows] using hr.1
      | some n => exact c.dist n ht
    have hrr : (({ s with tree := some (s.rows true) } : St S).rows true) = s.rows true := rfl
    refine ⟨?_, by simpa using hd.1, by simp, by simp⟩
    by_cases hl : 1 ≤ s.level
    · simp only [if_pos hl]
      refine ⟨c.sigma, fun n hn => ?_, fun n hn => ?_, fun k hk => ?_⟩
      · cases hn; rw [hrr]; exact hr
      · cases hn; exact hd
      · cases hk; exact ⟨by simpa [St.withDists] using hd.1, by simp [St.withDists], rfl⟩
    · simp only [if_neg hl]
      refine ⟨c.sigma, fun n hn => ?_, fun n hn => ?_, fun k hk' => ?_⟩
      · cases hn; rw [hrr]; exact hr
      · cases hn; exact hd
      · have : (({ s with tree := some (s.rows true) } : St S).withDists true).K = none := hk
        rw [this] at hk'; cases hk'

theorem evalK_sigma (h : M → ℝ) (D : S → M) {s : St S} (hs : s.sigma.isSome) (g : Bool) : (s.evalK h D g).2.sigma = s.sigma := by
  rcases hk : s.K with _ | k
  rotate_left
  · rw [evalK_some h D g hk]
  · rw [evalK_none h D g hk]
    have e : s.mid h D g = { s with tree := some (s.rows g) } := withSigma_some h D hs
    simp only [e]
    by_cases hl : 1 ≤ s.level
    · simp only [if_pos hl]; rfl
    · simp only [if_neg hl]; rfl

theorem op_sigma (h : M → ℝ) (κ : ℝ → M → N) (D : S → M) {s : St S} (hs : s.sigma.isSome) (o : Op S N) : (s.op h κ D o).2.sigma.isSome := by
  cases o with
  | read g => exact (evalK_sigma h D hs g) ▸ hs
  | readSigma => simp only [St.op, withSigma_some h D hs]; exact hs
  | setSigma v => rfl
  | backward L =>
    have := evalK_sigma h D hs true
    simp only [St.op]
    split
    · rw [this]; exact hs
    · split
      · simp only [this]; exact hs
      · split <;> (simp only [this]; exact hs)
  | step X => exact hs
  | clear => exact hs
  | update X => exact hs
  | trainable b => exact hs

/-- The gradients of a live and current state are those of the specification. -/
theorem backward_live (h : M → ℝ) (κ : ℝ → M → N) (D : S → M) {s : St S} (c : Current s) (l : Live s) (L : N → ℝ) : (s.op h κ D (.backward L)).1 = s.ref.out h κ D (.backward L) := by
  obtain ⟨l1, a1, a2, a3⟩ := evalK_live h D l
  obtain ⟨-, b1, b2, -⟩ := evalK_spec h D c true
  simp only [St.op, Ref.out]
  have er : s.ref.rg = s.rg := rfl
  have es : s.ref.srg = s.srg := rfl
  have ex : s.ref.X = s.X := rfl
  rw [a1, a2, a3, er, es, ex]
  by_cases hh : s.rg = false ∧ s.srg = false
  · rw [if_pos hh, if_pos hh]
  · rw [if_neg hh, if_neg hh]
    have ht : ((s.evalK h D true).2.tree.any (·.freed)) = false := by
      cases ht : (s.evalK h D true).2.tree with
      | none => rfl
      | some n => exact (l1.tree n ht).2
    have hd : ((s.evalK h D true).2.dist.any (·.freed)) = false := by
      cases ht : (s.evalK h D true).2.dist with
      | none => rfl
      | some n => exact (l1.dist n ht).2
    rw [ht, hd]
    simp only [Bool.or_self, Bool.and_false, Bool.false_eq_true, if_false, Mat.grads, a1, a2, b1, b2]

/-! ## Theorems -/

/-- What is seen of values: readings, not gradients. -/
def Out.value : Out S N → Option (Sum ℝ N)
  | .sigma v => some (.inl v)
  | .K v => some (.inr v)
  | _ => .none

theorem values_aux (h : M → ℝ) (κ : ℝ → M → N) (D : S → M) (os : List (Op S N)) :
    ∀ (s : St S) (d : Bool), (d = false → Current s) → Cleared d os → (s.run h κ D os).map Out.value = (s.ref.run h κ D os).map Out.value := by
  induction os with
  | nil => intros; rfl
  | cons o os ih =>
    intro s d hd hc
    have key : ∀ d' : Bool, (s.op h κ D o).1.value = (s.ref.out h κ D o).value → (s.op h κ D o).2.ref = s.ref.next h D o → (d' = false → Current (s.op h κ D o).2) → Cleared d' os →
        (s.run h κ D (o :: os)).map Out.value = (s.ref.run h κ D (o :: os)).map Out.value := by
      intro d' h1 h2 h3 h4
      have := ih _ d' h3 h4
      simp only [St.run, Ref.run, List.map_cons, h1]
      rw [this, h2]
    cases o with
    | read g =>
      obtain ⟨rfl, hc⟩ := hc
      obtain ⟨c1, b1, b2, b3⟩ := evalK_spec h D (hd rfl) g
      refine key false ?_ b3 (fun _ => c1) hc
      simp only [St.op, Ref.out, b1, b2]
      rfl
    | readSigma =>
      obtain ⟨rfl, hc⟩ := hc
      obtain ⟨c1, b1, -⟩ := withSigma_spec h D (hd rfl)
      refine key false ?_ (withSigma_ref h D (hd rfl)) (fun _ => c1) hc
      simp only [St.op, Ref.out, b1]
      rfl
    | backward L =>
      obtain ⟨rfl, hc⟩ := hc
      refine key false ?_ (op_ref h κ D (hd rfl) _).1 (fun _ => (backward_current h κ D (hd rfl) L).1) hc
      have h1 : (s.op h κ D (.backward L)).1.value = none := by
        simp only [St.op]
        split
        · rfl
        · split <;> rfl
      have h2 : (s.ref.out h κ D (.backward L)).value = none := by
        simp only [Ref.out]
        split <;> rfl
      rw [h1, h2]
    | setSigma v => exact key d rfl rfl (fun e => ⟨(hd e).tree, (hd e).dist, fun k hk => by cases hk⟩) hc
    | step X => exact key true rfl rfl (fun e => by cases e) hc
    | clear => exact key false rfl rfl (fun _ => cleared_current _ rfl rfl rfl) hc
    | update X => exact key false rfl rfl (fun _ => cleared_current _ rfl rfl rfl) hc
    | trainable b => exact key d rfl rfl (fun e => ⟨(hd e).tree, (hd e).dist, (hd e).K⟩) hc

theorem grads_aux (h : M → ℝ) (κ : ℝ → M → N) (D : S → M) (os : List (Op S N)) :
    ∀ (s : St S) (d e : Bool), s.sigma.isSome → (d = false → Current s) → (e = false → Live s) → Cleared d os → Fresh e os → s.run h κ D os = s.ref.run h κ D os := by
  induction os with
  | nil => intros; rfl
  | cons o os ih =>
    intro s d e hs hd he hc hf
    have key : ∀ d' e' : Bool, (s.op h κ D o).1 = s.ref.out h κ D o → (s.op h κ D o).2.ref = s.ref.next h D o → (d' = false → Current (s.op h κ D o).2) →
        (e' = false → Live (s.op h κ D o).2) → Cleared d' os → Fresh e' os → s.run h κ D (o :: os) = s.ref.run h κ D (o :: os) := by
      intro d' e' h1 h2 h3 h4 h5 h6
      have := ih _ d' e' (op_sigma h κ D hs o) h3 h4 h5 h6
      simp only [St.run, Ref.run, h1]
      rw [this, h2]
    have live0 : ∀ t : St S, t.sigma.isSome → t.tree = none → t.dist = none → t.K = none → Live t := fun t h0 h1 h2 h3 =>
      ⟨h0, fun n hn => (by rw [h1] at hn; cases hn), fun n hn => (by rw [h2] at hn; cases hn), fun n hn => (by rw [h3] at hn; cases hn)⟩
    cases o with
    | read g =>
      obtain ⟨rfl, hc⟩ := hc
      obtain ⟨c1, b1, b2, b3⟩ := evalK_spec h D (hd rfl) g
      refine key false (e || !g) ?_ b3 (fun _ => c1) (fun hh => ?_) hc hf
      · simp only [St.op, Ref.out, b1, b2]
        rfl
      · cases g with
        | true => exact (evalK_live h D (he (by simpa using hh))).1
        | false => simp at hh
    | readSigma =>
      obtain ⟨rfl, hc⟩ := hc
      obtain ⟨c1, b1, -⟩ := withSigma_spec h D (hd rfl)
      refine key false e ?_ (withSigma_ref h D (hd rfl)) (fun _ => c1) (fun hh => ?_) hc hf
      · simp only [St.op, Ref.out, b1]
        rfl
      · simp only [St.op, withSigma_some h D hs]
        exact he hh
    | backward L =>
      obtain ⟨rfl, hc⟩ := hc
      obtain ⟨rfl, hf⟩ := hf
      exact key false true (backward_live h κ D (hd rfl) (he rfl) L) (op_ref h κ D (hd rfl) _).1 (fun _ => (backward_current h κ D (hd rfl) L).1) (fun hh => by cases hh) hc hf
    | setSigma v =>
      exact key d e rfl rfl (fun e => ⟨(hd e).tree, (hd e).dist, fun k hk => by cases hk⟩) (fun hh => ⟨rfl, (he hh).tree, (he hh).dist, fun k hk => by cases hk⟩) hc hf
    | step X => exact key true true rfl rfl (fun e => by cases e) (fun e => by cases e) hc hf
    | clear => exact key false false rfl rfl (fun _ => cleared_current _ rfl rfl rfl) (fun _ => live0 _ hs rfl rfl rfl) hc hf
    | update X => exact key false false rfl rfl (fun _ => cleared_current _ rfl rfl rfl) (fun _ => live0 _ hs rfl rfl rfl) hc hf
    | trainable b => exact key d true rfl rfl (fun e => ⟨(hd e).tree, (hd e).dist, (hd e).K⟩) (fun e => by cases e) hc hf

/-- **C113** (partial) In every history in which the cache is cleared (by `reset`, `stochastic` or `update_sample`) after each step of an optimiser, before anything is looked at, all values
read are those of the current sample and bandwidth: at every cache level, and whatever was read under `no_grad` or differentiated before. -/
theorem C113_values_partial (h : M → ℝ) (κ : ℝ → M → N) (D : S → M) (X : S) (rg : Bool) (sigma : Option ℝ) (srg : Bool) (level : Nat) (os : List (Op S N)) (hc : Cleared false os) :
    ((St.init X rg sigma srg level).run h κ D os).map Out.value = ((⟨X, rg, sigma, srg⟩ : Ref S).run h κ D os).map Out.value :=
  values_aux h κ D os _ false (fun _ => cleared_current _ rfl rfl rfl) hc

/-- **C113** (partial) If the bandwidth is given and the cache is also cleared between two calls of `backward`, and after a reading under `no_grad` or an assignment of `sample_trainable`,
the sample and the bandwidth receive the derivatives at their current values. -/
theorem C113_gradients_partial (h : M → ℝ) (κ : ℝ → M → N) (D : S → M) (X : S) (rg : Bool) (v : ℝ) (srg : Bool) (level : Nat) (os : List (Op S N)) (hc : Cleared false os) (hf : Fresh false os) :
    (St.init X rg (some v) srg level).run h κ D os = (⟨X, rg, some v, srg⟩ : Ref S).run h κ D os :=
  grads_aux h κ D os _ false false rfl (fun _ => cleared_current _ rfl rfl rfl)
    (fun _ => ⟨rfl, fun n hn => (by cases hn), fun n hn => (by cases hn), fun n hn => (by cases hn)⟩) hc hf

/-- **C113** (partial) The same with the bandwidth of the heuristic, if it is read first and the cache then cleared. -/
theorem C113_heuristic_partial (h : M → ℝ) (κ : ℝ → M → N) (D : S → M) (X : S) (rg srg : Bool) (level : Nat) (os : List (Op S N)) (hc : Cleared false os) (hf : Fresh false os) :
    (St.init X rg none srg level).run h κ D (.readSigma :: .clear :: os) = (⟨X, rg, none, srg⟩ : Ref S).run h κ D (.readSigma :: .clear :: os) := by
  have := C113_gradients_partial h κ D X rg (h (D X)) srg level os hc hf
  simp only [St.run, Ref.run, St.op, Ref.out, Ref.next]
  refine congrArg₂ _ rfl (congrArg₂ _ rfl ?_)
  exact this

/-- **C113 is violated** without clearing: at every cache level the second `backward` raises, whether or not the optimiser has made a step in between. -/
theorem C113_second_violated (h : M → ℝ) (κ : ℝ → M → N) (D : S → M) (X X' : S) (v : ℝ) (srg : Bool) (level : Nat) (L L' : N → ℝ) :
    ((St.init X true (some v) srg level).run h κ D [.backward L, .backward L'])[1]? = some .error ∧
    ((St.init X true (some v) srg level).run h κ D [.backward L, .step X', .backward L'])[2]? = some .error := by
  by_cases hl : 1 ≤ level <;>
    simp [St.run, St.op, St.init, St.evalK, St.withSigma, St.withDists, St.rows, St.dists, hl, Node.free]

/-- **C113 is violated** after a step of an optimiser: at every cache level the kernel matrix stays that of the sample before it. -/
theorem C113_stale_violated (h : M → ℝ) (κ : ℝ → M → N) (D : S → M) (X X' : S) (rg : Bool) (v : ℝ) (srg : Bool) (level : Nat) (g g' : Bool) :
    (St.init X rg (some v) srg level).run h κ D [.read g, .step X', .read g'] = [.K (κ v (D X)), .none, .K (κ v (D X))] := by
  by_cases hl : 1 ≤ level <;>
    simp [St.run, St.op, St.init, St.evalK, St.withSigma, St.withDists, St.rows, St.dists, hl, Node.free]

/-- **C113 is violated** if the bandwidth comes from the heuristic: the distances are computed under `no_grad` and kept, so the sample receives nothing, from this and all later losses until the cache is
cleared; if the bandwidth is not trainable either, `backward` raises. -/
theorem C113_heuristic_violated (h : M → ℝ) (κ : ℝ → M → N) (D : S → M) (X : S) (level : Nat) (L : N → ℝ) :
    (St.init X true none false level).run h κ D [.backward L] = [.error] ∧
    (St.init X true none true level).run h κ D [.backward L] = [.grads none (some (deriv (fun v => L (κ v (D X))) (h (D X))))] ∧
    (St.init X true none false level).run h κ D [.readSigma, .backward L] = [.sigma (h (D X)), .error] := by
  by_cases hl : 1 ≤ level <;>
    simp [St.run, St.op, St.init, St.evalK, St.withSigma, St.withDists, St.rows, St.dists, hl, Node.free, Mat.grads]

/-- **C113 is violated** after an evaluation under `torch.no_grad()`: the loss cannot be differentiated; at level none the bandwidth receives its gradient but the sample does not. -/
theorem C113_no_grad_violated (h : M → ℝ) (κ : ℝ → M → N) (D : S → M) (X : S) (v : ℝ) (L : N → ℝ) (level : Nat) :
    (St.init X true (some v) false level).run h κ D [.read false, .backward L] = [.K (κ v (D X)), .error] ∧
    (1 ≤ level → (St.init X true (some v) true level).run h κ D [.read false, .backward L] = [.K (κ v (D X)), .error]) ∧
    (St.init X true (some v) true 0).run h κ D [.read false, .backward L] = [.K (κ v (D X)), .grads none (some (deriv (fun v => L (κ v (D X))) v))] := by
  refine ⟨?_, fun hl => ?_, ?_⟩
  · by_cases hl : 1 ≤ level <;>
      simp [St.run, St.op, St.init, St.evalK, St.withSigma, St.withDists, St.rows, St.dists, hl, Node.free, Mat.grads]
  · simp [St.run, St.op, St.init, St.evalK, St.withSigma, St.withDists, St.rows, St.dists, hl, Node.free, Mat.grads]
  · simp [St.run, St.op, St.init, St.evalK, St.withSigma, St.withDists, St.rows, St.dists, Node.free, Mat.grads]

/-- A loop of training that clears the cache each time, with an evaluation under `no_grad` in between, meets the hypotheses. -/
example (X Y Z : S) (L : N → ℝ) :
    Cleared false ([.backward L, .step X, .clear, .backward L, .step Y, .clear, .read false, .clear, .backward L, .update Z, .read true, .backward L] : List (Op S N)) ∧
    Fresh false ([.backward L, .step X, .clear, .backward L, .step Y, .clear, .read false, .clear, .backward L, .update Z, .read true, .backward L] : List (Op S N)) := by
  simp [Cleared, Fresh]

/-- The sample of one number, the distance to 1, the kernel `d²` and the loss itself: the gradient at 3 is 4. -/
example : (St.init (3 : ℝ) true (some 1) false 2).run (M := ℝ) (fun _ => 1) (fun _ d => d ^ 2) (fun x => x - 1) [.backward id] =
    [.grads (some (fderiv ℝ (fun x : ℝ => (x - 1) ^ 2) 3)) none] ∧ fderiv ℝ (fun x : ℝ => (x - 1) ^ 2) 3 1 = 4 := by
  constructor
  · simp [St.run, St.op, St.init, St.evalK, St.withSigma, St.withDists, St.rows, St.dists, Node.free, Mat.grads]
  · have h0 : HasDerivAt (fun x : ℝ => x - 1) 1 3 := (hasDerivAt_id (3 : ℝ)).sub_const 1
    have : HasDerivAt (fun x : ℝ => (x - 1) ^ 2) (((2 : ℕ) : ℝ) * (3 - 1) ^ (2 - 1) * 1) 3 := h0.fun_pow 2
    rw [fderiv_apply_one_eq_deriv, this.deriv]
    norm_num

end SampleGrad
end Kerch
