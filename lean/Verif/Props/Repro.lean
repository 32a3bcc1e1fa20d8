import Verif.Model.Repro
/-!
# C158: what it takes to get the same results again
-/
set_option linter.unusedSectionVars false
set_option linter.unusedSimpArgs false
namespace Kerch.Repro
open Kerch

variable {T P N α : Type}

/-! ## Specification -/

/-- The three generators. -/
inductive Gen
  | torch | py | np
  deriving DecidableEq

/-- Some parameter of the optimiser has a gradient, is to stay on the Stiefel manifold and can. -/
def Moves (ps : List (Par α)) : Prop := ∃ q ∈ ps, q.grad = true ∧ q.stiefel = true ∧ q.rows ≤ q.cols

/-- The generator a user has to seed to get the call's result again. -/
def Needs (ps : List (Par α)) : Call α → Gen → Prop
  | .initSample none, g => g = .torch
  | .numWeights (some _), g => g = .torch
  | .stochastic none (some p), g => g = .torch ∧ 0 < p ∧ p ≤ 1
  | .moons _ noise, g => g = .torch ∧ noise = true
  | .latent _, g => g = .torch
  | .drawK _ _ _ _, g => g = .torch
  | .gaussians _, g => g = .np
  | .indices sh _ _, g => g = .py ∧ sh = true
  | .step, g => g = .py ∧ Moves ps
  | _, _ => False

/-- Two processes hold the same objects; their generators are not compared. -/
def SameObjects (w w' : World T P N α) : Prop :=
  w.tree = w'.tree ∧ w.dims = w'.dims ∧ w.sample = w'.sample ∧ w.dimInput = w'.dimInput ∧ w.dimOutput = w'.dimOutput ∧
    w.weights = w'.weights ∧ w.params = w'.params

/-- Two processes have one of the generators in the same state. -/
def SameGen (w w' : World T P N α) : Gen → Prop
  | .torch => w.torch = w'.torch
  | .py => w.py = w'.py
  | .np => w.np = w'.np

/-! ## Lemmas -/

theorem Moves.cons_iff (q : Par α) (qs : List (Par α)) :
    Moves (q :: qs) ↔ (q.grad = true ∧ q.stiefel = true ∧ q.rows ≤ q.cols) ∨ Moves qs := by
  simp [Moves]

theorem stepParams_moves (s : Src T P N α) (upd : Bool → α → α) (plain : α → α) (ps : List (Par α)) (p : P) :
    Moves (stepParams s upd plain ps p).1 ↔ Moves ps := by
  induction ps generalizing p with
  | nil => simp [stepParams]
  | cons q qs ih =>
    unfold stepParams
    by_cases hg : q.grad = true
    · by_cases hs : (q.stiefel && decide (q.rows ≤ q.cols)) = true
      · simp only [hg, hs, if_true, Moves.cons_iff, ih]
      · rw [if_pos hg, if_neg hs]
        simp only [Moves.cons_iff, ih]
    · rw [if_neg hg]
      simp only [Moves.cons_iff, ih]

theorem stepParams_idle (s : Src T P N α) (upd : Bool → α → α) (plain : α → α) (ps : List (Par α)) (h : ¬ Moves ps) (p : P) :
    (stepParams s upd plain ps p).2 = p ∧ ∀ p', (stepParams s upd plain ps p').1 = (stepParams s upd plain ps p).1 := by
  induction ps generalizing p with
  | nil => simp [stepParams]
  | cons q qs ih =>
    rw [Moves.cons_iff] at h
    push Not at h
    obtain ⟨h1, h2⟩ := h
    unfold stepParams
    by_cases hg : q.grad = true
    · have hs : ¬ (q.stiefel && decide (q.rows ≤ q.cols)) = true := by
        simp only [Bool.and_eq_true, decide_eq_true_eq]
        rintro ⟨a, b⟩
        exact absurd b (Nat.not_le.mpr (h1 hg a))
      simp only [hg, hs, if_true]
      exact ⟨(ih h2 p).1, fun p' => by rw [if_neg (by simp), if_neg (by simp), (ih h2 p).2 p']⟩
    · simp only [hg]
      exact ⟨(ih h2 p).1, fun p' => by rw [if_neg (by simp), if_neg (by simp), (ih h2 p).2 p']⟩

theorem call_params (s : Src T P N α) (upd : Bool → α → α) (plain : α → α) (w : World T P N α) (c : Call α) :
    Moves (call s upd plain w c).2.params ↔ Moves w.params := by
  cases c with
  | initSample g =>
    cases g with
    | some x => exact Iff.rfl
    | none => unfold call; cases w.dims <;> exact Iff.rfl
  | numWeights v => cases v <;> exact Iff.rfl
  | moons n b => unfold call; cases b <;> exact Iff.rfl
  | indices b z n => unfold call; cases b <;> exact Iff.rfl
  | step => exact stepParams_moves s upd plain w.params w.py
  | _ => exact Iff.rfl

theorem Needs.congr {ps qs : List (Par α)} (h : Moves ps ↔ Moves qs) (c : Call α) (g : Gen) : Needs ps c g ↔ Needs qs c g := by
  unfold Needs
  split <;> simp [h]

theorem call_same (s : Src T P N α) (upd : Bool → α → α) (plain : α → α) (w w' : World T P N α) (c : Call α)
    (ho : SameObjects w w') (hg : ∀ g, Needs w.params c g → SameGen w w' g) :
    (call s upd plain w c).1 = (call s upd plain w' c).1 ∧ SameObjects (call s upd plain w c).2 (call s upd plain w' c).2 ∧
      ∀ g, SameGen w w' g → SameGen (call s upd plain w c).2 (call s upd plain w' c).2 g := by
  obtain ⟨t, p, n, tree, dims, sample, di, dou, wt, ps⟩ := w
  obtain ⟨t', p', n', tree', dims', sample', di', dou', wt', ps'⟩ := w'
  obtain ⟨h1, h2, h3, h4, h5, h6, h7⟩ := ho
  simp only at h1 h2 h3 h4 h5 h6 h7
  subst h1 h2 h3 h4 h5 h6 h7
  cases c with
  | initSample g =>
    cases g with
    | some x => exact ⟨rfl, ⟨rfl, rfl, rfl, rfl, rfl, rfl, rfl⟩, fun g h => by cases g <;> exact h⟩
    | none =>
      have e : t = t' := hg .torch rfl
      subst e
      cases dims <;> exact ⟨rfl, ⟨rfl, rfl, rfl, rfl, rfl, rfl, rfl⟩, fun g h => by cases g <;> first | exact h | rfl⟩
  | numWeights v =>
    cases v with
    | none => exact ⟨rfl, ⟨rfl, rfl, rfl, rfl, rfl, rfl, rfl⟩, fun g h => by cases g <;> exact h⟩
    | some k =>
      have e : t = t' := hg .torch rfl
      subst e
      exact ⟨rfl, ⟨rfl, rfl, rfl, rfl, rfl, rfl, rfl⟩, fun g h => by cases g <;> first | exact h | rfl⟩
  | setWeights v => exact ⟨rfl, ⟨rfl, rfl, rfl, rfl, rfl, rfl, rfl⟩, fun g h => by cases g <;> exact h⟩
  | stochastic idx prop =>
    cases hN : tree.st.numTotal with
    | none =>
      simp only [call, hN]
      exact ⟨trivial, ⟨rfl, rfl, rfl, rfl, rfl, rfl, rfl⟩, fun g h => by cases g <;> exact h⟩
    | some k =>
      cases idx with
      | some i =>
        simp only [call, hN]
        exact ⟨trivial, ⟨rfl, rfl, rfl, rfl, rfl, rfl, rfl⟩, fun g h => by cases g <;> exact h⟩
      | none =>
        cases prop with
        | none =>
          simp only [call, hN]
          exact ⟨trivial, ⟨rfl, rfl, rfl, rfl, rfl, rfl, rfl⟩, fun g h => by cases g <;> exact h⟩
        | some q =>
          by_cases hq : q ≤ 1 ∧ 0 < q
          · have e : t = t' := hg .torch ⟨rfl, hq.2, hq.1⟩
            subst e
            exact ⟨rfl, ⟨rfl, rfl, rfl, rfl, rfl, rfl, rfl⟩, fun g h => by cases g <;> first | exact h | rfl⟩
          · simp only [call, hN, if_neg hq]
            exact ⟨trivial, ⟨rfl, rfl, rfl, rfl, rfl, rfl, rfl⟩, fun g h => by cases g <;> exact h⟩
  | moons k b =>
    cases b with
    | false => exact ⟨rfl, ⟨rfl, rfl, rfl, rfl, rfl, rfl, rfl⟩, fun g h => by cases g <;> exact h⟩
    | true =>
      have e : t = t' := hg .torch ⟨rfl, rfl⟩
      subst e
      exact ⟨rfl, ⟨rfl, rfl, rfl, rfl, rfl, rfl, rfl⟩, fun g h => by cases g <;> first | exact h | rfl⟩
  | gaussians k =>
    have e : n = n' := hg .np rfl
    subst e
    exact ⟨rfl, ⟨rfl, rfl, rfl, rfl, rfl, rfl, rfl⟩, fun g h => by cases g <;> first | exact h | rfl⟩
  | indices b z k =>
    cases b with
    | false => exact ⟨rfl, ⟨rfl, rfl, rfl, rfl, rfl, rfl, rfl⟩, fun g h => by cases g <;> exact h⟩
    | true =>
      have e : p = p' := hg .py ⟨rfl, rfl⟩
      subst e
      exact ⟨rfl, ⟨rfl, rfl, rfl, rfl, rfl, rfl, rfl⟩, fun g h => by cases g <;> first | exact h | rfl⟩
  | latent k =>
    have e : t = t' := hg .torch rfl
    subst e
    exact ⟨rfl, ⟨rfl, rfl, rfl, rfl, rfl, rfl, rfl⟩, fun g h => by cases g <;> first | exact h | rfl⟩
  | drawK a b c d =>
    have e : t = t' := hg .torch rfl
    subst e
    exact ⟨rfl, ⟨rfl, rfl, rfl, rfl, rfl, rfl, rfl⟩, fun g h => by cases g <;> first | exact h | rfl⟩
  | step =>
    by_cases hm : Moves ps
    · have e : p = p' := hg .py ⟨rfl, hm⟩
      subst e
      exact ⟨rfl, ⟨rfl, rfl, rfl, rfl, rfl, rfl, rfl⟩, fun g h => by cases g <;> first | exact h | rfl⟩
    · have i := stepParams_idle s upd plain ps hm p
      have i' := stepParams_idle s upd plain ps hm p'
      have j := i.2 p'
      refine ⟨?_, ⟨rfl, rfl, rfl, rfl, rfl, rfl, ?_⟩, fun g h => ?_⟩
      · simp only [call, j]
      · simp only [call, j]
      · cases g
        · exact h
        · show (stepParams s upd plain ps p).2 = (stepParams s upd plain ps p').2
          rw [i.1, i'.1]; exact h
        · exact h

theorem call_untouched (s : Src T P N α) (upd : Bool → α → α) (plain : α → α) (w : World T P N α) (c : Call α) (g : Gen)
    (hn : ¬ Needs w.params c g) : SameGen (call s upd plain w c).2 w g := by
  cases c with
  | initSample x =>
    cases x with
    | some x => cases g <;> rfl
    | none => unfold call; cases g <;> cases w.dims <;> first | rfl | exact absurd rfl hn
  | numWeights v => cases v <;> cases g <;> first | rfl | exact absurd rfl hn
  | setWeights v => cases g <;> rfl
  | stochastic idx prop =>
    cases g
    · cases hN : w.tree.st.numTotal with
      | none => simp only [call, hN]; rfl
      | some k =>
        cases idx with
        | some i => simp only [call, hN]; rfl
        | none =>
          cases prop with
          | none => simp only [call, hN]; rfl
          | some q =>
            by_cases hq : q ≤ 1 ∧ 0 < q
            · exact absurd ⟨rfl, hq.2, hq.1⟩ hn
            · simp only [call, hN, if_neg hq]; rfl
    · rfl
    · rfl
  | moons k b => cases b <;> cases g <;> first | rfl | exact absurd ⟨rfl, rfl⟩ hn
  | gaussians k => cases g <;> first | rfl | exact absurd rfl hn
  | indices b z k => cases b <;> cases g <;> first | rfl | exact absurd ⟨rfl, rfl⟩ hn
  | latent k => cases g <;> first | rfl | exact absurd rfl hn
  | drawK a b c d => cases g <;> first | rfl | exact absurd rfl hn
  | step =>
    cases g
    · rfl
    · by_cases hm : Moves w.params
      · exact absurd ⟨rfl, hm⟩ hn
      · exact (stepParams_idle s upd plain w.params hm w.py).1
    · rfl

/-! ## Properties -/

/-- C158. Whatever the history of calls: two processes with the same objects, and with the same states of those generators that some call of the history needs, give
the same results, exceptions included, and end with the same objects; the generators that agreed still agree, so that the history can be continued. The others may be in any state. -/
theorem C158_again (s : Src T P N α) (upd : Bool → α → α) (plain : α → α) (cs : List (Call α)) (w w' : World T P N α) (ho : SameObjects w w')
    (hg : ∀ c ∈ cs, ∀ g, Needs w.params c g → SameGen w w' g) :
    (run s upd plain w cs).1 = (run s upd plain w' cs).1 ∧ SameObjects (run s upd plain w cs).2 (run s upd plain w' cs).2 ∧
      ∀ g, SameGen w w' g → SameGen (run s upd plain w cs).2 (run s upd plain w' cs).2 g := by
  induction cs generalizing w w' with
  | nil => exact ⟨rfl, ho, fun _ h => h⟩
  | cons c cs ih =>
    obtain ⟨h1, h2, h3⟩ := call_same s upd plain w w' c ho (hg c (by simp))
    obtain ⟨i1, i2, i3⟩ := ih _ _ h2 (fun d hd g hn => h3 g (hg d (by simp [hd]) g ((Needs.congr (call_params s upd plain w c) d g).mp hn)))
    exact ⟨by simp only [run, h1, i1], i2, fun g h => i3 g (h3 g h)⟩

/-- C158. A history leaves every generator that none of its calls needs as it was: what the caller draws from it afterwards does not depend on the history. In particular indices or
weights given, the whole sample, data without noise or without shuffling, refused proportions and steps without Stiefel parameters can be added anywhere. -/
theorem C158_untouched (s : Src T P N α) (upd : Bool → α → α) (plain : α → α) (cs : List (Call α)) (w : World T P N α) (g : Gen)
    (hn : ∀ c ∈ cs, ¬ Needs w.params c g) : SameGen (run s upd plain w cs).2 w g := by
  induction cs generalizing w with
  | nil => cases g <;> rfl
  | cons c cs ih =>
    have h1 := call_untouched s upd plain w c g (hn c (by simp))
    have h2 := ih (call s upd plain w c).2 (fun d hd h => hn d (by simp [hd]) ((Needs.congr (call_params s upd plain w c) d g).mp h))
    cases g
    · exact h2.trans h1
    · exact h2.trans h1
    · exact h2.trans h1

/-- C158. One permutation is drawn for a whole module, however many parts it has: the next draw does not depend on them. -/
theorem C158_one_draw (s : Src T P N α) (upd : Bool → α → α) (plain : α → α) (w : World T P N α) (n : Nat) (p : ℚ)
    (hn : w.tree.st.numTotal = some n) (h0 : 0 < p) (h1 : p ≤ 1) :
    (call s upd plain w (.stochastic none (some p))).2.torch = (s.randperm n w.torch).2 ∧
      (call s upd plain w (.stochastic none (some p))).2.tree.st.idx = some ((s.randperm n w.torch).1.take (pyRound (n * p)).toNat) := by
  obtain ⟨t, q, m, tree, dims, sample, di, dou, wt, ps⟩ := w
  obtain ⟨b, st, ch⟩ := tree
  simp only [STree.st] at hn
  constructor
  · simp only [call, STree.st, hn, h0, h1, and_self, if_true]
  · simp only [call, STree.st, hn, h0, h1, and_self, if_true, STree.stochastic, not_true, if_false, takeInt]

/-- C158, expected and not true: that seeding torch makes a training and a split reproducible. Shuffled splits draw from Python's generator: with two of its states that shuffle differently,
the same call with the same objects and the same torch and numpy generators gives other sets. -/
theorem C158_split_violated (s : Src T P N α) (upd : Bool → α → α) (plain : α → α) (w : World T P N α) (p' : P) (n : Nat)
    (hlen : ∀ l q, (s.shuffle l q).1.length = l.length)
    (hd : (s.shuffle (List.range n) w.py).1 ≠ (s.shuffle (List.range n) p').1) :
    let w' := { w with py := p' }
    SameObjects w w' ∧ SameGen w w' .torch ∧ SameGen w w' .np ∧
      (run s upd plain w [.indices true [n] n]).1 ≠ (run s upd plain w' [.indices true [n] n]).1 := by
  refine ⟨⟨rfl, rfl, rfl, rfl, rfl, rfl, rfl⟩, rfl, rfl, ?_⟩
  intro h
  apply hd
  have e : ∀ q, (s.shuffle (List.range n) q).1.take n = (s.shuffle (List.range n) q).1 := fun q => by
    apply List.take_of_length_le
    simp [hlen]
  simpa [run, call, cut, e] using h

/-- C158, expected and not true: the same of a step of the optimisers that keep matrices on the Stiefel manifold, which decide with Python's generator whether to retract first: wherever the retraction
makes a difference, so does the state of that generator. -/
theorem C158_step_violated (s : Src T P N α) (upd : Bool → α → α) (plain : α → α) (w : World T P N α) (p' : P) (q : Par α)
    (hq : w.params = [q]) (hm : Moves w.params) (h1 : (s.randint w.py).1 = 1) (h2 : (s.randint p').1 ≠ 1) (hd : upd true q.val ≠ upd false q.val) :
    let w' := { w with py := p' }
    SameObjects w w' ∧ SameGen w w' .torch ∧ SameGen w w' .np ∧ (run s upd plain w [.step]).1 ≠ (run s upd plain w' [.step]).1 := by
  refine ⟨⟨rfl, rfl, rfl, rfl, rfl, rfl, rfl⟩, rfl, rfl, ?_⟩
  intro h
  apply hd
  rw [hq, Moves.cons_iff] at hm
  obtain ⟨a, b, c⟩ : q.grad = true ∧ q.stiefel = true ∧ q.rows ≤ q.cols := hm.resolve_right (by simp [Moves])
  have h3 : ((s.randint p').1 == 1) = false := by simpa using h2
  simpa [run, call, hq, stepParams, a, b, c, h1, h3] using h

/-- C158, expected and not true: the same of the data set of two Gaussians, which comes from numpy's generator. -/
theorem C158_gaussians_violated (s : Src T P N α) (upd : Bool → α → α) (plain : α → α) (w : World T P N α) (n' : N) (num : Nat)
    (hlen : ∀ k q, (s.normal k q).1.length = k)
    (hd : (s.normal ((num + 1) / 2 * 2) w.np).1 ≠ (s.normal ((num + 1) / 2 * 2) n').1) :
    let w' := { w with np := n' }
    SameObjects w w' ∧ SameGen w w' .torch ∧ SameGen w w' .py ∧
      (run s upd plain w [.gaussians num]).1 ≠ (run s upd plain w' [.gaussians num]).1 := by
  refine ⟨⟨rfl, rfl, rfl, rfl, rfl, rfl, rfl⟩, rfl, rfl, ?_⟩
  intro h
  apply hd
  simp only [run, call, List.cons.injEq, Except.ok.injEq, Prod.mk.injEq, and_true] at h
  exact (List.append_inj h (by rw [hlen, hlen])).1

/-- C158, expected and not true: that a call that raises draws nothing. `draw_k` of a PPCA level with a mean draws, then raises; what is drawn next is no longer the same. -/
theorem C158_raising_violated (s : Src T P N α) (upd : Bool → α → α) (plain : α → α) (w : World T P N α) (num m k : Nat)
    (hd : (s.randn (k * w.dimOutput) w.torch).1 ≠ (s.randn (k * w.dimOutput) (s.randn (num * m) w.torch).2).1) :
    (call s upd plain w (.drawK num m true true)).1 = .error .notImplemented ∧
      (run s upd plain w [.drawK num m true true, .latent k]).1[1]? ≠ (run s upd plain w [.latent k]).1[0]? := by
  refine ⟨rfl, ?_⟩
  intro h
  apply hd
  simpa [run, call, eq_comm] using h

/-- The generators give as many values as asked for. -/
structure Src.Sized (s : Src T P N α) : Prop where
  randn : ∀ n t, (s.randn n t).1.length = n
  orthogonal : ∀ n d t, (s.orthogonal n d t).1.length = n * d
  shuffle : ∀ l p, (s.shuffle l p).1.length = l.length
  normal : ∀ n t, (s.normal n t).1.length = n

theorem cut_lengths (l sizes : List Nat) (h : sizes.sum ≤ l.length) : (cut l sizes).map List.length = sizes := by
  induction sizes generalizing l with
  | nil => rfl
  | cons n ns ih =>
    simp only [List.sum_cons] at h
    have : ns.sum ≤ (l.drop n).length := by rw [List.length_drop]; omega
    simp only [cut, List.map_cons, ih _ this, List.length_take]
    congr 1
    omega

/-- How many numbers a call is to give, from the dimensions of the objects. -/
def amount (w : World T P N α) : Call α → Option Nat
  | .initSample (some (x, _, _)) => some x.length
  | .initSample none => some (match w.dims with | none => 0 | some (n, d) => n * d)
  | .numWeights (some n) => some (n * w.dimInput)
  | .setWeights v => some v.length
  | .moons num noise => some (if noise then 2 * num else 0)
  | .gaussians num => some (2 * (num + num % 2))
  | .latent num => some (num * w.dimOutput)
  | .drawK num m true false => some (num * m)
  | .drawK num _ false _ => some (num * w.dimOutput)
  | .drawK _ _ true true => none
  | .stochastic _ _ => some 0
  | .indices _ _ _ => some 0
  | .numWeights none => some 0
  | .step => some w.params.length

theorem stepParams_length (s : Src T P N α) (upd : Bool → α → α) (plain : α → α) (ps : List (Par α)) (p : P) :
    (stepParams s upd plain ps p).1.length = ps.length := by
  induction ps generalizing p with
  | nil => rfl
  | cons q qs ih =>
    unfold stepParams
    by_cases hg : q.grad = true
    · by_cases hs : (q.stiefel && decide (q.rows ≤ q.cols)) = true
      · simp [hg, hs, ih]
      · rw [if_pos hg, if_neg hs]; simp [ih]
    · rw [if_neg hg]; simp [ih]

theorem cut_flatten (l sizes : List Nat) : (cut l sizes).flatten = l.take sizes.sum := by
  induction sizes generalizing l with
  | nil => simp [cut]
  | cons n ns ih => simp only [cut, List.flatten_cons, ih, List.sum_cons, List.take_add]

theorem stepParams_draws (s : Src T P N α) (upd : Bool → α → α) (plain : α → α) (ps : List (Par α)) (p : P) :
    (stepParams s upd plain ps p).2 =
      (fun q => (s.randint q).2)^[ps.countP fun q => q.grad && q.stiefel && decide (q.rows ≤ q.cols)] p := by
  induction ps generalizing p with
  | nil => rfl
  | cons q qs ih =>
    unfold stepParams
    by_cases hg : q.grad = true
    · by_cases hs : (q.stiefel && decide (q.rows ≤ q.cols)) = true
      · have e : (q.grad && q.stiefel && decide (q.rows ≤ q.cols)) = true := by rw [Bool.and_assoc, hs, hg]; rfl
        rw [if_pos hg, if_pos hs, List.countP_cons_of_pos (by exact e), Function.iterate_succ_apply]
        exact ih _
      · have e : ¬ (q.grad && q.stiefel && decide (q.rows ≤ q.cols)) = true := by rw [Bool.and_assoc, hg, Bool.true_and]; exact hs
        rw [if_pos hg, if_neg hs, List.countP_cons_of_neg (by exact e)]
        exact ih _
    · have e : ¬ (q.grad && q.stiefel && decide (q.rows ≤ q.cols)) = true := by simp [hg]
      rw [if_neg hg, List.countP_cons_of_neg (by exact e)]
      exact ih _

/-- C158. A step costs one draw of Python's generator for each parameter that is moved on the Stiefel manifold, and no other; the Gaussians cost two of numpy's, and the next call draws from where
they end; the pieces of a split are consecutive, so that with a shuffled list without repetition no point is in two sets. -/
theorem C158_costs (s : Src T P N α) (upd : Bool → α → α) (plain : α → α) (w : World T P N α) :
    (call s upd plain w .step).2.py =
        (fun q => (s.randint q).2)^[w.params.countP fun q => q.grad && q.stiefel && decide (q.rows ≤ q.cols)] w.py ∧
      (∀ num, ∃ k, (call s upd plain w (.gaussians num)).2.np = (fun q => (s.normal k q).2)^[2] w.np) ∧
      (∀ n d, w.dims = some (n, d) → (call s upd plain w (.initSample none)).2.sample = (s.orthogonal n d w.torch).1) ∧
      ∀ sizes total, sizes.sum ≤ total → (s.shuffle (List.range total) w.py).1.Perm (List.range total) →
        ∃ i, (call s upd plain w (.indices true sizes total)).1 = .ok ([], i) ∧ i.flatten.Nodup ∧ (∀ j ∈ i.flatten, j < total) ∧
          (sizes.sum = total → ∀ j < total, j ∈ i.flatten) := by
  refine ⟨stepParams_draws s upd plain w.params w.py, fun num => ⟨(num + 1) / 2 * 2, rfl⟩, ?_, ?_⟩
  · intro n d h
    simp only [call, h]
  · intro sizes total hle hp
    refine ⟨_, rfl, ?_, ?_, ?_⟩
    · rw [cut_flatten]
      exact ((List.take_sublist _ _).nodup (hp.nodup_iff.mpr List.nodup_range))
    · intro j hj
      rw [cut_flatten] at hj
      exact List.mem_range.mp (hp.mem_iff.mp (List.mem_of_mem_take hj))
    · intro he j hj
      rw [cut_flatten, List.take_of_length_le (by rw [hp.length_eq]; simp [he])]
      exact hp.mem_iff.mpr (List.mem_range.mpr hj)

/-- C158. Whatever the generators give: a call gives as many numbers as its arguments and the dimensions of the objects ask for, unless it raises; a split has the sizes asked for. -/
theorem C158_amounts (s : Src T P N α) (hs : s.Sized) (upd : Bool → α → α) (plain : α → α) (w : World T P N α) (c : Call α) :
    (∀ v i, (call s upd plain w c).1 = .ok (v, i) → amount w c = some v.length) ∧
      ∀ sh sizes total, c = .indices sh sizes total → sizes.sum ≤ total →
        ∃ i, (call s upd plain w c).1 = .ok ([], i) ∧ i.map List.length = sizes := by
  refine ⟨fun v i h => ?_, ?_⟩
  · cases c with
    | initSample g =>
      cases g with
      | some x => simp only [call, Except.ok.injEq, Prod.mk.injEq] at h; simp [amount, h.1]
      | none =>
        unfold call at h
        cases hd : w.dims with
        | none => simp only [hd, Except.ok.injEq, Prod.mk.injEq] at h; simp [amount, hd, ← h.1]
        | some nd =>
          simp only [hd, Except.ok.injEq, Prod.mk.injEq] at h
          simp [amount, hd, ← h.1, hs.orthogonal]
    | numWeights x =>
      cases x with
      | none => simp only [call, Except.ok.injEq, Prod.mk.injEq] at h; simp [amount, ← h.1]
      | some n => simp only [call, Except.ok.injEq, Prod.mk.injEq] at h; simp [amount, ← h.1, hs.randn]
    | setWeights x => simp only [call, Except.ok.injEq, Prod.mk.injEq] at h; simp [amount, ← h.1]
    | stochastic idx prop =>
      simp only [call] at h
      revert h
      generalize STree.stochastic idx prop _ w.tree = r
      obtain ⟨o, t⟩ := r
      cases o with
      | error e => intro h; cases h
      | ok u =>
        intro h
        simp only [Except.map, Except.ok.injEq, Prod.mk.injEq] at h
        simp [amount, ← h.1]
    | moons n b =>
      cases b
      · simp only [call, Except.ok.injEq, Prod.mk.injEq, Bool.false_eq_true, if_false] at h; simp [amount, ← h.1]
      · simp only [call, Except.ok.injEq, Prod.mk.injEq, if_true] at h; simp [amount, ← h.1, hs.randn, Nat.mul_comm]
    | gaussians n =>
      simp only [call, Except.ok.injEq, Prod.mk.injEq] at h
      simp only [amount, ← h.1, List.length_append, hs.normal, Option.some.injEq]
      omega
    | indices b z n =>
      cases b <;> simp only [call, Except.ok.injEq, Prod.mk.injEq, if_true, Bool.false_eq_true, if_false] at h <;> simp [amount, ← h.1]
    | latent n => simp only [call, Except.ok.injEq, Prod.mk.injEq] at h; simp [amount, ← h.1, hs.randn]
    | drawK n m a b =>
      cases a <;> cases b <;> simp [call] at h <;> simp [amount, ← h.1, hs.randn]
    | step => simp only [call, Except.ok.injEq, Prod.mk.injEq] at h; simp [amount, ← h.1, stepParams_length]
  · rintro sh sizes total rfl hle
    cases sh
    · exact ⟨_, rfl, cut_lengths _ _ (by simpa using hle)⟩
    · exact ⟨_, rfl, cut_lengths _ _ (by rw [hs.shuffle]; simpa using hle)⟩

/-! ## Cases -/

/-- Generators that count their draws. -/
def toySrc : Src Nat Nat Nat Nat where
  randperm n t := (if t % 2 = 0 then List.range n else (List.range n).reverse, t + 1)
  randn n t := (List.replicate n t, t + 1)
  orthogonal n d t := (List.replicate (n * d) t, t + 1)
  shuffle l p := (if p % 2 = 0 then l else l.reverse, p + 1)
  randint p := (p % 101 + 1, p + 1)
  normal n t := (List.replicate n t, t + 1)

def toyWorld (t p n : Nat) : World Nat Nat Nat Nat where
  torch := t
  py := p
  np := n
  tree := .node true { numTotal := some 4, idx := none, cache := { level := .num 2, dict := [] } } []
  dims := some (4, 2)
  sample := []
  dimInput := 2
  dimOutput := 1
  weights := []
  params := [⟨true, true, 2, 3, 7⟩, ⟨true, true, 3, 2, 7⟩]

/-- Torch calls, whatever the other generators. -/
example : (run toySrc (fun b v => if b then v + 1 else v) id (toyWorld 5 0 0) [.initSample none, .stochastic none (some (1/2)), .latent 2, .moons 3 true]).1 =
    (run toySrc (fun b v => if b then v + 1 else v) id (toyWorld 5 8 9) [.initSample none, .stochastic none (some (1/2)), .latent 2, .moons 3 true]).1 :=
  (C158_again _ _ _ _ _ _ ⟨rfl, rfl, rfl, rfl, rfl, rfl, rfl⟩ (by
    intro c hc g hn
    simp only [List.mem_cons, List.not_mem_nil, or_false] at hc
    rcases hc with rfl | rfl | rfl | rfl <;> simp only [Needs] at hn
    · subst hn; rfl
    · rw [hn.1]; rfl
    · subst hn; rfl
    · rw [hn.1]; rfl)).1

/-- A split leaves torch's generator alone. -/
example : (run toySrc (fun _ v => v) id (toyWorld 5 0 0) [.indices true [2, 1] 3, .gaussians 3, .step]).2.torch = 5 :=
  C158_untouched toySrc _ _ _ (toyWorld 5 0 0) .torch (by
    intro c hc
    simp only [List.mem_cons, List.not_mem_nil, or_false] at hc
    rcases hc with rfl | rfl | rfl <;> simp [Needs])

example : (call toySrc (fun _ v => v) id (toyWorld 5 0 0) (.stochastic none (some (1/2)))).2.torch = 6 :=
  (C158_one_draw toySrc _ _ (toyWorld 5 0 0) 4 (1/2) rfl (by norm_num) (by norm_num)).1

/-- Of three points two and one. -/
example : ∃ i, (call toySrc (fun _ v => v) id (toyWorld 5 1 0) (.indices true [2, 1] 3)).1 = .ok ([], i) ∧ i.map List.length = [2, 1] :=
  (C158_amounts toySrc ⟨by simp [toySrc], by simp [toySrc], by intro l p; simp only [toySrc]; split <;> simp, by simp [toySrc]⟩ _ _ _ _).2 true [2, 1] 3 rfl (by decide)

/-- Of the two parameters of `toyWorld` one has more rows than columns: one draw; the split of three points into two and one has them all. -/
example : (call toySrc (fun _ v => v) id (toyWorld 5 1 0) .step).2.py = 2 := (C158_costs toySrc _ _ (toyWorld 5 1 0)).1
example := (C158_costs toySrc (fun _ v => v) id (toyWorld 5 1 0)).2.2.2 [2, 1] 3 (by decide) (List.reverse_perm _)

example := C158_split_violated toySrc (fun _ v => v) id (toyWorld 5 0 0) 1 3 (by intro l q; simp only [toySrc]; split <;> simp) (by decide)

example := C158_step_violated toySrc (fun b v => if b then v + 1 else v) id { toyWorld 5 0 0 with params := [⟨true, true, 2, 3, 7⟩] } 1 ⟨true, true, 2, 3, 7⟩ rfl
  ⟨⟨true, true, 2, 3, 7⟩, by simp, rfl, rfl, by decide⟩ rfl (by decide) (by decide)

example := C158_gaussians_violated toySrc (fun _ v => v) id (toyWorld 5 0 0) 1 3 (by intro k q; simp [toySrc]) (by decide)

example := C158_raising_violated toySrc (fun _ v => v) id (toyWorld 5 0 0) 1 1 1 (by decide)

end Kerch.Repro
