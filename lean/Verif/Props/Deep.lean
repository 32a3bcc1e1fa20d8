import Verif.Model.Deep
import Mathlib.Data.List.Nodup
import Mathlib.Tactic.Common
/-!
# C102: in training mode each level works on what the previous one gives for the selected points
-/
set_option linter.unusedSectionVars false
set_option linter.unusedSimpArgs false
namespace Kerch
namespace Deep

variable {X P : Type}

/-! ## Specification -/

/-- A level with `n` points and parameters, which gives one output per point. -/
structure Ready (n : Nat) (l : Lev X P) : Prop where
  pos : 0 < n
  len : l.sample.length = n
  num : l.numTotal = some n
  par : ∃ p, l.par = some p
  rows : ∀ p i c x, (l.out p i c x).length = x.length

/-- A selection among `n` points. -/
structure Selection (n : Nat) (idx : List Nat) : Prop where
  nodup : idx.Nodup
  range : ∀ i ∈ idx, i < n

/-- `l'` is `l` with the rows `x` at the positions `idx` of the sample, up to the parameters. -/
structure Received (idx : List Nat) (l : Lev X P) (x : List X) (l' : Lev X P) : Prop where
  new : ∀ a i : Nat, idx[a]? = some i → l'.sample[i]? = x[a]?
  old : ∀ j : Nat, j ∉ idx → l'.sample[j]? = l.sample[j]?
  len : l'.sample.length = l.sample.length
  rest : l'.numTotal = l.numTotal ∧ l'.idx = l.idx ∧ l'.trainable = l.trainable ∧ l'.out = l.out ∧ l'.fit = l.fit ∧ l'.start = l.start

/-- The parameters a level works with: those it has (soft constraint) or those fitted to what it receives (hard constraint). -/
def used (idx : List Nat) (l : Lev X P) (x : List X) (p : P) : P := if l.trainable then p else l.fit idx x p

/-- What a training pass is to do: each level receives the output of the previous one, and gives its own to the next one. -/
def Ran (idx : List Nat) : List (Lev X P) → List X → List (Lev X P) → List X → Prop
  | [], x, ls', y => ls' = [] ∧ y = x
  | _ :: _, _, [], _ => False
  | l :: t, x, l' :: t', y => Received idx l x l' ∧ ∃ p, l.par = some p ∧ l'.par = some (used idx l x p) ∧
      Ran idx t (l.out (used idx l x p) idx x x) t' y

/-- The sample of each level is what the previous level gives for its own sample, at the points satisfying `D`; `g p` is what a level with parameters `p` does
with one point. -/
def Chain (g : P → X → X) (D : Nat → Prop) : List (Lev X P) → Prop
  | a :: b :: t => (∃ p, a.par = some p ∧ ∀ j, D j → b.sample[j]? = (a.sample[j]?).map (g p)) ∧ Chain g D (b :: t)
  | _ => True

/-- A level computing its output point by point (a level in primal representation). -/
def Pointwise (g : P → X → X) (l : Lev X P) : Prop := ∀ p i c x, l.out p i c x = x.map (g p)

/-! ## Helper lemmas -/

theorem length_write (x : List X) : ∀ (idx : List Nat) (s : List X), (write s idx x).length = s.length := by
  induction x with
  | nil => intro idx s; cases idx <;> rfl
  | cons v x ih =>
    intro idx s
    cases idx with
    | nil => rfl
    | cons i idx => simp [write, ih]

theorem write_old (x : List X) : ∀ (idx : List Nat) (s : List X) (j : Nat), j ∉ idx → (write s idx x)[j]? = s[j]? := by
  induction x with
  | nil => intro idx s j _; cases idx <;> rfl
  | cons v x ih =>
    intro idx s j hj
    cases idx with
    | nil => rfl
    | cons i idx =>
      simp only [List.mem_cons, not_or] at hj
      rw [write, ih idx _ j hj.2, List.getElem?_set_ne (Ne.symm hj.1)]

theorem write_new (x : List X) : ∀ (idx : List Nat) (s : List X) (_ : idx.Nodup) (_ : ∀ i ∈ idx, i < s.length) (_ : idx.length = x.length) (a i : Nat),
    idx[a]? = some i → (write s idx x)[i]? = x[a]? := by
  induction x with
  | nil =>
    intro idx s _ _ hl a i h
    cases idx with
    | nil => simp at h
    | cons => simp at hl
  | cons v x ih =>
    intro idx s hn hr hl a i h
    cases idx with
    | nil => simp at hl
    | cons k idx =>
      rw [List.nodup_cons] at hn
      rw [write]
      cases a with
      | zero =>
        simp only [List.getElem?_cons_zero, Option.some.injEq] at h
        subst h
        rw [write_old x idx _ _ hn.1]
        simp [hr k (by simp)]
      | succ a =>
        simp only [List.getElem?_cons_succ] at h ⊢
        exact ih idx (s.set k v) hn.2 (fun i hi => by simpa using hr i (by simp [hi])) (by simpa using hl) a i h

theorem mapM_some (f : Nat → Option X) : ∀ (idx : List Nat) (x : List X), idx.length = x.length →
    (∀ a i : Nat, idx[a]? = some i → f i = x[a]?) → idx.mapM f = some x := by
  intro idx
  induction idx with
  | nil => intro x hl _; cases x with
    | nil => rfl
    | cons => simp at hl
  | cons i idx ih =>
    intro x hl h
    cases x with
    | nil => simp at hl
    | cons v x =>
      have h0 := h 0 i rfl
      have h1 := ih x (by simpa using hl) fun a j hj => h (a + 1) j (by simpa using hj)
      simp only [List.getElem?_cons_zero] at h0
      rw [List.mapM_cons, h0, h1]
      rfl

theorem select_of (s : List X) (idx : List Nat) (x : List X) (hl : idx.length = x.length) (h : ∀ a i : Nat, idx[a]? = some i → s[i]? = x[a]?) :
    select s idx = .ok x := by
  unfold select
  rw [mapM_some (fun i => s[i]?) idx x hl h]

theorem exists_rows (s : List X) : ∀ idx : List Nat, (∀ i ∈ idx, i < s.length) →
    ∃ x : List X, idx.length = x.length ∧ ∀ a i : Nat, idx[a]? = some i → s[i]? = x[a]? := by
  intro idx
  induction idx with
  | nil => intro _; exact ⟨[], rfl, fun a i h => by simp at h⟩
  | cons i idx ih =>
    intro hr
    obtain ⟨x, h1, h2⟩ := ih fun j hj => hr j (by simp [hj])
    have hi := hr i (by simp)
    refine ⟨s[i] :: x, by simp [h1], fun a j hj => ?_⟩
    cases a with
    | zero =>
      simp only [List.getElem?_cons_zero, Option.some.injEq] at hj
      subst hj
      simp [hi]
    | succ a =>
      simp only [List.getElem?_cons_succ] at hj ⊢
      exact h2 a j hj

/-- The second half of the body of the loop, on a level whose selected rows are `x`. -/
theorem solve_call (n : Nat) (idx : List Nat) (l : Lev X P) (hr : Ready n l) (hi : l.idx = idx) (x : List X) (hl : idx.length = x.length)
    (hx : ∀ a i : Nat, idx[a]? = some i → l.sample[i]? = x[a]?) (p : P) (hp : l.par = some p) :
    ∃ l', l.solveIfHard = .ok l' ∧ l' = { l with par := some (used idx l x p) } ∧ l'.call none = .ok (l.out (used idx l x p) idx x x) := by
  have hne : l.sample.isEmpty = false := by
    have := hr.pos
    have := hr.len
    cases hs : l.sample with
    | nil => simp [hs] at this; omega
    | cons => rfl
  have hsel := select_of l.sample idx x hl hx
  have hc : l.cur = .ok x := by simp [Lev.cur, hne, hi, hsel]
  have hc' : ∀ q, ({ l with par := q } : Lev X P).cur = .ok x := fun q => hc
  refine ⟨{ l with par := some (used idx l x p) }, ?_, rfl, ?_⟩
  · unfold Lev.solveIfHard used
    by_cases ht : l.trainable = true
    · rw [if_pos ht, if_pos ht, ← hp]
    · simp [ht, hc, hp, hi]
  · unfold Lev.call
    rw [hc']
    simp [hi, bind, Except.bind]

theorem train_some (n : Nat) (idx : List Nat) (hs : Selection n idx) (l : Lev X P) (hr : Ready n l) (hi : l.idx = idx) (x : List X)
    (hl : idx.length = x.length) (p : P) (hp : l.par = some p) :
    ∃ l', l.train idx (some x) = (.ok (l.out (used idx l x p) idx x x), l') ∧ Received idx l x l' ∧ l'.par = some (used idx l x p) := by
  have hne : l.sample.isEmpty = false := by
    have := hr.pos
    have := hr.len
    cases hs : l.sample with
    | nil => simp [hs] at this; omega
    | cons => rfl
  have hany : (idx.any fun i => decide (l.sample.length ≤ i)) = false := by
    rw [List.any_eq_false]
    intro i hi
    have := hs.range i hi
    have := hr.len
    simp; omega
  have hrange : ∀ i ∈ idx, i < l.sample.length := fun i h => hr.len.symm ▸ hs.range i h
  have hu : l.update x idx = (.ok (), { l with sample := write l.sample idx x }) := by
    unfold Lev.update
    rw [if_neg (by simp [hne]), if_neg (by simp [hl]), if_neg (by simp [hany])]
  have hw := write_new x idx l.sample hs.nodup hrange hl
  have hr' : Ready n ({ l with sample := write l.sample idx x } : Lev X P) :=
    ⟨hr.pos, by simpa [length_write] using hr.len, hr.num, hr.par, hr.rows⟩
  obtain ⟨l', h1, h2, h3⟩ := solve_call n idx _ hr' hi x hl hw p hp
  refine ⟨l', ?_, ?_, ?_⟩
  · simp only [Lev.train, hu, h1, h3]
    rfl
  · subst h2
    exact ⟨hw, write_old x idx l.sample, length_write x idx l.sample, rfl, rfl, rfl, rfl, rfl, rfl⟩
  · subst h2; rfl

theorem train_none (n : Nat) (idx : List Nat) (l : Lev X P) (hr : Ready n l) (hi : l.idx = idx) (x : List X)
    (hl : idx.length = x.length) (hx : ∀ a i : Nat, idx[a]? = some i → l.sample[i]? = x[a]?) (p : P) (hp : l.par = some p) :
    ∃ l', l.train idx none = (.ok (l.out (used idx l x p) idx x x), l') ∧ l' = { l with par := some (used idx l x p) } := by
  have hu : l.setIdx idx = l := by
    unfold Lev.setIdx
    rw [if_neg (by simp [hr.num]), ← hi]
  obtain ⟨l', h1, h2, h3⟩ := solve_call n idx l hr hi x hl hx p hp
  refine ⟨l', ?_, h2⟩
  simp only [Lev.train, hu, h1, h3]

theorem forward_some (n : Nat) (idx : List Nat) (hs : Selection n idx) : ∀ (ls : List (Lev X P)) (_ : ∀ l ∈ ls, Ready n l ∧ l.idx = idx) (x : List X)
    (_ : idx.length = x.length), ∃ ls' y, forwardTrain idx ls (some x) = (.ok (some y), ls') ∧ Ran idx ls x ls' y := by
  intro ls
  induction ls with
  | nil => intro _ x _; exact ⟨[], x, rfl, rfl, rfl⟩
  | cons l t ih =>
    intro h x hl
    obtain ⟨hr, hi⟩ := h l (by simp)
    obtain ⟨p, hp⟩ := hr.par
    obtain ⟨l', h1, h2, h3⟩ := train_some n idx hs l hr hi x hl p hp
    obtain ⟨t', y, h4, h5⟩ := ih (fun a ha => h a (by simp [ha])) (l.out (used idx l x p) idx x x) (by rw [hr.rows]; exact hl)
    exact ⟨l' :: t', y, by simp [forwardTrain, h1, h4], h2, p, hp, h3, h5⟩

/-! ## The training pass -/

/-- **C102**: in training mode, on any number of ready levels with a selection of points, the model called without argument returns; each level has received, at the
selected points and there only, the output of the previous one (the first one its own selected points), levels with hard constraint have been fitted to what they
received, and the result is the output of the last one. -/
theorem C102_forward (n : Nat) (idx : List Nat) (hs : Selection n idx) (l : Lev X P) (t : List (Lev X P)) (h : ∀ a ∈ l :: t, Ready n a ∧ a.idx = idx) :
    ∃ x ls' y, select l.sample idx = .ok x ∧ forwardTrain idx (l :: t) none = (.ok (some y), ls') ∧ Ran idx (l :: t) x ls' y ∧
      (ls'.head?.map fun a => a.sample) = some l.sample := by
  obtain ⟨hr, hi⟩ := h l (by simp)
  obtain ⟨p, hp⟩ := hr.par
  obtain ⟨x, hl, hx⟩ := exists_rows l.sample idx fun i hi => hr.len.symm ▸ hs.range i hi
  obtain ⟨l', h1, h2⟩ := train_none n idx l hr hi x hl hx p hp
  obtain ⟨t', y, h4, h5⟩ := forward_some n idx hs t (fun a ha => h a (by simp [ha])) (l.out (used idx l x p) idx x x) (by rw [hr.rows]; exact hl)
  refine ⟨x, l' :: t', y, select_of _ _ _ hl hx, by simp [forwardTrain, h1, h4], ⟨?_, p, hp, by rw [h2], h5⟩, by simp [h2]⟩
  subst h2
  exact ⟨hx, fun _ _ => rfl, rfl, rfl, rfl, rfl, rfl, rfl, rfl⟩

/-- **C102 is violated** by the call with an argument in training mode: the points given replace those of the training sample. -/
theorem C102_argument_violated (n : Nat) (idx : List Nat) (hs : Selection n idx) (l : Lev X P) (t : List (Lev X P))
    (h : ∀ a ∈ l :: t, Ready n a ∧ a.idx = idx) (x : List X) (hl : idx.length = x.length) :
    ∃ l' t' y, forwardTrain idx (l :: t) (some x) = (.ok (some y), l' :: t') ∧ ∀ a i : Nat, idx[a]? = some i → l'.sample[i]? = x[a]? := by
  obtain ⟨ls', y, h1, h2⟩ := forward_some n idx hs (l :: t) h x hl
  cases ls' with
  | nil => exact absurd h2 (by simp [Ran])
  | cons l' t' => exact ⟨l', t', y, h1, h2.1.new⟩

/-- **C102**, another number of points is refused in training mode, without effect. -/
theorem C102_length (n : Nat) (idx : List Nat) (l : Lev X P) (t : List (Lev X P)) (hr : Ready n l) (x : List X) (hl : idx.length ≠ x.length) :
    forwardTrain idx (l :: t) (some x) = (.error .assertionError, l :: t) := by
  have hne : l.sample.isEmpty = false := by
    have := hr.pos
    have := hr.len
    cases hs : l.sample with
    | nil => simp [hs] at this; omega
    | cons => rfl
  have hu : l.update x idx = (.error .assertionError, l) := by
    unfold Lev.update
    rw [if_neg (by simp [hne]), if_pos hl]
  simp [forwardTrain, Lev.train, hu]

/-! ## Epochs -/

theorem chain_new (g : P → X → X) (idx : List Nat) : ∀ (ls ls' : List (Lev X P)) (x y : List X), Ran idx ls x ls' y →
    (∀ l ∈ ls, Pointwise g l ∧ l.trainable = true) → Chain g (· ∈ idx) ls' := by
  intro ls
  induction ls with
  | nil => intro ls' x y h _; simp only [Ran] at h; rw [h.1]; trivial
  | cons l t ih =>
    intro ls' x y h hp
    cases ls' with
    | nil => exact absurd h (by simp [Ran])
    | cons l' t' =>
      obtain ⟨h1, p, h2, h3, h4⟩ := h
      have hc := ih t' _ y h4 fun a ha => hp a (by simp [ha])
      cases t' with
      | nil => trivial
      | cons b' t' =>
        cases t with
        | nil => exact absurd h4.1 (by simp)
        | cons b t =>
          refine ⟨⟨used idx l x p, h3, fun j hj => ?_⟩, hc⟩
          obtain ⟨a, ha, rfl⟩ := List.getElem_of_mem hj
          have e : idx[a]? = some idx[a] := by simp [ha]
          rw [h4.1.new a _ e, h1.new a _ e, (hp l (by simp)).1]
          simp

theorem chain_old (g : P → X → X) (idx : List Nat) (D : Nat → Prop) : ∀ (ls ls' : List (Lev X P)) (x y : List X), Ran idx ls x ls' y →
    (∀ l ∈ ls, l.trainable = true) → Chain g D ls → Chain g (fun j => D j ∧ j ∉ idx) ls' := by
  intro ls
  induction ls with
  | nil => intro ls' x y h _ _; simp only [Ran] at h; rw [h.1]; trivial
  | cons l t ih =>
    intro ls' x y h ht hc
    cases ls' with
    | nil => exact absurd h (by simp [Ran])
    | cons l' t' =>
      obtain ⟨h1, p, h2, h3, h4⟩ := h
      cases t' with
      | nil => trivial
      | cons b' t' =>
        cases t with
        | nil => exact absurd h4.1 (by simp)
        | cons b t =>
          refine ⟨⟨used idx l x p, h3, fun j hj => ?_⟩, ih _ _ y h4 (fun a ha => ht a (by simp [ha])) hc.2⟩
          obtain ⟨q, hq, hq'⟩ := hc.1
          have : q = p := by rw [h2] at hq; exact (Option.some.inj hq).symm
          subst this
          rw [h4.1.old j hj.2, h1.old j hj.2, hq' j hj.1]
          simp [used, ht l (by simp)]

theorem chain_or (g : P → X → X) (D E : Nat → Prop) : ∀ ls : List (Lev X P), Chain g D ls → Chain g E ls → Chain g (fun j => D j ∨ E j) ls
  | [], _, _ => trivial
  | [_], _, _ => trivial
  | a :: b :: t, h, k => by
    obtain ⟨⟨p, hp, h1⟩, h2⟩ := h
    obtain ⟨⟨q, hq, k1⟩, k2⟩ := k
    have : q = p := by rw [hp] at hq; exact (Option.some.inj hq).symm
    subst this
    exact ⟨⟨q, hp, fun j hj => hj.elim (h1 j) (k1 j)⟩, chain_or g D E (b :: t) h2 k2⟩

theorem chain_mono (g : P → X → X) (D E : Nat → Prop) (hDE : ∀ j, D j → E j) : ∀ ls : List (Lev X P), Chain g E ls → Chain g D ls
  | [], _ => trivial
  | [_], _ => trivial
  | a :: b :: t, h => ⟨h.1.imp fun _ hp => ⟨hp.1, fun j hj => hp.2 j (hDE j hj)⟩, chain_mono g D E hDE (b :: t) h.2⟩

theorem chain_setIdx (g : P → X → X) (D : Nat → Prop) (idx : List Nat) : ∀ ls : List (Lev X P), Chain g D ls → Chain g D (stochastic idx ls)
  | [], _ => trivial
  | [_], _ => trivial
  | a :: b :: t, h => by
    have e : ∀ l : Lev X P, (l.setIdx idx).par = l.par ∧ (l.setIdx idx).sample = l.sample := by
      intro l; unfold Lev.setIdx; split <;> exact ⟨rfl, rfl⟩
    refine ⟨?_, chain_setIdx g D idx (b :: t) h.2⟩
    obtain ⟨p, hp, h1⟩ := h.1
    exact ⟨p, by rw [(e a).1]; exact hp, fun j hj => by rw [(e a).2, (e b).2]; exact h1 j hj⟩

/-- What an epoch keeps. -/
def Good (g : P → X → X) (n : Nat) (l : Lev X P) : Prop := Ready n l ∧ Pointwise g l ∧ l.trainable = true

theorem good_ran (g : P → X → X) (n : Nat) (idx : List Nat) : ∀ (ls ls' : List (Lev X P)) (x y : List X), Ran idx ls x ls' y →
    (∀ l ∈ ls, Good g n l) → ∀ l ∈ ls', Good g n l := by
  intro ls
  induction ls with
  | nil => intro ls' x y h _; simp only [Ran] at h; rw [h.1]; simp
  | cons l t ih =>
    intro ls' x y h hg
    cases ls' with
    | nil => exact absurd h (by simp [Ran])
    | cons l' t' =>
      obtain ⟨h1, p, h2, h3, h4⟩ := h
      intro a ha
      rcases List.mem_cons.1 ha with rfl | ha
      · obtain ⟨hr, hp, ht⟩ := hg l (by simp)
        obtain ⟨e1, e2, e3, e4, e5, e6⟩ := h1.rest
        exact ⟨⟨hr.pos, h1.len.trans hr.len, e1.trans hr.num, ⟨_, h3⟩, e4 ▸ hr.rows⟩, by unfold Pointwise; rw [e4]; exact hp, e3.trans ht⟩
      · exact ih t' _ y h4 (fun b hb => hg b (by simp [hb])) a ha

theorem batch_step (g : P → X → X) (n : Nat) (D : Nat → Prop) (idx : List Nat) (hs : Selection n idx) (ls : List (Lev X P)) (hg : ∀ l ∈ ls, Good g n l)
    (hc : Chain g D ls) :
    (∀ l ∈ batch idx ls, Good g n l) ∧ Chain g (fun j => D j ∨ j ∈ idx) (batch idx ls) ∧ (batch idx ls).length = ls.length ∧
      ((batch idx ls).head?.map fun a => a.sample) = ls.head?.map fun a => a.sample := by
  cases ls with
  | nil => exact ⟨by simp [batch, stochastic, forwardTrain], by simp [batch, stochastic, forwardTrain, Chain], rfl, rfl⟩
  | cons l t =>
    have e : ∀ a ∈ l :: t, Good g n (a.setIdx idx) ∧ (a.setIdx idx).idx = idx := by
      intro a ha
      obtain ⟨hr, hp, ht⟩ := hg a ha
      have : a.setIdx idx = { a with idx := idx } := by
        unfold Lev.setIdx; rw [if_neg (by simp [hr.num])]
      rw [this]
      exact ⟨⟨⟨hr.pos, hr.len, hr.num, hr.par, hr.rows⟩, hp, ht⟩, rfl⟩
    have e' : ∀ a ∈ stochastic idx (l :: t), Good g n a ∧ a.idx = idx := by
      intro a ha
      obtain ⟨b, hb, rfl⟩ := List.mem_map.1 ha
      exact e b hb
    obtain ⟨x, ls', y, h1, h2, h3, h4⟩ := C102_forward n idx hs (l.setIdx idx) (stochastic idx t) (fun a ha => ⟨(e' a ha).1.1, (e' a ha).2⟩)
    have hb : batch idx (l :: t) = ls' := by
      unfold batch
      rw [show stochastic idx (l :: t) = l.setIdx idx :: stochastic idx t from rfl, h2]
    have hlen : ∀ (us us' : List (Lev X P)) (x y : List X), Ran idx us x us' y → us'.length = us.length := by
      intro us
      induction us with
      | nil => intro us' x y h; simp only [Ran] at h; rw [h.1]
      | cons u t ih =>
        intro us' x y h
        cases us' with
        | nil => exact absurd h (by simp [Ran])
        | cons u' t' =>
          obtain ⟨_, p, _, _, h4⟩ := h
          simp [ih t' _ y h4]
    rw [hb]
    refine ⟨good_ran g n idx _ ls' x y h3 fun a ha => (e' a ha).1, ?_, ?_, ?_⟩
    · have c1 := chain_new g idx _ ls' x y h3 fun a ha => (e' a ha).1.2
      have c2 := chain_old g idx D _ ls' x y h3 (fun a ha => (e' a ha).1.2.2) (chain_setIdx g D idx (l :: t) hc)
      refine chain_mono g _ _ ?_ ls' (chain_or g _ _ ls' c1 c2)
      intro j hj
      by_cases hm : j ∈ idx
      · exact .inl hm
      · exact .inr ⟨hj.resolve_right hm, hm⟩
    · rw [hlen _ ls' x y h3]; simp [stochastic]
    · rw [h4]
      unfold Lev.setIdx
      split <;> rfl

/-- **C102**, epochs: when the levels work point by point and their parameters do not change, after batches which together contain all points, in any order and of any sizes, the
sample of each level is what the previous one gives on its whole sample, that of the first one being unchanged. Missing: parameters that change from batch to batch
and levels whose output depends on the batch, see below. -/
theorem C102_epoch_partial (g : P → X → X) (n : Nat) (batches : List (List Nat)) (hs : ∀ b ∈ batches, Selection n b) (hcov : ∀ j < n, ∃ b ∈ batches, j ∈ b)
    (ls : List (Lev X P)) (hg : ∀ l ∈ ls, Good g n l) :
    Chain g (· < n) (batches.foldl (fun ls b => batch b ls) ls) ∧ (batches.foldl (fun ls b => batch b ls) ls).length = ls.length ∧
      ((batches.foldl (fun ls b => batch b ls) ls).head?.map fun a => a.sample) = ls.head?.map fun a => a.sample := by
  have key : ∀ (bs : List (List Nat)) (_ : ∀ b ∈ bs, Selection n b) (D : Nat → Prop) (ls : List (Lev X P)) (_ : ∀ l ∈ ls, Good g n l) (_ : Chain g D ls),
      Chain g (fun j => D j ∨ ∃ b ∈ bs, j ∈ b) (bs.foldl (fun ls b => batch b ls) ls) ∧ (bs.foldl (fun ls b => batch b ls) ls).length = ls.length ∧
        ((bs.foldl (fun ls b => batch b ls) ls).head?.map fun a => a.sample) = ls.head?.map fun a => a.sample := by
    intro bs
    induction bs with
    | nil => intro _ D ls _ hc; exact ⟨chain_mono g _ _ (by simp) _ hc, rfl, rfl⟩
    | cons b bs ih =>
      intro hs D ls hg hc
      obtain ⟨h1, h2, h3, h4⟩ := batch_step g n D b (hs b (by simp)) ls hg hc
      obtain ⟨k1, k2, k3⟩ := ih (fun c hc => hs c (by simp [hc])) _ (batch b ls) h1 h2
      refine ⟨chain_mono g _ _ ?_ _ k1, k2.trans h3, k3.trans h4⟩
      rintro j (hj | ⟨c, hc, hj⟩)
      · exact .inl (.inl hj)
      · rcases List.mem_cons.1 hc with rfl | hc
        · exact .inl (.inr hj)
        · exact .inr ⟨c, hc, hj⟩
  have c0 : ∀ ls : List (Lev X P), (∀ l ∈ ls, Good g n l) → Chain g (fun _ => False) ls := by
    intro ls
    induction ls with
    | nil => intro _; trivial
    | cons a t ih =>
      intro h
      cases t with
      | nil => trivial
      | cons b t =>
        obtain ⟨p, hp⟩ := (h a (by simp)).1.par
        exact ⟨⟨p, hp, fun _ h => h.elim⟩, ih fun l hl => h l (by simp [hl])⟩
  obtain ⟨h1, h2, h3⟩ := key batches hs (fun _ => False) ls hg (c0 ls hg)
  exact ⟨chain_mono g _ _ (fun j hj => .inr (hcov j hj)) _ h1, h2, h3⟩

/-- Two levels adding their parameter. -/
def two (a b : Int) (s t : List Int) : List (Lev Int Int) :=
  [⟨s, some s.length, List.range s.length, some a, true, fun p _ _ x => x.map (p + ·), fun _ _ p => p, fun _ => 0⟩,
   ⟨t, some t.length, List.range t.length, some b, true, fun p _ _ x => x.map (p + ·), fun _ _ p => p, fun _ => 0⟩]

/-- **C102 is violated** once parameters change: the sample of the second level is that of the former parameters of the first one, also when the model is then put to
use. -/
theorem C102_stale_violated : ∃ ls ls' : List (Lev Int Int), ls = batch [0, 1] (two 1 0 [5, 6] [0, 0]) ∧
    ls' = ls.modify 0 (fun l => { l with par := some 2 }) ∧ Chain (· + ·) (· < 2) ls ∧ ¬ Chain (· + ·) (· < 2) ls' := by
  refine ⟨_, _, rfl, rfl, ?_, ?_⟩
  · refine ⟨⟨1, rfl, fun j hj => ?_⟩, trivial⟩
    have : j = 0 ∨ j = 1 := by omega
    rcases this with rfl | rfl <;> rfl
  · rintro ⟨⟨p, hp, h⟩, _⟩
    have hp' : p = 2 := (Option.some.inj hp).symm
    subst hp'
    have := h 0 (by omega)
    revert this
    decide

/-- Two levels, the first one giving the sum of the selected points (a level in dual representation combines them likewise). -/
def twoDual (s t : List Int) : List (Lev Int Int) :=
  [⟨s, some s.length, List.range s.length, some 0, true, fun _ _ c x => x.map fun _ => c.sum, fun _ _ p => p, fun _ => 0⟩,
   ⟨t, some t.length, List.range t.length, some 0, true, fun p _ _ x => x.map (p + ·), fun _ _ p => p, fun _ => 0⟩]

/-- **C102 is violated** by levels whose output depends on the batch: the sample of the next level depends on how the points were put into batches. -/
theorem C102_batches_violated :
    ((batch [1] (batch [0] (twoDual [5, 6] [0, 0]))).map fun l => l.sample) = [[5, 6], [5, 6]] ∧
    ((batch [0, 1] (twoDual [5, 6] [0, 0])).map fun l => l.sample) = [[5, 6], [11, 11]] := by decide

/-! ## Initialisation -/

/-- A new level: no sample, no parameters. -/
def Fresh (l : Lev X P) : Prop := l.sample = [] ∧ l.numTotal = none ∧ l.par = none ∧ ∀ p i c x, (l.out p i c x).length = x.length

theorem initRandomAll_fresh (rand : Nat → List X) (n : Nat) (hn : 0 < n) (hrand : (rand n).length = n) : ∀ ls : List (Lev X P), (∀ l ∈ ls, Fresh l) →
    (initRandomAll rand n ls).1 = .ok () ∧ (initRandomAll rand n ls).2.length = ls.length ∧
      ∀ l ∈ (initRandomAll rand n ls).2, Ready n l ∧ l.idx = List.range n := by
  intro ls
  induction ls with
  | nil => intro _; simp [initRandomAll]
  | cons l t ih =>
    intro h
    obtain ⟨h1, h2, h3, h4⟩ := h l (by simp)
    obtain ⟨k1, k2, k3⟩ := ih fun a ha => h a (by simp [ha])
    have e : l.initRandom rand n = .ok { l with sample := rand n, numTotal := some n, idx := List.range n, par := some (l.start n) } := by
      simp [Lev.initRandom, h2, Lev.initPar, h3]
    simp only [initRandomAll, e, List.length_cons, k1, k2, true_and]
    intro a ha
    rcases List.mem_cons.1 ha with rfl | ha
    · exact ⟨⟨hn, hrand, rfl, ⟨_, rfl⟩, h4⟩, rfl⟩
    · exact k3 a ha

/-- **C102**, initialisation: what `fit` does first makes every level of a new model ready, for any number of levels and points. Missing: models that have been
fitted before, see `C102_refit_violated`. -/
theorem C102_init_partial (rand : Nat → List X) (data : List X) (hd : data ≠ []) (hrand : ∀ n, (rand n).length = n) (l : Lev X P) (t : List (Lev X P))
    (h : ∀ a ∈ l :: t, Fresh a) :
    (initFit rand data (l :: t)).1 = .ok () ∧ (∀ a ∈ (initFit rand data (l :: t)).2, Ready data.length a ∧ a.idx = List.range data.length) ∧
      (initFit rand data (l :: t)).2.length = t.length + 1 ∧ ((initFit rand data (l :: t)).2.head?.map fun a => a.sample) = some data := by
  have hpos : 0 < data.length := List.length_pos_iff.2 hd
  obtain ⟨h1, h2, h3, h4⟩ := h l (by simp)
  have ht : ∀ a ∈ t, a.setIdx (List.range data.length) = a := by
    intro a ha
    simp [Lev.setIdx, (h a (by simp [ha])).2.1]
  have hst : stochastic (List.range data.length) t = t := by
    unfold stochastic
    exact (List.map_congr_left ht).trans (List.map_id t)
  have hl : (l.initSample data).setIdx (List.range data.length) = l.initSample data := by
    simp [Lev.setIdx, Lev.initSample]
  have e1 : initSample data (l :: t) = (.ok (), l.initSample data :: t) := by
    simp only [initSample]
    rw [show stochastic (List.range data.length) (l.initSample data :: t) =
      (l.initSample data).setIdx (List.range data.length) :: stochastic (List.range data.length) t from rfl, hst, hl]
  have e2 : (l.initSample data).initPar = .ok { l.initSample data with par := some (l.start data.length) } := by
    simp [Lev.initPar, Lev.initSample, h3]
  have hready : Ready data.length ({ l.initSample data with par := some (l.start data.length) } : Lev X P) :=
    ⟨hpos, rfl, rfl, ⟨_, rfl⟩, h4⟩
  have hemp : data.isEmpty = false := by cases data with
    | nil => exact absurd rfl hd
    | cons => rfl
  cases t with
  | nil =>
    have e3 : initFit rand data [l] = (.ok (), [{ l.initSample data with par := some (l.start data.length) }]) := by
      simp [initFit, e1, initLevels, e2]
    rw [e3]
    exact ⟨rfl, fun a ha => by rw [List.mem_singleton.1 ha]; exact ⟨hready, rfl⟩, rfl, rfl⟩
  | cons b t =>
    obtain ⟨k1, k2, k3⟩ := initRandomAll_fresh rand data.length hpos (hrand _) (b :: t) fun a ha => h a (by simp [ha])
    have e3 : initFit rand data (l :: b :: t) =
        ((initRandomAll rand data.length (b :: t)).1, { l.initSample data with par := some (l.start data.length) } :: (initRandomAll rand data.length (b :: t)).2) := by
      simp only [initFit, e1, initLevels, e2]
      simp [Lev.initSample, hemp]
    rw [e3]
    refine ⟨k1, ?_, by simp [k2], rfl⟩
    intro a ha
    rcases List.mem_cons.1 ha with rfl | ha
    · exact ⟨hready, rfl⟩
    · exact k3 a ha

/-- **C102 is violated** by a second fit: a model with at least two levels whose second one already has a sample cannot be fitted (again), whatever the data. -/
theorem C102_refit_violated (rand : Nat → List X) (data : List X) (hd : data ≠ []) (l b : Lev X P) (t : List (Lev X P)) (hb : b.numTotal ≠ none) :
    (initFit rand data (l :: b :: t)).1 = .error .assertionError := by
  have hemp : data.isEmpty = false := by cases data with
    | nil => exact absurd rfl hd
    | cons => rfl
  have hb' : (b.setIdx (List.range data.length)).numTotal ≠ none := by
    unfold Lev.setIdx; rw [if_neg hb]; exact hb
  have hl : (l.initSample data).setIdx (List.range data.length) = l.initSample data := by
    simp [Lev.setIdx, Lev.initSample]
  have e1 : initSample data (l :: b :: t) = (.ok (), l.initSample data :: b.setIdx (List.range data.length) :: stochastic (List.range data.length) t) := by
    simp only [initSample]
    rw [show stochastic (List.range data.length) (l.initSample data :: b :: t) = (l.initSample data).setIdx (List.range data.length) ::
      b.setIdx (List.range data.length) :: stochastic (List.range data.length) t from rfl, hl]
  obtain ⟨p, hp⟩ : ∃ p, (l.initSample data).initPar = .ok { l.initSample data with par := some p } := by
    cases h : l.par with
    | none => exact ⟨l.start data.length, by simp [Lev.initPar, Lev.initSample, h]⟩
    | some p => exact ⟨p, by simp [Lev.initPar, Lev.initSample, h]⟩
  have hr : (b.setIdx (List.range data.length)).initRandom rand data.length = .error .assertionError := by
    simp [Lev.initRandom, hb']
  simp only [initFit, e1, initLevels, hp]
  simp [Lev.initSample, hemp, initRandomAll, hr]

theorem select_all (s : List X) : select s (List.range s.length) = .ok s :=
  select_of s _ s (by simp) fun a i h => by
    by_cases ha : a < s.length
    · have : i = a := by simpa [ha] using h.symm
      rw [this]
    · rw [List.getElem?_eq_none (by simp; omega)] at h
      exact absurd h (by simp)

theorem initPar_ok (l : Lev X P) (n : Nat) (hn : l.numTotal = some n) : ∃ p, l.initPar = .ok { l with par := some p } := by
  cases h : l.par with
  | none => exact ⟨l.start n, by simp [Lev.initPar, h, hn]⟩
  | some p => exact ⟨p, by simp only [Lev.initPar, h]; rw [← h]⟩

theorem initFullAll_ok (g : P → X → X) : ∀ (t : List (Lev X P)) (_ : ∀ a ∈ t, Pointwise g a) (x : List X) (_ : x ≠ []) (l : Lev X P) (p : P)
    (_ : l.par = some p) (_ : x = l.sample.map (g p)),
    (initFullAll t x).1 = .ok () ∧ Chain g (fun _ => True) (l :: (initFullAll t x).2) ∧ (initFullAll t x).2.length = t.length ∧
      ∀ a ∈ (initFullAll t x).2, Ready x.length a := by
  intro t
  induction t with
  | nil => intro _ x _ l p _ _; exact ⟨rfl, trivial, rfl, by simp [initFullAll]⟩
  | cons b t ih =>
    intro h x hx l p hp hxl
    obtain ⟨q, hq⟩ := initPar_ok (b.initSample x) x.length rfl
    have hemp : x.isEmpty = false := by cases x with
      | nil => exact absurd rfl hx
      | cons => rfl
    have hc : ({ b.initSample x with par := some q } : Lev X P).call none = .ok (x.map (g q)) := by
      simp only [Lev.call, Lev.cur, Lev.initSample, hemp, select_all, bind, Except.bind, Option.getD_none]
      simp [h b (by simp) q]
    obtain ⟨k1, k2, k3, k4⟩ := ih (fun a ha => h a (by simp [ha])) (x.map (g q)) (by simpa using hx) { b.initSample x with par := some q } q rfl rfl
    have e : initFullAll (b :: t) x = ((initFullAll t (x.map (g q))).1, { b.initSample x with par := some q } :: (initFullAll t (x.map (g q))).2) := by
      simp only [initFullAll, hq, hc]
    rw [e]
    refine ⟨k1, ⟨⟨p, hp, fun j _ => ?_⟩, k2⟩, by simp [k3], ?_⟩
    · show x[j]? = _
      rw [hxl, List.getElem?_map]
    · intro a ha
      rcases List.mem_cons.1 ha with rfl | ha
      · exact ⟨List.length_pos_iff.2 hx, rfl, rfl, ⟨q, rfl⟩, fun p i c y => by
          show (b.out p i c y).length = _
          rw [h b (by simp) p]; simp⟩
      · simpa using k4 a ha

/-- **C102**, initialisation with a full pass: `init_levels(full=True)` on a model whose first level has a sample (all of which is selected) makes all levels ready, with
samples in agreement, whatever samples and parameters the deeper ones had, for levels working point by point. -/
theorem C102_full (g : P → X → X) (rand : Nat → List X) (l : Lev X P) (t : List (Lev X P)) (n : Nat) (hn : 0 < n) (hl : l.sample.length = n) (hnum : l.numTotal = some n)
    (hi : l.idx = List.range n) (hg : ∀ a ∈ l :: t, Pointwise g a) :
    (initLevels rand true (l :: t)).1 = .ok () ∧ (∀ a ∈ (initLevels rand true (l :: t)).2, Ready n a) ∧
      (initLevels rand true (l :: t)).2.length = t.length + 1 ∧ Chain g (fun _ => True) (initLevels rand true (l :: t)).2 ∧
      ((initLevels rand true (l :: t)).2.head?.map fun a => a.sample) = some l.sample := by
  obtain ⟨p, hp⟩ := initPar_ok l n hnum
  have hne : l.sample ≠ [] := by
    intro h; rw [h] at hl; simp at hl; omega
  have hemp : l.sample.isEmpty = false := by cases h : l.sample with
    | nil => exact absurd h hne
    | cons => rfl
  have hc : ({ l with par := some p } : Lev X P).call none = .ok (l.sample.map (g p)) := by
    simp only [Lev.call, Lev.cur, hemp, hi, ← hl, select_all, bind, Except.bind, Option.getD_none]
    simp [hg l (by simp) p]
  obtain ⟨k1, k2, k3, k4⟩ := initFullAll_ok g t (fun a ha => hg a (by simp [ha])) (l.sample.map (g p)) (by simpa using hne) { l with par := some p } p rfl rfl
  have e : initLevels rand true (l :: t) = ((initFullAll t (l.sample.map (g p))).1, { l with par := some p } :: (initFullAll t (l.sample.map (g p))).2) := by
    simp only [initLevels, hp, hc, if_true]
  rw [e]
  refine ⟨k1, ?_, by simp [k3], k2, rfl⟩
  intro a ha
  rcases List.mem_cons.1 ha with rfl | ha
  · exact ⟨hn, hl, hnum, ⟨p, rfl⟩, fun q i c y => by
      show (l.out q i c y).length = _
      rw [hg l (by simp) q]; simp⟩
  · have := k4 a ha
    rwa [List.length_map, hl] at this

/-! ## Concrete cases -/

example : forwardTrain [1, 0] (stochastic [1, 0] (two 1 10 [5, 6] [0, 0])) none =
    (.ok (some [17, 16]), (forwardTrain [1, 0] (stochastic [1, 0] (two 1 10 [5, 6] [0, 0])) none).2) := rfl

example : ∀ l ∈ two 1 10 [5, 6] [0, 0], Good (· + ·) 2 l := by
  intro l hl
  simp only [two, List.mem_cons, List.not_mem_nil, or_false] at hl
  rcases hl with rfl | rfl <;> exact ⟨⟨by decide, rfl, rfl, ⟨_, rfl⟩, by simp⟩, fun _ _ _ _ => rfl, rfl⟩

example : Selection 2 [1] ∧ Selection 2 [0] := ⟨⟨by simp, by simp⟩, ⟨by simp, by simp⟩⟩

example : ((initLevels (fun _ => []) true (two 1 10 [5, 6] [0, 0, 0])).2.map fun l => l.sample) = [[5, 6], [6, 7]] := by decide

example : (initFit (fun n => List.replicate n 0) [5, 6] (two 1 10 [5, 6] [0, 0])).1 = .error .assertionError := by decide

end Deep
end Kerch
