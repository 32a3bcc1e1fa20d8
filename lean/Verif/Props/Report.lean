import Verif.Model.Report
import Mathlib.Algebra.BigOperators.Fin
import Mathlib.Algebra.Order.BigOperators.Group.Finset
import Mathlib.Data.Real.Basic
import Mathlib.Tactic.Linarith
import Mathlib.Tactic.Ring
import Mathlib.Tactic.FieldSimp
import Mathlib.Tactic.Positivity
set_option linter.unusedSectionVars false
set_option linter.unusedSimpArgs false
/-!
# C143: what a training reports
-/
namespace Kerch
namespace Report

/-! ## Specification -/

/-- The sum of the squared differences of two tables. -/
def sumSq (n k : Nat) (a b : Nat → Nat → ℝ) : ℝ := ∑ i ∈ Finset.range n, ∑ j ∈ Finset.range k, (a i j - b i j) ^ 2

/-- `r` is the error to report for a set: none (zero) without points, otherwise the mean of the squared differences between labels and what the model predicts with these parameters and all sample points. -/
def IsError (E : Env P) (p : P) (d : Mat × Mat) (r : Option ℝ) : Prop :=
  (d.1.rows = 0 ∧ r = some 0) ∨
  (d.1.rows ≠ 0 ∧ ∃ out, E.predict p none d.1 = .ok out ∧ r = some (sumSq d.1.rows d.2.cols out.v d.2.v / (d.1.rows * d.2.cols)))

/-- The predictions have a row per point and a column per output. -/
def Shaped (E : Env P) : Prop := ∀ p s x out, E.predict p s x = .ok out → out.rows = x.rows ∧ out.cols = E.dimOutput

/-- The sets have as many labels as points and labels of the same size, not zero. -/
def Sound (L : LSet) : Prop :=
  L.training.2.cols ≠ 0 ∧ L.training.1.rows = L.training.2.rows ∧ L.validation.1.rows = L.validation.2.rows ∧ L.test.1.rows = L.test.2.rows ∧
  L.validation.2.cols = L.training.2.cols ∧ L.test.2.cols = L.training.2.cols

/-! ## Helpers -/

variable {P : Type}

theorem bidx_lt (n i : Nat) (h : i < n) : bidx n i = i := by unfold bidx; split <;> omega

theorem mse_same (a b : Mat) (hr : a.rows = b.rows) (hc : a.cols = b.cols) (h0 : a.rows ≠ 0) (h1 : a.cols ≠ 0) :
    mseLoss a b = .ok (some (sumSq a.rows a.cols a.v b.v / (a.rows * a.cols))) := by
  unfold mseLoss bdim sumSq
  simp only [← hr, ← hc, if_true]
  rw [if_neg (Nat.mul_ne_zero h0 h1)]
  congr 3
  refine Finset.sum_congr rfl fun i hi => Finset.sum_congr rfl fun j hj => ?_
  rw [bidx_lt _ _ (Finset.mem_range.1 hi), bidx_lt _ _ (Finset.mem_range.1 hj)]

theorem problem_ok (E : Env P) (hE : Shaped E) (d : Mat × Mat) (hr : d.1.rows = d.2.rows) (hc : E.dimOutput = d.2.cols) (h0 : d.2.cols ≠ 0) (s s' : St P) (r : Option ℝ)
    (h : problemLoss E d s = (.ok r, s')) : IsError E s.params d r ∧ s'.params = s.params := by
  unfold problemLoss at h
  split at h
  · rename_i h'
    cases h
    exact ⟨Or.inl ⟨h', rfl⟩, rfl⟩
  · rename_i h'
    simp only at h
    split at h
    · cases h
    · rename_i out ho
      obtain ⟨o1, o2⟩ := hE _ _ _ _ ho
      rw [mse_same out d.2 (by rw [o1, hr]) (by rw [o2, hc]) (by rw [o1]; exact h') (by rw [o2, hc]; exact h0)] at h
      cases h
      refine ⟨Or.inr ⟨h', out, ho, ?_⟩, rfl⟩
      rw [o1, o2, hc]

theorem epochs_spec (E : Env P) (hE : Shaped E) (L : LSet) (hL : Sound L) (hc : E.dimOutput = L.training.2.cols) (bs : List (List Nat)) (n : Nat) :
    ∀ (e : Nat) (s s' : St P) (res : Except Err Unit) (l : List (Rec × P)), epochs E L bs e n s = (res, s', l) →
      ∀ q ∈ l, IsError E q.2 L.training q.1.training ∧ IsError E q.2 L.validation q.1.validation ∧ IsError E q.2 L.test q.1.test := by
  obtain ⟨hL0, hL1, hL2, hL3, hL4, hL5⟩ := hL
  induction n with
  | zero => intro e s s' res l h; cases h; simp
  | succ n ih =>
    intro e s s' res l h
    unfold epochs at h
    split at h
    · cases h; simp
    · rename_i r s1 he
      simp only at h
      generalize hh : epochs E L bs (e + 1) n s1 = z at h
      obtain ⟨z1, z2, z3⟩ := z
      simp only at h
      cases h
      intro q hq
      rcases List.mem_cons.1 hq with rfl | hq
      · simp only
        unfold epoch at he
        split at he
        · cases he
        rename_i o sa hb
        split at he
        · cases he
        rename_i tr sb h1
        split at he
        · cases he
        rename_i va sc h2
        split at he
        · cases he
        rename_i te sd h3
        cases he
        obtain ⟨a1, a2⟩ := problem_ok E hE _ hL1 hc hL0 _ _ _ h1
        obtain ⟨b1, b2⟩ := problem_ok E hE _ hL2 (hc.trans hL4.symm) (by rw [hL4]; exact hL0) _ _ _ h2
        obtain ⟨c1, c2⟩ := problem_ok E hE _ hL3 (hc.trans hL5.symm) (by rw [hL5]; exact hL0) _ _ _ h3
        rw [c2]
        refine ⟨?_, ?_, c1⟩
        · rw [b2, a2]; exact a1
        · rw [b2]; rw [b2] at c1; exact b1
      · exact ih _ _ _ _ _ hh q hq

/-! ## Properties -/

/-- **C143** Whatever the model, the data, the batches and the number of epochs, all errors reported are the mean squared errors of the predictions by the parameters after the epoch, with all the sample points whatever
the last batch was; also if the training does not come to its end. -/
theorem C143_errors (E : Env P) (hE : Shaped E) (L : LSet) (hL : Sound L) (bs : List (List Nat)) (n : Nat) (s s' : St P) (res : Except Err Unit) (l : List (Rec × P)) (h : fit E L bs n s = (res, s', l)) :
    ∀ q ∈ l, IsError E q.2 L.training q.1.training ∧ IsError E q.2 L.validation q.1.validation ∧ IsError E q.2 L.test q.1.test := by
  unfold fit at h
  simp only at h
  split at h
  · cases h; simp
  · rename_i hc
    rw [not_not] at hc
    split at h
    · cases h; simp
    · split at h
      · rename_i he
        cases h
        exact epochs_spec E hE L hL hc bs n _ _ _ _ _ he
      · rename_i he
        cases h
        exact epochs_spec E hE L hL hc bs n _ _ _ _ _ he

theorem epochs_len (E : Env P) (L : LSet) (bs : List (List Nat)) (n : Nat) : ∀ (e : Nat) (s s' : St P) (l : List (Rec × P)), epochs E L bs e n s = (.ok (), s', l) →
    (l.map fun q => q.1.epoch) = (List.range n).map (e + ·) ∧ s'.params = ((l.getLast?).map Prod.snd).getD s.params := by
  induction n with
  | zero => intro e s s' l h; cases h; simp
  | succ n ih =>
    intro e s s' l h
    unfold epochs at h
    split at h
    · cases h
    · rename_i r s1 he
      simp only at h
      generalize hh : epochs E L bs (e + 1) n s1 = z at h
      obtain ⟨z1, z2, z3⟩ := z
      simp only at h
      cases h
      obtain ⟨i1, i2⟩ := ih _ _ _ _ hh
      have hre : r.epoch = e := by
        unfold epoch at he
        split at he
        · cases he
        split at he
        · cases he
        split at he
        · cases he
        split at he
        · cases he
        cases he
        rfl
      constructor
      · rw [List.map_cons, i1, List.range_succ_eq_map, List.map_cons, List.map_map, hre]
        simp only [Nat.add_zero]
        congr 1
        apply List.map_congr_left
        intro a _
        simp only [Function.comp]
        omega
      · rw [i2]
        cases z3 with
        | nil => rfl
        | cons a t => rw [List.getLast?_cons_cons]; simp only [List.getLast?_cons, Option.map_some, Option.getD_some]

/-- **C143** A training that succeeds reports each epoch once and in order, and gives back, in evaluation mode and with all points, the parameters of the last report. -/
theorem C143_done (E : Env P) (L : LSet) (bs : List (List Nat)) (n : Nat) (s s' : St P) (l : List (Rec × P)) (h : fit E L bs n s = (.ok (), s', l)) :
    (l.map fun q => q.1.epoch) = List.range n ∧ s'.params = ((l.getLast?).map Prod.snd).getD s.params ∧ s'.training = false ∧ s'.sel = none := by
  unfold fit at h
  simp only at h
  split at h
  · cases h
  · split at h
    · cases h
    · split at h
      · rename_i he
        cases h
        obtain ⟨h1, h2⟩ := epochs_len E L bs n _ _ _ _ he
        refine ⟨?_, h2, rfl, rfl⟩
        rw [h1]; simp
      · cases h

/-- **C143** Labels of the wrong size, or of the wrong number, are refused before anything is trained or reported. -/
theorem C143_refused (E : Env P) (L : LSet) (bs : List (List Nat)) (n : Nat) (s : St P) (h : E.dimOutput ≠ L.training.2.cols ∨ L.training.1.rows ≠ L.training.2.rows) :
    ∃ s', fit E L bs n s = (.error .assertionError, s', []) ∧ s'.params = s.params := by
  unfold fit
  simp only
  by_cases h1 : E.dimOutput = L.training.2.cols
  · have h2 := h.resolve_left (fun h => h h1)
    exact ⟨{ s with sel := none }, by rw [if_neg (not_not.2 h1), if_pos h2], rfl⟩
  · exact ⟨{ s with sel := none }, by rw [if_pos h1], rfl⟩

/-- **C143** The error of a set of points is zero exactly if all predictions are the labels. -/
theorem C143_zero (E : Env P) (p : P) (d : Mat × Mat) (hn : d.1.rows ≠ 0) (hk : d.2.cols ≠ 0) (out : Mat) (ho : E.predict p none d.1 = .ok out) (r : ℝ) (h : IsError E p d (some r)) :
    r = 0 ↔ ∀ i < d.1.rows, ∀ j < d.2.cols, out.v i j = d.2.v i j := by
  rcases h with ⟨h, -⟩ | ⟨-, out', ho', h⟩
  · exact absurd h hn
  · rw [ho] at ho'
    cases ho'
    rw [Option.some.injEq] at h
    have hpos : (d.1.rows : ℝ) * d.2.cols ≠ 0 := mul_ne_zero (Nat.cast_ne_zero.2 hn) (Nat.cast_ne_zero.2 hk)
    rw [h, div_eq_zero_iff, or_iff_left hpos]
    unfold sumSq
    rw [Finset.sum_eq_zero_iff_of_nonneg (fun i _ => Finset.sum_nonneg fun j _ => sq_nonneg _)]
    constructor
    · intro h i hi j hj
      have := (Finset.sum_eq_zero_iff_of_nonneg (fun j _ => sq_nonneg _)).1 (h i (Finset.mem_range.2 hi)) j (Finset.mem_range.2 hj)
      exact sub_eq_zero.1 (pow_eq_zero_iff two_ne_zero |>.1 this)
    · intro h i hi
      refine Finset.sum_eq_zero fun j hj => ?_
      rw [h i (Finset.mem_range.1 hi) j (Finset.mem_range.1 hj), sub_self, zero_pow two_ne_zero]

/-- **C143** The error of two sets put together is the mean of their errors, weighted by the numbers of points. -/
theorem C143_pooled (n m k : Nat) (a b : Nat → Nat → ℝ) (hn : n ≠ 0) (hm : m ≠ 0) (hk : k ≠ 0) :
    sumSq (n + m) k a b / (((n + m : Nat) : ℝ) * k) =
      (n * (sumSq n k a b / (n * k)) + m * (sumSq m k (fun i => a (n + i)) (fun i => b (n + i)) / (m * k))) / (n + m) := by
  have hs : sumSq (n + m) k a b = sumSq n k a b + sumSq m k (fun i => a (n + i)) (fun i => b (n + i)) := by
    unfold sumSq
    rw [Finset.sum_range_add]
  have hn' : (n : ℝ) ≠ 0 := Nat.cast_ne_zero.2 hn
  have hm' : (m : ℝ) ≠ 0 := Nat.cast_ne_zero.2 hm
  have hk' : (k : ℝ) ≠ 0 := Nat.cast_ne_zero.2 hk
  have hnm : (n : ℝ) + m ≠ 0 := by positivity
  rw [hs]
  push_cast
  field_simp

/-- **C143** The order of the points of a set does not matter. -/
theorem C143_order (n k : Nat) (a b : Nat → Nat → ℝ) (σ : Equiv.Perm (Fin n)) :
    sumSq n k (fun i => if h : i < n then a (σ ⟨i, h⟩) else a i) (fun i => if h : i < n then b (σ ⟨i, h⟩) else b i) = sumSq n k a b := by
  unfold sumSq
  rw [Finset.sum_range, Finset.sum_range]
  rw [← Equiv.sum_comp σ (fun i : Fin n => ∑ j ∈ Finset.range k, (a i j - b i j) ^ 2)]
  refine Finset.sum_congr rfl fun i _ => ?_
  simp only [i.2, dif_pos]

/-- The parameters before each batch of an epoch. -/
def path (E : Env P) : P → List (List Nat) → List P
  | _, [] => []
  | p, b :: bs => p :: path E (E.update p (some b)) bs

theorem batches_spec (E : Env P) (f : P → List Nat → ℝ) (hf : ∀ p b, E.loss p (some b) = .ok (f p b)) (bs : List (List Nat)) : ∀ (acc : ℝ) (s : St P),
    (batches E acc bs s).1 = .ok (acc + (((path E s.params bs).zip bs).map fun q => f q.1 q.2).sum) ∧ (batches E acc bs s).2.params = bs.foldl (fun p b => E.update p (some b)) s.params := by
  induction bs with
  | nil => intro acc s; simp [batches, path]
  | cons b bs ih =>
    intro acc s
    unfold batches batch
    simp only [hf]
    obtain ⟨h1, h2⟩ := ih (acc + f s.params b) { s with sel := some b, params := E.update s.params (some b) }
    refine ⟨?_, h2⟩
    rw [h1]
    simp [path, add_assoc]

theorem epoch_parts (E : Env P) (L : LSet) (bs : List (List Nat)) (e : Nat) (s s' : St P) (r : Rec) (h : epoch E L bs e s = (.ok r, s')) : (batches E 0 bs s).1 = .ok r.objective := by
  unfold epoch at h
  split at h
  · cases h
  rename_i hb
  split at h
  · cases h
  split at h
  · cases h
  split at h
  · cases h
  cases h
  rw [hb]

/-- **C143** (partial) The objective reported for an epoch adds the losses of the batches, each with the parameters before its own step. -/
theorem C143_objective_partial (E : Env P) (f : P → List Nat → ℝ) (hf : ∀ p b, E.loss p (some b) = .ok (f p b)) (L : LSet) (bs : List (List Nat)) (e : Nat) (s s' : St P) (r : Rec)
    (h : epoch E L bs e s = (.ok r, s')) : r.objective = (((path E s.params bs).zip bs).map fun q => f q.1 q.2).sum := by
  have h1 := (batches_spec E f hf bs 0 s).1
  rw [epoch_parts E L bs e s s' r h] at h1
  injection h1 with h1
  rw [h1, zero_add]

/-- **C143** violated: the objective reported with the errors of an epoch is not that of the same parameters. With one batch it is that of the parameters of the epoch before: the objective of the model given back is never
reported. -/
theorem C143_objective_violated : ∃ (E : Env ℝ) (L : LSet) (s s' : St ℝ) (r : Rec), Shaped E ∧ Sound L ∧ epoch E L [[0]] 0 s = (.ok r, s') ∧
    E.loss s'.params (some [0]) ≠ .ok r.objective ∧ r.training = some 0 := by
  let M : Mat := ⟨1, 1, fun _ _ => 0⟩
  let E : Env ℝ := ⟨1, fun p _ x => .ok ⟨x.rows, 1, fun _ _ => p⟩, fun p _ => .ok (p ^ 2), fun _ _ => 0⟩
  refine ⟨E, ⟨(M, M), (M, M), (M, M)⟩, ⟨1, true, none⟩, ⟨0, true, none⟩, ⟨0, 1, some 0, some 0, some 0⟩, ?_, ?_, ?_, ?_, rfl⟩
  · intro p s x out h
    cases h
    exact ⟨rfl, rfl⟩
  · refine ⟨?_, rfl, rfl, rfl, rfl, rfl⟩
    simp [M]
  · simp [epoch, batches, batch, problemLoss, mseLoss, bdim, E, M]
  · simp [E]

/-- **C143** If no parameter is trained, all epochs report the same: by induction over the epochs. -/
theorem C143_frozen (E : Env P) (hu : ∀ p s, E.update p s = p) (L : LSet) (bs : List (List Nat)) (n : Nat) (s s' : St P) (l : List (Rec × P)) (h : fit E L bs n s = (.ok (), s', l)) :
    s'.params = s.params ∧ ∀ q ∈ l, ∀ q' ∈ l, q.1.objective = q'.1.objective ∧ q.1.training = q'.1.training ∧ q.1.validation = q'.1.validation ∧ q.1.test = q'.1.test := by
  -- the value of an epoch depends on the parameters only
  have hb : ∀ (bs : List (List Nat)) (acc : ℝ) (s t : St P), s.params = t.params → (batches E acc bs s).1 = (batches E acc bs t).1 ∧ (batches E acc bs s).2.params = s.params := by
    intro bs
    induction bs with
    | nil => intro acc s t h; exact ⟨rfl, rfl⟩
    | cons b bs ih =>
      intro acc s t h
      unfold batches batch
      simp only [h]
      cases hl : E.loss t.params (some b) with
      | error e => exact ⟨rfl, rfl⟩
      | ok v =>
        simp only
        obtain ⟨i1, i2⟩ := ih (acc + v) { s with sel := some b, params := E.update t.params (some b) } { t with sel := some b, params := E.update t.params (some b) } rfl
        exact ⟨i1, by simpa [hu, h] using i2⟩
  have hp : ∀ (d : Mat × Mat) (s t : St P), s.params = t.params → (problemLoss E d s).1 = (problemLoss E d t).1 ∧ (problemLoss E d s).2.params = s.params := by
    intro d s t h
    unfold problemLoss
    split
    · exact ⟨rfl, rfl⟩
    · simp only [h]
      cases E.predict t.params none d.1 with
      | error e => exact ⟨trivial, rfl⟩
      | ok v => exact ⟨trivial, rfl⟩
  have he : ∀ (e : Nat) (s s' : St P) (r : Rec), epoch E L bs e s = (.ok r, s') → s'.params = s.params ∧ (batches E 0 bs s).1 = .ok r.objective ∧
      (problemLoss E L.training s).1 = .ok r.training ∧ (problemLoss E L.validation s).1 = .ok r.validation ∧ (problemLoss E L.test s).1 = .ok r.test := by
    intro e s s' r h
    have ho := epoch_parts E L bs e s s' r h
    unfold epoch at h
    split at h
    · cases h
    rename_i o sa h0
    split at h
    · cases h
    rename_i tr sb h1
    split at h
    · cases h
    rename_i va sc h2
    split at h
    · cases h
    rename_i te sd h3
    cases h
    have p0 : sa.params = s.params := by have := (hb bs 0 s s rfl).2; rw [h0] at this; exact this
    have p1 : sb.params = s.params := by have := (hp L.training sa sa rfl).2; rw [h1] at this; exact this.trans p0
    have p2 : sc.params = s.params := by have := (hp L.validation sb sb rfl).2; rw [h2] at this; exact this.trans p1
    have p3 : s'.params = s.params := by have := (hp L.test sc sc rfl).2; rw [h3] at this; exact this.trans p2
    refine ⟨p3, ho, ?_, ?_, ?_⟩
    · rw [← (hp L.training sa s p0).1, h1]
    · rw [← (hp L.validation sb s p1).1, h2]
    · rw [← (hp L.test sc s p2).1, h3]
  have hes : ∀ (n e : Nat) (s s' : St P) (l : List (Rec × P)) (p0 : St P), s.params = p0.params → epochs E L bs e n s = (.ok (), s', l) → s'.params = s.params ∧ ∀ q ∈ l,
      (batches E 0 bs p0).1 = .ok q.1.objective ∧ (problemLoss E L.training p0).1 = .ok q.1.training ∧ (problemLoss E L.validation p0).1 = .ok q.1.validation ∧ (problemLoss E L.test p0).1 = .ok q.1.test := by
    intro n
    induction n with
    | zero => intro e s s' l p0 _ h; cases h; simp
    | succ n ih =>
      intro e s s' l p0 hp0 h
      unfold epochs at h
      split at h
      · cases h
      · rename_i r s1 h1
        simp only at h
        generalize hh : epochs E L bs (e + 1) n s1 = z at h
        obtain ⟨z1, z2, z3⟩ := z
        simp only at h
        cases h
        obtain ⟨a0, a1, a2, a3, a4⟩ := he _ _ _ _ h1
        obtain ⟨b0, b1⟩ := ih _ _ _ _ p0 (a0.trans hp0) hh
        refine ⟨b0.trans a0, fun q hq => ?_⟩
        rcases List.mem_cons.1 hq with rfl | hq
        · simp only
          rw [← (hb bs 0 s p0 hp0).1, ← (hp L.training s p0 hp0).1, ← (hp L.validation s p0 hp0).1, ← (hp L.test s p0 hp0).1]
          exact ⟨a1, a2, a3, a4⟩
        · exact b1 q hq
  unfold fit at h
  simp only at h
  split at h
  · cases h
  · split at h
    · cases h
    · split at h
      · rename_i hh
        cases h
        obtain ⟨c0, c1⟩ := hes n 0 { s with sel := none, training := true } _ _ s rfl hh
        refine ⟨c0, fun q hq q' hq' => ?_⟩
        obtain ⟨x1, x2, x3, x4⟩ := c1 q hq
        obtain ⟨y1, y2, y3, y4⟩ := c1 q' hq'
        rw [x1] at y1; rw [x2] at y2; rw [x3] at y3; rw [x4] at y4
        injection y1 with y1; injection y2 with y2; injection y3 with y3; injection y4 with y4
        exact ⟨y1, y2, y3, y4⟩
      · cases h

/-- **C143** violated: a prediction that raises leaves the model in evaluation mode, in the middle of its training. -/
theorem C143_mode_violated (E : Env P) (d : Mat × Mat) (hd : d.1.rows ≠ 0) (s : St P) (e : Err) (h : E.predict s.params none d.1 = .error e) :
    problemLoss E d s = (.error e, { s with training := false, sel := none }) := by
  unfold problemLoss
  rw [if_neg hd]
  simp only [h]

/-- **C143** violated: a set without points is reported like a set that is predicted perfectly. -/
theorem C143_empty_violated (E : Env P) (d : Mat × Mat) (hd : d.1.rows = 0) (s : St P) : problemLoss E d s = (.ok (some 0), s) := by
  unfold problemLoss
  rw [if_pos hd]

/-! ## Examples -/

section Examples

/-- One parameter that is predicted for all points; a step halves it. -/
noncomputable def toy : Env ℝ := ⟨1, fun p _ x => .ok ⟨x.rows, 1, fun _ _ => p⟩, fun p _ => .ok (p ^ 2), fun p _ => p / 2⟩

/-- Two training points, one for validation, none for tests. -/
noncomputable def toySet : LSet := ⟨(⟨2, 1, fun i _ => i⟩, ⟨2, 1, fun i _ => i⟩), (⟨1, 1, fun _ _ => 3⟩, ⟨1, 1, fun _ _ => 3⟩), (⟨0, 1, fun _ _ => 0⟩, ⟨0, 1, fun _ _ => 0⟩)⟩

theorem toy_shaped : Shaped toy := by
  intro p s x out h
  cases h
  exact ⟨rfl, rfl⟩

theorem toy_sound : Sound toySet := ⟨by simp [toySet], rfl, rfl, rfl, rfl, rfl⟩

/-- `C143_errors`, `C143_done` on two epochs of two batches. -/
example : ∀ q ∈ (fit toy toySet [[0], [1]] 2 ⟨1, true, none⟩).2.2, IsError toy q.2 toySet.training q.1.training :=
  fun q hq => (C143_errors toy toy_shaped toySet toy_sound [[0], [1]] 2 ⟨1, true, none⟩ _ _ _ rfl q hq).1
/-- `C143_refused`: three outputs for labels of one column. -/
example : ∃ s', fit { toy with dimOutput := 3 } toySet [[0]] 2 ⟨1, true, none⟩ = (.error .assertionError, s', []) ∧ s'.params = 1 :=
  C143_refused _ _ _ _ _ (Or.inl (by simp [toySet]))
/-- `C143_pooled` of three and two points. -/
example : sumSq (3 + 2) 1 (fun i _ => i) (fun _ _ => 0) / (((3 + 2 : Nat) : ℝ) * (1 : Nat)) =
    ((3 : Nat) * (sumSq 3 1 (fun i _ => i) (fun _ _ => 0) / ((3 : Nat) * (1 : Nat))) + (2 : Nat) * (sumSq 2 1 (fun i _ => ((3 + i : Nat) : ℝ)) (fun _ _ => 0) / ((2 : Nat) * (1 : Nat)))) / ((3 : Nat) + (2 : Nat)) :=
  C143_pooled 3 2 1 (fun i _ => i) (fun _ _ => 0) (by norm_num) (by norm_num) (by norm_num)
end Examples
end Report
end Kerch
