import Verif.Model.NystromSel
import Mathlib.Data.Real.Basic
import Mathlib.Tactic.Ring
import Mathlib.Tactic.Linarith
import Mathlib.Tactic.FieldSimp
import Mathlib.Tactic.NormNum
import Mathlib.Data.List.Perm.Basic
/-!
# C110: a Nyström kernel works on the points it is given
-/
set_option linter.unusedSectionVars false
set_option linter.unusedSimpArgs false
namespace Kerch
namespace NysSel
variable {X : Type}

/-! ## Helper lemmas -/

theorem pick_ok (data : List X) : ∀ (idx : List Nat), (∀ i ∈ idx, i < data.length) →
    pick data idx = .ok (idx.filterMap fun i => data[i]?)
  | [], _ => rfl
  | i :: t, h => by
    have hi := h i List.mem_cons_self
    rw [pick, pick_ok data t fun j hj => h j (List.mem_cons_of_mem _ hj), List.getElem?_eq_getElem hi,
      List.filterMap_cons_some (List.getElem?_eq_getElem hi)]

theorem pick_error (data : List X) : ∀ (idx : List Nat), (∃ i ∈ idx, data.length ≤ i) → pick data idx = .error .indexError
  | [], h => by obtain ⟨i, hi, _⟩ := h; simp at hi
  | i :: t, h => by
    rw [pick]
    by_cases hi : i < data.length
    · have : ∃ i ∈ t, data.length ≤ i := by
        obtain ⟨j, hj, hl⟩ := h
        rcases List.mem_cons.1 hj with rfl | hj
        · omega
        · exact ⟨j, hj, hl⟩
      rw [pick_error data t this, List.getElem?_eq_getElem hi]
    · rw [List.getElem?_eq_none (by omega)]

theorem pick_cases (data : List X) (idx : List Nat) :
    (∀ i ∈ idx, i < data.length) ∨ (∃ i ∈ idx, data.length ≤ i) := by
  by_cases h : ∀ i ∈ idx, i < data.length
  · exact Or.inl h
  · right; push Not at h; exact h

theorem pick_range (data : List X) : pick data (List.range data.length) = .ok data := by
  rw [pick_ok _ _ fun i hi => List.mem_range.1 hi]
  congr 1
  induction data with
  | nil => rfl
  | cons a l ih =>
    rw [List.length_cons, List.range_succ_eq_map, List.filterMap_cons_some (f := fun i => (a :: l)[i]?) (b := a) rfl, List.filterMap_map]
    congr 1

theorem pick_length (data : List X) : ∀ (idx : List Nat) (l : List X), pick data idx = .ok l → l.length = idx.length
  | [], l, h => by simp only [pick, Except.ok.injEq] at h; subst h; rfl
  | i :: t, l, h => by
    rw [pick] at h
    cases hd : data[i]? with
    | none => rw [hd] at h; simp at h
    | some x =>
      cases hp : pick data t with
      | error e => rw [hd, hp] at h; simp at h
      | ok r =>
        rw [hd, hp] at h
        simp only [Except.ok.injEq] at h
        subst h
        simp [pick_length data t r hp]

theorem pick_map (f : X → X) (data : List X) : ∀ idx, pick (data.map f) idx = (pick data idx).map (fun l => l.map f)
  | [] => rfl
  | i :: t => by
    rw [pick, pick, pick_map f data t, List.getElem?_map]
    cases data[i]? with
    | none => rfl
    | some x => cases pick data t <;> rfl

/-! ## Properties -/

/-- What the kernel should work on: the points selected, transformed once, relative to the selected points; an argument `x` is transformed likewise. -/
def Agrees (C : Cfg X) (s : St X) : Prop :=
  ∃ cur, pick s.data s.sel = .ok cur ∧ points C s = .ok (cur.map (C.t cur)) ∧ ∀ x, argPoint C s x = .ok (C.t cur x)

/-- Transforming again changes nothing. -/
def Idempotent (C : Cfg X) : Prop := ∀ l x, C.tb (l.map (C.t l)) (C.t l x) = C.t l x

/-- The operations that take all points. -/
def Whole : Op X → Prop
  | .init data idx => idx = none ∧ data ≠ []
  | .select idx => idx = none
  | _ => True

/-- Nothing but the whole sample is ever selected. -/
def WholeSt (C : Cfg X) (s : St X) : Prop :=
  s.sel = List.range s.data.length ∧ s.baseSel = List.range s.data.length ∧ s.baseData = s.data.map (C.t s.data)

theorem init_whole (C : Cfg X) (s : St X) (data : List X) (hd : data ≠ []) :
    initSample C s data none = (.ok (), ⟨data, List.range data.length, data.map (C.t data), List.range data.length, s.dim⟩) := by
  have h0 : data.length ≠ 0 := fun h => hd (List.length_eq_zero_iff.1 h)
  simp only [initSample, select, Option.getD_none, St.projected, St.current, pick_range, Except.map, if_neg h0]

theorem whole_step (C : Cfg X) (s : St X) (h : WholeSt C s) (o : Op X) (ho : Whole o) : WholeSt C (step C s o) := by
  cases o with
  | init data idx =>
    obtain ⟨rfl, hd⟩ : idx = none ∧ data ≠ [] := ho
    simp only [step, init_whole _ _ _ hd]
    exact ⟨rfl, rfl, rfl⟩
  | select idx =>
    have ho : idx = none := ho
    subst ho
    exact ⟨rfl, rfl, h.2.2⟩
  | evaluate =>
    simp only [step, evaluate]
    cases points C s with
    | error e => exact h
    | ok l => by_cases hl : l.length < s.dim <;> simp only [hl, if_true, if_false] <;> exact h
  | setDim k =>
    simp only [step, setDim]
    by_cases hk : k ≤ s.data.length <;> simp only [hk, if_true, if_false] <;> exact h
  | update => exact h

theorem whole_agrees (C : Cfg X) (hC : Idempotent C) (s : St X) (h : WholeSt C s) : Agrees C s := by
  obtain ⟨h1, h2, h3⟩ := h
  have hb : pick s.baseData s.baseSel = .ok (s.data.map (C.t s.data)) := by
    rw [h3, h2, ← List.length_map (as := s.data) (C.t s.data), pick_range]
  have hc : pick s.data s.sel = .ok s.data := by rw [h1, pick_range]
  refine ⟨s.data, hc, ?_, fun x => ?_⟩
  · simp only [points, hb, Except.map, List.map_map]
    congr 1
    exact List.map_congr_left fun x _ => hC _ _
  · simp only [argPoint, St.current, hc, hb]
    rw [hC]

/-- **C110** (partial: as long as all points are selected) A Nyström kernel created with a base kernel works on the points of its sample, transformed once, and
treats arguments likewise, after every history of new samples, evaluations and dimensions; it needs that the transform of transformed points changes
nothing. -/
theorem C110_whole_partial (C : Cfg X) (hC : Idempotent C) (data : List X) (hd : data ≠ []) (dim : Option Nat) (ops : List (Op X)) (ho : ∀ o ∈ ops, Whole o) :
    ∃ s, construct C (some data) none dim = .ok s ∧ Agrees C (run C s ops) := by
  refine ⟨⟨data, List.range data.length, data.map (C.t data), List.range data.length, dim.getD data.length⟩, ?_, ?_⟩
  · simp only [construct, Option.getD_some, init_whole _ _ _ hd]
  · apply whole_agrees C hC
    have : ∀ (ops : List (Op X)) (s : St X), WholeSt C s → (∀ o ∈ ops, Whole o) → WholeSt C (run C s ops) := by
      intro ops
      induction ops with
      | nil => intro s h _; exact h
      | cons o ops ih => intro s h ho; exact ih _ (whole_step C s h o (ho o List.mem_cons_self)) fun o' h' => ho o' (List.mem_cons_of_mem _ h')
    exact this ops _ ⟨rfl, rfl, rfl⟩ ho

/-- The arithmetic mean of the points. -/
noncomputable def mean (l : List ℝ) : ℝ := l.sum / l.length

/-- Centring, by the kernel and by the base kernel, which receives the same keywords (nystrom.py:54). -/
noncomputable def centring : Cfg ℝ := { t := fun l x => x - mean l, tb := fun l x => x - mean l, rank := fun l => l.length }

theorem sum_sub (l : List ℝ) (m : ℝ) : (l.map fun x => x - m).sum = l.sum - l.length * m := by
  induction l with
  | nil => simp
  | cons a l ih => simp only [List.map_cons, List.sum_cons, ih, List.length_cons]; push_cast; ring

theorem mean_sub (l : List ℝ) (hl : l ≠ []) (m : ℝ) : mean (l.map fun x => x - m) = mean l - m := by
  have : (l.length : ℝ) ≠ 0 := by exact_mod_cast fun h => hl (List.length_eq_zero_iff.1 h)
  rw [mean, mean, sum_sub, List.length_map]
  field_simp

/-- Centring is idempotent (the mean of no points is taken as 0). -/
theorem centring_idem : Idempotent centring := by
  intro l x
  simp only [centring]
  by_cases hl : l = []
  · subst hl; simp [mean]
  · rw [mean_sub l hl]; ring

/-- A centred sample, replaced by another one and evaluated. -/
example : ∃ s, construct centring (some [1, 2, 6]) none none = .ok s ∧ Agrees centring (run centring s [.evaluate, .init [3, 5] none, .setDim 2]) :=
  C110_whole_partial centring centring_idem _ (by simp) _ _ (by intro o ho; simp at ho; rcases ho with rfl | rfl | rfl <;> simp [Whole])

/-- No transform. -/
def plain (rank : List X → Nat) : Cfg X := { t := fun _ x => x, tb := fun _ x => x, rank := rank }

/-- The operations that take all points of a new sample; any points may be selected afterwards. -/
def WholeInit : Op X → Prop
  | .init data idx => idx = none ∧ data ≠ []
  | _ => True

/-- **C110** (partial: no transform) If each new sample is taken as a whole, the points selected afterwards, by any history, are those the kernel works on; the
exception for indices out of range is the same. -/
theorem C110_plain_partial (rank : List X → Nat) (data : List X) (hd : data ≠ []) (dim : Option Nat) (ops : List (Op X)) (ho : ∀ o ∈ ops, WholeInit o) :
    ∃ s, construct (plain rank) (some data) none dim = .ok s ∧
      let s' := run (plain rank) s ops
      points (plain rank) s' = pick s'.data s'.sel ∧ ∀ x, argPoint (plain rank) s' x = (pick s'.data s'.sel).map fun _ => x := by
  refine ⟨⟨data, List.range data.length, data, List.range data.length, dim.getD data.length⟩, ?_, ?_⟩
  · simp only [construct, Option.getD_some, init_whole _ _ _ hd]; simp [plain]
  · have key : ∀ (ops : List (Op X)) (s : St X), s.baseData = s.data ∧ s.baseSel = s.sel → (∀ o ∈ ops, WholeInit o) →
        (run (plain rank) s ops).baseData = (run (plain rank) s ops).data ∧ (run (plain rank) s ops).baseSel = (run (plain rank) s ops).sel := by
      intro ops
      induction ops with
      | nil => intro s h _; exact h
      | cons o ops ih =>
        intro s h ho
        refine ih _ ?_ fun o' h' => ho o' (List.mem_cons_of_mem _ h')
        have ho := ho o List.mem_cons_self
        cases o with
        | init data idx =>
          obtain ⟨rfl, hd⟩ : idx = none ∧ data ≠ [] := ho
          simp only [step, init_whole _ _ _ hd]
          simp [plain]
        | select idx => exact ⟨h.1, rfl⟩
        | evaluate =>
          simp only [step, evaluate]
          cases points (plain rank) s with
          | error e => exact h
          | ok l => by_cases hl : l.length < s.dim <;> simp only [hl, if_true, if_false] <;> exact h
        | setDim k =>
          simp only [step, setDim]
          by_cases hk : k ≤ s.data.length <;> simp only [hk, if_true, if_false] <;> exact h
        | update => exact h
    obtain ⟨h1, h2⟩ := key ops ⟨data, List.range data.length, data, List.range data.length, dim.getD data.length⟩ ⟨rfl, rfl⟩ ho
    refine ⟨?_, fun x => ?_⟩
    · rw [points, h1, h2]
      cases pick _ _ <;> simp [Except.map, plain]
    · rw [argPoint, St.current, h1, h2]
      cases pick _ _ <;> simp [Except.map, plain]

/-- Selecting twice. -/
example : ∃ s, construct (plain List.length) (some ["a", "b", "c"]) none (some 1) = .ok s ∧
    points (plain List.length) (run (plain List.length) s [.select (some [0, 1]), .select (some [2, 0])]) = .ok ["c", "a"] := by
  obtain ⟨s, h, h'⟩ := C110_plain_partial List.length ["a", "b", "c"] (by simp) (some 1) [.select (some [0, 1]), .select (some [2, 0])]
    (by intro o ho; simp at ho; rcases ho with rfl | rfl <;> trivial)
  refine ⟨s, h, h'.1.trans ?_⟩
  rw [construct, Option.getD_some, init_whole _ _ _ (by simp)] at h
  simp only [Except.ok.injEq] at h
  subst h
  rfl

/-- **C110** violated: a sample given together with a selection of it cannot be used: every evaluation raises, whatever the transforms and the base
kernel, unless all indices are lower than their number. -/
theorem C110_init_violated (C : Cfg X) (s : St X) (data : List X) (hd : data ≠ []) (idx : List Nat)
    (h : ∀ i ∈ idx, i < data.length) :
    (initSample C s data (some idx)).1 = .ok () ∧
    ((∃ i ∈ idx, idx.length ≤ i) → (evaluate C (initSample C s data (some idx)).2).1 = .error .indexError) ∧
    ((∀ i ∈ idx, i < idx.length) → ∃ l, points C (initSample C s data (some idx)).2 = .ok l) := by
  have hp := pick_ok data idx h
  have hl := pick_length data idx _ hp
  have h0 : data.length ≠ 0 := fun h => hd (List.length_eq_zero_iff.1 h)
  simp only [initSample, select, Option.getD_some, St.projected, St.current, hp, Except.map, if_neg h0]
  refine ⟨trivial, fun hi => ?_, fun hi => ?_⟩
  · have := pick_error ((idx.filterMap fun i => data[i]?).map (C.t (idx.filterMap fun i => data[i]?))) idx (by rw [List.length_map, hl]; exact hi)
    simp only [evaluate, points, this, Except.map]
  · exact ⟨_, by simp only [points]; rw [pick_ok _ idx (by rw [List.length_map, hl]; exact hi)]; rfl⟩

/-- **C110** violated already at construction: of a proportion drawn of the sample (pairwise different indices, fewer than points), evaluations raise unless
the first points happen to be drawn. -/
theorem C110_prop_violated (C : Cfg X) (data : List X) (hd : data ≠ []) (idx : List Nat) (dim : Option Nat) (h : ∀ i ∈ idx, i < data.length) :
    ∃ s, construct C (some data) (some idx) dim = .ok s ∧ s.sel = idx ∧
      ((∃ i ∈ idx, idx.length ≤ i) → (evaluate C s).1 = .error .indexError ∧ ∀ x, argPoint C s x = .error .indexError) := by
  have h1 := C110_init_violated C { data := [], sel := [], baseData := [], baseSel := [], dim := dim.getD data.length } data hd idx h
  have h0 : data.length ≠ 0 := fun h => hd (List.length_eq_zero_iff.1 h)
  have hp := pick_ok data idx h
  have hl := pick_length data idx _ hp
  refine ⟨(initSample C { data := [], sel := [], baseData := [], baseSel := [], dim := dim.getD data.length } data (some idx)).2, ?_, ?_,
    fun hi => ⟨h1.2.1 hi, fun x => ?_⟩⟩
  · simp only [construct, initSample, select, Option.getD_some,  St.projected, St.current, hp, Except.map, if_neg h0]
  · simp only [initSample, select, Option.getD_some, St.projected, St.current, hp, Except.map, if_neg h0]
  · have := pick_error ((idx.filterMap fun i => data[i]?).map (C.t (idx.filterMap fun i => data[i]?))) idx (by rw [List.length_map, hl]; exact hi)
    simp only [initSample, select, Option.getD_some, St.projected, St.current, hp, Except.map, if_neg h0, argPoint, this]

/-- Two points of three. -/
example : ∃ s, construct (plain List.length) (some ["a", "b", "c"]) (some [0, 2]) none = .ok s ∧
    (evaluate (plain List.length) s).1 = .error .indexError := by
  obtain ⟨s, h1, _, h2⟩ := C110_prop_violated (plain List.length) ["a", "b", "c"] (by simp) [0, 2] none (by decide)
  exact ⟨s, h1, (h2 ⟨2, by decide, by decide⟩).1⟩

/-- **C110** violated: if the indices are those of all points in another order (`prop_sample=1`), nothing is raised but the order is applied twice: the kernel
works on the points in another order than its sample. -/
theorem C110_order_violated (rank : List String → Nat) : ∃ s, construct (plain rank) (some ["a", "b", "c"]) (some [1, 2, 0]) none = .ok s ∧
    s.current = .ok ["b", "c", "a"] ∧ points (plain rank) s = .ok ["c", "a", "b"] := ⟨_, rfl, rfl, rfl⟩

/-- **C110** violated: with the dimension that is set by default, a selection of fewer points than the sample has makes every evaluation raise, as long as no
eigenvalue was pruned before. -/
theorem C110_select_violated (C : Cfg X) (data : List X) (hd : data ≠ []) (idx : List Nat) (h : ∀ i ∈ idx, i < data.length) (hl : idx.length < data.length) :
    ∃ s, construct C (some data) none none = .ok s ∧ (evaluate C (select s (some idx))).1 = .error .assertionError := by
  refine ⟨⟨data, List.range data.length, data.map (C.t data), List.range data.length, data.length⟩, ?_, ?_⟩
  · simp only [construct, Option.getD_some, init_whole _ _ _ hd, Option.getD_none]
  · have hp := pick_ok (data.map (C.t data)) idx (by rw [List.length_map]; exact h)
    have hn := pick_length _ _ _ hp
    simp only [evaluate, select, Option.getD_some, points, hp, Except.map, List.length_map, hn, hl, if_true]

example : ∃ s, construct centring (some [1, 2, 6]) none none = .ok s ∧ (evaluate centring (select s (some [0, 2]))).1 = .error .assertionError :=
  C110_select_violated centring _ (by simp) _ (by decide) (by decide)

/-- **C110** violated: with a centred sample, whenever points are selected whose mean is not the one of the sample, an argument is not treated as the
same point of the sample: what the base kernel receives for it is shifted by the difference of the means. -/
theorem C110_transform_violated (data : List ℝ) (idx : List Nat) (hn : idx ≠ []) (h : ∀ i ∈ idx, i < data.length) (dim : Option Nat) :
    ∃ s cur, construct centring (some data) none dim = .ok s ∧ pick data idx = .ok cur ∧
      points centring (select s (some idx)) = .ok (cur.map fun x => x - mean cur) ∧
      ∀ x, argPoint centring (select s (some idx)) x = .ok (x - mean cur + (mean data - mean cur)) := by
  have hp := pick_ok data idx h
  have hl := pick_length data idx _ hp
  generalize hcur : (idx.filterMap fun i => data[i]?) = cur at hp hl
  have hd : data ≠ [] := by
    rintro rfl
    obtain ⟨i, hi⟩ := List.exists_mem_of_ne_nil _ hn
    exact absurd (h i hi) (by simp)
  have hne : cur ≠ [] := by
    intro h0; rw [h0] at hl; exact hn (List.length_eq_zero_iff.1 hl.symm)
  refine ⟨⟨data, List.range data.length, data.map (fun x => x - mean data), List.range data.length, dim.getD data.length⟩, cur, ?_, hp, ?_, fun x => ?_⟩
  · simp only [construct, Option.getD_some, init_whole _ _ _ hd]; rfl
  · simp only [points, select, Option.getD_some, pick_map, hp, Except.map, centring, List.map_map]
    congr 1
    apply List.map_congr_left
    intro x _
    simp only [Function.comp]
    rw [mean_sub cur hne]; ring
  · simp only [argPoint, St.current, select, Option.getD_some, pick_map, hp, Except.map, centring]
    rw [mean_sub cur hne]; congr 1; ring

/-- The first two points of three: the argument `1` is not treated as the first point of the sample, `1`. -/
example : ∃ s, construct centring (some [1, 3, 11]) none (some 1) = .ok s ∧
    points centring (select s (some [0, 1])) = .ok [-1, 1] ∧ argPoint centring (select s (some [0, 1])) 1 = .ok 2 := by
  obtain ⟨s, cur, h1, h2, h3, h4⟩ := C110_transform_violated [1, 3, 11] [0, 1] (by simp) (by decide) (some 1)
  have : cur = [1, 3] := by
    have : pick [(1 : ℝ), 3, 11] [0, 1] = .ok [1, 3] := rfl
    rw [this] at h2; simpa using h2.symm
  subst this
  refine ⟨s, h1, ?_, ?_⟩
  · rw [h3]; norm_num [mean]
  · rw [h4]; norm_num [mean]

/-- **C110** violated: without a sample no such kernel can be created, though other kernels can be given one later. -/
theorem C110_empty_violated (C : Cfg X) (idx : Option (List Nat)) (dim : Option Nat) : construct C none idx dim = .error .notInitialized := rfl

/-- **C110** (partial) A kernel made of an existing one, without transform of its own, works on the points selected, transformed as the existing kernel does, and
treats arguments likewise; also after any selections. -/
theorem C110_existing_partial (C : Cfg X) (ht : ∀ l x, C.t l x = x) (data : List X) (sel : List Nat) (dim : Option Nat) (sels : List (Option (List Nat))) :
    let s := run C (constructOn data sel dim) (sels.map Op.select)
    points C s = (pick data s.sel).map (fun l => l.map (C.tb l)) ∧ ∀ x, argPoint C s x = (pick data s.sel).map (fun l => C.tb l x) := by
  have key : ∀ (sels : List (Option (List Nat))) (s : St X), s.data = data ∧ s.baseData = data ∧ s.baseSel = s.sel →
      (run C s (sels.map Op.select)).data = data ∧ (run C s (sels.map Op.select)).baseData = data ∧
        (run C s (sels.map Op.select)).baseSel = (run C s (sels.map Op.select)).sel := by
    intro sels
    induction sels with
    | nil => intro s h; exact h
    | cons i t ih => intro s h; exact ih _ ⟨h.1, h.2.1, rfl⟩
  obtain ⟨h1, h2, h3⟩ := key sels (constructOn data sel dim) ⟨rfl, rfl, rfl⟩
  refine ⟨by rw [points, h2, h3], fun x => ?_⟩
  rw [argPoint, St.current, h1, h2, h3]
  cases pick data _ <;> simp [Except.map, ht]

/-- **C110** violated: a kernel made of an existing one, with a transform of its own, applies it to arguments only and not to the sample, until a new sample is
given. -/
theorem C110_existing_violated (C : Cfg X) (data : List X) (sel : List Nat) (h : ∀ i ∈ sel, i < data.length) (dim : Option Nat) :
    ∃ cur, pick data sel = .ok cur ∧ points C (constructOn data sel dim) = .ok (cur.map (C.tb cur)) ∧
      ∀ x, argPoint C (constructOn data sel dim) x = .ok (C.tb cur (C.t cur x)) := by
  have hp := pick_ok data sel h
  exact ⟨_, hp, by simp only [points, constructOn, hp, Except.map], fun x => by simp only [argPoint, St.current, constructOn, hp]⟩

/-- A centred kernel made of an existing kernel without transform: the sample stays `1, 3`, the argument `1` becomes `-1`. -/
example : let C : Cfg ℝ := { centring with tb := fun _ x => x }
    points C (constructOn [1, 3] [0, 1] none) = .ok [1, 3] ∧ argPoint C (constructOn [1, 3] [0, 1] none) 1 = .ok (-1) := by
  obtain ⟨cur, h1, h2, h3⟩ := C110_existing_violated { centring with tb := fun _ x => x } [1, 3] [0, 1] (by decide) none
  have : cur = [1, 3] := by
    have : pick [(1 : ℝ), 3] [0, 1] = .ok [1, 3] := rfl
    rw [this] at h1; simpa using h1.symm
  subst this
  refine ⟨by rw [h2]; simp, ?_⟩
  rw [h3]; norm_num [centring, mean]

/-- **C110** violated: the dimension only ever decreases unless it is assigned: what an evaluation on few points prunes stays lost for all samples and
selections afterwards. -/
theorem C110_dim_violated (C : Cfg X) (s : St X) (ops : List (Op X)) (h : ∀ k, Op.setDim k ∉ ops) : (run C s ops).dim ≤ s.dim := by
  induction ops generalizing s with
  | nil => exact Nat.le_refl _
  | cons o ops ih =>
    refine Nat.le_trans (ih (step C s o) fun k hk => h k (List.mem_cons_of_mem _ hk)) ?_
    cases o with
    | init data idx =>
      simp only [step, initSample]
      cases St.projected C _ <;> exact Nat.le_refl _
    | select idx => exact Nat.le_refl _
    | evaluate =>
      simp only [step, evaluate]
      cases points C s with
      | error e => exact Nat.le_refl _
      | ok l =>
        by_cases hl : l.length < s.dim <;> simp only [hl, if_true, if_false]
        · exact Nat.le_refl _
        · exact Nat.min_le_left _ _
    | setDim k => exact absurd List.mem_cons_self (h k)
    | update => exact Nat.le_refl _

/-- Two equal points first, then three different ones: one feature remains. -/
example : ∃ s, construct (plain fun l : List String => l.eraseDups.length) (some ["a", "a"]) none none = .ok s ∧
    (run (plain fun l : List String => l.eraseDups.length) s [.evaluate, .init ["a", "b", "c"] none, .evaluate]).dim = 1 := ⟨_, rfl, by decide +kernel⟩

/-- **C110** The dimension can be set up to the number of points, and is then the one set; more is refused and nothing changes. -/
theorem C110_set_dim (s : St X) (k : Nat) :
    (k ≤ s.data.length → (setDim s k).1 = .ok () ∧ (setDim s k).2.dim = k ∧ (setDim s k).2.data = s.data ∧ (setDim s k).2.sel = s.sel) ∧
    (s.data.length < k → setDim s k = (.error .assertionError, s)) := by
  refine ⟨fun h => ?_, fun h => ?_⟩
  · simp [setDim, h]
  · simp [setDim, Nat.not_le.2 h]

example : setDim (⟨[1, 2], [0], [1, 2], [0], 2⟩ : St Nat) 3 = (.error .assertionError, ⟨[1, 2], [0], [1, 2], [0], 2⟩) := (C110_set_dim _ 3).2 (by decide)

end NysSel
end Kerch
