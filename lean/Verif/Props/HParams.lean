import Verif.Model.HParams
import Verif.Lemmas.Dict
import Mathlib.Tactic.Common
import Mathlib.Data.List.Nodup
/-!
# C99: the hyper-parameters reported are those of the module
-/
set_option linter.unusedSectionVars false
set_option linter.unusedSimpArgs false
namespace Kerch
namespace HParams

/-! ## Helper lemmas -/

theorem cut_eq {α : Type} (a : α) : ∀ (l l' r r' : List α), a ∉ l → a ∉ l' → l ++ a :: r = l' ++ a :: r' → l = l' ∧ r = r'
  | [], [], r, r', _, _, h => by simpa using h
  | [], b :: l', r, r', _, h', h => by
    simp only [List.nil_append, List.cons_append, List.cons.injEq] at h
    exact absurd (h.1 ▸ List.mem_cons_self) h'
  | b :: l, [], r, r', h0, _, h => by
    simp only [List.nil_append, List.cons_append, List.cons.injEq] at h
    exact absurd (h.1 ▸ List.mem_cons_self) h0
  | b :: l, b' :: l', r, r', h0, h', h => by
    simp only [List.cons_append, List.cons.injEq] at h
    obtain ⟨h1, h2⟩ := cut_eq a l l' r r' (fun m => h0 (List.mem_cons_of_mem _ m)) (fun m => h' (List.mem_cons_of_mem _ m)) h.2
    exact ⟨by rw [h.1, h1], h2⟩

theorem space_digits (n : Nat) : ' ' ∉ Nat.toDigits 10 n := by
  intro h
  have := Nat.isDigit_of_mem_toDigits (b := 10) (by decide) (by decide) h
  revert this; decide

theorem digits_inj {n m : Nat} (h : Nat.toDigits 10 n = Nat.toDigits 10 m) : n = m := by
  have := congrArg (fun l => Nat.ofDigitChars 10 l 0) h
  simpa using this

theorem prefix_num {i j : Nat} {c c' k k' : List Char} (h : prefixName i c ++ k = prefixName j c' ++ k') : i = j := by
  unfold prefixName at h
  simp only [List.append_assoc, List.append_cancel_left_eq, List.cons_append] at h
  exact digits_inj (cut_eq ' ' _ _ _ _ (space_digits i) (space_digits j) h).1

variable {ν : Type}

theorem find_map_prefix (p : List Char) (d : Dict (List Char) ν) (k : List Char) :
    Dict.find (d.map fun kv => (p ++ kv.1, kv.2)) (p ++ k) = Dict.find d k := by
  induction d with
  | nil => rfl
  | cons q t ih =>
    simp only [List.map_cons, Dict.find, List.append_cancel_left_eq, ih]

theorem find_map_other (p key : List Char) (d : Dict (List Char) ν) (h : ∀ k, p ++ k ≠ key) :
    Dict.find (d.map fun kv => (p ++ kv.1, kv.2)) key = none := by
  induction d with
  | nil => rfl
  | cons q t ih => simp only [List.map_cons, Dict.find, if_neg (h q.1), ih]

theorem wf_map_prefix (p : List Char) (d : Dict (List Char) ν) (w : d.WF) : Dict.WF (d.map fun kv => (p ++ kv.1, kv.2)) := by
  unfold Dict.WF Dict.keys at *
  rw [List.map_map]
  have : (Prod.fst ∘ fun kv : List Char × ν => (p ++ kv.1, kv.2)) = (p ++ ·) ∘ Prod.fst := rfl
  rw [this, ← List.map_map]
  exact List.Nodup.map (fun a b h => by simpa using h) w

theorem find_modelFrom_old (ls : List (List Char × Dict (List Char) ν)) (w : ∀ l ∈ ls, l.2.WF) :
    ∀ (num : Nat) (val : Dict (List Char) ν) (key : List Char), (∀ j c k, num ≤ j → prefixName j c ++ k ≠ key) →
      Dict.find (modelFrom num val ls) key = Dict.find val key := by
  induction ls with
  | nil => intro num val key _; rfl
  | cons l ls ih =>
    intro num val key h
    obtain ⟨c, d⟩ := l
    rw [modelFrom, ih (fun l m => w l (List.mem_cons_of_mem _ m)) _ _ _ (fun j c k hj => h j c k (by omega)),
      Dict.find_merge _ _ (wf_map_prefix _ _ (w _ List.mem_cons_self)), find_map_other _ _ _ (fun k => h num c k (Nat.le_refl _))]
    rfl

theorem find_modelFrom (ls : List (List Char × Dict (List Char) ν)) (w : ∀ l ∈ ls, l.2.WF) :
    ∀ (num : Nat) (val : Dict (List Char) ν) (i : Nat) (hi : i < ls.length) (key : List Char),
      (∀ k ∈ val.keys, ∃ j c k', j < num ∧ k = prefixName j c ++ k') →
      Dict.find (modelFrom num val ls) (prefixName (num + i) (ls[i]).1 ++ key) = Dict.find (ls[i]).2 key := by
  induction ls with
  | nil => intro num val i hi; simp at hi
  | cons l ls ih =>
    intro num val i hi key hv
    obtain ⟨c, d⟩ := l
    have wd := wf_map_prefix (prefixName num c) d (w _ List.mem_cons_self)
    have wl : ∀ l ∈ ls, l.2.WF := fun l m => w l (List.mem_cons_of_mem _ m)
    rw [modelFrom]
    cases i with
    | zero =>
      simp only [List.getElem_cons_zero, Nat.add_zero]
      rw [find_modelFrom_old ls wl _ _ _ (fun j c' k hj he => by have := prefix_num he; omega), Dict.find_merge _ _ wd, find_map_prefix]
      cases hf : Dict.find d key with
      | some v => rfl
      | none =>
        show Dict.find val _ = none
        rw [Dict.find_eq_none_iff]
        intro hm
        obtain ⟨j, c', k', hj, he⟩ := hv _ hm
        have := prefix_num he
        omega
    | succ i =>
      simp only [List.getElem_cons_succ]
      have := ih wl (num + 1) (val.merge (d.map fun kv => (prefixName num c ++ kv.1, kv.2))) i (by simpa using hi) key ?_
      · rw [← this]; congr 2; simp only [Nat.add_assoc, Nat.add_comm 1 i]
      · intro k hk
        rw [Dict.mem_keys_iff, Dict.find_merge _ _ wd] at hk
        by_cases hp : ∃ k', prefixName num c ++ k' = k
        · obtain ⟨k', hk'⟩ := hp
          exact ⟨num, c, k', by omega, hk'.symm⟩
        · rw [find_map_other _ _ _ (fun k' he => hp ⟨k', he⟩)] at hk
          obtain ⟨j, c', k', hj, he⟩ := hv k ((Dict.mem_keys_iff _ _).2 hk)
          exact ⟨j, c', k', by omega, he⟩

theorem modelFrom_keys (ls : List (List Char × Dict (List Char) ν)) (w : ∀ l ∈ ls, l.2.WF) :
    ∀ (num : Nat) (val : Dict (List Char) ν) (key : List Char), (Dict.find (modelFrom num val ls) key).isSome →
      (Dict.find val key).isSome ∨ ∃ (i : Nat) (hi : i < ls.length) (k : List Char), key = prefixName (num + i) (ls[i]).1 ++ k ∧
        (Dict.find (ls[i]).2 k).isSome := by
  induction ls with
  | nil => intro num val key h; exact Or.inl h
  | cons l ls ih =>
    intro num val key h
    obtain ⟨c, d⟩ := l
    rw [modelFrom] at h
    rcases ih (fun l m => w l (List.mem_cons_of_mem _ m)) _ _ _ h with h' | ⟨i, hi, k, hk, hs⟩
    · rw [Dict.find_merge _ _ (wf_map_prefix _ _ (w _ List.mem_cons_self))] at h'
      by_cases hp : ∃ k', prefixName num c ++ k' = key
      · obtain ⟨k', rfl⟩ := hp
        rw [find_map_prefix] at h'
        cases hf : Dict.find d k' with
        | some v => exact Or.inr ⟨0, by simp, k', by simp, by simp [hf]⟩
        | none => rw [hf] at h'; exact Or.inl h'
      · rw [find_map_other _ _ _ (fun k' he => hp ⟨k', he⟩)] at h'
        exact Or.inl h'
    · refine Or.inr ⟨i + 1, by simpa using hi, k, ?_, by simpa using hs⟩
      rw [hk]; simp only [List.getElem_cons_succ]; congr 2; omega

theorem modelFrom_wf (ls : List (List Char × Dict (List Char) ν)) : ∀ (num : Nat) (val : Dict (List Char) ν), val.WF → (modelFrom num val ls).WF := by
  induction ls with
  | nil => intro _ _ h; exact h
  | cons l ls ih => intro num val h; exact ih _ _ (Dict.WF.merge h _)

theorem hfix_cons {κ : Type} [DecidableEq κ] (c : Cls κ ν) (cs : List (Cls κ ν)) (own d : Dict κ ν) (hm : c.asMethod = false)
    (hc : c.fixed = some (own, .fixed)) (hd : hfix cs = .ok d) : hfix (c :: cs) = .ok (own.merge d) := by
  unfold hfix at hd ⊢
  rw [hread, hm, hc]
  cases h : hread cs with
  | error e => rw [h] at hd; simp at hd
  | ok r =>
    cases r with
    | method => rw [h] at hd; simp at hd
    | dict d' => rw [h] at hd; simp only [Except.ok.injEq] at hd; subst hd; rfl

theorem mapM_ok {α β : Type} (f : α → Except Err β) : ∀ (l : List α) (r : List β), l.mapM f = .ok r →
    l.length = r.length ∧ ∀ (i : Nat) (hi : i < l.length) (hi' : i < r.length), f l[i] = .ok r[i]
  | [], r, h => by
    simp only [List.mapM_nil, pure, Except.pure, Except.ok.injEq] at h
    subst h; exact ⟨rfl, fun i hi => absurd hi (by simp)⟩
  | a :: l, r, h => by
    rw [List.mapM_cons] at h
    cases ha : f a with
    | error e => rw [ha] at h; simp [bind, Except.bind] at h
    | ok b =>
      cases hl : l.mapM f with
      | error e => rw [ha, hl] at h; simp [bind, Except.bind] at h
      | ok bs =>
        rw [ha, hl] at h
        simp only [bind, Except.bind, pure, Except.pure, Except.ok.injEq] at h
        subst h
        obtain ⟨h1, h2⟩ := mapM_ok f l bs hl
        refine ⟨by simp [h1], fun i hi hi' => ?_⟩
        cases i with
        | zero => simpa using ha
        | succ i => simpa using h2 i (by simpa using hi) (by simpa using hi')

/-! ## Properties -/

/-- What the user reads: the name under which an entry `key` of level `i` of class `cls` is reported by a model. -/
def reported (i : Nat) (cls key : List Char) : List Char := ("[LEVEL" ++ toString i ++ " ").toList ++ cls ++ "] ".toList ++ key

theorem reported_eq (i : Nat) (cls key : List Char) : reported i cls key = prefixName i cls ++ key := by
  simp [reported, prefixName, String.toList_append, Nat.toString_eq_ofList_toDigits]

/-- **C99** A model reports the entries of all its levels, whatever their number and the names of their classes and entries: each entry is found, with its
value, under its own name, nothing else is reported, and no two entries are merged. -/
theorem C99_model (levels : List (List Char × Dict (List Char) ν)) (w : ∀ l ∈ levels, l.2.WF) :
    (∀ (i : Nat) (hi : i < levels.length) (key : List Char),
      Dict.find (modelDict levels) (reported i (levels[i]).1 key) = Dict.find (levels[i]).2 key) ∧
    (∀ name, (Dict.find (modelDict levels) name).isSome →
      ∃ (i : Nat) (hi : i < levels.length) (key : List Char), name = reported i (levels[i]).1 key ∧ (Dict.find (levels[i]).2 key).isSome) ∧
    (∀ i j (hi : i < levels.length) (hj : j < levels.length) key key',
      reported i (levels[i]).1 key = reported j (levels[j]).1 key' → i = j ∧ key = key') ∧
    (modelDict levels).WF := by
  refine ⟨fun i hi key => ?_, fun name h => ?_, fun i j hi hj key key' h => ?_, modelFrom_wf _ _ _ Dict.WF.nil⟩
  · have := find_modelFrom levels w 0 [] i hi key (by simp [Dict.keys])
    rw [reported_eq]; simpa [modelDict] using this
  · rcases modelFrom_keys levels w 0 [] name h with h' | ⟨i, hi, k, hk, hs⟩
    · simp [Dict.find] at h'
    · exact ⟨i, hi, k, by rw [reported_eq]; simpa using hk, hs⟩
  · rw [reported_eq, reported_eq] at h
    have e := prefix_num h
    subst e
    exact ⟨rfl, by simpa using h⟩

/-- Two levels of the same class with the same entries, and twelve of them. -/
example : modelDict [("KPCA".toList, [("Level eta".toList, 1)]), ("KPCA".toList, [("Level eta".toList, 2)])] =
    [("[LEVEL0 KPCA] Level eta".toList, 1), ("[LEVEL1 KPCA] Level eta".toList, 2)] := by decide +kernel

variable {κ : Type} [DecidableEq κ]

/-- **C99** violated for every class, those written by users included: a class that defines `hparams_fixed` as all modules of the package do cannot report
its own value of an entry that a parent reports already; the value reported is the parent's. -/
theorem C99_parent_violated (c : Cls κ ν) (cs : List (Cls κ ν)) (own d : Dict κ ν) (hm : c.asMethod = false) (hc : c.fixed = some (own, .fixed))
    (hd : hfix cs = .ok d) (w : d.WF) (k : κ) (v : ν) (hk : d.find k = some v) :
    ∃ e, hfix (c :: cs) = .ok e ∧ e.find k = some v := by
  refine ⟨own.merge d, hfix_cons c cs own d hm hc hd, ?_⟩
  rw [Dict.find_merge _ _ w, hk]; rfl

/-- **C99** (partial) The entries that no parent has are reported with the class's own value, and those of the parents are kept. -/
theorem C99_own_partial (c : Cls κ ν) (cs : List (Cls κ ν)) (own d : Dict κ ν) (hm : c.asMethod = false) (hc : c.fixed = some (own, .fixed))
    (hd : hfix cs = .ok d) (w : d.WF) :
    ∃ e, hfix (c :: cs) = .ok e ∧ (∀ k, d.find k = none → e.find k = own.find k) ∧ (∀ k v, d.find k = some v → e.find k = some v) := by
  refine ⟨own.merge d, hfix_cons c cs own d hm hc hd, fun k hk => ?_, fun k v hk => ?_⟩ <;> rw [Dict.find_merge _ _ w, hk] <;> rfl

/-- A class of a user deriving from a kernel. -/
example : ∃ e, hfix (({ fixed := some ([(.kernel, .name .rff)], .fixed) } : C) :: mro .hat) = .ok e ∧ e.find .kernel = some (.name .hat) :=
  C99_parent_violated _ _ [(.kernel, .name .rff)] [(.kernel, .name .hat), at' .defKernelTr, at' .inputDim, at' .trainSample, at' .defSampleTr]
    rfl rfl rfl (by unfold Dict.WF; decide) _ _ rfl

/-- What a reader of the entry `"Kernel"` sees. -/
def kernelName (ms : List C) : Except Err (Option (Val Kern)) := (hfix ms).map (fun d => d.find .kernel)

/-- **C99** (partial) Apart from the kernels of the next theorems, a kernel, alone or within a level, reports its own name. -/
theorem C99_kernel_partial (k : Kern) (h : k ∉ [Kern.cosine, .rbf, .laplacian, .wasserstein, .linear, .nystrom, .explicitNN]) :
    kernelName (mro k) = .ok (some (.name k)) ∧ kernelName (levelMro k) = .ok (some (.name k)) := by
  revert h; cases k <;> first | exact fun _ => ⟨rfl, rfl⟩ | (intro h; exact absurd (by decide) h)

/-- **C99** violated: the kernels that derive from the exponential one report its name: a RBF kernel, a Laplacian kernel and a Wasserstein kernel are all
reported as exponential kernels. -/
theorem C99_kernel_violated :
    ∀ k ∈ [Kern.rbf, .laplacian, .wasserstein], kernelName (mro k) = .ok (some (.name .exponential)) ∧
      kernelName (levelMro k) = .ok (some (.name .exponential)) := by
  intro k hk
  simp only [List.mem_cons, List.not_mem_nil, or_false] at hk
  rcases hk with rfl | rfl | rfl <;> exact ⟨rfl, rfl⟩

/-- The kernels whose `hparams_fixed` lacks the decorator. -/
def undecorated : List Kern := [.linear, .nystrom, .explicitNN]

/-- **C99** violated: a linear kernel, a Nyström kernel and a neural network as feature map report no dictionary but a method; a cosine kernel
raises, and so does every level built on one of the four. -/
theorem C99_method_violated :
    (∀ k ∈ undecorated, hread (mro k) = .ok .method ∧ hfix (mro k) = .error .attributeError) ∧
    hread (mro .cosine) = .error .typeError ∧
    (∀ k ∈ Kern.cosine :: undecorated, hread (levelMro k) = .error .typeError) := by
  refine ⟨fun k hk => ?_, rfl, fun k hk => ?_⟩ <;> simp only [undecorated, List.mem_cons, List.not_mem_nil, or_false] at hk
  · rcases hk with rfl | rfl | rfl <;> exact ⟨rfl, rfl⟩
  · rcases hk with rfl | rfl | rfl | rfl <;> rfl

/-- **C99** The report of a model is given exactly when all its levels give theirs, and is then that of `C99_model`. -/
theorem C99_model_raises (levels : List (List Char × Except Err (Dict (List Char) ν))) (d : Dict (List Char) ν) :
    modelFixed levels = .ok d ↔ ∃ ds, levels = ds.map (fun l => (l.1, .ok l.2)) ∧ d = modelDict ds := by
  constructor
  · intro h
    unfold modelFixed at h
    cases hm : levels.mapM tagged with
    | error e => rw [hm] at h; simp [Except.map] at h
    | ok r =>
      rw [hm] at h
      simp only [Except.map, Except.ok.injEq] at h
      obtain ⟨h1, h2⟩ := mapM_ok _ _ _ hm
      refine ⟨r, List.ext_getElem (by simpa using h1) fun i hi hi' => ?_, h.symm⟩
      have := h2 i hi (h1 ▸ hi)
      rw [List.getElem_map]
      cases hs : (levels[i]).2 with
      | error e => simp [tagged, hs, Except.map] at this
      | ok d =>
        simp only [tagged, hs, Except.map, Except.ok.injEq] at this
        rw [← this]; exact Prod.ext rfl hs
  · rintro ⟨ds, rfl, rfl⟩
    have : ∀ ds : List (List Char × Dict (List Char) ν), (ds.map (fun l => (l.1, (.ok l.2 : Except Err _)))).mapM tagged = .ok ds := by
      intro ds
      induction ds with
      | nil => rfl
      | cons l ls ih => rw [List.map_cons, List.mapM_cons, ih]; rfl
    unfold modelFixed
    rw [this]; rfl

/-- **C99** violated: a model of any depth with a single level on a linear, cosine, Nyström or network kernel reports nothing, an exception is raised; the
monitor on WandB, which reads the report when it is created (WandB.py:32), cannot be used with it. -/
theorem C99_model_violated (text : Key → List Char) (levels : List (List Char × Kern)) (l : List Char × Kern) (hl : l ∈ levels)
    (hk : l.2 ∈ Kern.cosine :: undecorated) : ¬∃ d, modelFixed (levels.map fun l => levelReport text l.1 l.2) = .ok d := by
  rintro ⟨d, h⟩
  obtain ⟨ds, h, -⟩ := (C99_model_raises _ _).1 h
  have hm : levelReport text l.1 l.2 ∈ levels.map fun l => levelReport text l.1 l.2 := List.mem_map.2 ⟨l, hl, rfl⟩
  rw [h] at hm
  obtain ⟨e, -, he⟩ := List.mem_map.1 hm
  have hd := (congrArg Prod.snd he).symm
  have := C99_method_violated.2.2 _ hk
  simp [levelReport, hfix, this, Except.map] at hd

/-- **C99** (partial) All other models report. -/
theorem C99_model_partial (text : Key → List Char) (levels : List (List Char × Kern)) (h : ∀ l ∈ levels, l.2 ∉ Kern.cosine :: undecorated) :
    ∃ d, modelFixed (levels.map fun l => levelReport text l.1 l.2) = .ok d := by
  suffices ∃ ds : List (List Char × Dict (List Char) (Val Kern)), (levels.map fun l => levelReport text l.1 l.2) = ds.map (fun l => (l.1, .ok l.2)) by
    obtain ⟨ds, hds⟩ := this
    exact ⟨_, (C99_model_raises _ _).2 ⟨ds, hds, rfl⟩⟩
  induction levels with
  | nil => exact ⟨[], rfl⟩
  | cons l ls ih =>
    obtain ⟨ds, hds⟩ := ih fun l hl => h l (List.mem_cons_of_mem _ hl)
    obtain ⟨c, k⟩ := l
    have hk : k ∉ Kern.cosine :: undecorated := h _ List.mem_cons_self
    suffices ∃ d, hfix (levelMro k) = .ok d by
      obtain ⟨d, hd⟩ := this
      exact ⟨(c, d.map fun kv => (text kv.1, kv.2)) :: ds, by rw [List.map_cons, List.map_cons, hds, levelReport, hd]; rfl⟩
    clear h hds
    revert hk
    cases k <;> first | exact fun _ => ⟨_, rfl⟩ | (intro h; exact absurd (by decide) h)

/-- A level on a RBF kernel followed by one on a linear kernel. -/
example : ¬∃ d, modelFixed ([("KPCA".toList, Kern.rbf), ("Ridge".toList, .linear)].map fun l => levelReport (fun _ => []) l.1 l.2) = .ok d :=
  C99_model_violated _ _ ("Ridge".toList, .linear) (by simp) (by decide)

/-- The statistics kernels with a compact support, and the logistic and Silverman ones. -/
def statistics : List Kern := [.triangular, .epanechnikov, .triweight, .logistic, .silverman, .tricube, .quartic, .uniform]

/-- **C99** (partial) A value that may change is not reported among the fixed ones, and the input dimension is reported by all kernels, apart from the
exceptions of the next theorem. -/
theorem C99_fixed_partial (k : Kern) (h : k ∉ statistics) (h' : k ∉ Kern.cosine :: undecorated) (h'' : k ≠ .polynomial) :
    ∃ d, hfix (mro k) = .ok d ∧ (∀ key ∈ d.keys, key ∉ (hvar (mro k)).keys) ∧ d.find .inputDim = some (.attr .inputDim) := by
  revert h h' h''
  cases k <;> first | exact fun _ _ _ => ⟨_, rfl, by decide, rfl⟩ | (intro h; exact absurd (by decide) h) | (intro _ h; exact absurd (by decide) h) |
    (intro _ _ h; exact absurd rfl h)

/-- **C99** violated: the statistics kernels report their bandwidth, which may be trained, as fixed and not whether it is trainable; they and the
polynomial kernel do not report the input dimension. Within a level, the output dimension, the representation and the constraint are lost as well. -/
theorem C99_fixed_violated :
    (∀ k ∈ statistics, ∃ d e, hfix (mro k) = .ok d ∧ hfix (levelMro k) = .ok e ∧ Key.sigma ∈ d.keys ∧ Key.sigma ∈ (hvar (mro k)).keys ∧
      d.find .trainSigma = none ∧ d.find .inputDim = none ∧ e.find .outDim = none ∧ e.find .repr = none ∧ e.find .constraint = none) ∧
    (∃ d e, hfix (mro .polynomial) = .ok d ∧ hfix (levelMro .polynomial) = .ok e ∧ d.find .inputDim = none ∧ e.find .outDim = none) := by
  refine ⟨fun k hk => ?_, ⟨_, _, rfl, rfl, rfl, rfl⟩⟩
  simp only [statistics, List.mem_cons, List.not_mem_nil, or_false] at hk
  rcases hk with rfl | rfl | rfl | rfl | rfl | rfl | rfl | rfl <;> exact ⟨_, _, rfl, rfl, by decide, by decide, rfl, rfl, rfl, rfl, rfl⟩

/-- Values of a kernel that can be trained (keywords `sigma_trainable`, `alpha_trainable`, `beta_trainable`, `params_trainable`, `p_trainable`,
`lag_trainable`, `gamma_trainable`). -/
def canTrain : Kern → List Key
  | .rbf | .laplacian | .exponential | .wasserstein | .triangular | .epanechnikov | .triweight | .logistic | .silverman | .tricube | .quartic | .uniform
  | .rff | .rfArcsinh | .rfLReLU | .rfHyperbola => [.sigma]
  | .polynomial => [.alpha, .beta]
  | .sigmoid => [.a, .b]
  | .skewedChi2 => [.p]
  | .hat => [.lag]
  | .indicator => [.lag, .gamma]
  | _ => []

/-- **C99** (partial) What can be trained is reported among the variable values, random features excepted, by the kernel and by a level built on it. -/
theorem C99_variable_partial (k : Kern) (h : k ∉ [Kern.rff, .rfArcsinh, .rfLReLU, .rfHyperbola]) : ∀ key ∈ canTrain k,
    (hvar (mro k)).find key = some (.attr key) ∧ (hvar (levelMro k)).find key = some (.attr key) := by
  revert h; cases k <;> decide

/-- **C99** violated: random features do not report their bandwidth, neither as variable nor as fixed, though it may be trained. -/
theorem C99_variable_violated (k : Kern) (h : k ∈ [Kern.rff, .rfArcsinh, .rfLReLU, .rfHyperbola]) :
    Key.sigma ∈ canTrain k ∧ (hvar (mro k)).find .sigma = none ∧ ∃ d, hfix (mro k) = .ok d ∧ d.find .sigma = none := by
  simp only [List.mem_cons, List.not_mem_nil, or_false] at h
  rcases h with rfl | rfl | rfl | rfl <;> exact ⟨by decide, rfl, _, rfl, rfl⟩

/-- The kernels whose `hparams_variable` does not go on to the next class. -/
def dropsParents : List Kern := [.sigmoid, .additiveChi2, .skewedChi2, .hat, .indicator, .rff, .rfArcsinh, .rfLReLU, .rfHyperbola]

/-- **C99** (partial) A class of a user that derives from a kernel and, after it, from a class with variable hyper-parameters of its own: these are reported with the kernels that call
their parents. -/
theorem C99_mixin_partial (k : Kern) (h : k ∉ dropsParents) (last : Bool) :
    (hvar (mro k ++ [({ vari := some ([at' .levelEta], last) } : C)])).find .levelEta = some (.attr .levelEta) := by
  cases last <;> revert h <;> cases k <;> decide

/-- **C99** violated: the others drop them. -/
theorem C99_mixin_violated (k : Kern) (h : k ∈ dropsParents) (last : Bool) :
    (hvar (mro k ++ [({ vari := some ([at' .levelEta], last) } : C)])).find .levelEta = none := by
  cases last <;> revert h <;> cases k <;> decide

/-! ## Cases by name -/

example := C99_model [("KPCA".toList, [("Level eta".toList, 1)]), ("KPCA".toList, [("Level eta".toList, 2)])] (by unfold Dict.WF; decide)

example : kernelName (mro .polynomial) = .ok (some (.name .polynomial)) := (C99_kernel_partial .polynomial (by decide)).1

example : ∃ d, modelFixed ([("KPCA".toList, Kern.hat), ("Ridge".toList, .polynomial)].map fun l => levelReport (fun _ => []) l.1 l.2) = .ok d :=
  C99_model_partial _ _ (by decide)

example : ∃ d, hfix (mro .hat) = .ok d ∧ (∀ key ∈ d.keys, key ∉ (hvar (mro .hat)).keys) ∧ d.find .inputDim = some (.attr .inputDim) :=
  C99_fixed_partial .hat (by decide) (by decide) (by decide)

example := C99_variable_partial .rbf (by decide)

example := C99_variable_violated .rff (by decide)

example : ∃ k, k ∉ dropsParents := ⟨.rbf, by decide⟩

example := C99_mixin_partial .rbf (by decide) true

example : ∃ k ∈ dropsParents, (hvar (mro k ++ [({ vari := some ([at' .levelEta], true) } : C)])).find .levelEta = none := by
  refine ⟨dropsParents.head (by decide), List.head_mem _, C99_mixin_violated _ (List.head_mem _) true⟩

example : ∃ e, hfix (({ fixed := some ([(.sigma, .attr .sigma)], .fixed) } : C) :: mro .hat) = .ok e ∧ e.find .sigma = some (.attr .sigma) := by
  obtain ⟨e, h, h1, -⟩ := C99_own_partial ({ fixed := some ([(.sigma, .attr .sigma)], .fixed) } : C) (mro .hat) _
    [(.kernel, .name .hat), at' .defKernelTr, at' .inputDim, at' .trainSample, at' .defSampleTr] rfl rfl rfl (by unfold Dict.WF; decide)
  exact ⟨e, h, h1 .sigma rfl⟩


end HParams
end Kerch
