import Verif.Lemmas.Dict
import Verif.Model.Crash
import Verif.Props.Monitor
/-!
# C124 and C125: interrupted and concurrent monitored runs
-/
set_option linter.unusedSectionVars false
set_option linter.unusedSimpArgs false
namespace Kerch
namespace Crash
open Monitor

variable {σ : Type}

/-! ## Specification -/

/-- The content of the checkpoint of an epoch. -/
def look (d : Disk σ) (e : Int) : Option (Content σ) := d.bind fun fs => fs.find (fileName (.int e))

/-- What has last been saved for an epoch. -/
def last (saves : List (Int × σ)) (e : Int) : Option (Content σ) := ((saves.filter fun s => s.1 = e).getLast?).map fun s => .whole s.2

/-! ## Lemmas -/

theorem set_set {κ ν : Type} [DecidableEq κ] (d : Dict κ ν) (k : κ) (v w : ν) : (d.set k v).set k w = d.set k w := by
  induction d with
  | nil => simp [Dict.set]
  | cons h t ih =>
    obtain ⟨k', v'⟩ := h
    by_cases hk : k' = k
    · simp [Dict.set, hk]
    · simp [Dict.set, hk, ih]

theorem exec_append (d : Disk σ) (a b : List (Micro σ)) : exec d (a ++ b) = match exec d a with
    | .ok d' => exec d' b
    | .error e => .error e := by
  induction a generalizing d with
  | nil => rfl
  | cons x t ih =>
    simp only [List.cons_append, exec]
    cases exec1 d x with
    | ok d' => exact ih d'
    | error e => rfl

/-- A whole save, in the actions of the model of single actions. -/
theorem exec_save (d : Disk σ) (s : Int × σ) : exec d (saveSteps s) = .ok (saveModel d (.int s.1) (Content.whole s.2)).2 := by
  simp only [saveSteps, exec, exec1, saveModel]
  rw [set_set]

/-- The whole saves of a history. -/
def wholes (saves : List (Int × σ)) : List (Int × Content σ) := saves.map fun s => (s.1, .whole s.2)

theorem exec_saves (d : Disk σ) (saves : List (Int × σ)) :
    exec d (saves.flatMap saveSteps) = .ok ((wholes saves).foldl (fun d s => (saveModel d (.int s.1) s.2).2) d) := by
  induction saves generalizing d with
  | nil => rfl
  | cons s t ih => rw [List.flatMap_cons, exec_append, exec_save]; exact ih _

/-- A run cut after `j` actions: the whole saves and the actions of the one that is not. -/
theorem take_steps (saves : List (Int × σ)) (j : Nat) :
    (saves.flatMap saveSteps).take j = (saves.take (j / 3)).flatMap saveSteps ++ ((saves[j / 3]?).elim [] fun s => (saveSteps s).take (j % 3)) := by
  induction saves generalizing j with
  | nil => simp
  | cons s t ih =>
    match j with
    | 0 => simp
    | 1 => rfl
    | 2 => rfl
    | j + 3 =>
      have h1 : (j + 3) / 3 = j / 3 + 1 := by omega
      have h2 : (j + 3) % 3 = j % 3 := by omega
      rw [h1, h2, List.flatMap_cons, List.take_succ_cons, List.flatMap_cons, List.append_assoc, List.getElem?_cons_succ, ← ih j]
      rfl

theorem last_wholes (saves : List (Int × σ)) (e : Int) :
    (((wholes saves).filter fun s => s.1 = e).getLast?).map Prod.snd = last saves e := by
  unfold wholes last
  rw [List.filter_map, List.getLast?_map, Option.map_map]
  rfl

/-- What is in the directory after a history of whole saves. -/
theorem look_saved (saves : List (Int × σ)) (d : Disk σ) (hd : d = saved (wholes saves)) :
    (∀ e, look d e = last saves e) ∧ ∃ es : List Int, (d.getD []).keys = es.map (fun e => fileName (.int e)) ∧ (d.getD []).WF ∧ ∀ e, e ∈ es ↔ e ∈ saves.map Prod.fst := by
  cases saves with
  | nil =>
    subst hd
    exact ⟨fun e => rfl, [], rfl, Dict.WF.nil, fun e => by simp⟩
  | cons s t =>
    have hs : saved (wholes (s :: t)) = (wholes (s :: t)).foldl (fun d s => (saveModel d (.int s.1) s.2).2) (some ([] : Dict (List Char) (Content σ))) := rfl
    obtain ⟨fs, es, h1, h2, h3, h4, h5⟩ := saved_foldl (wholes (s :: t)) ([] : Dict (List Char) (Content σ)) [] Dict.WF.nil rfl
    rw [hs, h1] at hd
    subst hd
    refine ⟨fun e => ?_, es, h3, h2, fun e => ?_⟩
    · show fs.find (fileName (.int e)) = _
      rw [h5 e, last_wholes]
      show (last (s :: t) e).or none = _
      cases last (s :: t) e <;> rfl
    · rw [h4 e]
      simp [wholes]

/-! ## C124: interruptions -/

/-- **C124** A run interrupted after any number of actions: each checkpoint saved completely holds what was last saved for its epoch; only the one being written may be cut.
Nothing raises by itself and there is no other file. -/
theorem C124_saving (saves : List (Int × σ)) (j : Nat) :
    ∃ d, exec none ((saves.flatMap saveSteps).take j) = .ok d ∧
      (∀ e, look d e = if j % 3 = 2 ∧ (saves[j / 3]?).map Prod.fst = some e then some .cut else last (saves.take (j / 3)) e) ∧
      ∀ f ∈ (d.getD []).keys, ∃ e ∈ saves.map Prod.fst, f = fileName (.int e) := by
  rw [take_steps, exec_append, exec_saves]
  obtain ⟨d, hd⟩ : ∃ d, d = saved (wholes (saves.take (j / 3))) := ⟨_, rfl⟩
  have hd' : (wholes (saves.take (j / 3))).foldl (fun d s => (saveModel d (.int s.1) s.2).2) none = d := hd.symm
  rw [hd']
  obtain ⟨h1, es, h2, h3, h4⟩ := look_saved _ d hd
  have hin : ∀ f ∈ (d.getD []).keys, ∃ e ∈ saves.map Prod.fst, f = fileName (.int e) := by
    intro f hf
    rw [h2] at hf
    obtain ⟨e, he, rfl⟩ := List.mem_map.1 hf
    obtain ⟨s, hs, hs'⟩ := List.mem_map.1 ((h4 e).1 he)
    exact ⟨e, List.mem_map.2 ⟨s, List.mem_of_mem_take hs, hs'⟩, rfl⟩
  have hl : ∀ e, look (some (d.getD [])) e = look d e := fun e => by cases d <;> rfl
  have hj : j % 3 < 3 := Nat.mod_lt _ (by norm_num)
  cases hs : saves[j / 3]? with
  | none => exact ⟨d, rfl, fun e => by rw [if_neg (by simp), h1], hin⟩
  | some s =>
    have hmem : s ∈ saves := List.mem_of_getElem? hs
    match hm : j % 3 with
    | 0 => exact ⟨d, rfl, fun e => by rw [if_neg (by simp), h1], hin⟩
    | 1 => exact ⟨some (d.getD []), rfl, fun e => by rw [if_neg (by simp), hl, h1], hin⟩
    | 2 =>
      refine ⟨some ((d.getD []).set (fileName (.int s.1)) .cut), rfl, fun e => ?_, fun f hf => ?_⟩
      · show Dict.find ((d.getD []).set (fileName (.int s.1)) .cut) (fileName (.int e)) = _
        rw [Dict.find_set]
        by_cases he : s.1 = e
        · rw [if_pos (by rw [he]), if_pos (by simp [he])]
        · rw [if_neg (fun h => he (fileName_inj h)), if_neg (by simp [he]), ← h1 e, ← hl e]
          rfl
      · rw [Option.getD_some, Dict.keys_set] at hf
        split at hf
        · exact hin f hf
        · rcases List.mem_append.1 hf with h | h
          · exact hin f h
          · exact ⟨s.1, List.mem_map.2 ⟨s, hmem, rfl⟩, List.mem_singleton.1 h⟩
    | i + 3 => omega

/-- **C124** For a training run, whose epochs increase: whenever it is interrupted, all checkpoints completed before are there, whole. -/
theorem C124_training (saves : List (Int × σ)) (hi : (saves.map Prod.fst).Pairwise (· < ·)) (j : Nat) :
    ∃ d, exec none ((saves.flatMap saveSteps).take j) = .ok d ∧ ∀ s ∈ saves.take (j / 3), look d s.1 = some (.whole s.2) := by
  obtain ⟨d, h1, h2, -⟩ := C124_saving saves j
  refine ⟨d, h1, fun s hs => ?_⟩
  have hne : ∀ t, saves[j / 3]? = some t → t.1 ≠ s.1 := by
    intro t ht he
    have hsplit : saves = saves.take (j / 3) ++ t :: saves.drop (j / 3 + 1) := by
      have hlt : j / 3 < saves.length := (List.getElem?_eq_some_iff.1 ht).1
      have := (List.getElem?_eq_some_iff.1 ht).2
      rw [← this, List.getElem_cons_drop, List.take_append_drop]
    rw [hsplit, List.map_append, List.pairwise_append] at hi
    have := hi.2.2 s.1 (List.mem_map.2 ⟨s, hs, rfl⟩) t.1 (by simp)
    omega
  rw [h2 s.1, if_neg (by
    rintro ⟨-, h⟩
    obtain ⟨t, ht, ht'⟩ := Option.map_eq_some_iff.1 h
    exact hne t ht ht')]
  have hn : (saves.take (j / 3)).filter (fun t => t.1 = s.1) = [s] := by
    have hp : ((saves.take (j / 3)).map Prod.fst).Pairwise (· < ·) := hi.sublist ((List.take_sublist _ _).map _)
    generalize saves.take (j / 3) = l at hs hp
    induction l with
    | nil => exact absurd hs (by simp)
    | cons a t ih =>
      rw [List.map_cons, List.pairwise_cons] at hp
      rcases List.mem_cons.1 hs with rfl | h
      · rw [List.filter_cons_of_pos (by simp)]
        congr 1
        refine List.filter_eq_nil_iff.2 fun b hb => ?_
        have := hp.1 b.1 (List.mem_map.2 ⟨b, hb, rfl⟩)
        simp only [decide_eq_true_eq]
        omega
      · have := hp.1 s.1 (List.mem_map.2 ⟨s, h, rfl⟩)
        rw [List.filter_cons_of_neg (by simp only [decide_eq_true_eq]; omega)]
        exact ih h hp.2
  rw [last, hn]
  rfl

theorem exec_removes (fs : Dict (List Char) (Content σ)) (w : fs.WF) (ks : List (List Char)) (hk : ∀ k ∈ ks, k ∈ fs.keys) (hn : ks.Nodup) :
    exec (some fs) (ks.map .remove) = .ok (some (ks.foldl Dict.pop fs)) := by
  induction ks generalizing fs with
  | nil => rfl
  | cons k t ih =>
    have hk0 : fs.has k = true := (Dict.mem_keys_iff fs k).1 (hk k (by simp))
    simp only [List.map_cons, exec, exec1, hk0, if_true, List.foldl_cons]
    refine ih (fs.pop k) (w.pop k) (fun k' h' => ?_) (List.nodup_cons.1 hn).2
    rw [Dict.mem_keys_iff, Dict.find_pop w, if_neg (fun h => (List.nodup_cons.1 hn).1 (by subst h; exact h')), ← Dict.mem_keys_iff]
    exact hk k' (List.mem_cons_of_mem _ h')

/-- **C124** Finishing a run interrupted after any number of removals, these being in any order: the last checkpoint is there as it was, and finishing again ends as if there
had been no interruption. -/
theorem C124_finishing (fs : Dict (List Char) (Content σ)) (w : fs.WF) (es : List Int) (hes : es ≠ []) (hk : fs.keys = es.map fun e => fileName (.int e))
    (ord ord' : List (List Char) → List (List Char)) (ho : ∀ l, (ord l).Perm l) (ho' : ∀ l, (ord' l).Perm l) (j : Nat) :
    ∃ m ∈ es, (∀ e ∈ es, e ≤ m) ∧ ∃ steps fs', finishPlan ord (some fs) = .ok (fileName (.int m), steps) ∧ exec (some fs) (steps.take j) = .ok (some fs') ∧
      fs'.find (fileName (.int m)) = fs.find (fileName (.int m)) ∧ (∀ f v, fs'.find f = some v → fs.find f = some v) ∧
      ∃ fs'', finishAll ord' (some fs') = .ok (fileName (.int m), some fs'') ∧ ∀ f, fs''.find f = if f = fileName (.int m) then fs.find f else none := by
  obtain ⟨m, hm1, hm2, hm3⟩ := maxEpoch_spec es hes
  have hp : ∀ (o : List (List Char) → List (List Char)) (l : List (List Char)), (∀ l, (o l).Perm l) → ∀ k, k ∈ o l ↔ k ∈ l := fun o l h k => (h l).mem_iff
  obtain ⟨ks, hks⟩ : ∃ ks, ks = (ord (fs.keys.filter (· ≠ fileName (.int m)))).take j := ⟨_, rfl⟩
  have hks1 : ∀ k ∈ ks, k ∈ fs.keys ∧ k ≠ fileName (.int m) := by
    intro k h
    rw [hks] at h
    have := (hp ord _ ho k).1 (List.mem_of_mem_take h)
    simpa using List.mem_filter.1 this
  have hks2 : ks.Nodup := by
    rw [hks]
    exact ((ho _).nodup_iff.2 (List.Nodup.filter _ w)).sublist (List.take_sublist _ _)
  obtain ⟨fs', hfs'⟩ : ∃ fs', fs' = ks.foldl Dict.pop fs := ⟨_, rfl⟩
  have hpop : ∀ (l : List (List Char)) (d : Dict (List Char) (Content σ)), d.WF → (l.foldl Dict.pop d).WF ∧ (l.foldl Dict.pop d).Sublist d := by
    intro l
    induction l with
    | nil => exact fun d h => ⟨h, List.Sublist.refl _⟩
    | cons k t ih => exact fun d h => ⟨(ih _ (h.pop k)).1, (ih _ (h.pop k)).2.trans (Dict.pop_sublist d k)⟩
  have w' : fs'.WF := hfs' ▸ (hpop ks fs w).1
  have hsub : fs'.Sublist fs := hfs' ▸ (hpop ks fs w).2
  have hf : ∀ f, fs'.find f = if f ∈ ks then none else fs.find f := fun f => by rw [hfs']; convert find_foldl_pop ks fs w f
  have hmk : fileName (.int m) ∉ ks := fun h => (hks1 _ h).2 rfl
  -- the epochs left
  obtain ⟨es', hes', hk'⟩ : ∃ es' : List Int, (∀ e, e ∈ es' → e ∈ es) ∧ fs'.keys = es'.map fun e => fileName (.int e) := by
    have hs : fs'.keys.Sublist (es.map fun e => fileName (.int e)) := hk ▸ hsub.map Prod.fst
    obtain ⟨es', h1, h2⟩ := List.sublist_map_iff.1 hs
    exact ⟨es', fun e he => h1.subset he, h2⟩
  have hm' : m ∈ es' := by
    have h0 : fileName (.int m) ∈ fs'.keys := by
      rw [Dict.mem_keys_iff, hf, if_neg hmk, ← Dict.mem_keys_iff, hk]
      exact List.mem_map.2 ⟨m, hm2, rfl⟩
    rw [hk'] at h0
    obtain ⟨e, he, hee⟩ := List.mem_map.1 h0
    exact fileName_inj hee ▸ he
  obtain ⟨m', g1, g2, g3⟩ := maxEpoch_spec es' (List.ne_nil_of_mem hm')
  have hmm : m' = m := le_antisymm (hm3 _ (hes' _ g2)) (g3 _ hm')
  subst hmm
  refine ⟨m', hm2, hm3, (ord (fs.keys.filter (· ≠ fileName (.int m')))).map .remove, fs', ?_, ?_, ?_, ?_, ?_⟩
  · simp only [finishPlan, hk, hm1]
  · rw [← List.map_take, ← hks, exec_removes fs w ks (fun k h => (hks1 k h).1) hks2, ← hfs']
  · rw [hf, if_neg hmk]
  · intro f v hv
    rw [hf] at hv
    split at hv
    · simp at hv
    · exact hv
  · obtain ⟨ks', hks'⟩ : ∃ ks', ks' = ord' (fs'.keys.filter (· ≠ fileName (.int m'))) := ⟨_, rfl⟩
    have h1 : ∀ k, k ∈ ks' ↔ k ∈ fs'.keys ∧ k ≠ fileName (.int m') := fun k => by
      rw [hks', hp ord' _ ho' k, List.mem_filter]
      simp
    have h2 : ks'.Nodup := by
      rw [hks']
      exact (ho' _).nodup_iff.2 (List.Nodup.filter _ w')
    refine ⟨ks'.foldl Dict.pop fs', ?_, fun f => ?_⟩
    · have e1 : finishPlan ord' (some fs') = .ok (fileName (.int m'), ks'.map .remove) := by
        simp only [finishPlan, hks', hk', g1]
      simp only [finishAll, e1, exec_removes fs' w' ks' (fun k h => ((h1 k).1 h).1) h2]
    · rw [find_foldl_pop ks' fs' w' f]
      by_cases hfm : f = fileName (.int m')
      · subst hfm
        rw [if_neg (fun h => ((h1 _).1 h).2 rfl), if_pos rfl, hf, if_neg hmk]
      · rw [if_neg hfm]
        split
        · rfl
        · rename_i hn
          by_contra hc
          refine hn ((h1 f).2 ⟨?_, hfm⟩)
          rw [Dict.mem_keys_iff]
          cases hx : fs'.find f with
          | none => exact absurd hx hc
          | some _ => rfl

/-- **C124** Finishing raises and removes nothing without directory, without checkpoint, or with a file that is not a checkpoint: the same exception as `finish` taken as a
single action, before the first removal. -/
theorem C124_raises (ord : List (List Char) → List (List Char)) :
    finishAll ord (none : Disk σ) = .error .osError ∧
    (∀ fs : Dict (List Char) (Content σ), fs.keys = [] ∨ (∃ f ∈ fs.keys, fileEpoch f = none) →
      finishPlan ord (some fs) = .error .valueError ∧ finishAll ord (some fs) = .error .valueError) ∧
    ∀ (d : Disk σ) (e : Err), (finish d).1 = .error e → finishPlan ord d = .error e := by
  have key : ∀ (d : Disk σ) (e : Err), (finish d).1 = .error e → finishPlan ord d = .error e := by
    intro d e h
    cases d with
    | none => simp only [finish] at h; simp only [finishPlan]; exact congrArg _ (by injection h)
    | some fs =>
      simp only [finish] at h
      simp only [finishPlan]
      cases hm : maxEpoch fs.keys with
      | none => rw [hm] at h; simp only at h ⊢; exact congrArg _ (by injection h)
      | some m => rw [hm] at h; simp at h
  have all : ∀ (d : Disk σ) (e : Err), finishPlan ord d = .error e → finishAll ord d = .error e := fun d e h => by simp only [finishAll, h]
  refine ⟨rfl, fun fs h => ?_, key⟩
  have hp : finishPlan ord (some fs) = .error .valueError := by
    refine key _ _ ?_
    rcases h with h | h
    · simp only [finish, h, maxEpoch]
    · rw [C59_foreign_partial fs h]
  exact ⟨hp, all _ _ hp⟩

/-- An empty directory, and one with a file of another kind beside a checkpoint. -/
example : finishAll id (some [] : Disk Nat) = .error .valueError := ((C124_raises (σ := Nat) id).2.1 [] (Or.inl rfl)).2
example : finishAll id (some [(fileName (.int 3), .whole 1), ("notes.txt".toList, .cut)] : Disk Nat) = .error .valueError :=
  ((C124_raises (σ := Nat) id).2.1 _ (Or.inr ⟨"notes.txt".toList, by decide +kernel, by decide +kernel⟩)).2

/-- **C124** violated: if the run is interrupted while a checkpoint is written (e.g. the disk is full) and then finished, the cut file is kept, being of the last epoch, and
all whole checkpoints are removed; for all histories and all new epochs. -/
theorem C124_cut_violated (saves : List (Int × σ)) (e : Int) (c : σ) (hlt : ∀ s ∈ saves, s.1 < e) (ord : List (List Char) → List (List Char)) (ho : ∀ l, (ord l).Perm l) :
    ∃ d d', exec none (((saves ++ [(e, c)]).flatMap saveSteps).take (3 * saves.length + 2)) = .ok d ∧ finishAll ord d = .ok (fileName (.int e), d') ∧
      look d' e = some .cut ∧ ∀ e', e' ≠ e → look d' e' = none := by
  obtain ⟨d, h1, h2, h3⟩ := C124_saving (saves ++ [(e, c)]) (3 * saves.length + 2)
  have a1 : (3 * saves.length + 2) / 3 = saves.length := by omega
  have a2 : (3 * saves.length + 2) % 3 = 2 := by omega
  simp only [a1, a2, true_and, List.getElem?_concat_length, Option.map_some, Option.some.injEq] at h2
  have he : look d e = some .cut := by rw [h2 e, if_pos rfl]
  cases d with
  | none => simp [look] at he
  | some fs =>
    -- the directory is well formed
    have hw : fs.WF ∧ ∃ es : List Int, fs.keys = es.map (fun e => fileName (.int e)) ∧ (∀ x ∈ es, x ≤ e) ∧ e ∈ es := by
      have hx := h1
      rw [take_steps, exec_append, exec_saves, a1, a2, List.getElem?_concat_length] at hx
      obtain ⟨d0, hd0⟩ : ∃ d0, d0 = saved (wholes ((saves ++ [(e, c)]).take saves.length)) := ⟨_, rfl⟩
      have hd' : (wholes ((saves ++ [(e, c)]).take saves.length)).foldl (fun d s => (saveModel d (.int s.1) s.2).2) none = d0 := hd0.symm
      rw [hd'] at hx
      obtain ⟨-, es, k2, k3, k4⟩ := look_saved _ d0 hd0
      have hx' : some ((d0.getD []).set (fileName (.int e)) .cut) = some fs := by
        have : exec d0 ((saveSteps (e, c)).take 2) = .ok (some ((d0.getD []).set (fileName (.int e)) .cut)) := rfl
        have h := this.symm.trans hx
        exact Except.ok.inj h
      have hfs := Option.some.inj hx'
      rw [List.take_left' rfl] at k4
      have hne : fileName (.int e) ∉ (d0.getD []).keys := by
        rw [k2]
        intro h
        obtain ⟨x, hx1, hx2⟩ := List.mem_map.1 h
        obtain ⟨s, hs1, hs2⟩ := List.mem_map.1 ((k4 x).1 hx1)
        have := hlt s hs1
        have := fileName_inj hx2
        omega
      refine ⟨hfs ▸ k3.set _ _, es ++ [e], ?_, ?_, by simp⟩
      · rw [← hfs, Dict.keys_set, if_neg hne, k2, List.map_append]
        rfl
      · intro x hx1
        rcases List.mem_append.1 hx1 with h | h
        · obtain ⟨s, hs1, hs2⟩ := List.mem_map.1 ((k4 x).1 h)
          have := hlt s hs1
          omega
        · exact (List.mem_singleton.1 h).le
    obtain ⟨hw1, es, hk, hle, hmem⟩ := hw
    obtain ⟨m, hm1, hm2, steps, fs', -, q2, -, -, fs'', q3, q4⟩ := C124_finishing fs hw1 es (List.ne_nil_of_mem hmem) hk ord ord ho ho 0
    have hmm : m = e := le_antisymm (hle m hm1) (hm2 e hmem)
    subst hmm
    have hfs' : fs' = fs := by
      simp only [List.take_zero, exec, Except.ok.injEq, Option.some.injEq] at q2
      exact q2.symm
    rw [hfs'] at q3
    refine ⟨some fs, some fs'', h1, q3, ?_, fun e' hne => ?_⟩
    · show fs''.find _ = _
      rw [q4, if_pos rfl]
      exact he
    · show fs''.find _ = _
      rw [q4, if_neg (fun h => hne (fileName_inj h))]

/-- **C124** violated: a checkpoint written again (the epochs of a second fit start again from 0) is lost by an interruption, although it had been saved. -/
theorem C124_overwritten_violated (e : Int) (c c' : σ) :
    ∃ d d', exec none ([(e, c)].flatMap saveSteps) = .ok d ∧ look d e = some (.whole c) ∧ exec d ((saveSteps (e, c')).take 2) = .ok d' ∧ look d' e = some .cut := by
  refine ⟨_, _, rfl, ?_, rfl, ?_⟩
  · simp [look, Dict.find_set, Dict.find, Dict.set]
  · simp [look, Dict.find_set, Dict.find, Dict.set]

/-! ## C125: several runs -/

theorem sched_other (fs : FS σ) (s : List (List (List Char) × (Disk σ → Except Err (Disk σ)))) (p : List (List Char)) :
    sched fs s p = sched fs (s.filter fun x => x.1 = p) p := by
  have key : ∀ (s : List (List (List Char) × (Disk σ → Except Err (Disk σ)))) (fs fs' : FS σ), fs p = fs' p →
      sched fs s p = sched fs' (s.filter fun x => x.1 = p) p := by
    intro s
    induction s with
    | nil => exact fun fs fs' h => h
    | cons x t ih =>
      intro fs fs' h
      obtain ⟨q, a⟩ := x
      by_cases hq : q = p
      · subst hq
        rw [List.filter_cons_of_pos (by simp)]
        refine ih _ _ ?_
        simp only [act, h]
        cases a (fs' q) with
        | ok d => simp
        | error e => exact h
      · rw [List.filter_cons_of_neg (by simpa using hq)]
        refine ih _ _ (h ▸ ?_)
        simp only [act]
        cases a (fs q) with
        | ok d => simp [Ne.symm hq]
        | error e => rfl
  exact key s fs fs rfl

/-- **C125** Runs in different directories do not disturb each other: whatever the schedule, each directory ends as if its run had been alone. -/
theorem C125_isolated (fs : FS σ) (s : List (List (List Char) × (Disk σ → Except Err (Disk σ)))) (p : List (List Char)) :
    sched fs s p = sched fs (s.filter fun x => x.1 = p) p := sched_other fs s p

theorem digitChr_inj {a b : Nat} (ha : a < 10) (hb : b < 10) (h : digitChr a = digitChr b) : a = b := by
  have h1 := chrDigit_digitChr a ha
  rw [h, chrDigit_digitChr b hb] at h1
  exact (Option.some.inj h1).symm

theorem two_inj {a b : Nat} (ha : a < 100) (hb : b < 100) (h : two a = two b) : a = b := by
  simp only [two, List.cons.injEq, and_true] at h
  have h1 := digitChr_inj (by omega) (by omega) h.1
  have h2 := digitChr_inj (by omega) (by omega) h.2
  omega

theorem mon_inj (a b : Fin 12) (h : mon a = mon b) : a = b := by
  revert a b
  decide

theorem mon_length (a : Fin 12) : (mon a).length = 3 := by
  revert a
  decide

/-- **C125** The directories of two runs are the same exactly if they have the same experiment name and host and start in the same second of the year. -/
theorem C125_directory (e e' : List Char) (t t' : Time) (ht : t.Valid) (ht' : t'.Valid) (h h' : List Char) :
    dirModel e t h = dirModel e' t' h' ↔ e = e' ∧ h = h' ∧ t.month = t'.month ∧ t.day = t'.day ∧ t.hour = t'.hour ∧ t.minute = t'.minute ∧ t.second = t'.second := by
  constructor
  · intro hd
    simp only [dirModel, List.cons.injEq, true_and, and_true] at hd
    obtain ⟨he, hi⟩ := hd
    simp only [ident, List.append_assoc] at hi
    obtain ⟨i1, hi⟩ := List.append_inj hi (by rw [mon_length, mon_length])
    obtain ⟨i2, hi⟩ := List.append_inj hi rfl
    obtain ⟨-, hi⟩ := List.append_inj hi rfl
    obtain ⟨i3, hi⟩ := List.append_inj hi rfl
    obtain ⟨-, hi⟩ := List.append_inj hi rfl
    obtain ⟨i4, hi⟩ := List.append_inj hi rfl
    obtain ⟨-, hi⟩ := List.append_inj hi rfl
    obtain ⟨i5, hi⟩ := List.append_inj hi rfl
    obtain ⟨-, hi⟩ := List.append_inj hi rfl
    exact ⟨he, hi, mon_inj _ _ i1, two_inj ht.1 ht'.1 i2, two_inj ht.2.1 ht'.2.1 i3, two_inj ht.2.2.1 ht'.2.2.1 i4, two_inj ht.2.2.2 ht'.2.2.2 i5⟩
  · rintro ⟨rfl, rfl, h1, h2, h3, h4, h5⟩
    simp only [dirModel, ident, h1, h2, h3, h4, h5]

/-- **C125** violated: two runs of the same experiment on the same host started in the same second share their directory, also in different years. If the second has fewer
epochs, finishing it keeps the checkpoint of the first, removes all its own and returns the file of the other run. -/
theorem C125_shared_violated (m n : Nat) (hm : 0 < m) (hmn : m < n) (a b : Nat → σ) (e h : List Char) (t t' : Time)
    (ht : t' = { t with year := t'.year }) :
    dirModel e t h = dirModel e t' h ∧
    ∃ fs fs', finish (saved ((List.range n).map fun k : Nat => ((k : Int), a k))) = (.ok (fileName (.int (n - 1 : Nat))), some fs) ∧
      finish (((List.range m).map fun k : Nat => ((k : Int), b k)).foldl (fun d s => (saveModel d (.int s.1) s.2).2) (some fs)) = (.ok (fileName (.int (n - 1 : Nat))), some fs') ∧
      fs'.find (fileName (.int (n - 1 : Nat))) = some (a (n - 1)) ∧ ∀ k : Nat, k < m → fs'.find (fileName (.int k)) = none := by
  refine ⟨by rw [ht]; rfl, ?_⟩
  obtain ⟨c, hc⟩ : ∃ c, c = n - 1 := ⟨_, rfl⟩
  have hn : n = c + 1 := by omega
  subst hn
  have hcm : m ≤ c := by omega
  simp only [Nat.add_sub_cancel] at *
  obtain ⟨x, fs, h1, h2, h3, h4, h5⟩ := C59 ((List.range (c + 1)).map fun k : Nat => ((k : Int), a k)) (by simp)
  have hx : x = (c : Int) := by
    simp only [List.map_map, List.mem_map, List.mem_range, Function.comp] at h1 h2
    obtain ⟨k, hk, hk'⟩ := h1
    have := h2 c ⟨c, by omega, rfl⟩
    have : (k : Int) ≤ c := by exact_mod_cast (show k ≤ c by omega)
    omega
  subst hx
  have w : fs.WF ∧ fs.keys = [(c : Int)].map fun e => fileName (.int e) := by
    have hsv : saved ((List.range (c + 1)).map fun k : Nat => ((k : Int), a k)) = ((List.range (c + 1)).map fun k : Nat => ((k : Int), a k)).foldl (fun d s => (saveModel d (.int s.1) s.2).2) none := rfl
    obtain ⟨s, tl, hst⟩ := List.exists_cons_of_ne_nil (show ((List.range (c + 1)).map fun k : Nat => ((k : Int), a k)) ≠ [] by simp)
    rw [hst] at h3
    have hs : saved (s :: tl) = (s :: tl).foldl (fun d s => (saveModel d (.int s.1) s.2).2) (some ([] : Dict (List Char) σ)) := rfl
    obtain ⟨fs0, es, g1, g2, g3, -, -⟩ := saved_foldl (s :: tl) ([] : Dict (List Char) σ) [] Dict.WF.nil rfl
    rw [hs, g1] at h3
    unfold finish at h3
    have hsub : ∀ (l : List (List Char)) (d : Dict (List Char) σ), d.WF → (l.foldl Dict.pop d).WF := by
      intro l
      induction l with
      | nil => exact fun d h => h
      | cons k t ih => exact fun d h => ih _ (h.pop k)
    have hwf : fs.WF := by
      cases hmx : maxEpoch fs0.keys with
      | none => simp only [hmx] at h3; simp at h3
      | some mm =>
        simp only [hmx] at h3
        have := (Prod.mk.inj h3).2
        rw [← Option.some.inj this]
        exact hsub _ _ g2
    refine ⟨hwf, ?_⟩
    have hk : ∀ f, f ∈ fs.keys ↔ f = fileName (.int (c : Int)) := h5
    have hnd : fs.keys.Nodup := hwf
    cases hfk : fs.keys with
    | nil =>
      have := (hk _).2 rfl
      rw [hfk] at this
      simp at this
    | cons f0 tl0 =>
      have hf0 : f0 = fileName (.int (c : Int)) := (hk f0).1 (by rw [hfk]; simp)
      rw [hfk, List.nodup_cons] at hnd
      cases tl0 with
      | nil => rw [hf0]; rfl
      | cons f1 tl1 =>
        have hf1 : f1 = fileName (.int (c : Int)) := (hk f1).1 (by rw [hfk]; simp)
        exact absurd (by rw [hf0, hf1]; simp) hnd.1
  obtain ⟨w1, w2⟩ := w
  obtain ⟨fs1, es1, g1, g2, g3, g4, g5⟩ := saved_foldl ((List.range m).map fun k : Nat => ((k : Int), b k)) fs [(c : Int)] w1 w2
  have hes1 : es1 ≠ [] := List.ne_nil_of_mem ((g4 (c : Int)).2 (Or.inl (by simp)))
  obtain ⟨x, m1, m2, m3⟩ := maxEpoch_spec es1 hes1
  have hx : x = (c : Int) := by
    refine le_antisymm ?_ (m3 _ ((g4 (c : Int)).2 (Or.inl (by simp))))
    rcases (g4 x).1 m2 with h | h
    · exact (List.mem_singleton.1 h).le
    · simp only [List.map_map, List.mem_map, List.mem_range, Function.comp] at h
      obtain ⟨k, hk, rfl⟩ := h
      exact_mod_cast (show k ≤ c by omega)
  subst hx
  refine ⟨fs, (fs1.keys.filter (· ≠ fileName (.int (c : Int)))).foldl Dict.pop fs1, h3, ?_, ?_, fun k hk => ?_⟩
  · rw [g1]
    unfold finish
    simp only [g3, m1]
  · rw [find_foldl_pop _ _ g2, if_neg (by simp), g5]
    have e1 : ((List.range m).map fun k : Nat => ((k : Int), b k)).filter (fun s => s.1 = (c : Int)) = [] := by
      refine List.filter_eq_nil_iff.2 fun s hs => ?_
      obtain ⟨k, hk, rfl⟩ := List.mem_map.1 hs
      have := List.mem_range.1 hk
      simp only [decide_eq_true_eq, Nat.cast_inj]
      omega
    rw [e1, h4]
    have e2 : ((List.range (c + 1)).map fun k : Nat => ((k : Int), a k)).filter (fun s => s.1 = (c : Int)) = [((c : Int), a c)] := by
      rw [List.range_succ, List.map_append, List.filter_append]
      have : ((List.range c).map fun k : Nat => ((k : Int), a k)).filter (fun s => s.1 = (c : Int)) = [] := by
        refine List.filter_eq_nil_iff.2 fun s hs => ?_
        obtain ⟨k, hk, rfl⟩ := List.mem_map.1 hs
        have := List.mem_range.1 hk
        simp only [decide_eq_true_eq, Nat.cast_inj]
        omega
      rw [this]
      simp
    rw [e2]
    rfl
  · rw [find_foldl_pop _ _ g2]
    split
    · rfl
    · rename_i hn
      by_contra hc
      refine hn (List.mem_filter.2 ⟨?_, ?_⟩)
      · rw [Dict.mem_keys_iff]
        cases hx : Dict.find fs1 (fileName (.int (k : Int))) with
        | none => exact absurd hx hc
        | some _ => rfl
      · simp only [decide_eq_true_eq]
        intro h
        have := fileName_inj h
        have : k = c := by exact_mod_cast this
        omega

/-- **C125** violated: if two runs sharing their directory finish at the same time (both list the files, then one removes what it has listed), the other raises
`FileNotFoundError`; for all directories with at least two checkpoints and all orders. -/
theorem C125_race_violated (fs : Dict (List Char) (Content σ)) (w : fs.WF) (es : List Int) (h2 : 2 ≤ es.length) (hk : fs.keys = es.map fun e => fileName (.int e))
    (ord ord' : List (List Char) → List (List Char)) (ho : ∀ l, (ord l).Perm l) (ho' : ∀ l, (ord' l).Perm l) :
    ∃ f a b d, finishPlan ord (some fs) = .ok (f, a) ∧ finishPlan ord' (some fs) = .ok (f, b) ∧ exec (some fs) a = .ok d ∧ exec d b = .error .osError := by
  have hes : es ≠ [] := by rintro rfl; simp at h2
  obtain ⟨m, hm1, hm2, hm3⟩ := maxEpoch_spec es hes
  obtain ⟨ks, hks⟩ : ∃ ks, ks = ord (fs.keys.filter (· ≠ fileName (.int m))) := ⟨_, rfl⟩
  have k1 : ∀ k, k ∈ ks ↔ k ∈ fs.keys ∧ k ≠ fileName (.int m) := fun k => by
    rw [hks, (ho _).mem_iff, List.mem_filter]; simp
  have k2 : ks.Nodup := by rw [hks]; exact (ho _).nodup_iff.2 (List.Nodup.filter _ w)
  obtain ⟨ks', hks'⟩ : ∃ ks', ks' = ord' (fs.keys.filter (· ≠ fileName (.int m))) := ⟨_, rfl⟩
  have k1' : ∀ k, k ∈ ks' ↔ k ∈ fs.keys ∧ k ≠ fileName (.int m) := fun k => by
    rw [hks', (ho' _).mem_iff, List.mem_filter]; simp
  have hne : ks' ≠ [] := by
    intro h0
    have hall : ∀ k ∈ fs.keys, k = fileName (.int m) := fun k hk' => by
      by_contra hc
      have := (k1' k).2 ⟨hk', hc⟩
      rw [h0] at this
      simp at this
    have hnd : fs.keys.Nodup := w
    have hlen : fs.keys.length = es.length := by rw [hk, List.length_map]
    cases hfk : fs.keys with
    | nil => rw [hfk] at hlen; simp at hlen; omega
    | cons f0 t0 =>
      cases t0 with
      | nil => rw [hfk] at hlen; simp at hlen; omega
      | cons f1 t1 =>
        rw [hfk, List.nodup_cons] at hnd
        have a0 := hall f0 (by rw [hfk]; simp)
        have a1 := hall f1 (by rw [hfk]; simp)
        exact hnd.1 (by rw [a0, a1]; simp)
  refine ⟨fileName (.int m), ks.map .remove, ks'.map .remove, some (ks.foldl Dict.pop fs), ?_, ?_, exec_removes fs w ks (fun k h => ((k1 k).1 h).1) k2, ?_⟩
  · rw [hks]; simp only [finishPlan, hk, hm1]
  · rw [hks']; simp only [finishPlan, hk, hm1]
  · obtain ⟨k, t, hkt⟩ := List.exists_cons_of_ne_nil hne
    rw [hkt, List.map_cons]
    have : (ks.foldl Dict.pop fs).has k = false := by
      unfold Dict.has
      rw [find_foldl_pop ks fs w k, if_pos ((k1 k).2 ((k1' k).1 (by rw [hkt]; simp)))]
      rfl
    simp only [exec, exec1, this]
    rfl

/-! ## Examples -/

/-- Three epochs, the third checkpoint being written when the run is interrupted. -/
example : exec none (([(0, 'a'), (1, 'b'), (2, 'c')] : List (Int × Char)).flatMap saveSteps |>.take 8) =
    .ok (some [(fileName (.int 0), .whole 'a'), (fileName (.int 1), .whole 'b'), (fileName (.int 2), .cut)]) := by rfl

example : ident ⟨2024, 1, 29, 7, 5, 59⟩ ['h'] = "Feb29_07-05-59_h".toList := by decide +kernel

/-- The hypotheses of `C124_finishing` and `C125_race_violated` are met by this directory. -/
example : (Dict.keys [(fileName (.int 0), Content.whole 'a'), (fileName (.int 1), .whole 'b')]) = ([0, 1] : List Int).map (fun e => fileName (.int e)) ∧
    Dict.WF [(fileName (.int 0), Content.whole 'a'), (fileName (.int 1), .whole 'b')] := by
  constructor
  · rfl
  · unfold Dict.WF Dict.keys
    decide

end Crash
end Kerch
