import Verif.Model.Dict
/-! Helper lemmas on dictionaries. -/
set_option linter.unusedSectionVars false
set_option linter.unusedSimpArgs false
namespace Kerch.Dict
variable {κ ν : Type} [DecidableEq κ]

@[simp] theorem find_nil (k : κ) : find ([] : Dict κ ν) k = none := rfl

theorem find_set (d : Dict κ ν) (k k' : κ) (v : ν) :
    find (set d k v) k' = if k = k' then some v else find d k' := by
  induction d with
  | nil => simp [set, find]
  | cons p t ih =>
    obtain ⟨a, b⟩ := p
    simp only [set]
    split
    · subst_vars; simp only [find]; split <;> simp_all
    · simp only [find, ih]; split <;> split <;> simp_all

theorem mem_keys_iff (d : Dict κ ν) (k : κ) : k ∈ d.keys ↔ (find d k).isSome := by
  induction d with
  | nil => simp [keys]
  | cons p t ih =>
    obtain ⟨a, b⟩ := p
    simp only [keys, List.map_cons, List.mem_cons, find] at *
    split
    · simp_all
    · rw [ih]
      constructor
      · rintro (h | h)
        · exact absurd h.symm (by assumption)
        · exact h
      · exact Or.inr

theorem find_eq_none_iff (d : Dict κ ν) (k : κ) : find d k = none ↔ k ∉ d.keys := by
  rw [mem_keys_iff]; simp

theorem mem_of_find {d : Dict κ ν} {k : κ} {v : ν} (h : find d k = some v) : (k, v) ∈ d := by
  induction d with
  | nil => simp at h
  | cons p t ih =>
    obtain ⟨a, b⟩ := p
    simp only [find] at h
    split at h
    · simp_all
    · exact List.mem_cons_of_mem _ (ih h)

theorem find_of_mem {d : Dict κ ν} (w : d.WF) {k : κ} {v : ν} (h : (k, v) ∈ d) : find d k = some v := by
  induction d with
  | nil => simp at h
  | cons p t ih =>
    obtain ⟨a, b⟩ := p
    simp only [WF, keys, List.map_cons, List.nodup_cons] at w
    simp only [find]
    rcases List.mem_cons.1 h with h | h
    · simp_all
    · have : a ≠ k := by
        rintro rfl
        exact w.1 (List.mem_map.2 ⟨_, h, rfl⟩)
      simp [this, ih w.2 h]

theorem keys_set (d : Dict κ ν) (k : κ) (v : ν) :
    keys (set d k v) = if k ∈ d.keys then keys d else keys d ++ [k] := by
  induction d with
  | nil => simp [set, keys]
  | cons p t ih =>
    obtain ⟨a, b⟩ := p
    simp only [set, keys, List.map_cons, List.mem_cons] at *
    split
    · simp_all
    · have hne : k ≠ a := fun e => (by assumption : ¬ a = k) e.symm
      simp only [List.map_cons, ih, hne, false_or]
      split <;> simp_all

theorem WF.set {d : Dict κ ν} (w : d.WF) (k : κ) (v : ν) : (d.set k v).WF := by
  unfold WF at *
  rw [keys_set]
  split
  · exact w
  · rw [List.nodup_append]
    refine ⟨w, by simp, ?_⟩
    intro a ha b hb
    simp only [List.mem_singleton] at hb
    subst hb
    rintro rfl
    contradiction

theorem pop_sublist (d : Dict κ ν) (k : κ) : (d.pop k).Sublist d := by
  induction d with
  | nil => simp [pop]
  | cons p t ih =>
    obtain ⟨a, b⟩ := p
    simp only [pop]
    split
    · exact List.sublist_cons_self _ _
    · exact ih.cons_cons _

theorem WF.sublist {d e : Dict κ ν} (w : d.WF) (h : e.Sublist d) : e.WF :=
  List.Nodup.sublist (h.map Prod.fst) w

theorem WF.pop {d : Dict κ ν} (w : d.WF) (k : κ) : (d.pop k).WF := w.sublist (pop_sublist d k)

theorem WF.nil : WF ([] : Dict κ ν) := by simp [WF, keys]

theorem find_pop {d : Dict κ ν} (w : d.WF) (k k' : κ) :
    find (pop d k) k' = if k = k' then none else find d k' := by
  induction d with
  | nil => simp [pop, find]
  | cons p t ih =>
    obtain ⟨a, b⟩ := p
    have w' : WF t := by simp only [WF, keys, List.map_cons, List.nodup_cons] at w; exact w.2
    simp only [pop]
    split
    · rename_i hak
      subst hak
      split
      · rename_i h; subst h
        rw [find_eq_none_iff]
        simp only [WF, keys, List.map_cons, List.nodup_cons] at w
        exact w.1
      · simp [find, *]
    · simp only [find, ih w']
      split <;> split <;> simp_all

theorem mem_pop {d : Dict κ ν} {k : κ} {p : κ × ν} (h : p ∈ pop d k) : p ∈ d :=
  (pop_sublist d k).mem h

theorem find_filter {d : Dict κ ν} (w : d.WF) (q : κ × ν → Bool) (k : κ) :
    find (d.filter q) k = (find d k).filter (fun v => q (k, v)) := by
  induction d with
  | nil => simp
  | cons p t ih =>
    obtain ⟨a, b⟩ := p
    have w' : WF t := by simp only [WF, keys, List.map_cons, List.nodup_cons] at w; exact w.2
    have hnot : find t a = none := by
      rw [find_eq_none_iff]
      simp only [WF, keys, List.map_cons, List.nodup_cons] at w
      exact w.1
    rw [List.filter_cons]
    split
    · rename_i hq
      simp only [find]
      split
      · rename_i h; subst h; simp [Option.filter, hq]
      · exact ih w'
    · rename_i hq
      simp only [find]
      split
      · rename_i h; subst h
        rw [ih w', hnot]
        simp [Option.filter, hq]
      · exact ih w'

theorem WF.merge {d : Dict κ ν} (w : d.WF) (e : Dict κ ν) : (merge d e).WF := by
  unfold Dict.merge
  induction e generalizing d with
  | nil => simpa
  | cons p t ih => exact ih (w.set _ _)

theorem find_merge (d e : Dict κ ν) (we : e.WF) (k : κ) :
    find (merge d e) k = (find e k).orElse (fun _ => find d k) := by
  unfold merge
  induction e generalizing d with
  | nil => simp
  | cons p t ih =>
    obtain ⟨a, b⟩ := p
    have w' : WF t := by simp only [WF, keys, List.map_cons, List.nodup_cons] at we; exact we.2
    have hnot : find t a = none := by
      rw [find_eq_none_iff]
      simp only [WF, keys, List.map_cons, List.nodup_cons] at we
      exact we.1
    rw [List.foldl_cons, ih _ w', find_set]
    simp only [find]
    split
    · rename_i h; subst h; simp [hnot]
    · rfl

end Kerch.Dict
