import Verif.Model.Parts
import Mathlib.Tactic
/-!
# C117: what is asked of a model is done to all its parts
-/
set_option linter.unusedSectionVars false
set_option linter.unusedSimpArgs false
namespace Kerch
namespace Parts

variable {S A : Type}

/-! ## Helper lemmas -/

mutual
/-- What holds of all modules and is kept by a selection holds after it. -/
theorem stoch_inv (P : Own S A → Prop) (Q : Option S → Prop) (hs : ∀ i o, Q i → P o → P (o.select i)) (hq : ∀ i o, Q i → P o → ∀ t, o.total = some t → Q (some (i.getD t)))
    (hl : ∀ i o, Q i → P o → Q (o.select i).idx) (i : Option S) (hi : Q i) : ∀ p : Part S A, (∀ o ∈ p.all, P o) → ∀ o ∈ (p.stoch i).all, P o
  | .node o k => by
    intro h q hm
    have ho := h o (by simp [Part.all])
    have hk : ∀ x ∈ allL k, P x := fun x hx => h x (by simp [Part.all, hx])
    simp only [Part.stoch, Part.all, List.mem_cons] at hm
    rcases hm with rfl | hm
    · exact hs i o hi ho
    · cases ht : o.total with
      | none => rw [ht] at hm; exact hk q hm
      | some t => rw [ht] at hm; exact stochL_inv P Q hs hq hl _ (hq i o hi ho t ht) k hk q hm
  | .model o k l => by
    intro h q hm
    have ho := h o (by simp [Part.all])
    have hk : ∀ x ∈ allL k, P x := fun x hx => h x (by simp [Part.all, hx])
    have hll : ∀ x ∈ allL l, P x := fun x hx => h x (by simp [Part.all, hx])
    simp only [Part.stoch, Part.all, List.mem_cons, List.mem_append] at hm
    rcases hm with rfl | hm | hm
    · exact hs i o hi ho
    · cases ht : o.total with
      | none => rw [ht] at hm; exact hk q hm
      | some t => rw [ht] at hm; exact stochL_inv P Q hs hq hl _ (hq i o hi ho t ht) k hk q hm
    · exact levelStoch_inv P Q hs hq hl _ (hl i o hi ho) l hll q hm
theorem stochL_inv (P : Own S A → Prop) (Q : Option S → Prop) (hs : ∀ i o, Q i → P o → P (o.select i)) (hq : ∀ i o, Q i → P o → ∀ t, o.total = some t → Q (some (i.getD t)))
    (hl : ∀ i o, Q i → P o → Q (o.select i).idx) (i : Option S) (hi : Q i) : ∀ k : List (Part S A), (∀ o ∈ allL k, P o) → ∀ o ∈ allL (stochL i k), P o
  | [] => by intro h q hm; simp [stochL, allL] at hm
  | p :: t => by
    intro h q hm
    have hp : ∀ x ∈ p.all, P x := fun x hx => h x (by simp [allL, hx])
    have ht : ∀ x ∈ allL t, P x := fun x hx => h x (by simp [allL, hx])
    simp only [stochL, allL, List.mem_append] at hm
    rcases hm with hm | hm
    · split at hm
      · exact stoch_inv P Q hs hq hl i hi p hp q hm
      · exact hp q hm
    · exact stochL_inv P Q hs hq hl i hi t ht q hm
theorem levelStoch_inv (P : Own S A → Prop) (Q : Option S → Prop) (hs : ∀ i o, Q i → P o → P (o.select i)) (hq : ∀ i o, Q i → P o → ∀ t, o.total = some t → Q (some (i.getD t)))
    (hl : ∀ i o, Q i → P o → Q (o.select i).idx) (i : Option S) (hi : Q i) : ∀ k : List (Part S A), (∀ o ∈ allL k, P o) → ∀ o ∈ allL (levelStoch i k), P o
  | [] => by intro h q hm; simp [levelStoch, allL] at hm
  | p :: t => by
    intro h q hm
    have hp : ∀ x ∈ p.all, P x := fun x hx => h x (by simp [allL, hx])
    have ht : ∀ x ∈ allL t, P x := fun x hx => h x (by simp [allL, hx])
    simp only [levelStoch, allL, List.mem_append] at hm
    rcases hm with hm | hm
    · exact stoch_inv P Q hs hq hl i hi p hp q hm
    · exact levelStoch_inv P Q hs hq hl i hi t ht q hm
end

mutual
theorem stoch_height (i : Option S) : ∀ p : Part S A, (p.stoch i).height = p.height
  | .node o k => by
    simp only [Part.stoch, Part.height]
    cases o.total with
    | none => rfl
    | some t => simp only [stochL_height _ k]
  | .model o k l => by
    simp only [Part.stoch, Part.height, levelStoch_height _ l]
    cases o.total with
    | none => rfl
    | some t => simp only [stochL_height _ k]
theorem stochL_height (i : Option S) : ∀ k : List (Part S A), heightL (stochL i k) = heightL k
  | [] => rfl
  | p :: t => by
    simp only [stochL, heightL, stochL_height i t]
    split
    · rw [stoch_height i p]
    · rfl
theorem levelStoch_height (i : Option S) : ∀ k : List (Part S A), heightL (levelStoch i k) = heightL k
  | [] => rfl
  | p :: t => by simp only [levelStoch, heightL, levelStoch_height i t, stoch_height i p]
end

theorem allL_map (g : Part S A → Part S A) (P : Own S A → Prop) : ∀ k : List (Part S A), (∀ p ∈ k, ∀ o ∈ (g p).all, P o) → ∀ o ∈ allL (k.map g), P o
  | [] => by intro h o ho; simp [allL] at ho
  | p :: t => by
    intro h o ho
    simp only [List.map_cons, allL, List.mem_append] at ho
    rcases ho with ho | ho
    · exact h p (by simp) o ho
    · exact allL_map g P t (fun p hp => h p (by simp [hp])) o ho

theorem height_mem : ∀ (k : List (Part S A)) (p : Part S A), p ∈ k → p.height ≤ heightL k
  | [], p, h => by simp at h
  | q :: t, p, h => by
    simp only [heightL]
    rcases List.mem_cons.mp h with rfl | h
    · exact le_max_left _ _
    · exact (height_mem t p h).trans (le_max_right _ _)

theorem all_mem : ∀ (k : List (Part S A)) (p : Part S A), p ∈ k → ∀ o ∈ p.all, o ∈ allL k
  | [], p, h => by simp at h
  | q :: t, p, h => by
    intro o ho
    simp only [allL, List.mem_append]
    rcases List.mem_cons.mp h with rfl | h
    · exact .inl ho
    · exact .inr (all_mem t p h o ho)

theorem height_pos (p : Part S A) : 0 < p.height := by cases p <;> simp only [Part.height] <;> omega

/-- What `train` makes of what a module holds itself. -/
def Own.trained (mode : Bool) (o : Own S A) : Own S A :=
  if o.rank = .stochastic ∧ mode = false then ({ o with training := mode } : Own S A).select none else { o with training := mode }

theorem afterTrain_pos {mode : Bool} {p : Part S A} (h : p.own.rank = .stochastic ∧ mode = false) : p.afterTrain mode = p.stoch none := by
  unfold Part.afterTrain Part.isStoch; rw [if_pos (by simp [h.1, h.2])]
theorem afterTrain_neg {mode : Bool} {p : Part S A} (h : ¬ (p.own.rank = .stochastic ∧ mode = false)) : p.afterTrain mode = p := by
  unfold Part.afterTrain Part.isStoch; rw [if_neg (by cases mode <;> simp_all)]

/-- What holds of all modules after `train`: `C` is known before, `P` is established. -/
theorem trainN_inv (mode : Bool) (C P : Own S A → Prop) (hC : ∀ i o, C o → C (o.select i)) (hCt : ∀ o, C o → C { o with training := mode }) (hO : ∀ o, C o → P (o.trained mode))
    (hK : ∀ (o : Own S A) t, C o → mode = false → o.total = some t → ∀ k : List (Part S A), (∀ x ∈ allL k, P x) → ∀ x ∈ allL (stochL (some t) k), P x) :
    ∀ n (p : Part S A), p.height ≤ n → (∀ o ∈ p.all, C o) → ∀ o ∈ (trainN mode n p).all, P o := by
  intro n
  induction n with
  | zero => intro p hp; have := height_pos p; omega
  | succ n ih =>
    intro p hp h
    have kidsP : ∀ k : List (Part S A), heightL k ≤ n → (∀ o ∈ allL k, C o) → ∀ o ∈ allL (k.map (trainN mode n)), P o := by
      intro k hk hc
      refine allL_map _ _ k fun q hq => ih q ((height_mem k q hq).trans hk) fun o ho => hc o (all_mem k q hq o ho)
    have hCC : ∀ i (k : List (Part S A)), (∀ o ∈ allL k, C o) → ∀ o ∈ allL (levelStoch i k), C o := fun i k hk =>
      levelStoch_inv C (fun _ => True) (fun i o _ => hC i o) (fun _ _ _ _ _ _ => trivial) (fun _ _ _ _ => trivial) i trivial k hk
    cases p with
    | node o k =>
      have ho := h o (by simp [Part.all])
      have hk : ∀ x ∈ allL k, C x := fun x hx => h x (by simp [Part.all, hx])
      have hkn : heightL k ≤ n := by simp only [Part.height] at hp; omega
      have kk := kidsP k hkn hk
      have hOo := hO o ho
      simp only [trainN, Part.torchTrain]
      unfold Own.trained at hOo
      by_cases hb : o.rank = .stochastic ∧ mode = false
      · rw [if_pos hb] at hOo
        rw [afterTrain_pos (by exact hb)]
        simp only [Part.stoch, Part.mapLevels, Part.all, List.mem_cons]
        rintro x (rfl | hx)
        · exact hOo
        · cases ht : o.total with
          | none => rw [ht] at hx; exact kk x hx
          | some t => rw [ht] at hx; exact hK o t ho hb.2 ht _ kk x hx
      · rw [if_neg hb] at hOo
        rw [afterTrain_neg (by exact hb)]
        simp only [Part.mapLevels, Part.all, List.mem_cons]
        rintro x (rfl | hx)
        · exact hOo
        · exact kk x hx
    | model o k l =>
      have ho := h o (by simp [Part.all])
      have hk : ∀ x ∈ allL k, C x := fun x hx => h x (by simp [Part.all, hx])
      have hl : ∀ x ∈ allL l, C x := fun x hx => h x (by simp [Part.all, hx])
      have hkn : heightL k ≤ n := by simp only [Part.height] at hp; omega
      have hln : heightL l ≤ n := by simp only [Part.height] at hp; omega
      have kk := kidsP k hkn hk
      have hOo := hO o ho
      simp only [trainN, Part.torchTrain]
      unfold Own.trained at hOo
      by_cases hb : o.rank = .stochastic ∧ mode = false
      · rw [if_pos hb] at hOo
        rw [afterTrain_pos (by exact hb)]
        simp only [Part.stoch, Part.mapLevels, Part.all, List.mem_cons, List.mem_append]
        rintro x (rfl | hx | hx)
        · exact hOo
        · cases ht : o.total with
          | none => rw [ht] at hx; exact kk x hx
          | some t => rw [ht] at hx; exact hK o t ho hb.2 ht _ kk x hx
        · have := kidsP (levelStoch (Own.select none { o with training := mode }).idx l) (by rw [levelStoch_height]; exact hln) (hCC _ l hl)
          exact this x hx
      · rw [if_neg hb] at hOo
        rw [afterTrain_neg (by exact hb)]
        simp only [Part.mapLevels, Part.all, List.mem_cons, List.mem_append]
        rintro x (rfl | hx | hx)
        · exact hOo
        · exact kk x hx
        · exact kidsP l hln hl x hx

theorem select_training (i : Option S) (o : Own S A) : (o.select i).training = o.training := by
  unfold Own.select; split <;> rfl
theorem select_total (i : Option S) (o : Own S A) : (o.select i).total = o.total := by
  unfold Own.select; split <;> simp_all
theorem select_rank (i : Option S) (o : Own S A) : (o.select i).rank = o.rank := by
  unfold Own.select; split <;> rfl

mutual
/-- All parts that know their points, and every child that is stochastic is reached: a part that is not stochastic has no stochastic part below it. -/
def Part.known : Part S A → Prop
  | .node o k => o.rank = .stochastic ∧ o.total ≠ none ∧ knownL k
  | .model o k l => o.rank = .stochastic ∧ o.total ≠ none ∧ knownL k ∧ knownAll l
/-- The same for the children. -/
def knownL : List (Part S A) → Prop
  | [] => True
  | p :: t => (p.known ∨ ∀ o ∈ p.all, o.rank ≠ .stochastic) ∧ knownL t
/-- The same for the levels. -/
def knownAll : List (Part S A) → Prop
  | [] => True
  | p :: t => p.known ∧ knownAll t
end

theorem known_rank (p : Part S A) (h : p.known) : p.isStoch = true := by
  cases p <;> simp only [Part.known] at h <;> simp [Part.isStoch, Part.own, h.1]

theorem own_mem (p : Part S A) : p.own ∈ p.all := by cases p <;> simp [Part.own, Part.all]

/-- What is wanted after a selection. -/
def Selected (i : S) (o : Own S A) : Prop := o.rank = .stochastic → o.idx = some i ∧ ∀ e ∈ o.cache, e.1 = true

theorem selected_select (i : S) (o : Own S A) (h : o.total ≠ none) : Selected i (o.select (some i)) := by
  intro _
  unfold Own.select
  cases ht : o.total with
  | none => exact absurd ht h
  | some t => exact ⟨rfl, fun e he => by simpa using (List.mem_filter.mp he).2⟩

mutual
theorem stoch_selected (i : S) : ∀ p : Part S A, p.known → ∀ o ∈ (p.stoch (some i)).all, Selected i o
  | .node o k => by
    intro h x hx
    simp only [Part.known] at h
    simp only [Part.stoch, Part.all, List.mem_cons] at hx
    rcases hx with rfl | hx
    · exact selected_select i o h.2.1
    · cases ht : o.total with
      | none => exact absurd ht h.2.1
      | some t => rw [ht] at hx; exact stochL_selected i k h.2.2 x hx
  | .model o k l => by
    intro h x hx
    simp only [Part.known] at h
    simp only [Part.stoch, Part.all, List.mem_cons, List.mem_append] at hx
    have hs := (selected_select i o h.2.1 (by rw [select_rank]; exact h.1)).1
    rcases hx with rfl | hx | hx
    · exact selected_select i o h.2.1
    · cases ht : o.total with
      | none => exact absurd ht h.2.1
      | some t => rw [ht] at hx; exact stochL_selected i k h.2.2.1 x hx
    · rw [hs] at hx
      exact levelStoch_selected i l h.2.2.2 x hx
theorem stochL_selected (i : S) : ∀ k : List (Part S A), knownL k → ∀ o ∈ allL (stochL (some i) k), Selected i o
  | [] => by intro _ x hx; simp [stochL, allL] at hx
  | p :: t => by
    intro h x hx
    simp only [knownL] at h
    simp only [stochL, allL, List.mem_append] at hx
    rcases hx with hx | hx
    · rcases h.1 with hp | hp
      · rw [if_pos (known_rank p hp)] at hx
        exact stoch_selected i p hp x hx
      · rw [if_neg (by simpa [Part.isStoch] using hp _ (own_mem p))] at hx
        exact fun e => absurd e (hp x hx)
    · exact stochL_selected i t h.2 x hx
theorem levelStoch_selected (i : S) : ∀ k : List (Part S A), knownAll k → ∀ o ∈ allL (levelStoch (some i) k), Selected i o
  | [] => by intro _ x hx; simp [levelStoch, allL] at hx
  | p :: t => by
    intro h x hx
    simp only [knownAll] at h
    simp only [levelStoch, allL, List.mem_append] at hx
    rcases hx with hx | hx
    · exact stoch_selected i p h.1 x hx
    · exact levelStoch_selected i t h.2 x hx
end

mutual
/-- No model with levels is met going from child to child. -/
def Part.noLevels : Part S A → Prop
  | .node _ k => noLevelsL k
  | .model _ k l => l = [] ∧ noLevelsL k
/-- The same for a list. -/
def noLevelsL : List (Part S A) → Prop
  | [] => True
  | p :: t => p.noLevels ∧ noLevelsL t
end

mutual
theorem modules_length : ∀ p : Part S A, p.modules.length ≤ p.all.length
  | .node o k => by simp only [Part.modules, Part.all, List.length_cons]; have := modulesL_length k; omega
  | .model o k l => by simp only [Part.modules, Part.all, List.length_cons, List.length_append]; have := modulesL_length k; omega
theorem modulesL_length : ∀ k : List (Part S A), (modulesL k).length ≤ (allL k).length
  | [] => le_rfl
  | p :: t => by simp only [modulesL, allL, List.length_append]; have := modules_length p; have := modulesL_length t; omega
end

theorem allL_pos (l : List (Part S A)) (h : (allL l).length = 0) : l = [] := by
  cases l with
  | nil => rfl
  | cons p t =>
    simp only [allL, List.length_append] at h
    have := List.length_pos_of_mem (own_mem p)
    omega

mutual
theorem modules_all : ∀ p : Part S A, p.noLevels → p.modules = p.all
  | .node o k => by intro h; simp only [Part.noLevels] at h; simp only [Part.modules, Part.all, modulesL_all k h]
  | .model o k l => by intro h; simp only [Part.noLevels] at h; simp only [Part.modules, Part.all, modulesL_all k h.2, h.1, allL, List.append_nil]
theorem modulesL_all : ∀ k : List (Part S A), noLevelsL k → modulesL k = allL k
  | [] => fun _ => rfl
  | p :: t => by intro h; simp only [noLevelsL] at h; simp only [modulesL, allL, modules_all p h.1, modulesL_all t h.2]
end

mutual
theorem noLevels_of_length : ∀ p : Part S A, p.modules.length = p.all.length → p.noLevels
  | .node o k => by intro h; simp only [Part.modules, Part.all, List.length_cons] at h; simp only [Part.noLevels]; exact noLevelsL_of_length k (by omega)
  | .model o k l => by
    intro h
    simp only [Part.modules, Part.all, List.length_cons, List.length_append] at h
    have := modulesL_length k
    simp only [Part.noLevels]
    exact ⟨allL_pos l (by omega), noLevelsL_of_length k (by omega)⟩
theorem noLevelsL_of_length : ∀ k : List (Part S A), (modulesL k).length = (allL k).length → noLevelsL k
  | [] => fun _ => trivial
  | p :: t => by
    intro h
    simp only [modulesL, allL, List.length_append] at h
    have := modules_length p
    have := modulesL_length t
    simp only [noLevelsL]
    exact ⟨noLevels_of_length p (by omega), noLevelsL_of_length t (by omega)⟩
end

mutual
theorem torchApply_all (g : Own S A → Own S A) : ∀ p : Part S A, p.noLevels → (p.torchApply g).all = p.all.map g
  | .node o k => by intro h; simp only [Part.noLevels] at h; simp only [Part.torchApply, Part.all, torchApplyL_all g k h, List.map_cons]
  | .model o k l => by
    intro h; simp only [Part.noLevels] at h
    simp only [Part.torchApply, Part.all, torchApplyL_all g k h.2, h.1, allL, List.append_nil, List.map_cons]
theorem torchApplyL_all (g : Own S A → Own S A) : ∀ k : List (Part S A), noLevelsL k → allL (torchApplyL g k) = (allL k).map g
  | [] => fun _ => rfl
  | p :: t => by intro h; simp only [noLevelsL] at h; simp only [torchApplyL, allL, torchApply_all g p h.1, torchApplyL_all g t h.2, List.map_append]
end

mutual
theorem torchApply_length (g : Own S A → Own S A) : ∀ p : Part S A, (p.torchApply g).all.length = p.all.length
  | .node o k => by simp only [Part.torchApply, Part.all, List.length_cons, torchApplyL_length g k]
  | .model o k l => by simp only [Part.torchApply, Part.all, List.length_cons, List.length_append, torchApplyL_length g k]
theorem torchApplyL_length (g : Own S A → Own S A) : ∀ k : List (Part S A), (allL (torchApplyL g k)).length = (allL k).length
  | [] => rfl
  | p :: t => by simp only [torchApplyL, allL, List.length_append, torchApply_length g p, torchApplyL_length g t]
end

mutual
theorem setLog_all (v : Int) : ∀ p : Part S A, p.noLevels → (∀ o ∈ p.all, o.rank ≠ .torch) → ∀ o ∈ (p.setLog v).all, o.log = v
  | .node o k => by
    intro h hr x hx
    simp only [Part.noLevels] at h
    simp only [Part.setLog, Part.all, List.mem_cons] at hx
    rcases hx with rfl | hx
    · rfl
    · exact setLogL_all v k h (fun o ho => hr o (by simp [Part.all, ho])) x hx
  | .model o k l => by
    intro h hr x hx
    simp only [Part.noLevels] at h
    simp only [Part.setLog, Part.all, List.mem_cons, List.mem_append, h.1, allL, List.not_mem_nil, or_false] at hx
    rcases hx with rfl | hx
    · rfl
    · exact setLogL_all v k h.2 (fun o ho => hr o (by simp [Part.all, ho])) x hx
theorem setLogL_all (v : Int) : ∀ k : List (Part S A), noLevelsL k → (∀ o ∈ allL k, o.rank ≠ .torch) → ∀ o ∈ allL (setLogL v k), o.log = v
  | [] => by intro _ _ x hx; simp [setLogL, allL] at hx
  | p :: t => by
    intro h hr x hx
    simp only [noLevelsL] at h
    simp only [setLogL, allL, List.mem_append] at hx
    rcases hx with hx | hx
    · rw [if_pos (by simpa [Part.isLogger] using hr _ (by simp [allL, own_mem p]))] at hx
      exact setLog_all v p h.1 (fun o ho => hr o (by simp [allL, ho])) x hx
    · exact setLogL_all v t h.2 (fun o ho => hr o (by simp [allL, ho])) x hx
end

mutual
/-- Modules, none of them a model, all of them with a cache. -/
def Part.plain : Part S A → Prop
  | .node o k => (o.rank = .cache ∨ o.rank = .stochastic) ∧ plainL k
  | .model _ _ _ => False
/-- The same for a list. -/
def plainL : List (Part S A) → Prop
  | [] => True
  | p :: t => p.plain ∧ plainL t
end

mutual
theorem reset_all (q : Bool) : ∀ p : Part S A, p.plain → (p.reset true q).all = p.all.map (Own.reset q)
  | .node o k => by
    intro h; simp only [Part.plain] at h
    simp only [Part.reset, Part.all, if_true, resetL_all q k h.2, List.map_cons]
  | .model o k l => by intro h; simp only [Part.plain] at h
theorem resetL_all (q : Bool) : ∀ k : List (Part S A), plainL k → allL (resetL true q k) = (allL k).map (Own.reset q)
  | [] => fun _ => rfl
  | p :: t => by
    intro h; simp only [plainL] at h
    have : p.isCache = true := by
      cases p with
      | node o k => simp only [Part.plain] at h; exact decide_eq_true h.1.1
      | model o k l => simp only [Part.plain] at h; exact h.1.elim
    simp only [resetL, allL, if_pos this, reset_all q p h.1, resetL_all q t h.2, List.map_append]
end

theorem levelReset_all (q : Bool) : ∀ k : List (Part S A), plainL k → allL (levelReset true q k) = (allL k).map (Own.reset q)
  | [] => fun _ => rfl
  | p :: t => by
    intro h; simp only [plainL] at h
    simp only [levelReset, allL, reset_all q p h.1, levelReset_all q t h.2, List.map_append]

/-! ## Properties -/

/-- C117, training mode: `train(mode)` reaches every part of every model, levels within levels included. -/
theorem C117_train (mode : Bool) (p : Part S A) : ∀ o ∈ (p.train mode).all, o.training = mode := by
  refine trainN_inv mode (fun _ => True) (fun o => o.training = mode) (fun _ _ _ => trivial) (fun _ _ => trivial) (fun o _ => ?_) (fun o t _ _ _ k hk => ?_) _ p le_rfl fun _ _ => trivial
  · unfold Own.trained
    split
    · rw [select_training]
    · rfl
  · exact stochL_inv (fun o => o.training = mode) (fun _ => True) (fun i o _ h => by rw [select_training]; exact h) (fun _ _ _ _ _ _ => trivial) (fun _ _ _ _ => trivial) _ trivial k hk

/-- C117, evaluation mode: afterwards every stochastic part that knows its points uses all of them, if all parts have the same number of points (and nothing is selected
among points that are not known). -/
theorem C117_eval_partial (T : S) (p : Part S A) (h : ∀ o ∈ p.all, o.total = some T ∨ o.total = none ∧ o.idx = none) :
    ∀ o ∈ (p.train false).all, o.rank = .stochastic → o.total ≠ none → o.idx = some T := by
  suffices hh : ∀ o ∈ (p.train false).all, (o.total = some T ∨ o.total = none ∧ o.idx = none) ∧ (o.rank = .stochastic → o.total ≠ none → o.idx = some T) from fun o ho => (hh o ho).2
  have sel : ∀ i (o : Own S A), (o.total = some T ∨ o.total = none ∧ o.idx = none) → ((o.select i).total = some T ∨ (o.select i).total = none ∧ (o.select i).idx = none) := by
    rintro i o (h | h)
    · exact .inl (by rw [select_total]; exact h)
    · refine .inr ⟨by rw [select_total]; exact h.1, ?_⟩
      unfold Own.select
      rw [h.1]
      exact h.2
  have selT : ∀ i (o : Own S A), (i = none ∨ i = some T) → (o.total = some T ∨ o.total = none ∧ o.idx = none) → o.total ≠ none → (o.select i).idx = some T := by
    intro i o hi ho hn
    rcases ho with ho | ho
    · unfold Own.select
      rw [ho]
      rcases hi with rfl | rfl <;> rfl
    · exact absurd ho.1 hn
  refine trainN_inv false (fun o => o.total = some T ∨ o.total = none ∧ o.idx = none) _ sel (fun o h => h) (fun o ho => ?_) (fun o t ho _ ht k hk => ?_) _ p le_rfl h
  · unfold Own.trained
    split
    · exact ⟨sel _ _ ho, fun _ hn => selT none _ (.inl rfl) ho (by rwa [select_total] at hn)⟩
    · rename_i hb
      exact ⟨ho, fun hr _ => absurd ⟨hr, rfl⟩ hb⟩
  · have htT : t = T := by
      rcases ho with ho | ho
      · exact Option.some.inj (ht.symm.trans ho)
      · rw [ho.1] at ht; cases ht
    subst htT
    refine stochL_inv _ (fun i => i = none ∨ i = some t) (fun i o hi h => ?_) (fun i o hi h u hu => ?_) (fun i o hi h => ?_) _ (.inr rfl) k hk
    · exact ⟨sel i o h.1, fun _ hn => selT i o hi h.1 (by rwa [select_total] at hn)⟩
    · rcases h.1 with h | h
      · rw [h] at hu
        cases hu
        rcases hi with rfl | rfl <;> exact .inr rfl
      · rw [h.1] at hu; cases hu
    · rcases h.1 with h' | h'
      · exact .inr (selT i o hi h.1 (by rw [h']; simp))
      · left
        unfold Own.select
        rw [h'.1]
        exact h'.2

/-- C117, selections: `stochastic(idx)` on a model whose parts all know their points selects these points everywhere and drops what was computed with others. -/
theorem C117_stochastic_partial (i : S) (p : Part S A) (h : p.known) : ∀ o ∈ (p.stoch (some i)).all, o.rank = .stochastic → o.idx = some i ∧ ∀ e ∈ o.cache, e.1 = true :=
  stoch_selected i p h

/-- C117, torch: what torch sees of a module (`modules()`, and with it `parameters()` and `state_dict()`) is all of it if and only if no model with levels is met going
from child to child. -/
theorem C117_modules_partial (p : Part S A) : p.modules = p.all ↔ p.noLevels :=
  ⟨fun h => noLevels_of_length p (by rw [h]), modules_all p⟩

/-- C117, porting (`to`, `double`, ...), gradients set to zero, `requires_grad_`: done to every part where no model with levels is met. -/
theorem C117_port_partial (f : A → A) (p : Part S A) (h : p.noLevels) : (p.port f).all = p.all.map (Own.port f) := torchApply_all _ p h

/-- C117, the logging level, likewise, if all parts have one. -/
theorem C117_log_partial (v : Int) (p : Part S A) (h : p.noLevels) (hr : ∀ o ∈ p.all, o.rank ≠ .torch) : ∀ o ∈ (p.setLog v).all, o.log = v := setLog_all v p h hr

/-- C117, resetting with `recurse=True`: of a model which holds nothing itself, all levels and their parts are reset, as documented for each. -/
theorem C117_reset_partial (q : Bool) (o : Own S A) (l : List (Part S A)) (ho : o.cache = []) (h : plainL l) :
    ((Part.model o [] l).reset true q).all = (Part.model o [] l).all.map (Own.reset q) := by
  simp only [Part.reset, Part.all, allL, List.nil_append, List.map_cons, levelReset_all q l h]
  congr 1
  unfold Own.reset
  cases o
  simp only at ho
  simp [ho]

/-- C117, access to the levels: `level(num)` is the level of this number, refused when there is none. -/
theorem C117_level {α : Type} (l : List α) (n : Nat) : level l n = (l[n]?).elim .assertionError .ok := by
  unfold level
  by_cases h : n < l.length
  · rw [if_neg (by omega), List.getElem?_eq_getElem h]
    have : (l.zipIdx.find? fun x => (x.2 : Int) == (n : Int)) = some (l[n], n) := by
      have e : (fun x : α × Nat => (x.2 : Int) == (n : Int)) = fun x => x.2 == n := by
        funext x; simp [BEq.beq]
      rw [e, List.find?_eq_some_iff_getElem]
      refine ⟨by simp, n, by simpa using h, by simp, fun j hj => by simp; omega⟩
    rw [this]
    rfl
  · rw [if_pos (by omega), List.getElem?_eq_none (by omega)]
    rfl

/-- C117 is violated: no level of a model is ported or seen by torch: `model.double()`, `model.to(...)`, `model.zero_grad()`, ... leave them exactly as they are, and no
exception tells. -/
theorem C117_port_violated (g : Own S A → Own S A) (o : Own S A) (k l : List (Part S A)) :
    (∃ o' k', (Part.model o k l).torchApply g = .model o' k' l) ∧ (Part.model o k l).modules = o :: modulesL k ∧
    ∀ p ∈ l, g p.own ≠ p.own → ((Part.model o k l).torchApply g).all ≠ (Part.model o k l).all.map g := by
  refine ⟨⟨_, _, rfl⟩, rfl, fun p hp hne e => ?_⟩
  simp only [Part.torchApply, Part.all, List.map_cons, List.map_append, List.cons.injEq, true_and] at e
  have := (List.append_inj e (by rw [List.length_map, torchApplyL_length])).2
  have hm : ∀ x ∈ allL l, g x = x := by
    intro x hx
    obtain ⟨n, hn, rfl⟩ := List.getElem_of_mem hx
    have h1 := congrArg (fun L => L[n]?) this
    simp only [List.getElem?_map, List.getElem?_eq_getElem hn, Option.map_some, Option.some.injEq] at h1
    exact h1.symm
  exact hne (hm _ (all_mem l p hp _ (own_mem p)))

/-- C117 is violated: the logging level of a model does not reach its levels. -/
theorem C117_log_violated (v : Int) (o : Own S A) (k l : List (Part S A)) : ∃ o' k', (Part.model o k l).setLog v = .model o' k' l ∧ o'.log = v := ⟨_, _, rfl, rfl⟩

/-- C117 is violated: if the sample has been given to the first level (`model.level(0).init_sample(x)`) and not to the model, a selection asked of the model is ignored: the
levels use all their points. -/
theorem C117_stochastic_violated (i t : S) (o ol : Own S A) (ho : o.total = none) (hi : o.idx = none) (hl : ol.total = some t) (k kl : List (Part S A)) :
    ∃ ol' kl', (Part.model o k [.node ol kl]).stoch (some i) = .model o k [.node ol' kl'] ∧ ol'.idx = some t := by
  refine ⟨ol.select none, stochL (some t) kl, ?_, ?_⟩
  · simp only [Part.stoch, Own.select, ho, hi, levelStoch, hl, Option.getD_none]
  · simp only [Own.select, hl, Option.getD_none]

/-- C117 is violated: `model.train()` and `model.eval()` return nothing, so that `model.eval()(x)` or `model = model.eval()`, usual with torch, fail; other modules return
themselves. -/
theorem C117_returns_violated (mode : Bool) (o : Own S A) (k l : List (Part S A)) :
    (Part.model o k l).trainResult mode = none ∧ (Part.node o k).trainResult mode = some ((Part.node o k).train mode) := ⟨rfl, rfl⟩

/-- C117 is violated: `reset()` without arguments does not reach the children (the documentation announces that it does), nor does `model.reset()` those of the levels. -/
theorem C117_reset_violated (q : Bool) (o ol : Own S A) (k kl : List (Part S A)) :
    (∃ o', (Part.node o k).reset false q = .node o' k) ∧ ∃ ol', (Part.model o k [.node ol kl]).reset false q = .model o k [.node ol' kl] :=
  ⟨⟨o.reset q, rfl⟩, ⟨ol.reset q, rfl⟩⟩

/-- C117 is violated: a negative number is neither refused nor counted from the end as everywhere in Python: `StopIteration`, which ends loops silently. -/
theorem C117_level_violated {α : Type} (l : List α) (n : Int) (hn : n < 0) : level l n = .stopIteration := by
  unfold level
  rw [if_neg (by omega)]
  have : (l.zipIdx.find? fun x => (x.2 : Int) == n) = none := by
    rw [List.find?_eq_none]
    intro x _
    simp
    omega
  rw [this]

/-! ## Cases -/

/-- A level on four points with a transform of its own. -/
def exLevel : Part (List Nat) Int := .node ⟨.stochastic, true, some [0, 1, 2, 3], some [1, 2], [(true, 5), (false, 6)], 7, 30⟩
  [.node ⟨.stochastic, true, some [0, 1, 2, 3], some [1, 2], [(false, 9)], 0, 30⟩ []]

/-- A model with two such levels. -/
def exModel : Part (List Nat) Int := .model ⟨.stochastic, true, some [0, 1, 2, 3], some [1, 2], [], 0, 30⟩ [] [exLevel, exLevel]

example : ∀ o ∈ (exModel.train false).all, o.rank = .stochastic → o.total ≠ none → o.idx = some [0, 1, 2, 3] :=
  C117_eval_partial [0, 1, 2, 3] exModel (by simp [exModel, exLevel, Part.all, allL])

example : ∀ o ∈ (exModel.train false).all, o.training = false := C117_train false exModel

example : ∀ o ∈ (exModel.stoch (some [3])).all, o.rank = .stochastic → o.idx = some [3] ∧ ∀ e ∈ o.cache, e.1 = true :=
  C117_stochastic_partial [3] exModel (by simp [exModel, exLevel, Part.known, knownL, knownAll])

example : ¬ exModel.modules = exModel.all := fun h => by
  have := (C117_modules_partial exModel).mp h
  simp [exModel, Part.noLevels] at this

example : (exLevel.port fun n => n + 1).all = exLevel.all.map (Own.port fun n => n + 1) := C117_port_partial _ _ (by simp [exLevel, Part.noLevels, noLevelsL])

example : ∀ o ∈ (exLevel.setLog 10).all, o.log = 10 := C117_log_partial 10 _ (by simp [exLevel, Part.noLevels, noLevelsL]) (by simp [exLevel, Part.all, allL])

example : (exModel.reset true true).all = exModel.all.map (Own.reset true) := C117_reset_partial true _ _ rfl (by simp [exLevel, plainL, Part.plain])

example : (exModel.torchApply (Own.port fun n => n + 1)).all ≠ exModel.all.map (Own.port fun n => n + 1) :=
  (C117_port_violated (Own.port fun n => n + 1) _ _ _).2.2 exLevel (by simp) (by simp [exLevel, Part.own, Own.port])

example : level [10, 20, 30] (-1) = .stopIteration := C117_level_violated _ _ (by norm_num)

/-- C117, porting: what each part holds is ported, its own tensors and, for the classes with a cache, the cached ones (persisting or not as before); the rest is as it was. -/
theorem C117_port_data_partial (f : A → A) (p : Part S A) (h : p.noLevels) :
    (p.port f).all.map (·.data) = p.all.map (fun o => f o.data) ∧
    (p.port f).all.map (·.cache) = p.all.map (fun o => if o.rank = .torch ∨ o.rank = .logger then o.cache else o.cache.map fun e => (e.1, f e.2)) ∧
    (p.port f).all.map (fun o => (o.rank, o.training, o.log, o.total, o.idx)) = p.all.map fun o => (o.rank, o.training, o.log, o.total, o.idx) := by
  rw [C117_port_partial f p h]
  refine ⟨by simp [Own.port, Function.comp_def], ?_, by simp [Own.port, Function.comp_def]⟩
  rw [List.map_map]
  refine List.map_congr_left fun o _ => ?_
  simp only [Function.comp, Own.port]
  cases hr : o.rank <;> simp

end Parts
end Kerch
