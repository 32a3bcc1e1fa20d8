import Verif.Model.Optimizer
import Verif.Props.Params
import Verif.Lemmas.Dict
import Mathlib.Tactic.Ring
import Mathlib.Tactic.Linarith
import Mathlib.Algebra.BigOperators.Group.List.Basic
/-!
# C60 (groups of the optimiser)
-/
set_option linter.unusedSectionVars false
set_option linter.unusedSimpArgs false
namespace Kerch
open Optim PTree

/-! ## specification -/

/-- The learning rate meant by the keyword arguments for a kind: the value given or the default one. -/
noncomputable def lrOf (kwargs : Dict String GVal) : PKind → GVal
  | .euclidean => (kwargs.find "euclidean_lr").getD (.real 1e-3)
  | .slow => (kwargs.find "slow_lr").getD (.real 1e-4)
  | .stiefel => (kwargs.find "stiefel_lr").getD (.real 1e-3)

/-- The name of a kind. -/
def kindName : PKind → String
  | .euclidean => "euclidean"
  | .slow => "slow"
  | .stiefel => "stiefel"

/-- The parameters of a kind of the module (see C14). -/
def ofKind (t : PTree) (k : PKind) : List Nat := (t.manifoldParameters true (kindName k)).1

/-- The groups of an optimiser containing a parameter: their learning rate and whether they are Stiefel groups. -/
def groupsOf (s : Optim.St) (p : Nat) : List (Option GVal × Option GVal) :=
  ((s.opt.getD []).filter fun g => p ∈ groupParams g).map fun g => (g.find "lr", g.find "stiefel")

/-- The module gives its parameters of the three kinds without raising. -/
def Readable (t : PTree) : Prop := ∀ k, (t.manifoldParameters true (kindName k)).2 = .ok ()

/-- No trainable parameter is of two kinds. -/
def KindsDisjoint (t : PTree) (rg : Nat → Bool) : Prop := ∀ p k k', rg p = true → p ∈ ofKind t k → p ∈ ofKind t k' → k = k'

/-! ## helper lemmas -/

/-- The group of a kind. -/
def grp (kw : Dict String GVal) (ps : List Nat) (stiefel : Bool) (lr : GVal) : Group :=
  kw.merge [("params", .params ps), ("stiefel", .bool stiefel), ("lr", lr)]

theorem wf3 (a b c : GVal) : Dict.WF ([("params", a), ("stiefel", b), ("lr", c)] : Dict String GVal) := by
  simp only [Dict.WF, Dict.keys, List.map_cons, List.map_nil]
  decide

theorem grp_params (kw : Dict String GVal) (ps st lr) : groupParams (grp kw ps st lr) = ps := by
  unfold groupParams grp
  rw [Dict.find_merge _ _ (wf3 ..)]
  rfl

theorem grp_lr (kw : Dict String GVal) (ps st lr) : (grp kw ps st lr).find "lr" = some lr := by
  unfold grp
  rw [Dict.find_merge _ _ (wf3 ..)]
  rfl

theorem grp_stiefel (kw : Dict String GVal) (ps st lr) : (grp kw ps st lr).find "stiefel" = some (.bool st) := by
  unfold grp
  rw [Dict.find_merge _ _ (wf3 ..)]
  rfl

/-- No group without parameters. -/
def grps (kw : Dict String GVal) (ps : List Nat) (stiefel : Bool) (lr : GVal) : List Group := if ps = [] then [] else [grp kw ps stiefel lr]

theorem addGroup_eq (kw : Dict String GVal) (ps : List Nat) (st : Bool) (key : String) (lr : GVal) (h : kw.find key = some lr) (gs : List Group) :
    addGroup kw ps st key gs = .ok (gs ++ grps kw ps st lr) := by
  unfold addGroup grps mkGroup
  cases ps with
  | nil => simp
  | cons a t => simp [h, grp]

theorem defaults_wf : Dict.WF defaults := by
  simp only [Dict.WF, Dict.keys, defaults, List.map_cons, List.map_nil]
  decide

theorem find_lr (kwargs : Dict String GVal) (w : kwargs.WF) :
    (defaults.merge kwargs).find "euclidean_lr" = some (lrOf kwargs .euclidean) ∧ (defaults.merge kwargs).find "slow_lr" = some (lrOf kwargs .slow) ∧
    (defaults.merge kwargs).find "stiefel_lr" = some (lrOf kwargs .stiefel) := by
  refine ⟨?_, ?_, ?_⟩
  · rw [Dict.find_merge _ _ w, lrOf]
    cases kwargs.find "euclidean_lr" <;> rfl
  · rw [Dict.find_merge _ _ w, lrOf]
    cases kwargs.find "slow_lr" <;> rfl
  · rw [Dict.find_merge _ _ w, lrOf]
    cases kwargs.find "stiefel_lr" <;> rfl

theorem torchGroups_ok (acc gs : List Group) (h : gs.Pairwise fun a b => ∀ p ∈ groupParams b, p ∉ groupParams a)
    (h' : ∀ g ∈ gs, ∀ a ∈ acc, ∀ p ∈ groupParams g, p ∉ groupParams a) : torchGroups acc gs = .ok (acc ++ gs) := by
  induction gs generalizing acc with
  | nil => simp [torchGroups]
  | cons g t ih =>
    rw [torchGroups, if_neg, ih]
    · simp
    · exact (List.pairwise_cons.mp h).2
    · intro g' hg' a ha p hp
      rcases List.mem_append.mp ha with ha | ha
      · exact h' g' (List.mem_cons_of_mem _ hg') a ha p hp
      · rw [List.mem_singleton] at ha
        subst ha
        exact (List.pairwise_cons.mp h).1 g' hg' p hp
    · intro hany
      simp only [List.any_eq_true, decide_eq_true_eq] at hany
      obtain ⟨p, hp, a, ha, hpa⟩ := hany
      exact h' g (List.mem_cons_self ..) a ha p hp hpa

theorem torchGroups_clash (acc gs : List Group) (g : Group) (hg : g ∈ gs) (a : Group) (ha : a ∈ acc) (p : Nat) (hp : p ∈ groupParams g)
    (hpa : p ∈ groupParams a) : torchGroups acc gs = .error .valueError := by
  induction gs generalizing acc with
  | nil => exact absurd hg (by simp)
  | cons g' t ih =>
    rw [torchGroups]
    split
    · rfl
    · next hn =>
      rcases List.mem_cons.mp hg with rfl | hg
      · exact absurd (List.any_eq_true.mpr ⟨p, hp, List.any_eq_true.mpr ⟨a, ha, by simpa using hpa⟩⟩) hn
      · exact ih (acc ++ [g']) hg (List.mem_append_left _ ha)

/-- All the groups before they are handed to torch. -/
noncomputable def allGroups (t : PTree) (rg : Nat → Bool) (kwargs : Dict String GVal) : List Group :=
  grps (defaults.merge kwargs) (paramState rg (ofKind t .euclidean)) false (lrOf kwargs .euclidean) ++
  grps (defaults.merge kwargs) (paramState rg (ofKind t .slow)) false (lrOf kwargs .slow) ++
  grps (defaults.merge kwargs) (paramState rg (ofKind t .stiefel)) true (lrOf kwargs .stiefel)

theorem construct_eq (t : PTree) (rg : Nat → Bool) (type : String) (kwargs : Dict String GVal) (w : kwargs.WF) (hr : Readable t) :
    construct t rg type kwargs = match allGroups t rg kwargs with
      | [] => .ok ⟨none, false⟩
      | _ :: _ => if type = "sgd" ∨ type = "adam" then
          match torchGroups [] (allGroups t rg kwargs) with
          | .ok gs => .ok ⟨some gs, true⟩
          | .error e => .error e
        else .error .typeError := by
  have he := hr .euclidean
  have hs := hr .stiefel
  have hl := hr .slow
  simp only [kindName] at he hs hl
  obtain ⟨h1, h2, h3⟩ := find_lr kwargs w
  unfold construct
  simp only [he, hs, hl, bind, Except.bind, addGroup_eq _ _ _ _ _ h1, addGroup_eq _ _ _ _ _ h2, addGroup_eq _ _ _ _ _ h3, List.nil_append]
  have ha : allGroups t rg kwargs = grps (defaults.merge kwargs) (paramState rg (t.manifoldParameters true "euclidean").1) false (lrOf kwargs .euclidean) ++
      grps (defaults.merge kwargs) (paramState rg (t.manifoldParameters true "slow").1) false (lrOf kwargs .slow) ++
      grps (defaults.merge kwargs) (paramState rg (t.manifoldParameters true "stiefel").1) true (lrOf kwargs .stiefel) := rfl
  rw [← ha]
  cases hg : allGroups t rg kwargs with
  | nil => rfl
  | cons a b =>
    by_cases h : type = "sgd" ∨ type = "adam"
    · simp only [if_pos h]
      cases torchGroups [] (a :: b) <;> rfl
    · simp only [if_neg h]

theorem grps_mem {kw : Dict String GVal} {ps : List Nat} {st : Bool} {lr : GVal} {g : Group} (h : g ∈ grps kw ps st lr) : g = grp kw ps st lr := by
  unfold grps at h
  split at h
  · exact absurd h (by simp)
  · simpa using h

theorem filter_grps (kw : Dict String GVal) (ps : List Nat) (st : Bool) (lr : GVal) (p : Nat) :
    (((grps kw ps st lr).filter fun g => p ∈ groupParams g).map fun g => (g.find "lr", g.find "stiefel")) =
      if p ∈ ps then [(some lr, some (.bool st))] else [] := by
  unfold grps
  split
  · next h => subst h; simp
  · rw [List.filter_cons, grp_params]
    by_cases h : p ∈ ps
    · simp [h, grp_lr, grp_stiefel]
    · simp [h]

theorem allGroups_pairwise (t : PTree) (rg : Nat → Bool) (kwargs : Dict String GVal) (hd : KindsDisjoint t rg) :
    (allGroups t rg kwargs).Pairwise fun a b => ∀ p ∈ groupParams b, p ∉ groupParams a := by
  have one : ∀ (kw : Dict String GVal) ps st lr, (grps kw ps st lr).Pairwise fun a b => ∀ p ∈ groupParams b, p ∉ groupParams a := by
    intro kw ps st lr
    unfold grps
    split <;> simp
  unfold allGroups
  have cross : ∀ (k k' : PKind), k ≠ k' → ∀ p, p ∈ paramState rg (ofKind t k) → p ∉ paramState rg (ofKind t k') := by
    intro k k' hk p hp hp'
    obtain ⟨h1, h2⟩ := List.mem_filter.mp hp
    obtain ⟨h3, _⟩ := List.mem_filter.mp hp'
    exact hk (hd p k k' h2 h1 h3)
  rw [List.pairwise_append, List.pairwise_append]
  refine ⟨⟨one .., one .., ?_⟩, one .., ?_⟩
  · intro a ha b hb p hp hpa
    rw [grps_mem ha, grp_params] at hpa
    rw [grps_mem hb, grp_params] at hp
    exact cross _ _ (by decide) p hp hpa
  · intro a ha b hb p hp hpa
    rw [grps_mem hb, grp_params] at hp
    rcases List.mem_append.mp ha with ha | ha
    · rw [grps_mem ha, grp_params] at hpa
      exact cross _ _ (by decide) p hp hpa
    · rw [grps_mem ha, grp_params] at hpa
      exact cross _ _ (by decide) p hp hpa

/-! ## C60 -/

/-- **C60**, the groups: for every module, every keyword arguments and both types of optimiser, provided that no trainable parameter is of two kinds, a
trainable parameter of a kind is in exactly one group, which has the learning rate asked for this kind and is a Stiefel group exactly for the Stiefel kind;
everything else is in no group. -/
theorem C60_groups (t : PTree) (rg : Nat → Bool) (type : String) (ht : type = "sgd" ∨ type = "adam") (kwargs : Dict String GVal) (w : kwargs.WF)
    (hr : Readable t) (hd : KindsDisjoint t rg) :
    ∃ s, construct t rg type kwargs = .ok s
      ∧ (∀ p k, rg p = true → p ∈ ofKind t k → groupsOf s p = [(some (lrOf kwargs k), some (.bool (decide (k = .stiefel))))])
      ∧ (∀ p, (rg p = false ∨ ∀ k, p ∉ ofKind t k) → groupsOf s p = [])
      ∧ (s.requiresGrad = true ↔ ∃ p k, rg p = true ∧ p ∈ ofKind t k) := by
  have hgo : ∀ p, (((allGroups t rg kwargs).filter fun g => p ∈ groupParams g).map fun g => (g.find "lr", g.find "stiefel")) =
      (if p ∈ paramState rg (ofKind t .euclidean) then [(some (lrOf kwargs .euclidean), some (.bool false))] else []) ++
      (if p ∈ paramState rg (ofKind t .slow) then [(some (lrOf kwargs .slow), some (.bool false))] else []) ++
      (if p ∈ paramState rg (ofKind t .stiefel) then [(some (lrOf kwargs .stiefel), some (.bool true))] else []) := by
    intro p
    unfold allGroups
    rw [List.filter_append, List.filter_append, List.map_append, List.map_append, filter_grps, filter_grps, filter_grps]
  have hmem : ∀ p k, p ∈ paramState rg (ofKind t k) ↔ rg p = true ∧ p ∈ ofKind t k := by
    intro p k
    unfold paramState
    rw [List.mem_filter]
    exact And.comm
  have hA : ∀ p k, rg p = true → p ∈ ofKind t k →
      (((allGroups t rg kwargs).filter fun g => p ∈ groupParams g).map fun g => (g.find "lr", g.find "stiefel")) =
        [(some (lrOf kwargs k), some (.bool (decide (k = .stiefel))))] := by
    intro p k hp hk
    have hne : ∀ k', k' ≠ k → p ∉ paramState rg (ofKind t k') := by
      intro k' hk' h
      exact hk' (hd p k' k hp ((hmem p k').mp h).2 hk)
    have hin : p ∈ paramState rg (ofKind t k) := (hmem p k).mpr ⟨hp, hk⟩
    rw [hgo]
    cases k with
    | euclidean => rw [if_pos hin, if_neg (hne .slow (by decide)), if_neg (hne .stiefel (by decide))]; rfl
    | slow => rw [if_pos hin, if_neg (hne .euclidean (by decide)), if_neg (hne .stiefel (by decide))]; rfl
    | stiefel => rw [if_pos hin, if_neg (hne .euclidean (by decide)), if_neg (hne .slow (by decide))]; rfl
  have hB : ∀ p, (rg p = false ∨ ∀ k, p ∉ ofKind t k) →
      (((allGroups t rg kwargs).filter fun g => p ∈ groupParams g).map fun g => (g.find "lr", g.find "stiefel")) = [] := by
    intro p hp
    have hne : ∀ k, p ∉ paramState rg (ofKind t k) := by
      intro k h
      obtain ⟨h1, h2⟩ := (hmem p k).mp h
      rcases hp with hp | hp
      · rw [hp] at h1; exact absurd h1 (by decide)
      · exact hp k h2
    rw [hgo, if_neg (hne _), if_neg (hne _), if_neg (hne _)]
    rfl
  have hC : allGroups t rg kwargs ≠ [] ↔ ∃ p k, rg p = true ∧ p ∈ ofKind t k := by
    constructor
    · intro h
      by_contra hn
      push Not at hn
      apply h
      have he : ∀ k, paramState rg (ofKind t k) = [] := by
        intro k
        rw [List.eq_nil_iff_forall_not_mem]
        intro p hp
        obtain ⟨h1, h2⟩ := (hmem p k).mp hp
        exact hn p k h1 h2
      unfold allGroups
      rw [he, he, he]
      rfl
    · rintro ⟨p, k, hp, hk⟩ h
      have := hA p k hp hk
      rw [h] at this
      exact absurd this (by simp)
  rw [construct_eq t rg type kwargs w hr, torchGroups_ok [] _ (allGroups_pairwise t rg kwargs hd) (by simp)]
  cases hg : allGroups t rg kwargs with
  | nil =>
    rw [hg] at hA hB hC
    exact ⟨_, rfl, hA, hB, by rw [← hC]; simp⟩
  | cons a b =>
    rw [hg] at hA hB hC
    refine ⟨⟨some (a :: b), true⟩, ?_, hA, hB, by rw [← hC]; simp⟩
    show (if _ then _ else _) = _
    rw [if_pos ht]
    rfl

/-- A trainable parameter of two kinds is refused. -/
theorem C60_two_kinds_refused (t : PTree) (rg : Nat → Bool) (type : String) (ht : type = "sgd" ∨ type = "adam") (kwargs : Dict String GVal) (w : kwargs.WF)
    (hr : Readable t) (p : Nat) (hp : rg p = true) (k k' : PKind) (hk : p ∈ ofKind t k) (hk' : p ∈ ofKind t k') (hne : k ≠ k') :
    construct t rg type kwargs = .error .valueError := by
  have hin : ∀ k, p ∈ ofKind t k → p ∈ paramState rg (ofKind t k) := fun k h => List.mem_filter.mpr ⟨h, by simpa using hp⟩
  have hg : ∀ ps st lr, p ∈ ps → grps (defaults.merge kwargs) ps st lr = [grp (defaults.merge kwargs) ps st lr] := by
    intro ps st lr h
    unfold grps
    rw [if_neg (List.ne_nil_of_mem h)]
  have hclash : ∀ (a b : Group) (pre mid post : List Group), p ∈ groupParams a → p ∈ groupParams b →
      torchGroups [] (pre ++ a :: (mid ++ b :: post)) = .error .valueError := by
    intro a b pre mid post ha hb
    have : ∀ acc, torchGroups acc (pre ++ a :: (mid ++ b :: post)) = .error .valueError := by
      induction pre with
      | nil =>
        intro acc
        rw [List.nil_append, torchGroups]
        split
        · rfl
        · exact torchGroups_clash _ _ b (by simp) a (by simp) p hb ha
      | cons x t ih =>
        intro acc
        rw [List.cons_append, torchGroups]
        split
        · rfl
        · exact ih _
    exact this []
  obtain ⟨E, hE⟩ : ∃ E, E = grps (defaults.merge kwargs) (paramState rg (ofKind t .euclidean)) false (lrOf kwargs .euclidean) := ⟨_, rfl⟩
  obtain ⟨L, hL⟩ : ∃ L, L = grps (defaults.merge kwargs) (paramState rg (ofKind t .slow)) false (lrOf kwargs .slow) := ⟨_, rfl⟩
  obtain ⟨S, hS⟩ : ∃ S, S = grps (defaults.merge kwargs) (paramState rg (ofKind t .stiefel)) true (lrOf kwargs .stiefel) := ⟨_, rfl⟩
  have hEi : p ∈ ofKind t .euclidean → ∃ a, E = [a] ∧ p ∈ groupParams a := fun h => ⟨_, by rw [hE, hg _ _ _ (hin _ h)], by rw [grp_params]; exact hin _ h⟩
  have hLi : p ∈ ofKind t .slow → ∃ a, L = [a] ∧ p ∈ groupParams a := fun h => ⟨_, by rw [hL, hg _ _ _ (hin _ h)], by rw [grp_params]; exact hin _ h⟩
  have hSi : p ∈ ofKind t .stiefel → ∃ a, S = [a] ∧ p ∈ groupParams a := fun h => ⟨_, by rw [hS, hg _ _ _ (hin _ h)], by rw [grp_params]; exact hin _ h⟩
  have key : torchGroups [] (allGroups t rg kwargs) = .error .valueError ∧ allGroups t rg kwargs ≠ [] := by
    have hall : allGroups t rg kwargs = E ++ L ++ S := by rw [hE, hL, hS]; rfl
    rw [hall]
    have el : p ∈ ofKind t .euclidean → p ∈ ofKind t .slow → torchGroups [] (E ++ L ++ S) = .error .valueError ∧ E ++ L ++ S ≠ [] := by
      intro h1 h2
      obtain ⟨a, ha, hpa⟩ := hEi h1
      obtain ⟨b, hb, hpb⟩ := hLi h2
      rw [ha, hb]
      exact ⟨hclash a b [] [] S hpa hpb, by simp⟩
    have es : p ∈ ofKind t .euclidean → p ∈ ofKind t .stiefel → torchGroups [] (E ++ L ++ S) = .error .valueError ∧ E ++ L ++ S ≠ [] := by
      intro h1 h2
      obtain ⟨a, ha, hpa⟩ := hEi h1
      obtain ⟨b, hb, hpb⟩ := hSi h2
      rw [ha, hb]
      exact ⟨by simpa using hclash a b [] L [] hpa hpb, by simp⟩
    have ls : p ∈ ofKind t .slow → p ∈ ofKind t .stiefel → torchGroups [] (E ++ L ++ S) = .error .valueError ∧ E ++ L ++ S ≠ [] := by
      intro h1 h2
      obtain ⟨a, ha, hpa⟩ := hLi h1
      obtain ⟨b, hb, hpb⟩ := hSi h2
      rw [ha, hb]
      exact ⟨by simpa using hclash a b E [] [] hpa hpb, by simp⟩
    cases k <;> cases k' <;> first | exact absurd rfl hne | exact el hk hk' | exact el hk' hk | exact es hk hk' | exact es hk' hk | exact ls hk hk' | exact ls hk' hk
  rw [construct_eq t rg type kwargs w hr, key.1]
  cases hg : allGroups t rg kwargs with
  | nil => exact absurd hg key.2
  | cons a b =>
    show (if _ then _ else _) = _
    rw [if_pos ht]

theorem reduceGroups_spec (rate : ℝ) (gs : List Group) (lrs : List ℝ)
    (h : gs.map (fun g => g.find "lr") = lrs.map fun r => some (.real r)) :
    ∃ gs', gs.mapM (reduceGroup rate) = .ok gs' ∧ gs'.map (fun g => g.find "lr") = lrs.map (fun r => some (.real (r * rate)))
      ∧ gs'.map groupParams = gs.map groupParams ∧ gs'.map (fun g => g.find "stiefel") = gs.map (fun g => g.find "stiefel") := by
  induction gs generalizing lrs with
  | nil =>
    cases lrs with
    | nil => exact ⟨[], rfl, rfl, rfl, rfl⟩
    | cons a t => exact absurd h (by simp)
  | cons g t ih =>
    cases lrs with
    | nil => exact absurd h (by simp)
    | cons r rs =>
      simp only [List.map_cons, List.cons.injEq] at h
      obtain ⟨gs', h1, h2, h3, h4⟩ := ih rs h.2
      have hg : reduceGroup rate g = .ok (g.set "lr" (.real (r * rate))) := by
        unfold reduceGroup
        rw [h.1]
      refine ⟨g.set "lr" (.real (r * rate)) :: gs', ?_, ?_, ?_, ?_⟩
      · rw [List.mapM_cons, hg, h1]; rfl
      · simp only [List.map_cons]
        rw [h2, Dict.find_set, if_pos rfl]
      · simp only [List.map_cons]
        rw [h3]
        congr 1
        unfold groupParams
        rw [Dict.find_set, if_neg (by decide)]
      · simp only [List.map_cons]
        rw [h4, Dict.find_set, if_neg (by decide)]

/-- **C60**, reductions: whatever the sequence of rates, the learning rates of all groups are multiplied by the product of the rates; nothing else changes. -/
theorem C60_reduce (rates : List ℝ) (gs : List Group) (b : Bool) (lrs : List ℝ) (h : gs.map (fun g => g.find "lr") = lrs.map fun r => some (.real r)) :
    ∃ gs', (⟨some gs, b⟩ : Optim.St).reduces rates = .ok ⟨some gs', b⟩
      ∧ gs'.map (fun g => g.find "lr") = lrs.map (fun r => some (.real (r * rates.prod)))
      ∧ gs'.map groupParams = gs.map groupParams ∧ gs'.map (fun g => g.find "stiefel") = gs.map (fun g => g.find "stiefel") := by
  induction rates generalizing gs lrs with
  | nil => exact ⟨gs, rfl, by simpa using h, rfl, rfl⟩
  | cons r t ih =>
    obtain ⟨g1, h1, h2, h3, h4⟩ := reduceGroups_spec r gs lrs h
    have h2' : g1.map (fun g => g.find "lr") = (lrs.map (· * r)).map fun r => some (.real r) := by
      rw [h2, List.map_map]; rfl
    obtain ⟨gs', k1, k2, k3, k4⟩ := ih g1 (lrs.map (· * r)) h2'
    refine ⟨gs', ?_, ?_, by rw [k3, h3], by rw [k4, h4]⟩
    · rw [Optim.St.reduces]
      have : (⟨some gs, b⟩ : Optim.St).reduce r = .ok ⟨some g1, b⟩ := by
        unfold Optim.St.reduce
        simp only [h1]
      rw [this]
      exact k1
    · rw [k2, List.map_map]
      apply List.map_congr_left
      intro x _
      simp only [Function.comp_apply, List.prod_cons]
      rw [mul_assoc]

/-- C60 fails for an unknown optimiser name on a module without trainable parameters: it is accepted. -/
theorem C60_name_violated (t : PTree) (rg : Nat → Bool) (type : String) (kwargs : Dict String GVal) (w : kwargs.WF) (hr : Readable t)
    (hn : ∀ p k, rg p = true → p ∉ ofKind t k) : construct t rg type kwargs = .ok ⟨none, false⟩ := by
  have he : ∀ k, paramState rg (ofKind t k) = [] := by
    intro k
    rw [List.eq_nil_iff_forall_not_mem]
    intro p hp
    obtain ⟨h1, h2⟩ := List.mem_filter.mp hp
    exact hn p k h2 h1
  have : allGroups t rg kwargs = [] := by
    unfold allGroups
    rw [he, he, he]
    rfl
  rw [construct_eq t rg type kwargs w hr, this]

/-! ## non-vacuity -/

/-- A level with a Stiefel parameter 0, a sample 1 and a kernel child with the slow parameters 2 and 3. -/
def exTree : PTree :=
  .node true (fun | .euclidean => [sampleLayer (some 1)] | .stiefel => [kpcaLayer (some 0)] | .slow => []) false
    [.node true (fun | .slow => [hyperLayer [2, 3]] | _ => []) false []]

example : Readable exTree := by intro k; cases k <;> decide
example : (ofKind exTree .euclidean, ofKind exTree .stiefel, ofKind exTree .slow) = ([1], [0], [2, 3]) := by decide
example : KindsDisjoint exTree fun p => p ≠ 3 := by
  intro p k k' hp h h'
  have e1 : ofKind exTree .euclidean = [1] := by decide
  have e2 : ofKind exTree .stiefel = [0] := by decide
  have e3 : ofKind exTree .slow = [2, 3] := by decide
  cases k <;> cases k' <;> simp_all

end Kerch
