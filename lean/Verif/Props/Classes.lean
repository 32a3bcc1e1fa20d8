import Verif.Lemmas.Classes
import Verif.Model.Time
import Mathlib.Tactic.NormNum
import Mathlib.Tactic.Linarith
import Mathlib.Tactic.IntervalCases
import Mathlib.Tactic.LinearCombination
/-!
# C109: what class a level object has

Python decides by linearisation of base classes and by `ABCMeta` what an object of a level class combined with a kernel class
does, and whether it can be created at all.  The theorems below hold for every kernel class a user may write.
-/
set_option linter.unusedSectionVars false
set_option linter.unusedSimpArgs false
namespace Kerch
namespace Classes

/-! ### Specification -/

/-- Classes made by class statements (or calls of `type`), each with a new identity. -/
inductive Built : Cls → Prop
  | mk (e : Entry) (bases : List Cls) (c : Cls) : (∀ b ∈ bases, Built b) → (∀ b ∈ bases, ∀ x ∈ b.mro, x.name ≠ e.name) →
      create e bases = .ok c → Built c

/-- `c` is `k` or one of its descendants. -/
inductive Derives : Cls → Cls → Prop
  | refl (k : Cls) : Derives k k
  | step (e : Entry) (bases : List Cls) (c b k : Cls) : create e bases = .ok c → b ∈ bases → Derives b k → Derives c k

/-- The name is abstract in a linearisation: the first class that defines it marks it so. -/
def AbstractIn (m : List Entry) (n : At) : Prop :=
  ∃ A e B b, m = A ++ e :: B ∧ (∀ x ∈ A, x.find n = none) ∧ e.find n = some b ∧ b.abstract = true

/-- The names of the classes of `kerch/level` (and of those created by `type`). -/
def levelNames : List CN :=
  [.viewBase, .levelBase, .kpcaBase, .ppcaBase, .multiView, .mvLevel, .mvkpca, .view, .level, .kpca, .lssvm, .ppca, .ridge, .wpca]

/-- A kernel class in the sense of the parameter `kernel_class`: built by class statements on `kerch.kernel.Kernel`, not itself one
of the ancestors of `Kernel`, and having no level among its ancestors. -/
structure KernelClass (K : Cls) : Prop where
  built : Built K
  derives : (cls .kernel).mro.Sublist K.mro
  proper : ∀ e, K.mro.head? = some e → e ∉ (cls .kernel).mro
  foreign : ∀ e ∈ K.mro, e.name ∉ levelNames

/-- The level classes with one view. -/
def singleLevels : List CN := [.view, .level, .kpca, .lssvm, .ridge, .ppca, .wpca]

/-- `id` is the identity of no class of `m`. -/
def Fresh (id : ℕ) (m : List Entry) : Prop := ∀ e ∈ m, e.name ≠ .dyn id

/-! ### Helpers -/

theorem create_spec {e : Entry} {bases : List Cls} {c : Cls} (h : create e bases = .ok c) :
    ∃ m, c3 (bases.map Cls.mro ++ [bases.filterMap (fun b => b.mro.head?)]) = some m ∧ c.mro = e :: m ∧
      c.abs = (e.defs.filter (fun d => isAbstract (e :: m) d.1)).map Prod.fst
        ++ (bases.flatMap Cls.abs).filter (isAbstract (e :: m)) := by
  unfold create at h
  cases hc : c3 (bases.map Cls.mro ++ [bases.filterMap (fun b => b.mro.head?)]) with
  | none => rw [hc] at h; simp at h
  | some m =>
    rw [hc] at h
    simp only [Except.ok.injEq] at h
    subst h
    exact ⟨m, rfl, rfl, rfl⟩

theorem create_mem {e : Entry} {bases : List Cls} {c : Cls} (h : create e bases = .ok c) :
    ∃ m, c.mro = e :: m ∧ (∀ b ∈ bases, b.mro.Sublist m) ∧ (∀ x ∈ m, ∃ b ∈ bases, x ∈ b.mro) ∧ m.Nodup := by
  obtain ⟨m, hm, h1, _⟩ := create_spec h
  refine ⟨m, h1, fun b hb => c3_sublist hm _ (by simp; exact Or.inl ⟨b, hb, rfl⟩), ?_, c3_nodup hm⟩
  intro x hx
  obtain ⟨l, hl, hxl⟩ := c3_mem hm x hx
  simp only [List.mem_append, List.mem_map, List.mem_singleton] at hl
  rcases hl with ⟨b, hb, rfl⟩ | rfl
  · exact ⟨b, hb, hxl⟩
  · obtain ⟨b, hb, hh⟩ := List.mem_filterMap.1 hxl
    exact ⟨b, hb, List.mem_of_mem_head? (by simp [hh])⟩

theorem built_nodup {c : Cls} (h : Built c) : c.mro.Nodup := by
  cases h with
  | mk e bases c hb hf hc =>
    obtain ⟨m, h1, h2, h3, h4⟩ := create_mem hc
    rw [h1]
    refine List.nodup_cons.2 ⟨fun he => ?_, h4⟩
    obtain ⟨b, hb, hx⟩ := h3 e he
    exact hf b hb e hx rfl

theorem built_abs {c : Cls} (h : Built c) : ∀ n, n ∈ c.abs ↔ isAbstract c.mro n = true := by
  induction h with
  | mk e bases c hb hf hc ih =>
    intro n
    obtain ⟨m, hm, h1, h2⟩ := create_spec hc
    obtain ⟨m', h1', hs, hmem, hnd⟩ := create_mem hc
    obtain rfl : m = m' := by rw [h1] at h1'; exact (List.cons.inj h1').2
    rw [h2, h1]
    simp only [List.mem_append, List.mem_map, List.mem_filter, List.mem_flatMap]
    constructor
    · rintro (⟨d, ⟨_, hd⟩, rfl⟩ | ⟨_, hd⟩) <;> exact hd
    · intro ha
      obtain ⟨A, x, B, b, hA, hnone, hx, hb'⟩ := isAbstract_iff.1 ha
      cases A with
      | nil =>
        simp only [List.nil_append, List.cons.injEq] at hA
        obtain ⟨rfl, rfl⟩ := hA
        obtain ⟨d, hd, rfl⟩ := find_mem hx
        exact Or.inl ⟨d, ⟨hd, ha⟩, rfl⟩
      | cons a A =>
        simp only [List.cons_append, List.cons.injEq] at hA
        obtain ⟨rfl, hA⟩ := hA
        right
        obtain ⟨base, hbase, hxb⟩ := hmem x (by rw [hA]; simp)
        refine ⟨⟨base, hbase, (ih base hbase n).2 ?_⟩, ha⟩
        obtain ⟨A', B', h5, h6, _⟩ := sublist_split (hs base hbase) hnd hA hxb
        exact isAbstract_iff.2 ⟨A', x, B', b, h5, fun y hy => hnone y (by simp [h6.subset hy]), hx, hb'⟩

theorem run_built : ∀ (rs : List Row) (env : List (CN × Cls)),
    (∀ p ∈ env, Built p.2) → (∀ p ∈ env, ∀ x ∈ p.2.mro, ∃ q ∈ env, q.1 = x.name) →
    (rs.map Row.name).Nodup → (∀ r ∈ rs, ∀ p ∈ env, p.1 ≠ r.name) → ∀ p ∈ run env rs, Built p.2
  | [], env, h1, _, _, _ => h1
  | r :: rs, env, h1, h2, h3, h4 => by
    unfold run
    have h3' := List.nodup_cons.1 h3
    have hmemE : ∀ b ∈ r.bases.filterMap (fun b => env.lookup b), ∃ p ∈ env, p.2 = b := by
      intro b hb
      obtain ⟨k, _, hk⟩ := List.mem_filterMap.1 hb
      clear h1 h2 h3 h3' h4 hb
      induction env with
      | nil => simp at hk
      | cons q env ih =>
        rw [List.lookup_cons] at hk
        split at hk
        · simp at hk; exact ⟨q, by simp, hk⟩
        · obtain ⟨p, hp, he⟩ := ih hk; exact ⟨p, by simp [hp], he⟩
    split
    · exact run_built rs env h1 h2 h3'.2 fun r' hr' => h4 r' (by simp [hr'])
    · rename_i c hc
      have hB : Built c := by
        refine .mk _ _ c ?_ ?_ hc
        · intro b hb
          obtain ⟨p, hp, rfl⟩ := hmemE b hb
          exact h1 p hp
        · intro b hb x hx
          obtain ⟨p, hp, rfl⟩ := hmemE b hb
          obtain ⟨q, hq, he⟩ := h2 p hp x hx
          rw [← he]; exact h4 r (by simp) q hq
      refine run_built rs _ ?_ ?_ h3'.2 ?_
      · intro p hp
        rcases List.mem_append.1 hp with hp | hp
        · exact h1 p hp
        · simp at hp; subst hp; exact hB
      · intro p hp x hx
        rcases List.mem_append.1 hp with hp | hp
        · obtain ⟨q, hq, he⟩ := h2 p hp x hx
          exact ⟨q, by simp [hq], he⟩
        · simp at hp; subst hp
          obtain ⟨m, h5, _, h6, _⟩ := create_mem hc
          rw [h5] at hx
          rcases List.mem_cons.1 hx with rfl | hx
          · exact ⟨(r.name, c), by simp, rfl⟩
          · obtain ⟨b, hb, hxb⟩ := h6 x hx
            obtain ⟨p', hp', rfl⟩ := hmemE b hb
            obtain ⟨q, hq, he⟩ := h2 p' hp' x hxb
            exact ⟨q, by simp [hq], he⟩
      · intro r' hr' p hp
        rcases List.mem_append.1 hp with hp | hp
        · exact h4 r' (by simp [hr']) p hp
        · simp at hp; subst hp
          intro he
          exact h3'.1 (List.mem_map.2 ⟨r', hr', he.symm⟩)

theorem table_names : (table.map Row.name).Nodup := by decide +kernel

theorem env_built : ∀ p ∈ env, Built p.2 :=
  run_built table [] (by simp) (by simp) table_names (by simp)

theorem env_lookup {n : CN} (h : (env.lookup n).isSome) : Built (cls n) := by
  obtain ⟨c, hc⟩ := Option.isSome_iff_exists.1 h
  unfold cls
  rw [hc]
  have : ∀ (l : List (CN × Cls)), l.lookup n = some c → ∃ p ∈ l, p.2 = c := by
    intro l hl
    induction l with
    | nil => simp at hl
    | cons q l ih =>
      rw [List.lookup_cons] at hl
      split at hl
      · simp at hl; exact ⟨q, by simp, hl⟩
      · obtain ⟨p, hp, he⟩ := ih hl; exact ⟨p, by simp [hp], he⟩
  obtain ⟨p, hp, rfl⟩ := this env hc
  exact env_built p hp

/-- Every class statement of the package succeeds. -/
theorem env_complete : ∀ r ∈ table, (env.lookup r.name).isSome = true := by decide +kernel

/-- A class as an element of linearisations. -/
def entry (n : CN) : Entry := ((cls n).mro.head?).getD ⟨.object, .object, []⟩

/-- The linearisation of a level class up to `View`, included. -/
def levelPart (L : CN) : List Entry := (cls L).mro.takeWhile (fun e => e.name != .view) ++ [entry .view]

/-- The ancestors of `View`. -/
def viewTail : List Entry := (cls .view).mro.tail

theorem level_split : ∀ L ∈ singleLevels, (cls L).mro = levelPart L ++ viewTail := by decide +kernel
theorem levelPart_names : ∀ L ∈ singleLevels, ∀ e ∈ levelPart L, e.name ∈ levelNames := by decide +kernel
theorem viewTail_kernel : ∀ e ∈ viewTail, e ∈ (cls .kernel).mro ∨ e = entry .viewBase := by decide +kernel
theorem viewTail_order : [entry .baseKernel, entry .viewBase].Sublist viewTail := by decide +kernel
theorem kernel_sub_viewTail : (cls .kernel).mro.Sublist viewTail := by decide +kernel
theorem viewBase_level : (entry .viewBase).name ∈ levelNames := by decide +kernel
theorem baseKernel_mem : entry .baseKernel ∈ (cls .kernel).mro := by decide +kernel
theorem kernel_names : ∀ e ∈ (cls .kernel).mro, e.name ∉ levelNames := by decide +kernel
theorem level_env : ∀ L ∈ singleLevels, (env.lookup L).isSome = true := by decide +kernel
theorem level_head : ∀ L ∈ singleLevels, (cls L).mro.head? = some (entry L) ∧ (levelPart L).head? = some (entry L) ∧
    (entry L).name = L ∧ (entry L).home = L ∧ ownDefs (cls L) = (entry L).defs ∧ ownHome (cls L) = L := by decide +kernel
def CN.isDyn : CN → Bool
  | .dyn _ => true
  | _ => false
theorem level_nodyn : ∀ L ∈ singleLevels, ∀ e ∈ (cls L).mro, e.name.isDyn = false := by decide +kernel
theorem level_before_view : ∀ L ∈ singleLevels, ∀ e ∈ (cls L).mro.takeWhile (fun e => e.name != .view), e.name ≠ .view := by
  decide +kernel

theorem level_fresh {L : CN} (hL : L ∈ singleLevels) (id : ℕ) : Fresh id (cls L).mro := by
  intro e he hd
  have := level_nodyn L hL e he
  rw [hd] at this
  simp [CN.isDyn] at this

theorem level_built {L : CN} (hL : L ∈ singleLevels) : Built (cls L) := env_lookup (level_env L hL)

/-- The class made of a level class and a kernel class. -/
theorem create_two {e : Entry} {l k : Cls} {p q : Entry} (hl : l.mro.head? = some p) (hk : k.mro.head? = some q) :
    create e [l, k] = match c3 [l.mro, k.mro, [p, q]] with
      | none => .error .typeError
      | some m => .ok ⟨e :: m, (e.defs.filter (fun d => isAbstract (e :: m) d.1)).map Prod.fst
        ++ (([l, k] : List Cls).flatMap Cls.abs).filter (isAbstract (e :: m))⟩ := by
  unfold create
  simp only [List.map_cons, List.map_nil, List.filterMap_cons, hl, hk, List.filterMap_nil, List.cons_append, List.nil_append]
  rfl

theorem kernel_head {K : Cls} (hK : KernelClass K) : ∃ q Q, K.mro = q :: Q := by
  have := hK.derives.subset baseKernel_mem
  cases h : K.mro with
  | nil => rw [h] at this; simp at this
  | cons q Q => exact ⟨q, Q, rfl⟩

theorem level_common {K : Cls} (hK : KernelClass K) {L : CN} (hL : L ∈ singleLevels) :
    ∀ x ∈ (cls L).mro, x ∈ K.mro → x ∈ (cls .kernel).mro := by
  intro x hx hxK
  have hn := hK.foreign x hxK
  rw [level_split L hL] at hx
  rcases List.mem_append.1 hx with h | h
  · exact absurd (levelPart_names L hL x h) hn
  · rcases viewTail_kernel x h with h | rfl
    · exact h
    · exact absurd viewBase_level hn

/-- The linearisation of the class of a level object: the level part, then a merge of the kernel and the ancestors of `View`. -/
theorem level_mro {K c : Cls} (hK : KernelClass K) {L : CN} (hL : L ∈ singleLevels) {e : Entry}
    (hc : create e [cls L, K] = .ok c) :
    ∃ R, c.mro = e :: (levelPart L ++ R) ∧ viewTail.Sublist R ∧ K.mro.Sublist R ∧ R.Nodup ∧
      ∀ x ∈ R, x ∈ K.mro ∨ x = entry .viewBase := by
  obtain ⟨q, Q, hq⟩ := kernel_head hK
  have hh := level_head L hL
  rw [create_two hh.1 (by rw [hq]; rfl)] at hc
  obtain ⟨A, hA⟩ : ∃ A, levelPart L = entry L :: A := by
    cases h : levelPart L with
    | nil => rw [h] at hh; simp at hh
    | cons a A => rw [h] at hh; simp at hh; exact ⟨A, by rw [hh.2.1]⟩
  have hnd := built_nodup (level_built hL)
  rw [level_split L hL, hA, hq] at hc
  rw [level_split L hL, hA] at hnd
  have hKn := built_nodup hK.built
  rw [hq] at hKn
  cases hm : c3 [entry L :: A ++ viewTail, q :: Q, [entry L, q]] with
  | none => rw [hm] at hc; simp at hc
  | some m =>
    rw [hm] at hc
    simp only [Except.ok.injEq] at hc
    obtain ⟨R, rfl, h1, h2, h3, h4⟩ := c3_two hnd hKn (by
      intro a ha hc
      rw [← hA] at ha
      rw [← hq] at hc
      exact hK.foreign a hc (levelPart_names L hL a ha)) hm
    refine ⟨R, by rw [← hc, hA], h1, by rw [hq]; exact h2, h3, ?_⟩
    intro x hx
    rcases h4 x hx with h | h
    · rcases viewTail_kernel x h with h | h
      · exact Or.inl (hK.derives.subset h)
      · exact Or.inr h
    · left; rw [hq]; exact h

theorem level_result_built {K c : Cls} (hK : KernelClass K) {L : CN} (hL : L ∈ singleLevels) {id : ℕ} (hf : Fresh id K.mro)
    {h : CN} {d : List (At × Body)} (hc : create ⟨.dyn id, h, d⟩ [cls L, K] = .ok c) : Built c := by
  refine .mk _ _ c ?_ ?_ hc
  · intro b hb
    simp only [List.mem_cons, List.not_mem_nil, or_false] at hb
    rcases hb with rfl | rfl
    · exact level_built hL
    · exact hK.built
  · intro b hb x hx
    simp only [List.mem_cons, List.not_mem_nil, or_false] at hb
    rcases hb with rfl | rfl
    · exact level_fresh hL id x hx
    · exact hf x hx

/-- What `super(View, self)` searches agrees with the kernel class. -/
theorem lookup_rest {K : Cls} (hK : KernelClass K) {R : List Entry} (h1 : viewTail.Sublist R) (h2 : K.mro.Sublist R)
    (h3 : R.Nodup) (h4 : ∀ x ∈ R, x ∈ K.mro ∨ x = entry .viewBase) {n : At} {A B : List Entry}
    (hA : K.mro = A ++ entry .baseKernel :: B)
    (hn : (entry .viewBase).find n = none ∨ ∃ e ∈ A ++ [entry .baseKernel], e.find n ≠ none) :
    lookup R n = lookup K.mro n := by
  have hKn := built_nodup hK.built
  cases hl : lookup K.mro n with
  | none =>
    have h0 := lookup_eq_none.1 hl
    rw [lookup_eq_none]
    intro x hx
    rcases h4 x hx with h | rfl
    · exact h0 x h
    · rcases hn with h | ⟨e, he, hd⟩
      · exact h
      · exact absurd (h0 e (by
          rw [hA]
          rcases List.mem_append.1 he with h | h
          · simp [h]
          · simp at h; simp [h])) hd
  | some r =>
    obtain ⟨A1, e, A2, hs, hnone, hh, hf⟩ := lookup_eq_some.1 hl
    have heK : e ∈ K.mro := by rw [hs]; simp
    obtain ⟨R1, R2, hR⟩ := List.append_of_mem (h2.subset heK)
    obtain ⟨A', B', h5, h6, h7⟩ := sublist_split h2 h3 hR heK
    have hRn := h3
    rw [hR] at hRn
    have hRd := List.nodup_append.1 hRn
    have hA' : A' = A1 := by
      have : A' ++ e :: B' = A1 ++ e :: A2 := by rw [← h5, hs]
      have hn1 : e ∉ A' := by
        intro hc
        rw [h5] at hKn
        exact (List.nodup_append.1 hKn).2.2 e hc e (by simp) rfl
      have hn2 : e ∉ A1 := by
        intro hc
        rw [hs] at hKn
        exact (List.nodup_append.1 hKn).2.2 e hc e (by simp) rfl
      exact (List.append_eq_append_iff.1 this).elim
        (fun ⟨a, ha, hb⟩ => by
          cases a with
          | nil => simpa using ha.symm
          | cons y a => simp at hb; exact absurd (by rw [ha, ← hb.1]; simp) hn2)
        (fun ⟨a, ha, hb⟩ => by
          cases a with
          | nil => simpa using ha
          | cons y a => simp at hb; exact absurd (by rw [ha, ← hb.1]; simp) hn1)
    refine lookup_eq_some.2 ⟨R1, e, R2, hR, ?_, hh, hf⟩
    intro x hx
    by_cases hxK : x ∈ K.mro
    · rw [h5] at hxK
      rcases List.mem_append.1 hxK with h | h
      · exact hnone x (hA' ▸ h)
      · exfalso
        rcases List.mem_cons.1 h with rfl | h
        · exact hRd.2.2 x hx x (by simp) rfl
        · exact hRd.2.2 x hx x (by simp [h7.subset h]) rfl
    · obtain rfl : x = entry .viewBase := (h4 x (by rw [hR]; simp [hx])).resolve_left hxK
      rcases hn with h | ⟨e', he', hd⟩
      · exact h
      · exfalso
        -- the class that defines `n` comes no later than `_BaseKernel`
        have hb : entry .baseKernel = e ∨ entry .baseKernel ∈ A2 := by
          have : entry .baseKernel ∈ A1 ++ e :: A2 := by rw [← hs, hA]; simp
          rcases List.mem_append.1 this with h | h
          · exfalso
            obtain ⟨C1, C2, hC⟩ := List.append_of_mem h
            have hAA : A = C1 := by
              have h8 : A ++ entry .baseKernel :: B = C1 ++ entry .baseKernel :: (C2 ++ e :: A2) := by
                rw [← hA, hs, hC]; simp
              have hn1 : entry .baseKernel ∉ A := by
                intro hc
                rw [hA] at hKn
                exact (List.nodup_append.1 hKn).2.2 _ hc _ (by simp) rfl
              have hn2 : entry .baseKernel ∉ C1 := by
                intro hc
                rw [hA, h8] at hKn
                exact (List.nodup_append.1 hKn).2.2 _ hc _ (by simp) rfl
              exact (List.append_eq_append_iff.1 h8).elim
                (fun ⟨a, ha, hb⟩ => by
                  cases a with
                  | nil => simpa using ha.symm
                  | cons y a => simp at hb; exact absurd (by rw [ha, ← hb.1]; simp) hn2)
                (fun ⟨a, ha, hb⟩ => by
                  cases a with
                  | nil => simpa using ha
                  | cons y a => simp at hb; exact absurd (by rw [ha, ← hb.1]; simp) hn1)
            have : e' ∈ A1 := by
              rw [hC]
              rcases List.mem_append.1 he' with h | h
              · rw [hAA] at h; simp [h]
              · simp at h; simp [h]
            exact hd (hnone e' this)
          · exact List.mem_cons.1 h
        have hb2 : entry .baseKernel ∈ e :: R2 := by
          rcases hb with h | h
          · simp [h]
          · have hBB : A2 = B' := by
              have : A' ++ e :: B' = A1 ++ e :: A2 := by rw [← h5, hs]
              rw [hA'] at this
              exact (List.cons.inj (List.append_cancel_left this)).2.symm
            exact List.mem_cons_of_mem _ (h7.subset (hBB ▸ h))
        have ho : [entry .baseKernel, entry .viewBase].Sublist (R1 ++ e :: R2) := hR ▸ viewTail_order.trans h1
        obtain ⟨l1, l2, hl12, hs1, hs2⟩ := List.sublist_append_iff.1 ho
        cases l1 with
        | nil =>
          simp at hl12
          have : entry .viewBase ∈ e :: R2 := hs2.subset (by rw [← hl12]; simp)
          exact hRd.2.2 _ hx _ this rfl
        | cons y l1 =>
          simp at hl12
          have : entry .baseKernel ∈ R1 := hs1.subset (by rw [hl12.1]; simp)
          exact hRd.2.2 _ this _ hb2 rfl

/-! ### C109 -/

/-- **C109.** Abstract names, for every class however it was built: a name is among the abstract ones, and the class cannot
be instantiated, exactly when the first class of the linearisation that defines it marks it abstract. -/
theorem C109_abstract {c : Cls} (h : Built c) :
    (∀ n, n ∈ c.abs ↔ AbstractIn c.mro n) ∧ (instantiate c = .ok () ↔ ∀ n, ¬ AbstractIn c.mro n) ∧
    (instantiate c = .ok () ∨ instantiate c = .error .typeError) := by
  have h1 : ∀ n, n ∈ c.abs ↔ AbstractIn c.mro n := fun n => (built_abs h n).trans isAbstract_iff
  refine ⟨h1, ?_, ?_⟩
  · unfold instantiate
    constructor
    · intro h2 n hn
      split at h2
      · rename_i h3; rw [← h1, h3] at hn; simp at hn
      · simp at h2
    · intro h2
      rw [if_pos]
      exact List.eq_nil_iff_forall_not_mem.2 fun n hn => h2 n ((h1 n).1 hn)
  · unfold instantiate; split <;> simp

/-- **C109.** The linearisation, for every class: no repetition, the order of the linearisation of every base and of every
ancestor is kept, nothing else is added. -/
theorem C109_mro {e : Entry} {bases : List Cls} {c : Cls} (hb : ∀ b ∈ bases, Built b)
    (hf : ∀ b ∈ bases, ∀ x ∈ b.mro, x.name ≠ e.name) (h : create e bases = .ok c) :
    c.mro.head? = some e ∧ c.mro.Nodup ∧ (∀ k, Derives c k → k.mro.Sublist c.mro) ∧
    (∀ x ∈ c.mro, x = e ∨ ∃ b ∈ bases, x ∈ b.mro) := by
  obtain ⟨m, h1, h2, h3, h4⟩ := create_mem h
  refine ⟨by rw [h1]; rfl, built_nodup (.mk e bases c hb hf h), ?_, ?_⟩
  · intro k hk
    clear h1 h2 h3 h4 h hf hb
    induction hk with
    | refl k => exact List.Sublist.refl _
    | step e' bases' c' b k hc hb _ ih =>
      obtain ⟨m, h1, h2, _, _⟩ := create_mem hc
      rw [h1]
      exact (ih.trans (h2 b hb)).cons _
  · intro x hx
    rw [h1] at hx
    rcases List.mem_cons.1 hx with h | h
    · exact Or.inl h
    · exact Or.inr (h3 x h)

/-- **C109.** Every kernel class can be combined with every level class: the linearisation exists. -/
theorem C109_level_class {K : Cls} (hK : KernelClass K) {L : CN} (hL : L ∈ singleLevels) (e : Entry) :
    ∃ c, create e [cls L, K] = .ok c := by
  obtain ⟨q, Q, hq⟩ := kernel_head hK
  have hh := level_head L hL
  rw [create_two hh.1 (by rw [hq]; rfl)]
  have hne : ∀ x ∈ (cls L).mro, x ∈ K.mro → x ∈ (cls .kernel).mro := level_common hK hL
  have hLm : entry L ∈ (cls L).mro := List.mem_of_mem_head? (by simp [hh.1])
  have hLp : entry L ∈ levelPart L := List.mem_of_mem_head? (by simp [hh.2.1])
  have hT : Third (cls L).mro K.mro [entry L, q] := by
    left
    refine ⟨entry L, q, hh.1, ?_, by rw [hq]; rfl, ?_, rfl⟩
    · exact fun hc => hK.foreign _ hc (levelPart_names L hL _ hLp)
    · exact fun hc => hK.proper q (by rw [hq]; rfl) (hne q hc (by rw [hq]; simp))
  have hA : Agree (cls L).mro K.mro := by
    refine ⟨(cls .kernel).mro, ?_, hK.derives, hne⟩
    rw [level_split L hL]
    exact kernel_sub_viewTail.trans (List.sublist_append_right _ _)
  obtain ⟨m, hm⟩ := merge_two (n := ([(cls L).mro, K.mro, [entry L, q]].map List.length).sum) (built_nodup (level_built hL))
    (built_nodup hK.built) hA hT
  have : c3 [(cls L).mro, K.mro, [entry L, q]] = some m := hm
  rw [this]
  exact ⟨_, rfl⟩

/-- **C109.** `self.kernel.n` of a level is what the kernel class alone provides for `n`, for every kernel class: for every name
defined by the kernel class or its ancestors down to `_BaseKernel`, and for every other name that `_View` does not define. -/
theorem C109_kernel {K c : Cls} (hK : KernelClass K) {L : CN} (hL : L ∈ singleLevels) {id : ℕ} {h : CN}
    {d : List (At × Body)} (hc : create ⟨.dyn id, h, d⟩ [cls L, K] = .ok c) {A B : List Entry}
    (hA : K.mro = A ++ entry .baseKernel :: B) {n : At}
    (hn : (entry .viewBase).find n = none ∨ ∃ e ∈ A ++ [entry .baseKernel], e.find n ≠ none) :
    kernelLookup c n = lookup K.mro n := by
  obtain ⟨R, h1, h2, h3, h4, h5⟩ := level_mro hK hL hc
  have haft : after .view c.mro = R := by
    rw [h1]
    have : ∀ (X : List Entry), (∀ e ∈ X, e.name ≠ .view) → after .view (X ++ entry .view :: R) = R := by
      intro X hX
      induction X with
      | nil => simp [after, (by decide +kernel : (entry .view).name = .view)]
      | cons x X ih =>
        rw [List.cons_append, after, if_neg (hX x (by simp))]
        exact ih fun e he => hX e (by simp [he])
    have h6 := this (⟨.dyn id, h, d⟩ :: (cls L).mro.takeWhile (fun e => e.name != .view)) (by
      intro e he
      rcases List.mem_cons.1 he with rfl | he
      · simp
      · exact level_before_view L hL e he)
    unfold levelPart
    simpa using h6
  unfold kernelLookup
  rw [haft]
  exact lookup_rest hK h2 h3 h4 h5 hA hn

/-- **C109.** A name that the level class defines (in `View` or above) is taken from there, whatever the kernel class defines. -/
theorem C109_override {K c : Cls} (hK : KernelClass K) {L : CN} (hL : L ∈ singleLevels) {id : ℕ}
    (hc : create ⟨.dyn id, ownHome (cls L), ownDefs (cls L)⟩ [cls L, K] = .ok c) {n : At}
    (hn : ∃ e ∈ levelPart L, e.find n ≠ none) : lookup c.mro n = lookup (cls L).mro n := by
  obtain ⟨R, h1, _⟩ := level_mro hK hL hc
  have hh := level_head L hL
  obtain ⟨X, hX⟩ : ∃ X, levelPart L = entry L :: X := by
    cases h : levelPart L with
    | nil => rw [h] at hh; simp at hh
    | cons a A => rw [h] at hh; simp at hh; exact ⟨A, by rw [hh.2.1]⟩
  rw [h1, level_split L hL, lookup_append_left hn, lookup_cons, hh.2.2.2.2.1, hh.2.2.2.2.2]
  have hf : (⟨.dyn id, L, (entry L).defs⟩ : Entry).find n = (entry L).find n := rfl
  rw [hf]
  cases he : (entry L).find n with
  | some b => rw [hX, lookup_cons, he]; simp only; rw [hh.2.2.2.1]
  | none => simp only; exact lookup_append_left hn

theorem isSubclass_kernel {K : Cls} (hK : KernelClass K) : isSubclass K (cls .kernel) = true := by
  unfold isSubclass
  have h1 : (cls .kernel).mro = entry .kernel :: (cls .kernel).mro.tail := by decide +kernel
  rw [h1]
  simp only [List.contains_iff_mem]
  exact hK.derives.subset (by rw [h1]; simp)

/-- The level classes that can be instantiated. -/
def solvableLevels : List CN := [.kpca, .lssvm, .ridge]

theorem levelPart_concrete : ∀ L ∈ solvableLevels, ∀ e ∈ levelPart L, ∀ d ∈ e.defs, isAbstract (levelPart L) d.1 = false := by
  decide +kernel
theorem viewBase_covered : ∀ L ∈ solvableLevels, ∀ d ∈ (entry .viewBase).defs,
    (∃ e ∈ levelPart L, e.find d.1 ≠ none) ∨ (entry .baseKernel).find d.1 ≠ none := by decide +kernel

theorem isAbstract_of_lookup {m m' : List Entry} {n : At} (h : lookup m n = lookup m' n) : isAbstract m n = isAbstract m' n := by
  unfold isAbstract; rw [h]

/-- **C109.** KPCA, LSSVM and Ridge can be instantiated with every kernel class that can be instantiated itself (and needs no
distance class). -/
theorem C109_construct {K : Cls} (hK : KernelClass K) (hi : instantiate K = .ok ()) {L : CN} (hL : L ∈ solvableLevels)
    {id : ℕ} (hf : Fresh id K.mro) (hs : ∀ e ∈ K.mro, e.name ≠ .selectDistance) (D : Cls) :
    ∃ c, levelNew id (cls L) K D = .ok c ∧ ∀ n, ¬ AbstractIn c.mro n := by
  have hL' : L ∈ singleLevels := by revert L; decide
  obtain ⟨c, hc⟩ := C109_level_class hK hL' ⟨.dyn id, ownHome (cls L), ownDefs (cls L)⟩
  have hB := level_result_built hK hL' hf hc
  have hno : ∀ n, ¬ AbstractIn c.mro n := by
    intro n hn
    have hab : isAbstract c.mro n = true := isAbstract_iff.2 hn
    by_cases hdef : ∃ e ∈ levelPart L, e.find n ≠ none
    · have h1 := isAbstract_of_lookup (C109_override hK hL' hc hdef)
      rw [h1, level_split L hL', isAbstract_of_lookup (lookup_append_left hdef)] at hab
      obtain ⟨e, he, hd⟩ := hdef
      obtain ⟨b, hb⟩ := Option.ne_none_iff_exists'.1 hd
      obtain ⟨d, hd1, rfl⟩ := find_mem hb
      rw [levelPart_concrete L hL e he d hd1] at hab
      simp at hab
    · obtain ⟨R, h1, h2, h3, h4, h5⟩ := level_mro hK hL' hc
      have hnone : ∀ e ∈ levelPart L, e.find n = none := by
        intro e he
        by_contra hc
        exact hdef ⟨e, he, hc⟩
      have hh := level_head L hL'
      have hown : (⟨.dyn id, ownHome (cls L), ownDefs (cls L)⟩ : Entry).find n = none := by
        have : (⟨.dyn id, ownHome (cls L), ownDefs (cls L)⟩ : Entry).find n = (entry L).find n := by
          rw [hh.2.2.2.2.1]; rfl
        rw [this]
        exact hnone _ (List.mem_of_mem_head? (by simp [hh.2.1]))
      have hl : lookup c.mro n = lookup R n := by
        rw [h1, lookup_cons, hown]
        exact lookup_append hnone
      obtain ⟨A, B, hA⟩ := List.append_of_mem (hK.derives.subset baseKernel_mem)
      have hcov : (entry .viewBase).find n = none ∨ ∃ e ∈ A ++ [entry .baseKernel], e.find n ≠ none := by
        cases hv : (entry .viewBase).find n with
        | none => exact Or.inl rfl
        | some b =>
          right
          obtain ⟨d, hd1, rfl⟩ := find_mem hv
          rcases viewBase_covered L hL d hd1 with h | h
          · exact absurd h hdef
          · exact ⟨entry .baseKernel, by simp, h⟩
      rw [isAbstract_of_lookup (hl.trans (lookup_rest hK h2 h3 h4 h5 hA hcov))] at hab
      exact ((C109_abstract hK.built).2.1.1 hi) n (isAbstract_iff.1 hab)
  refine ⟨c, ?_, hno⟩
  unfold levelNew
  rw [isSubclass_kernel hK]
  simp only [Bool.not_true, Bool.false_eq_true, if_false, hc]
  unfold kernelNew
  have hany : (K.mro.any fun e => e.name == CN.selectDistance) = false := by
    rw [List.any_eq_false]
    intro e he
    simpa using hs e he
  rw [hany]
  simp only [Bool.false_eq_true, if_false]
  rw [(C109_abstract hB).2.1.2 hno]

theorem levels_H : ∀ L ∈ [CN.view, .level, .ppca, .wpca], ∀ n ∈ [At.bigH, .bigW],
    (∀ e ∈ (cls L).mro, ∀ b, e.find n = some b → b.abstract = true) ∧ entry .viewBase ∈ (cls L).mro ∧
    (entry .viewBase).find n ≠ none := by
  intro L hL n hn
  refine ⟨?_, by revert L; decide +kernel, by revert n; decide +kernel⟩
  have : ∀ L ∈ [CN.view, .level, .ppca, .wpca], ∀ n ∈ [At.bigH, .bigW], ∀ e ∈ (cls L).mro,
      ((e.find n).all Body.abstract) = true := by decide +kernel
  intro e he b hb
  have := this L hL n hn e he
  rw [hb] at this
  simpa using this

/-- A class all of whose definitions of a name are abstract, there being at least one. -/
theorem abstract_of_all {m : List Entry} {n : At} (h1 : ∀ e ∈ m, ∀ b, e.find n = some b → b.abstract = true)
    (h2 : ∃ e ∈ m, e.find n ≠ none) : AbstractIn m n := by
  cases hl : lookup m n with
  | none =>
    obtain ⟨e, he, hn⟩ := h2
    exact absurd (lookup_eq_none.1 hl e he) hn
  | some r =>
    obtain ⟨A, e, B, h3, h4, h5, h6⟩ := lookup_eq_some.1 hl
    exact ⟨A, e, B, r.2, h3, h4, h6, h1 e (by rw [h3]; simp) _ h6⟩

/-- **C109 fails.** `kerch.level.PPCA` (like `WPCA` and `View`) can never be instantiated: with every kernel class, and every
distance class if one is needed, that do not happen to define `H` and `W` themselves, the construction raises a `TypeError`. -/
theorem C109_ppca_violated {K D : Cls} (hK : KernelClass K) (hD : Built D) {L : CN}
    (hL : L ∈ [CN.view, .level, .ppca, .wpca]) {id : ℕ} (hf : Fresh id K.mro) (hf' : Fresh (id + 1) K.mro)
    (hfD : Fresh (id + 1) D.mro) {n : At} (hn : n ∈ [At.bigH, .bigW]) (hKn : ∀ e ∈ K.mro, e.find n = none)
    (hDn : ∀ e ∈ D.mro, e.find n = none) : levelNew id (cls L) K D = .error .typeError := by
  have hL' : L ∈ singleLevels := by revert L; decide
  obtain ⟨h1, h2, h3⟩ := levels_H L hL n hn
  obtain ⟨c, hc⟩ := C109_level_class hK hL' ⟨.dyn id, ownHome (cls L), ownDefs (cls L)⟩
  have hB := level_result_built hK hL' hf hc
  have hh := level_head L hL'
  obtain ⟨m, hm1, hm2, hm3, hm4⟩ := create_mem hc
  have hsL : (cls L).mro.Sublist c.mro := by rw [hm1]; exact (hm2 _ (by simp)).cons _
  have hown : ∀ b, (⟨.dyn id, ownHome (cls L), ownDefs (cls L)⟩ : Entry).find n = some b → b.abstract = true := by
    intro b hb
    have : (⟨.dyn id, ownHome (cls L), ownDefs (cls L)⟩ : Entry).find n = (entry L).find n := by
      rw [hh.2.2.2.2.1]; rfl
    rw [this] at hb
    exact h1 _ (List.mem_of_mem_head? (by simp [hh.1])) b hb
  have hall : ∀ e ∈ c.mro, ∀ b, e.find n = some b → b.abstract = true := by
    intro e he b hb
    rw [hm1] at he
    rcases List.mem_cons.1 he with rfl | he
    · exact hown b hb
    · obtain ⟨x, hx, hex⟩ := hm3 e he
      simp only [List.mem_cons, List.not_mem_nil, or_false] at hx
      rcases hx with rfl | rfl
      · exact h1 e hex b hb
      · rw [hKn e hex] at hb; simp at hb
  have hcabs : AbstractIn c.mro n := abstract_of_all hall ⟨_, hsL.subset h2, h3⟩
  unfold levelNew
  rw [isSubclass_kernel hK]
  simp only [Bool.not_true, Bool.false_eq_true, if_false, hc]
  unfold kernelNew
  have hinst : ∀ {c : Cls}, Built c → AbstractIn c.mro n → instantiate c = .error .typeError := by
    intro c hB ha
    rcases (C109_abstract hB).2.2 with h | h
    · exact absurd ha ((C109_abstract hB).2.1.1 h n)
    · exact h
  split
  · unfold selectClass
    cases hc' : create ⟨.dyn (id + 1), ownHome c, ownDefs c⟩ [c, D] with
    | error e =>
      unfold create at hc'
      split at hc'
      · simp at hc'; simp [hc']
      · simp at hc'
    | ok c' =>
      have hfc : Fresh (id + 1) c.mro := by
        intro e he
        rw [hm1] at he
        rcases List.mem_cons.1 he with rfl | he
        · simp
        · obtain ⟨x, hx, hex⟩ := hm3 e he
          simp only [List.mem_cons, List.not_mem_nil, or_false] at hx
          rcases hx with rfl | rfl
          · exact level_fresh hL' _ e hex
          · exact hf' e hex
      have hB' : Built c' := by
        refine .mk _ _ c' ?_ ?_ hc'
        · intro b hb
          simp only [List.mem_cons, List.not_mem_nil, or_false] at hb
          rcases hb with rfl | rfl
          · exact hB
          · exact hD
        · intro b hb x hx
          simp only [List.mem_cons, List.not_mem_nil, or_false] at hb
          rcases hb with rfl | rfl
          · exact hfc x hx
          · exact hfD x hx
      obtain ⟨m', hm1', hm2', hm3', _⟩ := create_mem hc'
      have hsc : c.mro.Sublist c'.mro := by rw [hm1']; exact (hm2' _ (by simp)).cons _
      have hall' : ∀ e ∈ c'.mro, ∀ b, e.find n = some b → b.abstract = true := by
        intro e he b hb
        rw [hm1'] at he
        rcases List.mem_cons.1 he with rfl | he
        · have : ownDefs c = ownDefs (cls L) := by unfold ownDefs; rw [hm1]; rfl
          rw [this] at hb
          exact hown b hb
        · obtain ⟨x, hx, hex⟩ := hm3' e he
          simp only [List.mem_cons, List.not_mem_nil, or_false] at hx
          rcases hx with rfl | rfl
          · exact hall e hex b hb
          · rw [hDn e hex] at hb; simp at hb
      simp only [hinst hB' (abstract_of_all hall' ⟨_, hsc.subset (hsL.subset h2), h3⟩)]
  · simp only [hinst hB hcabs]

/-! #### Bodies that are executed -/

theorem executed_all {n : At} {X Y : List Entry} (h : ∀ e ∈ X, e.home = e.name ∧ ∀ b, e.find n = some b → b.callsSuper = true) :
    executed n none (X ++ Y) = (X.filter (fun e => (e.find n).isSome)).map Entry.name ++ executed n none Y := by
  induction X with
  | nil => rfl
  | cons x X ih =>
    have hx := h x (by simp)
    have ih := ih fun e he => h e (by simp [he])
    rw [List.cons_append, executed]
    cases hf : x.find n with
    | none => simp [List.filter_cons, hf, ih]
    | some b => simp [List.filter_cons, hf, hx.2 b hf, hx.1, ih]

/-- A prefix in which the chain of calls ends. -/
theorem executed_stop {n : At} {x : Entry} {X Y : List Entry} {b : Body} (hf : x.find n = some b) (hb : b.callsSuper = false) :
    executed n none (x :: X ++ Y) = [x.home] := by
  rw [List.cons_append, executed, hf]
  simp [hb]

/-- A class made of a copy of the dictionary of `L` and listed just before it executes what `L` would. -/
theorem executed_copy {n : At} {id : ℕ} {L : CN} {x : Entry} (hx : x.name = L) (hh : x.home = L) (hL : L.isDyn = false)
    (Y : List Entry) : executed n none (⟨.dyn id, L, x.defs⟩ :: x :: Y) = executed n none (x :: Y) := by
  have hne : L ≠ .dyn id := by rintro rfl; simp [CN.isDyn] at hL
  have hf : (⟨.dyn id, L, x.defs⟩ : Entry).find n = x.find n := rfl
  rw [executed, hf]
  conv_rhs => rw [executed]
  cases h : x.find n with
  | none => simp only; rw [executed, h]
  | some b =>
    simp only [hne, hh, hx, if_true, if_false]
    cases b.callsSuper
    · rfl
    · simp only [if_true]
      rw [executed, if_pos hx]

theorem level_isDyn : ∀ L ∈ singleLevels, L.isDyn = false := by decide

theorem level_executed {K c : Cls} (hK : KernelClass K) {L : CN} (hL : L ∈ singleLevels) {id : ℕ}
    (hc : create ⟨.dyn id, ownHome (cls L), ownDefs (cls L)⟩ [cls L, K] = .ok c) (n : At) :
    ∃ R, c.mro = ⟨.dyn id, ownHome (cls L), ownDefs (cls L)⟩ :: (levelPart L ++ R) ∧ viewTail.Sublist R ∧ K.mro.Sublist R ∧
      R.Nodup ∧ (∀ x ∈ R, x ∈ K.mro ∨ x = entry .viewBase) ∧ executed n none c.mro = executed n none (levelPart L ++ R) := by
  obtain ⟨R, h1, h2, h3, h4, h5⟩ := level_mro hK hL hc
  have hh := level_head L hL
  obtain ⟨X, hX⟩ : ∃ X, levelPart L = entry L :: X := by
    cases h : levelPart L with
    | nil => rw [h] at hh; simp at hh
    | cons a A => rw [h] at hh; simp at hh; exact ⟨A, by rw [hh.2.1]⟩
  refine ⟨R, h1, h2, h3, h4, h5, ?_⟩
  rw [h1, hX, hh.2.2.2.2.1, hh.2.2.2.2.2]
  exact executed_copy hh.2.2.1 hh.2.2.2.1 (level_isDyn L hL) (X ++ R)

theorem levelPart_init : ∀ L ∈ singleLevels, ∀ e ∈ levelPart L, e.home = e.name ∧ (e.find .init).all Body.callsSuper = true := by
  decide +kernel
theorem viewBase_init : (entry .viewBase).home = (entry .viewBase).name ∧
    (entry .viewBase).find .init = some ⟨false, true⟩ := by decide +kernel
theorem module_init : (entry .module).home = .module ∧ (entry .module).find .init = some ⟨true, false⟩ ∧
    entry .module ∈ (cls .kernel).mro ∧ [entry .viewBase, entry .module].Sublist viewTail := by decide +kernel

/-- **C109.** Initialisers: if those of the kernel class and its ancestors (up to `Module`) all call `super().__init__`, then
creating a level executes the initialiser of every class of the linearisation up to `Module` exactly once, in that order. -/
theorem C109_init {K c : Cls} (hK : KernelClass K) {L : CN} (hL : L ∈ singleLevels) {id : ℕ}
    (hc : create ⟨.dyn id, ownHome (cls L), ownDefs (cls L)⟩ [cls L, K] = .ok c) {X' Y' : List Entry}
    (hX' : K.mro = X' ++ entry .module :: Y')
    (hsup : ∀ e ∈ X', e.home = e.name ∧ ∀ b, e.find .init = some b → b.callsSuper = true) :
    ∃ X Y, c.mro = ⟨.dyn id, ownHome (cls L), ownDefs (cls L)⟩ :: (levelPart L ++ X ++ entry .module :: Y) ∧
      (∀ e, e ∈ X ↔ e ∈ X' ∨ e = entry .viewBase) ∧ X.Nodup ∧
      executed .init none c.mro = ((levelPart L ++ X).filter (fun e => (e.find .init).isSome)).map Entry.name ++ [.module] := by
  obtain ⟨R, h1, h2, h3, h4, h5, h6⟩ := level_executed hK hL hc .init
  obtain ⟨m1, m2, m3, m4⟩ := module_init
  have hmK : entry .module ∈ K.mro := hK.derives.subset m3
  obtain ⟨X, Y, hXY⟩ := List.append_of_mem (h3.subset hmK)
  obtain ⟨A', B', h7, h8, h9⟩ := sublist_split h3 h4 hXY hmK
  have hKn := built_nodup hK.built
  have hRn := h4
  rw [hXY] at hRn
  have hRd := List.nodup_append.1 hRn
  have hA' : ∀ e, e ∈ A' ↔ e ∈ X' := by
    have e1 : A' ++ entry .module :: B' = X' ++ entry .module :: Y' := by rw [← h7, hX']
    have hn1 : entry .module ∉ A' := fun hc => by
      rw [h7] at hKn
      exact (List.nodup_append.1 hKn).2.2 _ hc _ (by simp) rfl
    have hn2 : entry .module ∉ X' := fun hc => by
      rw [hX'] at hKn
      exact (List.nodup_append.1 hKn).2.2 _ hc _ (by simp) rfl
    have : A' = X' := (List.append_eq_append_iff.1 e1).elim
        (fun ⟨a, ha, hb⟩ => by
          cases a with
          | nil => simpa using ha.symm
          | cons y a => simp at hb; exact absurd (by rw [ha, ← hb.1]; simp) hn2)
        (fun ⟨a, ha, hb⟩ => by
          cases a with
          | nil => simpa using ha
          | cons y a => simp at hb; exact absurd (by rw [ha, ← hb.1]; simp) hn1)
    intro e; rw [this]
  have hvX : entry .viewBase ∈ X := by
    have ho : [entry .viewBase, entry .module].Sublist (X ++ entry .module :: Y) := hXY ▸ m4.trans h2
    obtain ⟨l1, l2, hl, hs1, hs2⟩ := List.sublist_append_iff.1 ho
    cases l1 with
    | nil =>
      exfalso
      simp at hl
      rw [← hl] at hs2
      have hne : entry .viewBase ≠ entry .module := by decide +kernel
      have hmY : entry .module ∉ Y := (List.nodup_cons.1 hRd.2.1).1
      cases hs2 with
      | cons _ h => exact hmY (h.subset (by simp))
    | cons y l1 => simp at hl; exact hs1.subset (by rw [hl.1]; simp)
  have hmemX : ∀ e, e ∈ X ↔ e ∈ X' ∨ e = entry .viewBase := by
    intro e
    constructor
    · intro he
      rcases h5 e (by rw [hXY]; simp [he]) with h | h
      · left
        rw [h7] at h
        rcases List.mem_append.1 h with h | h
        · exact (hA' e).1 h
        · exfalso
          rcases List.mem_cons.1 h with rfl | h
          · exact hRd.2.2 _ he _ (by simp) rfl
          · exact hRd.2.2 _ he _ (by simp [h9.subset h]) rfl
      · exact Or.inr h
    · rintro (h | rfl)
      · exact h8.subset ((hA' e).2 h)
      · exact hvX
  refine ⟨X, Y, by rw [h1, hXY]; simp, hmemX, hRd.1, ?_⟩
  rw [h6, hXY, ← List.append_assoc, executed_all]
  · rw [executed, m2]; simp [m1]
  · intro e he
    rcases List.mem_append.1 he with he | he
    · have := levelPart_init L hL e he
      refine ⟨this.1, fun b hb => ?_⟩
      rw [hb] at this
      simpa using this.2
    · rcases (hmemX e).1 he with h | rfl
      · exact hsup e h
      · refine ⟨viewBase_init.1, fun b hb => ?_⟩
        rw [viewBase_init.2] at hb
        simp at hb; subst hb; rfl

/-- The chain of calls of `super()` ends within the list. -/
def chainEnds (n : At) : Option CN → List Entry → Bool
  | _, [] => false
  | some h, e :: m => if e.name = h then chainEnds n none m else chainEnds n (some h) m
  | none, e :: m => match e.find n with
    | none => chainEnds n none m
    | some b => if b.callsSuper then chainEnds n (if e.home = e.name then none else some e.home) m else true

theorem executed_append {n : At} {Y : List Entry} : ∀ {X : List Entry} {s : Option CN}, chainEnds n s X = true →
    executed n s (X ++ Y) = executed n s X
  | [], _, h => by simp [chainEnds] at h
  | e :: X, some h, hc => by
    rw [chainEnds] at hc
    rw [List.cons_append, executed, executed]
    split at hc
    · rename_i he; rw [if_pos he, if_pos he]; exact executed_append hc
    · rename_i he; rw [if_neg he, if_neg he]; exact executed_append hc
  | e :: X, none, hc => by
    rw [chainEnds] at hc
    rw [List.cons_append, executed, executed]
    cases hf : e.find n with
    | none => rw [hf] at hc; exact executed_append hc
    | some b =>
      rw [hf] at hc
      simp only at hc ⊢
      cases hb : b.callsSuper with
      | false => rfl
      | true =>
        rw [hb] at hc
        simp only [if_true] at hc ⊢
        rw [executed_append hc]

theorem levelPart_after : ∀ L ∈ singleLevels.tail, chainEnds .afterStep none (levelPart L) = true ∧
    ∀ x ∈ executed .afterStep none (levelPart L), x = .lssvm ∨ x = .levelBase := by decide +kernel

/-- **C109 fails.** `after_step` of a level never reaches the kernel, whatever the kernel class: `_Level.after_step` does not call
`super()`.  The random feature kernels rely on it to forget the pseudo-inverse of their weights. -/
theorem C109_after_step_violated {K c : Cls} (hK : KernelClass K) {L : CN} (hL : L ∈ singleLevels.tail) {id : ℕ}
    (hc : create ⟨.dyn id, ownHome (cls L), ownDefs (cls L)⟩ [cls L, K] = .ok c) :
    (∀ x ∈ executed .afterStep none c.mro, x = .lssvm ∨ x = .levelBase) ∧
    executed .afterStep none (cls .rff).mro = [.randomFeatures] := by
  obtain ⟨R, _, _, _, _, _, h6⟩ := level_executed hK (List.mem_of_mem_tail hL) hc .afterStep
  obtain ⟨h1, h2⟩ := levelPart_after L hL
  refine ⟨?_, by decide +kernel⟩
  rw [h6, executed_append h1]
  exact h2

/-! #### Names shared by a level and its kernel -/

theorem lssvm_gamma : ∀ L ∈ [CN.lssvm, .ridge], L ∈ singleLevels ∧ (∃ e ∈ levelPart L, e.find .gamma ≠ none) ∧
    lookup (cls L).mro .gamma = some (.lssvm, con) := by decide +kernel

/-- **C109 fails.** In an LSSVM or a ridge regression, `gamma` is the regularisation constant for the kernel too, whatever
the kernel class defines under that name; a kernel whose initialiser assigns `self.gamma` reaches the setter of the level before
the level has created what it sets, which raises an `AttributeError`. -/
theorem C109_gamma_violated {K c : Cls} (hK : KernelClass K) {L : CN} (hL : L ∈ [CN.lssvm, .ridge]) {id : ℕ}
    (hc : create ⟨.dyn id, ownHome (cls L), ownDefs (cls L)⟩ [cls L, K] = .ok c) :
    (lookup c.mro .gamma).map Prod.fst = some .lssvm ∧
    ∀ v, setGamma ((lookup c.mro .gamma).map Prod.fst) none v = .error .attributeError := by
  obtain ⟨h1, h2, h3⟩ := lssvm_gamma L hL
  have h := C109_override hK h1 hc h2
  rw [h, h3]
  exact ⟨rfl, fun _ => rfl⟩

/-- A class of the package as a kernel class. -/
theorem kernelClass_of {k : CN} (h : (env.lookup k).isSome = true ∧ (cls .kernel).mro.Sublist (cls k).mro ∧
    (∀ e ∈ (cls k).mro.head?, e ∉ (cls .kernel).mro) ∧ ∀ e ∈ (cls k).mro, e.name ∉ levelNames) : KernelClass (cls k) :=
  ⟨env_lookup h.1, h.2.1, fun e he => h.2.2.1 e (by simp [he]), h.2.2.2⟩

/-- The kernels that can be instantiated without a distance class. -/
def plainKernels : List CN :=
  [.linear, .cosine, .polynomial, .sigmoid, .explicitNN, .implicitNN, .nystrom, .rfArcsinh, .rfHyperbola, .rfLReLU, .rfStacked, .rff,
   .hat, .indicator, .additiveChi2, .skewedChi2]

/-- The kernels based on a distance. -/
def distanceKernels : List CN :=
  [.rbf, .laplacian, .exponential, .epanechnikov, .uniform, .triangular, .quartic, .triweight, .tricube, .logistic, .silverman]

theorem plain_kernels : ∀ k ∈ plainKernels, ((env.lookup k).isSome = true ∧ (cls .kernel).mro.Sublist (cls k).mro ∧
    (∀ e ∈ (cls k).mro.head?, e ∉ (cls .kernel).mro) ∧ ∀ e ∈ (cls k).mro, e.name ∉ levelNames) ∧
    instantiate (cls k) = .ok () ∧ (∀ e ∈ (cls k).mro, e.name ≠ .selectDistance ∧ e.name.isDyn = false ∧
      e.find .bigH = none) := by decide +kernel
theorem distance_kernels : ∀ k ∈ distanceKernels, ((env.lookup k).isSome = true ∧ (cls .kernel).mro.Sublist (cls k).mro ∧
    (∀ e ∈ (cls k).mro.head?, e ∉ (cls .kernel).mro) ∧ ∀ e ∈ (cls k).mro, e.name ∉ levelNames) ∧
    (∀ e ∈ (cls k).mro, e.name.isDyn = false ∧ e.find .bigH = none) := by decide +kernel

end Classes
end Kerch

/-! ## The theorems applied to classes of the package -/

namespace Kerch
namespace Classes
namespace Case

theorem linear : KernelClass (cls .linear) := kernelClass_of (plain_kernels .linear (by decide)).1
theorem rff : KernelClass (cls .rff) := kernelClass_of (plain_kernels .rff (by decide)).1
theorem hyperbola : KernelClass (cls .rfHyperbola) := kernelClass_of (plain_kernels .rfHyperbola (by decide)).1
theorem rbf : KernelClass (cls .rbf) := kernelClass_of (distance_kernels .rbf (by decide)).1

theorem fresh_linear (id : ℕ) : Fresh id (cls .linear).mro := by
  intro e he h
  have := ((plain_kernels .linear (by decide)).2.2 e he).2.1
  rw [h] at this; cases this

example := C109_abstract linear.built
example := C109_mro (e := ⟨.dyn 0, .dyn 0, []⟩) (bases := [cls .kpca, cls .rff]) (c := (create ⟨.dyn 0, .dyn 0, []⟩ [cls .kpca, cls .rff]).toOption.getD ⟨[], []⟩)
  (by
    intro b hb
    simp only [List.mem_cons, List.not_mem_nil, or_false] at hb
    rcases hb with rfl | rfl
    · exact env_lookup (by decide +kernel)
    · exact rff.built) (by decide +kernel) (by decide +kernel)
example := C109_level_class rbf (L := .kpca) (by decide) ⟨.dyn 0, .dyn 0, []⟩
example (c : Cls) (h : create ⟨.dyn 0, ownHome (cls .kpca), ownDefs (cls .kpca)⟩ [cls .kpca, cls .rbf] = .ok c) :=
  C109_override rbf (L := .kpca) (by decide) h (n := .bigH)
example : ∃ c, levelNew 0 (cls .kpca) (cls .linear) (cls .linear) = .ok c ∧ ∀ n, ¬ AbstractIn c.mro n :=
  C109_construct linear (plain_kernels .linear (by decide)).2.1 (by decide) (fresh_linear 0)
    (fun e he => ((plain_kernels .linear (by decide)).2.2 e he).1) _
example := C109_ppca_violated linear linear.built (L := .ppca) (by decide) (fresh_linear 0) (fresh_linear 1) (fresh_linear 1) (n := .bigH) (by decide)
  (fun e he => ((plain_kernels .linear (by decide)).2.2 e he).2.2) (fun e he => ((plain_kernels .linear (by decide)).2.2 e he).2.2)
example : ∃ c, create ⟨.dyn 0, ownHome (cls .kpca), ownDefs (cls .kpca)⟩ [cls .kpca, cls .linear] = .ok c ∧
    kernelLookup c .init = lookup (cls .linear).mro .init := by
  obtain ⟨c, hc⟩ := C109_level_class linear (L := .kpca) (by decide) ⟨.dyn 0, ownHome (cls .kpca), ownDefs (cls .kpca)⟩
  exact ⟨c, hc, C109_kernel linear (L := .kpca) (by decide) hc (A := (cls .linear).mro.takeWhile (fun e => e.name != .baseKernel))
    (B := ((cls .linear).mro.dropWhile (fun e => e.name != .baseKernel)).tail) (by decide +kernel) (n := .init) (Or.inr (by decide +kernel))⟩
example : ∃ c, create ⟨.dyn 0, ownHome (cls .kpca), ownDefs (cls .kpca)⟩ [cls .kpca, cls .linear] = .ok c ∧
    CN.module ∈ executed .init none c.mro := by
  obtain ⟨c, hc⟩ := C109_level_class linear (L := .kpca) (by decide) ⟨.dyn 0, ownHome (cls .kpca), ownDefs (cls .kpca)⟩
  obtain ⟨X, Y, _, _, _, h⟩ := C109_init linear (L := .kpca) (by decide) hc (X' := (cls .linear).mro.takeWhile (fun e => e.name != .module))
    (Y' := ((cls .linear).mro.dropWhile (fun e => e.name != .module)).tail) (by decide +kernel) (by decide +kernel)
  exact ⟨c, hc, by rw [h]; simp⟩
/-- The class made of LSSVM and of the hyperbola features exists, so the two next theorems speak about it. -/
example : ∃ c, create ⟨.dyn 0, ownHome (cls .lssvm), ownDefs (cls .lssvm)⟩ [cls .lssvm, cls .rfHyperbola] = .ok c ∧
    (lookup c.mro .gamma).map Prod.fst = some .lssvm := by
  obtain ⟨c, hc⟩ := C109_level_class hyperbola (L := .lssvm) (by decide) ⟨.dyn 0, ownHome (cls .lssvm), ownDefs (cls .lssvm)⟩
  exact ⟨c, hc, (C109_gamma_violated hyperbola (by decide) hc).1⟩
example : ∃ c, create ⟨.dyn 0, ownHome (cls .lssvm), ownDefs (cls .lssvm)⟩ [cls .lssvm, cls .rff] = .ok c ∧
    ∀ x ∈ executed .afterStep none c.mro, x = .lssvm ∨ x = .levelBase := by
  obtain ⟨c, hc⟩ := C109_level_class rff (L := .lssvm) (by decide) ⟨.dyn 0, ownHome (cls .lssvm), ownDefs (cls .lssvm)⟩
  exact ⟨c, hc, (C109_after_step_violated rff (by decide) hc).1⟩

end Case
end Classes
end Kerch
