import Verif.Model.PrintCache
set_option linter.unusedSectionVars false
set_option linter.unusedSimpArgs false
/-!
# C155: what printing a cache shows
-/
namespace Kerch
namespace PrintCache

/-! ## Specification -/

/-- An entry is shown if private ones are asked for or its key does not begin with an underscore. -/
def vis (priv : Bool) (key : Text) : Bool := priv || !("_".toList.isPrefixOf key)

/-- An entry with the name of its level, on one line. -/
def say (level : Text) (l : Line) : Text :=
  if l.persisting then l.key ++ " [".toList ++ level ++ "] persisting: ".toList ++ l.text ++ "\n".toList
  else l.key ++ " [".toList ++ level ++ "] : ".toList ++ l.text ++ "\n".toList

/-- The name of a level: that of the table, `None` for all others. -/
def nameOf : Lvl → Text
  | .num 0 => "none".toList
  | .num 1 => "light".toList
  | .num 2 => "normal".toList
  | .num 3 => "heavy".toList
  | .num 4 => "total".toList
  | _ => "None".toList

mutual
/-- The entries of a tree, each node before its offspring. -/
def TNode.flat : TNode → List Line
  | .mk es os => es ++ TNode.flats os
def TNode.flats : List TNode → List Line
  | [] => []
  | T :: t => T.flat ++ TNode.flats t
end

/-- The lines of the shown entries among those given. -/
def block (priv : Bool) (ls : List Line) : Text := (ls.filter fun l => vis priv l.key).flatMap fun l => say (nameOf l.level) l

/-- What follows the entries for one of them: the block of its tree under its key. -/
def below (priv : Bool) (i : Item) : Text :=
  match i.tree with
  | some T => "\n".toList ++ i.line.key.map Char.toUpper ++ ":\n".toList ++ block priv T.flat
  | none => []

mutual
/-- A tree without its private entries. -/
def TNode.strip : TNode → TNode
  | .mk es os => .mk (es.filter fun l => vis false l.key) (TNode.strips os)
def TNode.strips : List TNode → List TNode
  | [] => []
  | T :: t => T.strip :: TNode.strips t
end

/-- A cache without its private entries. -/
def strip (c : List Item) : List Item := (c.filter fun i => vis false i.line.key).map fun i => ⟨i.line, i.tree.map TNode.strip⟩

/-! ## Helper lemmas -/

theorem shown_eq (priv : Bool) (key : Text) (h : key ≠ []) : shown priv key = .ok (vis priv key) := by
  cases key with
  | nil => exact absurd rfl h
  | cons c t =>
    simp only [shown, vis]
    by_cases h : c = '_'
    · subst h; cases priv <;> simp [List.isPrefixOf]
    · cases priv <;> simp [List.isPrefixOf, h, Ne.symm h]

theorem levelText_eq (l : Lvl) : levelText l = nameOf l := by
  cases l with
  | msg => rfl
  | num n =>
    simp only [levelText, reverseGet, levelSwitcher, List.reverse_cons, List.reverse_nil, List.nil_append, List.cons_append]
    by_cases h4 : n = 4
    · subst h4; rfl
    by_cases h3 : n = 3
    · subst h3; rfl
    by_cases h2 : n = 2
    · subst h2; rfl
    by_cases h1 : n = 1
    · subst h1; rfl
    by_cases h0 : n = 0
    · subst h0; rfl
    have e : nameOf (.num n) = "None".toList := by
      unfold nameOf
      split <;> simp_all
    rw [e]
    simp [List.find?, beq_eq_false_iff_ne.2 (Ne.symm h4), beq_eq_false_iff_ne.2 (Ne.symm h3), beq_eq_false_iff_ne.2 (Ne.symm h2), beq_eq_false_iff_ne.2 (Ne.symm h1),
      beq_eq_false_iff_ne.2 (Ne.symm h0)]

theorem lineText_eq (l : Line) : lineText l = say (nameOf l.level) l := by
  unfold lineText say
  rw [levelText_eq]
  cases l.persisting <;> simp

theorem loop_eq (priv : Bool) (c : List Item) (h : ∀ i ∈ c, i.line.key ≠ []) :
    loop priv c = (.ok (), block priv (c.map Item.line), (c.filter fun i => vis priv i.line.key).filterMap fun i => i.tree.map fun T => (i.line.key, T)) := by
  induction c with
  | nil => rfl
  | cons i t ih =>
    have ih := ih fun j hj => h j (List.mem_cons_of_mem _ hj)
    unfold loop
    rw [shown_eq priv _ (h i List.mem_cons_self)]
    cases hv : vis priv i.line.key with
    | false => simp [ih, block, hv]
    | true =>
      simp only [ih]
      cases ht : i.tree <;> simp [block, hv, lineText_eq, ht]

theorem block_append (priv : Bool) (a b : List Line) : block priv (a ++ b) = block priv a ++ block priv b := by
  simp [block]

mutual
theorem print_eq (priv : Bool) : ∀ T : TNode, (∀ l ∈ T.flat, l.key ≠ []) → T.print priv = (.ok (), block priv T.flat)
  | .mk es os, h => by
    have h1 : ∀ l ∈ es, l.key ≠ [] := fun l hl => h l (by simp [TNode.flat, hl])
    have h2 := printAll_eq priv os fun l hl => h l (by simp [TNode.flat, hl])
    have h3 := loop_eq priv (es.map fun l => ⟨l, none⟩) (by
      intro i hi
      obtain ⟨l, hl, rfl⟩ := List.mem_map.1 hi
      exact h1 l hl)
    simp [TNode.print, TNode.flat, h3, h2, block_append, List.map_map, Function.comp_def]
theorem printAll_eq (priv : Bool) : ∀ L : List TNode, (∀ l ∈ TNode.flats L, l.key ≠ []) → TNode.printAll priv L = (.ok (), block priv (TNode.flats L))
  | [], _ => rfl
  | T :: t, h => by
    have h1 := print_eq priv T fun l hl => h l (by simp [TNode.flats, hl])
    have h2 := printAll_eq priv t fun l hl => h l (by simp [TNode.flats, hl])
    simp [TNode.printAll, TNode.flats, h1, h2, block_append]
end

theorem trees_eq (priv : Bool) (c : List Item) (h : ∀ i ∈ c, ∀ T, i.tree = some T → ∀ l ∈ T.flat, l.key ≠ []) :
    trees priv (c.filterMap fun i => i.tree.map fun T => (i.line.key, T)) = (.ok (), c.flatMap (below priv)) := by
  induction c with
  | nil => rfl
  | cons i t ih =>
    have ih := ih fun j hj => h j (List.mem_cons_of_mem _ hj)
    cases hT : i.tree with
    | none => simp [hT, ih, below]
    | some T =>
      have := print_eq priv T (h i List.mem_cons_self T hT)
      simp [hT, trees, this, ih, below]

/-! ## C155 -/

/-- The whole printout, if no key is empty: one line for each entry that is to be shown, in the order they were stored, with the name of its level and whether it persists; then, for
those holding a transform tree, the key in capitals and the lines of the tree, nodes before their offspring. -/
theorem C155_shows (priv : Bool) (c : List Item) (hk : ∀ i ∈ c, i.line.key ≠ []) (hT : ∀ i ∈ c, ∀ T, i.tree = some T → ∀ l ∈ T.flat, l.key ≠ []) :
    printCache priv c = (.ok (), block priv (c.map Item.line) ++ (c.filter fun i => vis priv i.line.key).flatMap (below priv)) := by
  unfold printCache
  rw [loop_eq priv c hk]
  simp only
  rw [trees_eq priv _ fun i hi => hT i (List.mem_filter.1 hi).1]

/-- An entry stored under a level by its name is shown with this name. -/
theorem C155_levels (s : String) (n : Int) (h : levelSwitcher.find s = some n) : levelText (.num n) = s.toList := by
  rw [levelText_eq]
  simp only [levelSwitcher, Dict.find] at h
  by_cases h0 : "none" = s
  · subst h0; cases h; rfl
  by_cases h1 : "light" = s
  · subst h1; cases h; rfl
  by_cases h2 : "normal" = s
  · subst h2; cases h; rfl
  by_cases h3 : "heavy" = s
  · subst h3; cases h; rfl
  by_cases h4 : "total" = s
  · subst h4; cases h; rfl
  simp [h0, h1, h2, h3, h4] at h

/-- Private entries are left out wherever they are: printing without them is printing everything of the cache freed of them. -/
theorem C155_private (c : List Item) (hk : ∀ i ∈ c, i.line.key ≠ []) (hT : ∀ i ∈ c, ∀ T, i.tree = some T → ∀ l ∈ T.flat, l.key ≠ []) :
    printCache false c = printCache true (strip c) := by
  have hflat : ∀ T : TNode, T.strip.flat = T.flat.filter fun l => vis false l.key := by
    intro T
    exact TNode.rec (motive_1 := fun T => T.strip.flat = T.flat.filter fun l => vis false l.key)
      (motive_2 := fun L => TNode.flats (TNode.strips L) = (TNode.flats L).filter fun l => vis false l.key)
      (fun es os ih => by simp [TNode.strip, TNode.flat, ih]) rfl (fun T t h1 h2 => by simp [TNode.strips, TNode.flats, h1, h2]) T
  have hb : ∀ ls : List Line, block true (ls.filter fun l => vis false l.key) = block false ls := by
    intro ls
    simp [block, vis, List.filter_filter]
  rw [C155_shows false c hk hT, C155_shows true (strip c)]
  · have e1 : block true ((strip c).map Item.line) = block false (c.map Item.line) := by
      rw [← hb (c.map Item.line)]
      congr 1
      simp [strip, List.filter_map, Function.comp_def]
    have e2 : ((strip c).filter fun i => vis true i.line.key).flatMap (below true) = (c.filter fun i => vis false i.line.key).flatMap (below false) := by
      have : (strip c).filter (fun i => vis true i.line.key) = strip c := by simp [vis]
      rw [this, strip, List.flatMap_map]
      congr 1
      funext i
      unfold below
      cases i.tree with
      | none => rfl
      | some T => simp [hflat, hb]
    rw [e1, e2]
  · intro i hi
    obtain ⟨j, hj, rfl⟩ := List.mem_map.1 hi
    exact hk j (List.mem_filter.1 hj).1
  · intro i hi T hTi l hl
    obtain ⟨j, hj, rfl⟩ := List.mem_map.1 hi
    simp only at hTi
    obtain ⟨T', hT', rfl⟩ := Option.map_eq_some_iff.1 hTi
    rw [hflat] at hl
    exact hT j (List.mem_filter.1 hj).1 T' hT' l (List.mem_filter.1 hl).1

/-- An entry with an empty key ends the printout with an `IndexError`, private entries being asked for or not: the entries after it and all transform trees are missing. -/
theorem C155_empty_violated (priv : Bool) (a b : List Item) (i : Item) (ha : ∀ j ∈ a, j.line.key ≠ []) (hi : i.line.key = []) :
    printCache priv (a ++ i :: b) = (.error .indexError, block priv (a.map Item.line)) := by
  have : (loop priv (a ++ i :: b)).1 = .error .indexError ∧ (loop priv (a ++ i :: b)).2.1 = block priv (a.map Item.line) := by
    induction a with
    | nil => simp [loop, hi, shown, block]
    | cons j t ih =>
      obtain ⟨h1, h2⟩ := ih fun j hj => ha j (List.mem_cons_of_mem _ hj)
      simp only [List.cons_append, loop]
      rw [shown_eq priv _ (ha j List.mem_cons_self)]
      cases hv : vis priv j.line.key with
      | false => simp [h1, h2, block, hv]
      | true => simp [h1, h2, block, hv, lineText_eq]
  unfold printCache
  simp only [this.1, this.2]

theorem split_at {α : Type} (x : α) : ∀ (a b u v : List α), x ∉ a → x ∉ b → a ++ x :: u = b ++ x :: v → a = b ∧ u = v
  | [], [], u, v, _, _, h => by simpa using h
  | [], y :: b, u, v, _, hb, h => by
    simp only [List.nil_append, List.cons_append, List.cons.injEq] at h
    exact absurd (by rw [h.1]; exact List.mem_cons_self) hb
  | y :: a, [], u, v, ha, _, h => by
    simp only [List.nil_append, List.cons_append, List.cons.injEq] at h
    exact absurd (by rw [← h.1]; exact List.mem_cons_self) ha
  | y :: a, z :: b, u, v, ha, hb, h => by
    simp only [List.cons_append, List.cons.injEq] at h
    obtain ⟨h1, h2⟩ := split_at x a b u v (fun hc => ha (List.mem_cons_of_mem _ hc)) (fun hc => hb (List.mem_cons_of_mem _ hc)) h.2
    exact ⟨by rw [h.1, h1], h2⟩

theorem name_clean (l : Lvl) : '\n' ∉ nameOf l ∧ ']' ∉ nameOf l := by
  unfold nameOf
  split <;> decide

theorem say_inj (n n' : Text) (hn : ']' ∉ n) (hn' : ']' ∉ n') (l l' : Line) (hk : '[' ∉ l.key) (hk' : '[' ∉ l'.key) (h : say n l = say n' l') :
    l.key = l'.key ∧ n = n' ∧ l.persisting = l'.persisting ∧ l.text = l'.text := by
  have form : ∀ (n : Text) (l : Line), say n l = (l.key ++ [' ']) ++ '[' :: (n ++ ']' :: (' ' :: ((if l.persisting then "persisting: ".toList else ": ".toList) ++ l.text ++ ['\n']))) := by
    intro n l
    unfold say
    cases l.persisting <;> simp
  rw [form, form] at h
  obtain ⟨h1, h2⟩ := split_at '[' _ _ _ _ (by simp [hk]) (by simp [hk']) h
  obtain ⟨h3, h4⟩ := split_at ']' _ _ _ _ hn hn' h2
  have h5 := List.append_cancel_right h1
  simp only [List.cons.injEq, true_and] at h4
  refine ⟨h5, h3, ?_⟩
  cases hp : l.persisting <;> cases hp' : l'.persisting <;> simp [hp, hp'] at h4 <;> simp [h4]

/-- What is shown can be told from the printout as long as no key has a bracket or a line break and no value prints on several lines: equal printouts come from equal entries. -/
theorem C155_recover_partial (priv : Bool) (a b : List Line) (ha : ∀ l ∈ a, l.key ≠ [] ∧ '[' ∉ l.key ∧ '\n' ∉ l.key ∧ '\n' ∉ l.text)
    (hb : ∀ l ∈ b, l.key ≠ [] ∧ '[' ∉ l.key ∧ '\n' ∉ l.key ∧ '\n' ∉ l.text)
    (h : printCache priv (a.map fun l => ⟨l, none⟩) = printCache priv (b.map fun l => ⟨l, none⟩)) :
    (a.filter fun l => vis priv l.key).map (fun l => (l.key, nameOf l.level, l.persisting, l.text)) =
      (b.filter fun l => vis priv l.key).map fun l => (l.key, nameOf l.level, l.persisting, l.text) := by
  have out : ∀ a : List Line, (∀ l ∈ a, l.key ≠ [] ∧ '[' ∉ l.key ∧ '\n' ∉ l.key ∧ '\n' ∉ l.text) →
      printCache priv (a.map fun l => ⟨l, none⟩) = (.ok (), block priv a) := by
    intro a ha
    rw [C155_shows priv _ (by
      intro i hi
      obtain ⟨l, hl, rfl⟩ := List.mem_map.1 hi
      exact (ha l hl).1) (by
      intro i hi T hT
      obtain ⟨l, hl, rfl⟩ := List.mem_map.1 hi
      cases hT)]
    have : ((a.map fun l => (⟨l, none⟩ : Item)).filter fun i => vis priv i.line.key).flatMap (below priv) = [] := by
      rw [List.flatMap_eq_nil_iff]
      intro i hi
      obtain ⟨l, hl, rfl⟩ := List.mem_map.1 (List.mem_filter.1 hi).1
      rfl
    rw [this]
    simp [List.map_map, Function.comp_def]
  rw [out a ha, out b hb] at h
  have h := (Prod.mk.inj h).2
  have key : ∀ a b : List Line, (∀ l ∈ a, l.key ≠ [] ∧ '[' ∉ l.key ∧ '\n' ∉ l.key ∧ '\n' ∉ l.text) → (∀ l ∈ b, l.key ≠ [] ∧ '[' ∉ l.key ∧ '\n' ∉ l.key ∧ '\n' ∉ l.text) →
      (a.flatMap fun l => say (nameOf l.level) l) = (b.flatMap fun l => say (nameOf l.level) l) →
      a.map (fun l => (l.key, nameOf l.level, l.persisting, l.text)) = b.map fun l => (l.key, nameOf l.level, l.persisting, l.text) := by
    have body : ∀ l : Line, ('[' ∉ l.key ∧ '\n' ∉ l.key ∧ '\n' ∉ l.text) → ∃ w, say (nameOf l.level) l = w ++ ['\n'] ∧ '\n' ∉ w := by
      intro l hl
      refine ⟨l.key ++ " [".toList ++ nameOf l.level ++ (if l.persisting then "] persisting: ".toList else "] : ".toList) ++ l.text, ?_, ?_⟩
      · unfold say; cases l.persisting <;> simp
      · have := (name_clean l.level).1
        cases l.persisting <;> simp [hl.2.1, hl.2.2, this]
    intro a
    induction a with
    | nil =>
      intro b _ hb h
      cases b with
      | nil => rfl
      | cons l t =>
        obtain ⟨w, hw, -⟩ := body l (hb l List.mem_cons_self).2
        simp [hw] at h
    | cons l t ih =>
      intro b ha hb h
      obtain ⟨w, hw, hwn⟩ := body l (ha l List.mem_cons_self).2
      cases b with
      | nil => simp [hw] at h
      | cons l' t' =>
        obtain ⟨w', hw', hwn'⟩ := body l' (hb l' List.mem_cons_self).2
        simp only [List.flatMap_cons, hw, hw', List.append_assoc, List.singleton_append] at h
        obtain ⟨h1, h2⟩ := split_at '\n' _ _ _ _ hwn hwn' h
        have h3 := say_inj _ _ (name_clean l.level).2 (name_clean l'.level).2 l l' (ha l List.mem_cons_self).2.1 (hb l' List.mem_cons_self).2.1 (by rw [hw, hw', h1])
        have h4 := ih t' (fun x hx => ha x (List.mem_cons_of_mem _ hx)) (fun x hx => hb x (List.mem_cons_of_mem _ hx)) h2
        simp [h3, h4]
  exact key _ _ (fun l hl => ha l (List.mem_filter.1 hl).1) (fun l hl => hb l (List.mem_filter.1 hl).1) h

/-- A value that prints on several lines can look like several entries. -/
theorem C155_recover_violated : ∃ a b : List Item, (∀ i ∈ a ++ b, i.line.key ≠ [] ∧ i.tree = none) ∧ a.length ≠ b.length ∧ printCache false a = printCache false b :=
  ⟨[⟨⟨"K".toList, .num 1, false, "1\nL [light] : 2".toList⟩, none⟩], [⟨⟨"K".toList, .num 1, false, "1".toList⟩, none⟩, ⟨⟨"L".toList, .num 1, false, "2".toList⟩, none⟩],
    by decide, by decide, by decide⟩

/-! ## Concrete cases -/

/-- A kernel with its matrix, a private element and a tree of one node with one offspring. -/
def exCache : List Item :=
  [⟨⟨"K".toList, .num 2, false, "tensor".toList⟩, none⟩, ⟨⟨"_dist".toList, .num 4, true, "tensor".toList⟩, none⟩,
    ⟨⟨"tr".toList, .num 1, true, "tree".toList⟩, some (.mk [⟨"base".toList, .num 3, false, "a".toList⟩] [.mk [⟨"_m".toList, .num 3, false, "b".toList⟩, ⟨"m".toList, .num 7, false, "c".toList⟩] []])⟩]

example : printCache false exCache = (.ok (), "K [normal] : tensor\ntr [light] persisting: tree\n\nTR:\nbase [heavy] : a\nm [None] : c\n".toList) := by
  decide

example : printCache false exCache = printCache true (strip exCache) :=
  C155_private exCache (by decide) (by
    intro i hi T hT l hl
    simp only [exCache, List.mem_cons, List.not_mem_nil, or_false] at hi
    rcases hi with rfl | rfl | rfl <;> cases hT
    simp [TNode.flat, TNode.flats] at hl
    rcases hl with rfl | rfl | rfl <;> decide)

example : levelText (.num 3) = "heavy".toList := C155_levels "heavy" 3 rfl

example : printCache true ([⟨⟨"K".toList, .num 2, false, "t".toList⟩, none⟩] ++ ⟨⟨[], .num 2, false, "t".toList⟩, none⟩ :: exCache) =
    (.error .indexError, block true [⟨"K".toList, .num 2, false, "t".toList⟩]) :=
  C155_empty_violated true _ _ _ (by decide) rfl

example : [("K".toList, "normal".toList, false, "t".toList)] = [("K".toList, "normal".toList, false, "t".toList)] := by
  have := C155_recover_partial false [⟨"K".toList, .num 2, false, "t".toList⟩] [⟨"K".toList, .num 2, false, "t".toList⟩, ⟨"_p".toList, .num 2, false, "u".toList⟩]
    (by decide) (by decide) (by decide)
  exact this

end PrintCache
end Kerch
