import Verif.Model.Messages
set_option linter.unusedSectionVars false
set_option linter.unusedSimpArgs false
/-!
# C150: exceptions say what happened and where
-/
namespace Kerch
namespace Messages
open Describe

/-! ### Specification -/

/-- The text names the class of the object and says `m`. -/
def Says (name m : Text) : Text := txt! "[" ++ name ++ txt! "] " ++ m

/-- The message a call is written with, wherever it stands. -/
def Site.written (s : Site) : Option Text :=
  ((s.args ++ s.kwargs.map Prod.snd).filterMap fun w => match w with
    | .self => none
    | .lit t => some t).head?

/-- What a call is meant to say: its message, or that of the class of the exception. -/
def Site.meant (s : Site) : Option Text := s.written.or (standard s.kind)

/-! ### Helpers -/

theorem key1 : (Key.message == Key.cls) = false := rfl
theorem key2 : (Key.cls == Key.message) = false := rfl

/-- The object and a message, or the object alone. -/
def usual (s : Site) : Bool :=
  match s.args, s.kwargs with
  | [], [(.cls, .self), (.message, .lit t)] => decide (t ≠ [])
  | [], [(.cls, .self)] => (standard s.kind).isSome
  | [.self], [] => (standard s.kind).isSome
  | _, _ => false

/-! ### Properties -/

/-- **C150** The two usual ways of raising: by keyword, in any order, or by position, the exception names the class of the object and gives the message. -/
theorem C150_located (print : Val → Text) (k : Kind) (name m : Text) (hm : m ≠ []) :
    new print k ⟨[], [(.cls, .logger name), (.message, .text m)]⟩ = .ok (Says name m) ∧
    new print k ⟨[], [(.message, .text m), (.cls, .logger name)]⟩ = .ok (Says name m) ∧
    new print k ⟨[.logger name, .text m], []⟩ = .ok (Says name m) ∧
    new print k ⟨[.logger name], [(.message, .text m)]⟩ = .ok (Says name m) := by
  refine ⟨?_, ?_, ?_, ?_⟩ <;> simp [new, bind, clash, compose, Says, hm, List.lookup, key1, key2]

/-- **C150** Without a message the one of the class of the exception is given, with or without the object. -/
theorem C150_standard (print : Val → Text) (k : Kind) (name m : Text) (hk : standard k = some m) :
    new print k ⟨[], [(.cls, .logger name)]⟩ = .ok (Says name m) ∧ new print k ⟨[.logger name], []⟩ = .ok (Says name m) ∧ new print k ⟨[], []⟩ = .ok m := by
  refine ⟨?_, ?_, ?_⟩ <;> simp [new, bind, clash, compose, Says, hk, List.lookup, key1, key2]

/-- **C150** The standard messages tell the classes of exceptions apart, and all but the general class have one. -/
theorem C150_apart : (∀ k k', standard k = standard k' → k = k') ∧ ∀ k, standard k = none ↔ k = .base := by
  constructor
  · intro k k'
    cases k <;> cases k' <;> decide +kernel
  · intro k
    cases k <;> decide +kernel

/-- **C150** From the text of an exception the class and the message can be read, as names of classes contain no closing bracket. -/
theorem C150_read (name name' m m' : Text) (h : ']' ∉ name) (h' : ']' ∉ name') (he : Says name m = Says name' m') : name = name' ∧ m = m' := by
  simp only [Says, List.append_assoc, List.cons_append, List.nil_append, List.cons.injEq, true_and] at he
  have key : ∀ (a b s t : Text), ']' ∉ a → ']' ∉ b → a ++ ']' :: s = b ++ ']' :: t → a = b ∧ s = t := by
    intro a
    induction a with
    | nil =>
      intro b s t _ hb e
      cases b with
      | nil => simpa using e
      | cons c b =>
        simp only [List.nil_append, List.cons_append, List.cons.injEq] at e
        exact absurd (by rw [← e.1]; simp) hb
    | cons c a ih =>
      intro b s t ha hb e
      cases b with
      | nil =>
        simp only [List.nil_append, List.cons_append, List.cons.injEq] at e
        exact absurd (by rw [e.1]; simp) ha
      | cons c' b =>
        simp only [List.cons_append, List.cons.injEq] at e
        obtain ⟨r1, r2⟩ := ih b s t (fun h => ha (by simp [h])) (fun h => hb (by simp [h])) e.2
        exact ⟨by rw [e.1, r1], r2⟩
  obtain ⟨r1, r2⟩ := key _ _ _ _ h h' he
  exact ⟨r1, by simpa using r2⟩

/-- The three calls that do not say what they are meant to, and the one that has no object at hand. -/
def wrong : List Text := [txt! "kernel/implicit.py:52", txt! "kernel/network/explicit_nn.py:113", txt! "kernel/_base_kernel.py:119", txt! "utils/cast.py:110 without object"]

/-- **C150** At every other call of the package the exception names the class of the object it comes from, and says what the call is written with or, if nothing, the
standard message. Missing (`_partial`): the calls of `wrong`. -/
theorem C150_sites_partial (print : Val → Text) (name : Text) : ∀ s ∈ sites, s.place ∉ wrong → ∃ m, s.meant = some m ∧ s.text print name = .ok (Says name m) := by
  have key : ∀ s ∈ sites, s.place ∉ wrong →
      (∃ t, t ≠ [] ∧ s.args = [] ∧ s.kwargs = [(.cls, .self), (.message, .lit t)]) ∨ (standard s.kind ≠ none ∧ ((s.args = [] ∧ s.kwargs = [(.cls, .self)]) ∨ (s.args = [.self] ∧ s.kwargs = []))) := by
    have h : ∀ s ∈ sites, s.place ∉ wrong → usual s = true := by decide +kernel
    intro s hs hw
    have := h s hs hw
    unfold usual at this
    split at this
    · rename_i t h1 h2
      exact Or.inl ⟨t, by simpa using this, h1, h2⟩
    · rename_i h1 h2
      exact Or.inr ⟨by rw [← Option.isSome_iff_ne_none]; exact this, Or.inl ⟨h1, h2⟩⟩
    · rename_i h1 h2
      exact Or.inr ⟨by rw [← Option.isSome_iff_ne_none]; exact this, Or.inr ⟨h1, h2⟩⟩
    · exact absurd this (by simp)
  intro s hs hw
  rcases key s hs hw with ⟨t, ht, h1, h2⟩ | ⟨hk, ⟨h1, h2⟩ | ⟨h1, h2⟩⟩
  · refine ⟨t, ?_, ?_⟩
    · simp [Site.meant, Site.written, h1, h2]
    · rw [Site.text, Site.call, h1, h2]
      exact (C150_located print s.kind name t ht).1
  · obtain ⟨m, hm⟩ := Option.ne_none_iff_exists'.1 hk
    refine ⟨m, by simp [Site.meant, Site.written, h1, h2, hm], ?_⟩
    rw [Site.text, Site.call, h1, h2]
    exact (C150_standard print s.kind name m hm).1
  · obtain ⟨m, hm⟩ := Option.ne_none_iff_exists'.1 hk
    refine ⟨m, by simp [Site.meant, Site.written, h1, h2, hm], ?_⟩
    rw [Site.text, Site.call, h1, h2]
    exact (C150_standard print s.kind name m hm).2.1

/-- **C150** violated: a message given in the first place is lost, whatever it is: the text is the standard one, and empty for the general class. -/
theorem C150_first_violated (print : Val → Text) (k : Kind) (m : Text) : new print k ⟨[.text m], []⟩ = .ok ((standard k).getD []) := by
  cases hk : standard k <;> simp [new, bind, clash, compose, hk]

/-- **C150** violated at two calls: an evaluation without sample says that the model is not initialized, and asking a level on a neural network for a pre-image is refused
without a word. -/
theorem C150_lost_violated (print : Val → Text) (name : Text) :
    (∃ s ∈ sites, s.place = txt! "kernel/_base_kernel.py:119" ∧ s.meant = some (txt! "The sample has not been initialized yet.") ∧ s.text print name = .ok (txt! "The model has not been initialized yet.")) ∧
    ∃ s ∈ sites, s.place = txt! "kernel/network/explicit_nn.py:113" ∧ (∃ m, s.meant = some m ∧ m ≠ []) ∧ s.text print name = .ok [] := by
  refine ⟨⟨_, List.mem_of_getElem (i := 18) (h := by decide) rfl, rfl, rfl, ?_⟩, ⟨_, List.mem_of_getElem (i := 15) (h := by decide) rfl, rfl, ⟨_, rfl, List.cons_ne_nil _ _⟩, ?_⟩⟩
  · exact C150_first_violated print .notInitialized _
  · exact C150_first_violated print .base _

/-- **C150** violated: the pre-image of an implicit kernel is refused with a `TypeError` about the exception itself, instead of the exception. -/
theorem C150_keyword_violated (print : Val → Text) (name : Text) : ∃ s ∈ sites, s.place = txt! "kernel/implicit.py:52" ∧ s.kind = .explicit ∧ s.text print name = .error .typeError :=
  ⟨_, List.mem_of_getElem (i := 11) (h := by decide) rfl, rfl, rfl, rfl⟩

/-- **C150** violated: an unknown representation given to the fit of a KPCA level is refused without the name of the class. -/
theorem C150_unlocated_violated (print : Val → Text) (name : Text) : ∃ s ∈ sites, s.place = txt! "utils/cast.py:110 without object" ∧
    ∃ m, s.meant = some m ∧ s.text print name = .ok m ∧ m ≠ Says name m := by
  refine ⟨_, List.mem_of_getElem (i := 23) (h := by decide) rfl, rfl, _, rfl, (C150_standard print .representation name _ rfl).2.2, fun h => ?_⟩
  have := congrArg List.length h
  simp [Says] at this

/-- **C150** When the constructor itself refuses: exactly with more than two arguments, an unknown keyword, a parameter given twice, or a message that is no text together
with an object. -/
theorem C150_refused (print : Val → Text) (k : Kind) (c : Call) : (∃ e, new print k c = .error e) ↔
    2 < c.args.length ∨ (∃ t v, (Key.unknown t, v) ∈ c.kwargs) ∨ ((∃ v, (Key.cls, v) ∈ c.kwargs) ∧ 1 ≤ c.args.length) ∨ ((∃ v, (Key.message, v) ∈ c.kwargs) ∧ 2 ≤ c.args.length) ∨
      ¬ (c.kwargs.map Prod.fst).Nodup ∨ ∃ name v, bind c = .ok (.logger name, v) ∧ ∀ t, v ≠ .text t := by
  have hb : (∃ e, bind c = .error e) ↔ 2 < c.args.length ∨ (∃ t v, (Key.unknown t, v) ∈ c.kwargs) ∨ ((∃ v, (Key.cls, v) ∈ c.kwargs) ∧ 1 ≤ c.args.length) ∨
      ((∃ v, (Key.message, v) ∈ c.kwargs) ∧ 2 ≤ c.args.length) ∨ ¬ (c.kwargs.map Prod.fst).Nodup := by
    have ha : ((c.kwargs.map Prod.fst).any (clash c.args.length) = true) ↔ (∃ t v, (Key.unknown t, v) ∈ c.kwargs) ∨ ((∃ v, (Key.cls, v) ∈ c.kwargs) ∧ 1 ≤ c.args.length) ∨
        ((∃ v, (Key.message, v) ∈ c.kwargs) ∧ 2 ≤ c.args.length) := by
      rw [List.any_eq_true]
      constructor
      · rintro ⟨k, hk, h⟩
        obtain ⟨⟨k', v⟩, hv, rfl⟩ := List.mem_map.1 hk
        cases k' with
        | unknown t => exact Or.inl ⟨t, v, hv⟩
        | cls => exact Or.inr (Or.inl ⟨⟨v, hv⟩, by simpa [clash] using h⟩)
        | message => exact Or.inr (Or.inr ⟨⟨v, hv⟩, by simpa [clash] using h⟩)
      · rintro (⟨t, v, hv⟩ | ⟨⟨v, hv⟩, h⟩ | ⟨⟨v, hv⟩, h⟩)
        · exact ⟨_, List.mem_map.2 ⟨_, hv, rfl⟩, rfl⟩
        · exact ⟨_, List.mem_map.2 ⟨_, hv, rfl⟩, by simpa [clash] using h⟩
        · exact ⟨_, List.mem_map.2 ⟨_, hv, rfl⟩, by simpa [clash] using h⟩
    unfold bind
    split
    · rename_i h
      rw [ha] at h
      refine ⟨fun _ => ?_, fun _ => ⟨_, rfl⟩⟩
      simpa only [or_assoc] using h
    · rename_i h
      rw [ha] at h
      refine ⟨fun ⟨e, he⟩ => by simp at he, fun h' => absurd ?_ h⟩
      simpa only [or_assoc] using h'
  have hs : (∃ e, new print k c = .error e) ↔ (∃ e, bind c = .error e) ∨ ∃ name v, bind c = .ok (.logger name, v) ∧ ∀ t, v ≠ .text t := by
    unfold new
    cases hc : bind c with
    | error e => simp
    | ok q =>
      obtain ⟨cls, v⟩ := q
      cases v with
      | text t =>
        by_cases ht : t = []
        · cases hk : standard k <;> cases cls <;> simp [compose, ht, hk]
        · cases cls <;> simp [compose, ht]
      | none => cases cls <;> simp [compose]
      | logger t => cases cls <;> simp [compose]
      | other t => cases cls <;> simp [compose]
  rw [hs, hb]
  simp only [or_assoc]

/-- A located message, and an exception in an object of the class `KPCA`. -/
example : new (fun _ => []) .notInitialized ⟨[], [(.cls, .logger (txt! "KPCA")), (.message, .text (txt! "No weight."))]⟩ = .ok (txt! "[KPCA] No weight.") :=
  (C150_located _ _ _ _ (by decide)).1

example : ∃ m, standard .bijection = some m ∧ new (fun _ => []) .bijection ⟨[], []⟩ = .ok m := ⟨_, rfl, (C150_standard _ _ [] _ rfl).2.2⟩

example : Says (txt! "RBF") (txt! "a") ≠ Says (txt! "KPCA") (txt! "a") := fun h => absurd (C150_read _ _ _ _ (by decide) (by decide) h).1 (by decide)

example : ∃ s ∈ sites, s.place ∉ wrong ∧ s.text (fun _ => []) (txt! "Model") = .ok (txt! "[Model] The model does not contain any level.") :=
  ⟨_, List.mem_of_getElem (i := 1) (h := by decide) rfl, by decide +kernel, (C150_located _ .notInitialized (txt! "Model") _ (by decide)).1⟩

example : ∃ s ∈ sites, ∃ m, s.text (fun _ => []) (txt! "KPCA") = .ok m ∧ m ≠ Says (txt! "KPCA") m := by
  obtain ⟨s, hs, -, m, -, h1, h2⟩ := C150_unlocated_violated (fun _ => []) (txt! "KPCA")
  exact ⟨s, hs, m, h1, h2⟩

end Messages
end Kerch
