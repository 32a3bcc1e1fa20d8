import Verif.Model.Script
import Mathlib.Tactic.NormNum
set_option linter.unusedSectionVars false
set_option linter.unusedSimpArgs false
/-!
# C140: experiments described by a file
-/
namespace Kerch
namespace Script

variable {V D M T R : Type}

/-! ## Specification -/

/-- The file describes an experiment that can be run with this result. -/
structure Done (E : Env V D M T R) (f : List Char) (name : List Char) (verbose : Bool) (d m t : Dict String V) (r : R) : Prop where
  file : ∃ c, E.load f = .ok (some c) ∧ c.find "data" = some (some d) ∧ c.find "model" = some (some m) ∧ c.find "train" = some (some t)
  keys : "model" ∉ t.keys ∧ "learning_set" ∉ t.keys ∧ "verbose" ∉ t.keys ∧ "expe_name" ∉ t.keys
  steps : ∃ dataset mdl tr, E.data d = .ok dataset ∧ E.model m = .ok mdl ∧ E.trainer mdl dataset verbose name t = .ok tr ∧ E.fit tr = .ok r

theorem part_ok (c : Dict String (Option (Dict String V))) (k : String) (d : Dict String V) : part c k = .ok d ↔ c.find k = some (some d) := by
  unfold part
  cases c.find k with
  | none => simp
  | some x => cases x <;> simp

theorem given_keys (t : Dict String V) : t.keys.any (given.contains ·) = false ↔ "model" ∉ t.keys ∧ "learning_set" ∉ t.keys ∧ "verbose" ∉ t.keys ∧ "expe_name" ∉ t.keys := by
  rw [List.any_eq_false]
  constructor
  · intro h
    refine ⟨fun hk => h _ hk ?_, fun hk => h _ hk ?_, fun hk => h _ hk ?_, fun hk => h _ hk ?_⟩ <;> decide +kernel
  · rintro ⟨h1, h2, h3, h4⟩ x hx hg
    simp [given] at hg
    rcases hg with rfl | rfl | rfl | rfl <;> contradiction

theorem fit1 (d : Dict String V) : Ev.fit ∉ [Ev.data d] := by simp
theorem fit2 (d m : Dict String V) : Ev.fit ∉ [Ev.data d, Ev.model m] := by simp

/-! ## Properties -/

/-- **C140** A run gives a result exactly if the file describes an experiment that gives it: each part is made from its own section and nothing else, and the trainer gets the model, the data and the verbosity of this run. -/
theorem C140_done (E : Env V D M T R) (f : List Char) (verbose : Bool) (r : R) :
    (run E (some f) verbose).1 = .ok r ↔ ∃ d m t, Done E f (expeName f) verbose d m t r := by
  constructor
  · intro h
    unfold run at h
    simp only at h
    split at h <;> try cases h
    rename_i c hc
    split at h <;> try cases h
    rename_i d hd
    split at h <;> try cases h
    rename_i dataset hdata
    split at h <;> try cases h
    rename_i m hm
    split at h <;> try cases h
    rename_i mdl hmdl
    split at h <;> try cases h
    rename_i t ht
    split at h
    · exact absurd h (by simp)
    · rename_i hk
      split at h
      · exact absurd h (by simp)
      · rename_i tr htr
        exact ⟨d, m, t, ⟨c, hc, (part_ok ..).1 hd, (part_ok ..).1 hm, (part_ok ..).1 ht⟩, (given_keys t).1 (by simpa using hk), dataset, mdl, tr, hdata, hmdl, htr, h⟩
  · rintro ⟨d, m, t, ⟨c, hc, hd, hm, ht⟩, hk, dataset, mdl, tr, hdata, hmdl, htr, hr⟩
    unfold run
    simp only [hc, (part_ok ..).2 hd, hdata, (part_ok ..).2 hm, hmdl, (part_ok ..).2 ht]
    rw [(given_keys t).2 hk]
    simp only [htr, Bool.false_eq_true, if_false]
    exact hr

/-- **C140** Whatever happens, what is called is called once, in the order data, model, trainer, training. If the run raises, either the training itself raised or nothing was trained. -/
theorem C140_order (E : Env V D M T R) (f : Option (List Char)) (verbose : Bool) :
    (∃ d m n t, (run E f verbose).2 <+: [.data d, .model m, .trainer n t, .fit]) ∧
      (∀ e, (run E f verbose).1 = .error e → Ev.fit ∉ (run E f verbose).2 ∨ ∃ tr, E.fit tr = .error e) := by
  cases f with
  | none => exact ⟨⟨[], [], [], [], by simp [run]⟩, fun e _ => Or.inl (by simp [run])⟩
  | some f =>
    unfold run
    simp only
    split <;> try exact ⟨⟨[], [], [], [], List.nil_prefix⟩, fun e _ => Or.inl List.not_mem_nil⟩
    split <;> try exact ⟨⟨[], [], [], [], List.nil_prefix⟩, fun e _ => Or.inl List.not_mem_nil⟩
    rename_i d _
    split <;> try exact ⟨⟨d, [], [], [], ⟨_, rfl⟩⟩, fun e _ => Or.inl (fit1 d)⟩
    split <;> try exact ⟨⟨d, [], [], [], ⟨_, rfl⟩⟩, fun e _ => Or.inl (fit1 d)⟩
    rename_i m _
    split <;> try exact ⟨⟨d, m, [], [], ⟨_, rfl⟩⟩, fun e _ => Or.inl (fit2 d m)⟩
    split <;> try exact ⟨⟨d, m, [], [], ⟨_, rfl⟩⟩, fun e _ => Or.inl (fit2 d m)⟩
    rename_i t _
    split
    · exact ⟨⟨d, m, [], [], by simp⟩, fun e _ => Or.inl (by simp)⟩
    · split
      · exact ⟨⟨d, m, expeName f, t, by simp⟩, fun e _ => Or.inl (by simp)⟩
      · rename_i tr _
        exact ⟨⟨d, m, expeName f, t, by simp⟩, fun e h => Or.inr ⟨tr, h⟩⟩

/-- **C140** A missing section, an empty one, an empty file or no file at all raise before anything is trained; so does a keyword of the trainer that the script gives itself. -/
theorem C140_refused (E : Env V D M T R) (verbose : Bool) :
    ((run E none verbose).1 = .error .typeError) ∧
      (∀ f, E.load f = .ok none → run E (some f) verbose = (.error .typeError, [])) ∧
      (∀ f c, E.load f = .ok (some c) → c.find "data" = none → run E (some f) verbose = (.error .keyError, [])) ∧
      (∀ f c d m t dataset mdl, E.load f = .ok (some c) → c.find "data" = some (some d) → c.find "model" = some (some m) → c.find "train" = some (some t) → E.data d = .ok dataset → E.model m = .ok mdl →
        ("model" ∈ t.keys ∨ "learning_set" ∈ t.keys ∨ "verbose" ∈ t.keys ∨ "expe_name" ∈ t.keys) → run E (some f) verbose = (.error .typeError, [.data d, .model m])) := by
  refine ⟨rfl, fun f h => by simp [run, h], fun f c h h' => by simp [run, h, part, h'], fun f c d m t dataset mdl h hd hm ht h1 h2 hk => ?_⟩
  unfold run
  simp only [h, (part_ok ..).2 hd, h1, (part_ok ..).2 hm, h2, (part_ok ..).2 ht]
  have : t.keys.any (given.contains ·) = true := by
    by_contra hc
    rw [Bool.not_eq_true, given_keys] at hc
    obtain ⟨a, b, c, d⟩ := hc
    rcases hk with hk | hk | hk | hk <;> contradiction
  rw [if_pos this]

theorem expeName_append (s e : List Char) (he : e.length = 5) : expeName (s ++ e) = s := by
  have h1 : Data.clampIdx (s ++ e).length (-5) = s.length := by
    unfold Data.clampIdx
    rw [if_pos (by norm_num), List.length_append, he]
    omega
  have h2 : Data.clampIdx (s ++ e).length 0 = 0 := by
    unfold Data.clampIdx
    rw [if_neg (by norm_num)]; simp
  unfold expeName Data.pySlice
  rw [h1, h2]
  simp

/-- **C140** (partial) Files with the extension `.yaml`: the experiment has the name of the file without it, so that different files have different names. -/
theorem C140_name_partial (s s' : List Char) :
    expeName (s ++ ['.', 'y', 'a', 'm', 'l']) = s ∧ (expeName (s ++ ['.', 'y', 'a', 'm', 'l']) = expeName (s' ++ ['.', 'y', 'a', 'm', 'l']) → s = s') := by
  rw [expeName_append _ _ rfl, expeName_append _ _ rfl]
  exact ⟨rfl, id⟩

/-- **C140** violated: with the extension `.yml`, also in use, files that differ in the last letter of their name have one and the same experiment, whatever the run. -/
theorem C140_name_violated (E : Env V D M T R) (s : List Char) (a b : Char) (verbose : Bool) :
    expeName (s ++ [a, '.', 'y', 'm', 'l']) = s ∧ expeName (s ++ [a, '.', 'y', 'm', 'l']) = expeName (s ++ [b, '.', 'y', 'm', 'l']) ∧
      (E.load (s ++ [a, '.', 'y', 'm', 'l']) = E.load (s ++ [b, '.', 'y', 'm', 'l']) → run E (some (s ++ [a, '.', 'y', 'm', 'l'])) verbose = run E (some (s ++ [b, '.', 'y', 'm', 'l'])) verbose) := by
  have ha := expeName_append s [a, '.', 'y', 'm', 'l'] rfl
  have hb := expeName_append s [b, '.', 'y', 'm', 'l'] rfl
  refine ⟨ha, by rw [ha, hb], fun h => ?_⟩
  unfold run
  simp only [h, ha, hb]

/-- **C140** (partial) Relative paths: what is written goes to `kerch/<name>/<run>`. -/
theorem C140_directory_partial (c : Char) (s id : List Char) (hc : c ≠ '/') (hs : (c :: s).getLast? ≠ some '/') (hid : id.head? ≠ some '/') :
    dirProject (c :: s) id = ['k', 'e', 'r', 'c', 'h', '/'] ++ (c :: s) ++ '/' :: id := by
  have h1 : pathJoin ['k', 'e', 'r', 'c', 'h'] (c :: s) = ['k', 'e', 'r', 'c', 'h', '/'] ++ (c :: s) := by
    unfold pathJoin
    rw [if_neg (by simpa using hc), if_neg (by simp)]
    rfl
  unfold dirProject
  rw [h1]
  unfold pathJoin
  rw [if_neg hid, if_neg]
  rintro (h | h)
  · simp at h
  · rw [List.getLast?_append, Option.or_eq_some_iff] at h
    rcases h with h | ⟨h, -⟩
    · exact hs h
    · simp at h

/-- **C140** violated: for a file given by an absolute path it goes beside the file, not below `kerch`. -/
theorem C140_directory_violated (s id : List Char) (hs : ('/' :: s).getLast? ≠ some '/') (hid : id.head? ≠ some '/') :
    dirProject (expeName ('/' :: s ++ ['.', 'y', 'a', 'm', 'l'])) id = '/' :: s ++ '/' :: id := by
  rw [expeName_append _ _ rfl]
  unfold dirProject
  have h1 : pathJoin ['k', 'e', 'r', 'c', 'h'] ('/' :: s) = '/' :: s := by simp [pathJoin]
  rw [h1]
  unfold pathJoin
  rw [if_neg hid, if_neg (by rintro (h | h); · simp at h
                             · exact hs h)]

/-! ## Examples -/

/-- An environment where each step passes on what it got. -/
def exEnv : Env Nat (Dict String Nat) (Dict String Nat) (Dict String Nat × Dict String Nat × Dict String Nat) Nat where
  load _ := .ok (some [("data", some [("n", 3)]), ("model", some [("levels", 2)]), ("train", some [("epochs", 5)])])
  data d := .ok d
  model m := .ok m
  trainer m d _ _ t := .ok (m, d, t)
  fit t := match t.2.2.find "epochs" with
    | some n => .ok n
    | none => .error .valueError
/-- `C140_done` on it. -/
example : (run exEnv (some "a.yaml".toList) true).1 = .ok 5 :=
  (C140_done exEnv _ true 5).2 ⟨[("n", 3)], [("levels", 2)], [("epochs", 5)], ⟨_, rfl, by decide +kernel, by decide +kernel, by decide +kernel⟩, by decide +kernel, _, _, _, rfl, rfl, rfl, by decide +kernel⟩
/-- `C140_name_violated`: run1.yml and run2.yml. -/
example : expeName "run1.yml".toList = expeName "run2.yml".toList := by
  rw [show "run1.yml".toList = "run".toList ++ ['1', '.', 'y', 'm', 'l'] by decide +kernel, show "run2.yml".toList = "run".toList ++ ['2', '.', 'y', 'm', 'l'] by decide +kernel]
  exact (C140_name_violated exEnv "run".toList '1' '2' true).2.1
/-- `C140_directory_partial`, `C140_directory_violated`. -/
example : dirProject ['a'] ['7'] = ['k', 'e', 'r', 'c', 'h', '/', 'a', '/', '7'] := C140_directory_partial 'a' [] ['7'] (by decide) (by decide) (by decide)
example : dirProject (expeName ['/', 'a', '.', 'y', 'a', 'm', 'l']) ['7'] = ['/', 'a', '/', '7'] := C140_directory_violated ['a'] ['7'] (by decide) (by decide)
end Script
end Kerch
