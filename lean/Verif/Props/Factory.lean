import Verif.Model.Factory
/-!
# C40: factories

Specification: a name `s` *spells* a class `n` when they are equal up to case and separators.
-/
set_option linter.unusedSectionVars false
set_option linter.unusedSimpArgs false
namespace Kerch
open Factory

/-- ASCII strings. -/
def Ascii (s : Str) : Prop := ∀ c ∈ s, c.val < 128

/-- Equal up to case, after removing the given separators from the first. -/
def Spells (seps : List Char) (s n : Str) : Prop :=
  (s.filter (fun c => !(seps.contains c))).map Char.toLower = n.map Char.toLower

/-! ## helper lemmas -/

theorem ascii_filter {s : Str} (h : Ascii s) (p : Char → Bool) : Ascii (s.filter p) :=
  fun c hc => h c (List.mem_filter.mp hc).1

/-- In a directory whose names are pairwise distinct after lowering, the lookup finds exactly the denoted name. -/
theorem getattrCI_complete {low : Str → Str} (hl : LowerSpec low) {dir : Dir}
    (hasc : ∀ a ∈ dir, Ascii a.1)
    (hnd : (dir.map (fun a => a.1.map Char.toLower)).Nodup)
    {a : Str × Attr} (ha : a ∈ dir) {s : Str} (hs : Ascii s)
    (h : s.map Char.toLower = a.1.map Char.toLower) : getattrCI low dir s = some a := by
  unfold getattrCI
  induction dir with
  | nil => simp at ha
  | cons b t ih =>
    rw [List.map_cons, List.nodup_cons] at hnd
    have hb := hasc b (by simp)
    rw [List.find?_cons, hl _ hb, show (b.1.map Char.toLower == low s) = (b.1.map Char.toLower == a.1.map Char.toLower) by
      rw [hl _ hs, h]]
    rcases List.mem_cons.mp ha with rfl | hat
    · simp
    · have hne : ¬ (b.1.map Char.toLower = a.1.map Char.toLower) := by
        intro e; exact hnd.1 (e ▸ List.mem_map_of_mem hat)
      rw [show (b.1.map Char.toLower == a.1.map Char.toLower) = false from by simpa using hne]
      have := ih (fun c hc => hasc c (by simp [hc])) hnd.2 hat
      simpa using this

theorem getattrCI_none {low : Str → Str} (hl : LowerSpec low) {dir : Dir}
    (hasc : ∀ a ∈ dir, Ascii a.1) {s : Str} (hs : Ascii s)
    (h : ∀ a ∈ dir, s.map Char.toLower ≠ a.1.map Char.toLower) : getattrCI low dir s = none := by
  unfold getattrCI
  rw [List.find?_eq_none]
  intro a ha
  rw [hl _ (hasc a ha), hl _ hs]
  simpa using fun e => h a ha e.symm

theorem kernelDir_ascii : ∀ a ∈ kernelDir, Ascii a.1 := by unfold Ascii; decide
theorem kernelDir_nodup : (kernelDir.map (fun a => a.1.map Char.toLower)).Nodup := by decide
theorem modelDir_ascii : ∀ a ∈ modelDir, Ascii a.1 := by unfold Ascii; decide
theorem modelDir_nodup : (modelDir.map (fun a => a.1.map Char.toLower)).Nodup := by decide
theorem levelDir_ascii : ∀ a ∈ levelDir, Ascii a.1 := by unfold Ascii; decide
theorem levelDir_nodup : (levelDir.map (fun a => a.1.map Char.toLower)).Nodup := by decide
theorem dataDir_ascii : ∀ a ∈ dataDir, Ascii a.1 := by unfold Ascii; decide
theorem dataDir_nodup : (dataDir.map (fun a => a.1.map Char.toLower)).Nodup := by decide

theorem removeChar_us (s : Str) : s.filter (fun c => !(['_'].contains c)) = removeChar '_' s := by
  unfold removeChar; congr 1; funext c
  by_cases h : c = '_' <;> simp [h, bne]

theorem dataName_eq (s : Str) : s.filter (fun c => !(['_', ' '].contains c)) = dataName s := by
  unfold dataName removeChar
  rw [List.filter_filter]; congr 1; funext c
  by_cases h1 : c = '_' <;> by_cases h2 : c = ' ' <;> simp [h1, h2, bne]

theorem spells_nil {s n : Str} : Spells [] s n ↔ s.map Char.toLower = n.map Char.toLower := by
  unfold Spells
  have : s.filter (fun c => !(([] : List Char).contains c)) = s := by
    rw [List.filter_eq_self]; simp
  rw [this]

/-! ## properties -/

/-- **C40** (kernels).  Every exported kernel class is obtained from every spelling of its name: any case, underscores
anywhere.  (`_BaseKernel`, which is private, is excluded as its own underscore is removed.) -/
theorem C40_kernel {low : Str → Str} (hl : LowerSpec low) {n : Str} (hn : (n, Attr.cls) ∈ kernelDir)
    {s : Str} (hs : Ascii s) (h : Spells ['_'] s n) : kernelFactory low s = .ok n := by
  have : getattrCI low kernelDir (removeChar '_' s) = some (n, .cls) :=
    getattrCI_complete hl kernelDir_ascii kernelDir_nodup hn (ascii_filter hs _) (by
      rw [← removeChar_us]; exact h)
  simp [kernelFactory, kernelClass, this, construct]

/-- **C40** (kernels, spellings).  Two names that differ only by case and underscores behave identically, known or not. -/
theorem C40_kernel_spelling {low : Str → Str} (hl : LowerSpec low) {s t : Str} (hs : Ascii s) (ht : Ascii t)
    (h : (s.filter (· != '_')).map Char.toLower = (t.filter (· != '_')).map Char.toLower) :
    kernelFactory low s = kernelFactory low t := by
  have : low (removeChar '_' s) = low (removeChar '_' t) := by
    unfold removeChar
    rw [hl _ (ascii_filter hs _), hl _ (ascii_filter ht _)]; exact h
  simp [kernelFactory, kernelClass, getattrCI, this]

/-- **C40** (kernels, unknown names), partial: a name denoting no exported class is refused with `NameError`, except the name
of the factory function (see `C40_kernel_factory_violated`). -/
theorem C40_kernel_unknown_partial {low : Str → Str} (hl : LowerSpec low) {s : Str} (hs : Ascii s)
    (h : ∀ n, (n, Attr.cls) ∈ kernelDir → ¬ Spells ['_'] s n)
    (hf : ¬ Spells ['_'] s ['f','a','c','t','o','r','y']) : kernelFactory low s = .error .nameError := by
  have : getattrCI low kernelDir (removeChar '_' s) = none := by
    apply getattrCI_none hl kernelDir_ascii (ascii_filter hs _)
    rintro ⟨a, k⟩ ha e
    replace e : (removeChar '_' s).map Char.toLower = a.map Char.toLower := e
    rw [← removeChar_us] at e
    cases k with
    | cls => exact h a ha e
    | func =>
      have : ∀ b ∈ kernelDir, b.2 = Attr.func → b.1 = ['f','a','c','t','o','r','y'] := by decide
      have := this _ ha rfl
      exact hf (by rw [← this]; exact e)
  simp [kernelFactory, kernelClass, this, construct]

/-- **C40** violated: the stub of the package also exports the factory function, so that the unknown kernel type `"factory"`
(in any spelling) is not refused but silently gives the default kernel. -/
theorem C40_kernel_factory_violated {low : Str → Str} (hl : LowerSpec low) :
    (∀ n, (n, Attr.cls) ∈ kernelDir → ¬ Spells ['_'] ['f','a','c','t','o','r','y'] n) ∧
    kernelFactory low ['f','a','c','t','o','r','y'] = .ok ['R','B','F'] := by
  constructor
  · intro n hn hd
    have : ∀ b ∈ kernelDir, b.2 = Attr.cls →
      ¬ ((['f','a','c','t','o','r','y'] : Str).filter (fun c => !(['_'].contains c))).map Char.toLower = b.1.map Char.toLower := by decide
    exact this _ hn rfl hd
  · have h1 : getattrCI low kernelDir (removeChar '_' ['f','a','c','t','o','r','y']) = some (['f','a','c','t','o','r','y'], .func) :=
      getattrCI_complete hl kernelDir_ascii kernelDir_nodup (by decide) (by unfold Ascii; decide) (by decide)
    have h2 : getattrCI low kernelDir (removeChar '_' kernelDefault) = some (['R','B','F'], .cls) :=
      getattrCI_complete hl kernelDir_ascii kernelDir_nodup (by decide) (by unfold Ascii; decide) (by decide)
    simp [kernelFactory, kernelClass, h1, h2, construct]

/-- **C40** (levels): the three supported levels are obtained from every capitalisation. -/
theorem C40_level {low : Str → Str} (hl : LowerSpec low) {n : Str}
    (hn : n = ['K','P','C','A'] ∨ n = ['L','S','S','V','M'] ∨ n = ['R','i','d','g','e'])
    {s : Str} (hs : Ascii s) (h : Spells [] s n) : levelFactory low s = .ok n := by
  have hd : s.map Char.toLower = n.map Char.toLower := spells_nil.mp h
  have hmem : (n, Attr.cls) ∈ levelDir := by rcases hn with rfl | rfl | rfl <;> decide
  have h1 : getattrCI low levelDir s = some (n, .cls) :=
    getattrCI_complete hl levelDir_ascii levelDir_nodup hmem hs hd
  have h2 : levelNames.contains (low s) = true := by
    rw [hl _ hs, hd]
    rcases hn with rfl | rfl | rfl <;> decide
  unfold levelFactory levelClass
  rw [h2, h1]; rfl

/-- **C40** (levels): everything else is refused with `NameError`. -/
theorem C40_level_unknown {low : Str → Str} (hl : LowerSpec low) {s : Str} (hs : Ascii s)
    (h : ¬ Spells [] s ['K','P','C','A'] ∧ ¬ Spells [] s ['L','S','S','V','M'] ∧ ¬ Spells [] s ['R','i','d','g','e']) :
    levelFactory low s = .error .nameError := by
  have h2 : levelNames.contains (low s) = false := by
    rw [hl _ hs]
    obtain ⟨a, b, c⟩ := h
    rw [spells_nil] at a b c
    rw [Bool.eq_false_iff]
    intro hc
    rw [List.contains_iff_mem] at hc
    simp only [levelNames, List.mem_cons, List.not_mem_nil, or_false] at hc
    rcases hc with e | e | e
    · exact a (e.trans (by decide))
    · exact b (e.trans (by decide))
    · exact c (e.trans (by decide))
  unfold levelFactory levelClass
  rw [h2]; rfl

/-- **C40** (data sets): every data set is obtained from every spelling of its name, with underscores and blanks anywhere. -/
theorem C40_data {low : Str → Str} (hl : LowerSpec low) {n : Str} (hn : (n, Attr.cls) ∈ dataDir)
    {s : Str} (hs : Ascii s) (h : Spells ['_', ' '] s n) : dataFactory low s = .ok n := by
  have hd : (dataName s).map Char.toLower = n.map Char.toLower := by rw [← dataName_eq]; exact h
  have hasc : Ascii (dataName s) := by rw [← dataName_eq]; exact ascii_filter hs _
  have hp : ¬ (low (dataName s) = ['p','i','m','a']) := by
    rw [hl _ hasc, hd]
    have : ∀ b ∈ dataDir, b.1.map Char.toLower ≠ ['p','i','m','a'] := by decide
    exact this _ hn
  have : getattrCI low dataDir (dataName s) = some (n, .cls) :=
    getattrCI_complete hl dataDir_ascii dataDir_nodup hn hasc hd
  simp [dataFactory, dataClass, hp, this, construct]

/-- **C40** (data sets): `pima` is an alias. -/
theorem C40_data_alias {low : Str → Str} (hl : LowerSpec low)
    {s : Str} (hs : Ascii s) (h : Spells ['_', ' '] s ['p','i','m','a']) : dataFactory low s = .ok ['P','i','m','a','I','n','d','i','a','n','s'] := by
  have hd : (dataName s).map Char.toLower = ['p','i','m','a'] := by
    rw [← dataName_eq]; exact h.trans (by decide)
  have hasc : Ascii (dataName s) := by rw [← dataName_eq]; exact ascii_filter hs _
  have hp : low (dataName s) = ['p','i','m','a'] := by rw [hl _ hasc, hd]
  have : getattrCI low dataDir ['p','i','m','a','i','n','d','i','a','n','s'] = some (['P','i','m','a','I','n','d','i','a','n','s'], .cls) :=
    getattrCI_complete hl dataDir_ascii dataDir_nodup (by decide) (by unfold Ascii; decide) (by decide)
  simp [dataFactory, dataClass, hp, this, construct]

/-- **C40** (data sets, unknown names), partial: as for kernels, except the name of the factory function. -/
theorem C40_data_unknown_partial {low : Str → Str} (hl : LowerSpec low) {s : Str} (hs : Ascii s)
    (h : ∀ n, (n, Attr.cls) ∈ dataDir → ¬ Spells ['_', ' '] s n)
    (hp : ¬ Spells ['_', ' '] s ['p','i','m','a'])
    (hf : ¬ Spells ['_', ' '] s ['f','a','c','t','o','r','y']) : dataFactory low s = .error .nameError := by
  have hasc : Ascii (dataName s) := by rw [← dataName_eq]; exact ascii_filter hs _
  have hp : ¬ (low (dataName s) = ['p','i','m','a']) := by
    rw [hl _ hasc, ← dataName_eq]
    intro e; exact hp (e.trans (by decide))
  have : getattrCI low dataDir (dataName s) = none := by
    apply getattrCI_none hl dataDir_ascii hasc
    rintro ⟨a, k⟩ ha e
    rw [← dataName_eq] at e
    cases k with
    | cls => exact h a ha e
    | func =>
      have : ∀ b ∈ dataDir, b.2 = Attr.func → b.1 = ['f','a','c','t','o','r','y'] := by decide
      have := this _ ha rfl
      exact hf (by rw [← this]; exact e)
  simp [dataFactory, dataClass, hp, this, construct]

/-- **C40** (models): every model is obtained from every capitalisation (separators are not removed here). -/
theorem C40_model {low : Str → Str} (hl : LowerSpec low) {n : Str} (hn : (n, Attr.cls) ∈ modelDir)
    {s : Str} (hs : Ascii s) (h : Spells [] s n) : modelFactory low s = .ok n := by
  have hd : s.map Char.toLower = n.map Char.toLower := spells_nil.mp h
  have := getattrCI_complete hl modelDir_ascii modelDir_nodup hn hs hd
  simp [modelFactory, modelClass, this, construct]

/-- **C40** (models, unknown names), partial: as for kernels, except the name of the factory function. -/
theorem C40_model_unknown_partial {low : Str → Str} (hl : LowerSpec low) {s : Str} (hs : Ascii s)
    (h : ∀ n, (n, Attr.cls) ∈ modelDir → ¬ Spells [] s n)
    (hf : ¬ Spells [] s ['f','a','c','t','o','r','y']) : modelFactory low s = .error .nameError := by
  have : getattrCI low modelDir s = none := by
    apply getattrCI_none hl modelDir_ascii hs
    rintro ⟨a, k⟩ ha e
    have e' : Spells [] s a := spells_nil.mpr e
    cases k with
    | cls => exact h a ha e'
    | func =>
      have : ∀ b ∈ modelDir, b.2 = Attr.func → b.1 = ['f','a','c','t','o','r','y'] := by decide
      have := this _ ha rfl
      exact hf (by rw [← this]; exact e')
  simp [modelFactory, modelClass, this, construct]

/-! ## non-vacuity -/

/-- There is a lowering function meeting the contract. -/
example : LowerSpec (fun s => s.map Char.toLower) := fun _ _ => rfl
example : (['R','a','n','d','o','m','F','e','a','t','u','r','e','s'], Attr.cls) ∈ kernelDir ∧ Spells ['_'] ['r','A','n','d','o','m','_','F','e','a','t','_','u','r','e','s','_'] ['R','a','n','d','o','m','F','e','a','t','u','r','e','s'] := by
  constructor
  · decide
  · unfold Spells; decide
example : Spells ['_', ' '] ['t','w','o',' ','M','O','O','N','S'] ['T','w','o','M','o','o','n','s'] := by unfold Spells; decide
example : ∀ n, (n, Attr.cls) ∈ kernelDir → ¬ Spells ['_'] ['r','b','f','f'] n := by
  intro n hn hd
  have : ∀ b ∈ kernelDir, ¬ ((['r','b','f','f'] : Str).filter (fun c => !(['_'].contains c))).map Char.toLower = b.1.map Char.toLower := by
    decide
  exact this _ hn hd

end Kerch

/-! ## Concrete cases meeting the hypotheses of the theorems above -/

namespace Kerch
namespace FactoryCase
open Factory

def low (s : Str) : Str := s.map Char.toLower
theorem low_spec : LowerSpec low := fun _ _ => rfl

example : kernelFactory low "random_Features".toList = .ok "RandomFeatures".toList :=
  C40_kernel low_spec (n := "RandomFeatures".toList) (by decide) (s := "random_Features".toList) (by unfold Ascii; decide) (by unfold Spells; decide)
example : kernelFactory low "R_B_F".toList = kernelFactory low "rbf".toList :=
  C40_kernel_spelling low_spec (s := "R_B_F".toList) (t := "rbf".toList) (by unfold Ascii; decide) (by unfold Ascii; decide) (by decide)
example : kernelFactory low "rbff".toList = .error .nameError :=
  C40_kernel_unknown_partial low_spec (s := "rbff".toList) (by unfold Ascii; decide) (by
    intro n hn hd
    have : ∀ b ∈ kernelDir, ¬ (("rbff".toList : Str).filter (fun c => !(['_'].contains c))).map Char.toLower = b.1.map Char.toLower := by
      decide
    exact this _ hn hd) (by unfold Spells; decide)
example := C40_kernel_factory_violated low_spec
example : levelFactory low "lSsVm".toList = .ok "LSSVM".toList :=
  C40_level low_spec (Or.inr (Or.inl rfl)) (s := "lSsVm".toList) (by unfold Ascii; decide) (by unfold Spells; decide)
example : levelFactory low "pca".toList = .error .nameError :=
  C40_level_unknown low_spec (s := "pca".toList) (by unfold Ascii; decide) (by unfold Spells; decide)
example : dataFactory low "two MOONS".toList = .ok "TwoMoons".toList :=
  C40_data low_spec (n := "TwoMoons".toList) (by decide) (s := "two MOONS".toList) (by unfold Ascii; decide) (by unfold Spells; decide)
example : dataFactory low "PIMA".toList = .ok "PimaIndians".toList :=
  C40_data_alias low_spec (s := "PIMA".toList) (by unfold Ascii; decide) (by unfold Spells; decide)
example : dataFactory low "mnist".toList = .error .nameError :=
  C40_data_unknown_partial low_spec (s := "mnist".toList) (by unfold Ascii; decide) (by
    intro n hn hd
    have : ∀ b ∈ dataDir, ¬ (("mnist".toList : Str).filter (fun c => !(['_', ' '].contains c))).map Char.toLower = b.1.map Char.toLower := by
      decide
    exact this _ hn hd) (by unfold Spells; decide) (by unfold Spells; decide)
example : modelFactory low "rKm".toList = .ok "RKM".toList :=
  C40_model low_spec (n := "RKM".toList) (by decide) (s := "rKm".toList) (by unfold Ascii; decide) (by unfold Spells; decide)
example : modelFactory low "kmeans".toList = .error .nameError :=
  C40_model_unknown_partial low_spec (s := "kmeans".toList) (by unfold Ascii; decide) (by
    intro n hn hd
    have : ∀ b ∈ modelDir, ¬ (("kmeans".toList : Str).filter (fun c => !([].contains c))).map Char.toLower = b.1.map Char.toLower := by
      decide
    exact this _ hn hd) (by unfold Spells; decide)

end FactoryCase
end Kerch
