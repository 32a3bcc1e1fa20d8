import Verif.Model.Settings
set_option linter.unusedSectionVars false
set_option linter.unusedSimpArgs false
/-!
# C86, C87: logging levels and package-wide settings
-/
namespace Kerch
namespace Settings

/-! ## C86 -/

/-- Specification: what an operation does to the level of one object, `g` being the global level at that time: `none` if it does not concern it. -/
def concerns (o : Obj) (g : ℤ) : LogOp → Option ℤ
  | .create o' level => if o' = o then some (level.getD g) else none
  | .assign t level => if o ∈ t.objs then some (level.getD g) else none
  | .setGlobal _ => none

/-- Specification: the global level after an operation. -/
def globAfter (g : ℤ) : LogOp → ℤ
  | .setGlobal level => level
  | _ => g

/-- Specification: the level last given to the object `o` (`l` if none was given), by its instantiation, by an assignment to it or to an object
containing it; a level that is not specified is the global one at that time. -/
def lastGiven (o : Obj) : ℤ → ℤ → List LogOp → ℤ
  | _, l, [] => l
  | g, l, op :: ops => lastGiven o (globAfter g op) ((concerns o g op).getD l) ops

/-- The objects an operation mentions. -/
def mentioned : LogOp → List Obj
  | .create o _ => [o]
  | .assign t _ => t.objs
  | .setGlobal _ => []

theorem set_glob (s : LogSt) (os : List Obj) (level : Option ℤ) : (s.set os level).glob = s.glob := by
  unfold LogSt.set
  induction os generalizing s with
  | nil => rfl
  | cons o os ih => rw [List.foldl_cons, ih]

theorem set_lev (s : LogSt) (os : List Obj) (level : Option ℤ) (nm : String) :
    (s.set os level).lev nm = if nm ∈ os.map Obj.name then level.getD s.glob else s.lev nm := by
  unfold LogSt.set
  induction os generalizing s with
  | nil => simp
  | cons o os ih =>
    rw [List.foldl_cons, ih]
    by_cases h1 : nm ∈ os.map Obj.name
    · rw [if_pos h1, if_pos (by simp only [List.map_cons, List.mem_cons]; exact .inr h1)]
    · rw [if_neg h1]
      by_cases h2 : nm = o.name
      · rw [if_pos (by simp [h2])]; simp [h2]
      · have : nm ∉ (o :: os).map Obj.name := by simp only [List.map_cons, List.mem_cons, not_or]; exact ⟨h2, h1⟩
        rw [if_neg this]; simp [h2]

theorem step_glob (s : LogSt) (op : LogOp) : (s.step op).glob = globAfter s.glob op := by
  cases op <;> simp [LogSt.step, globAfter, set_glob]

/-- In every history, an object whose logger name no other object has reads the level last given to it. Missing (`_partial`): objects sharing the name, that is
all objects of the same class unless they are given names (`C86_shared_violated`). -/
theorem C86_own_level_partial (s : LogSt) (ops : List LogOp) (o : Obj) (hg : o.name ≠ "global")
    (hname : ∀ op ∈ ops, ∀ o' ∈ mentioned op, o'.name = o.name → o' = o) :
    (s.run ops).read o = lastGiven o s.glob (s.read o) ops := by
  induction ops generalizing s with
  | nil => rfl
  | cons op ops ih =>
    show ((s.step op).run ops).read o = _
    rw [ih _ fun op' h => hname op' (List.mem_cons_of_mem _ h), step_glob]
    show _ = lastGiven o (globAfter s.glob op) ((concerns o s.glob op).getD (s.read o)) ops
    congr 1
    have hm := hname op List.mem_cons_self
    have key : ∀ (os : List Obj) (level : Option ℤ), (∀ o' ∈ os, o'.name = o.name → o' = o) →
        (s.set os level).read o = (if o ∈ os then some (level.getD s.glob) else none).getD (s.read o) := by
      intro os level h
      show (s.set os level).lev o.name = _
      rw [set_lev]
      by_cases h1 : o ∈ os
      · rw [if_pos (List.mem_map_of_mem h1), if_pos h1]; rfl
      · rw [if_neg h1, if_neg]
        · rfl
        · intro h2
          obtain ⟨o', ho', he⟩ := List.mem_map.1 h2
          exact h1 (h o' ho' he ▸ ho')
    cases op with
    | create o' level =>
      have := key [o'] level hm
      simp only [List.mem_singleton] at this
      simp only [LogSt.step, concerns, this, eq_comm]
    | assign t level => exact key t.objs level hm
    | setGlobal level => show (if o.name = "global" then level else s.lev o.name) = _; rw [if_neg hg]; rfl

/-- Specification: the level last given to any object with this logger name. -/
def lastNamed (nm : String) : ℤ → ℤ → List LogOp → ℤ
  | _, l, [] => l
  | g, l, .create o level :: ops => lastNamed nm g (if o.name = nm then level.getD g else l) ops
  | g, l, .assign t level :: ops => lastNamed nm g (if ∃ o ∈ t.objs, o.name = nm then level.getD g else l) ops
  | _, l, .setGlobal g :: ops => lastNamed nm g l ops

/-- What is read in general: the level last given to any object of the same name. -/
theorem C86_name_level_partial (s : LogSt) (ops : List LogOp) (o : Obj) (hg : o.name ≠ "global") :
    (s.run ops).read o = lastNamed o.name s.glob (s.read o) ops := by
  induction ops generalizing s with
  | nil => rfl
  | cons op ops ih =>
    show ((s.step op).run ops).read o = _
    rw [ih, step_glob]
    cases op with
    | create o' level =>
      show lastNamed o.name s.glob ((s.set [o'] level).lev o.name) ops = lastNamed o.name s.glob (if o'.name = o.name then _ else _) ops
      rw [set_lev]
      by_cases h : o'.name = o.name
      · rw [if_pos h, if_pos (by simp [h])]
      · rw [if_neg h, if_neg (by simpa [eq_comm] using h)]; rfl
    | assign t level =>
      show lastNamed o.name s.glob ((s.set t.objs level).lev o.name) ops = lastNamed o.name s.glob (if ∃ o' ∈ t.objs, o'.name = o.name then _ else _) ops
      rw [set_lev]
      simp only [List.mem_map]
      rfl
    | setGlobal level =>
      show lastNamed o.name level (if o.name = "global" then level else s.lev o.name) ops = _
      rw [if_neg hg]; rfl

/-- Changing the global level leaves the level of every object as it is, and is used by objects instantiated afterwards without a level. -/
theorem C86_global (s : LogSt) (g : ℤ) (o : Obj) (hg : o.name ≠ "global") :
    (s.run [.setGlobal g]).read o = s.read o ∧ (s.run [.setGlobal g, .create o none]).read o = g := by
  constructor
  · show (if o.name = "global" then g else s.lev o.name) = _
    rw [if_neg hg]; rfl
  · show ((s.step (.setGlobal g)).set [o] none).lev o.name = g
    rw [set_lev, if_pos (by simp)]
    rfl

/-- Violation: the instantiation of a second kernel of the same class, without any level, resets the level given to the first one. -/
theorem C86_shared_violated (cls : String) (hc : cls ≠ "global") (l : ℤ) (hl : l ≠ 30) :
    let a : Obj := ⟨0, logName none cls⟩
    let b : Obj := ⟨1, logName none cls⟩
    (LogSt.init.run [.create a (some l), .create b none]).read a = 30 ∧
      lastGiven a LogSt.init.glob (LogSt.init.read a) [.create a (some l), .create b none] = l := by
  constructor
  · show ((LogSt.init.set _ _).set _ none).lev cls = 30
    rw [set_lev, if_pos (by simp [logName]), set_glob]
    rfl
  · simp [lastGiven, concerns, globAfter]

/-- Two kernels of different classes, the level of the first one set through the level (view) that contains it. -/
example : (LogSt.init.run [.create ⟨0, "RBF"⟩ none, .create ⟨1, "KPCA"⟩ (some 10), .assign (.node ⟨1, "KPCA"⟩ [.node ⟨0, "RBF"⟩ []]) (some 20),
    .create ⟨2, "Linear"⟩ none]).read ⟨0, "RBF"⟩ = 20 := by
  rw [C86_own_level_partial _ _ _ (by decide) (by simp [mentioned, Tree.objs, Tree.objsList])]
  simp [lastGiven, concerns, globAfter, Tree.objs, Tree.objsList]

/-! ## C87 -/

variable {V : Type}

/-- Specification: the value last accepted by the setter. -/
def lastSet (v : V) : List (VarOp V) → V
  | [] => v
  | .set (some w) :: ops => lastSet w ops
  | _ :: ops => lastSet v ops

theorem run_cons (s : VarSt V) (op : VarOp V) (ops : List (VarOp V)) : s.run (op :: ops) = (s.step op).run ops := rfl

theorem run_append (s : VarSt V) (a b : List (VarOp V)) : s.run (a ++ b) = (s.run a).run b := by simp [VarSt.run, List.foldl_append]

theorem load_cur (s : VarSt V) (m : String) : (s.load m).cur = s.cur := by
  unfold VarSt.load; split <;> rfl

theorem load_copy (s : VarSt V) (m m' : String) : (s.load m).copy m' = if m' = m then some ((s.copy m).getD s.cur) else s.copy m' := by
  unfold VarSt.load
  cases h : s.copy m with
  | some v =>
    by_cases h1 : m' = m
    · rw [if_pos h1, h1, h]; rfl
    · rw [if_neg h1]
  | none =>
    by_cases h1 : m' = m
    · subst h1; simp [VarSt.copy]
    · rw [if_neg h1]
      have : ¬ m = m' := fun h => h1 h.symm
      simp [VarSt.copy, List.find?_cons, this]

theorem useCopy_eq (s : VarSt V) (m : String) : s.useCopy m = (s.copy m).getD s.cur := by
  unfold VarSt.useCopy
  rw [load_copy, if_pos rfl]; rfl

theorem cur_run (s : VarSt V) (ops : List (VarOp V)) : (s.run ops).cur = lastSet s.cur ops := by
  induction ops generalizing s with
  | nil => rfl
  | cons op ops ih =>
    rw [run_cons, ih]
    cases op with
    | set v => cases v <;> rfl
    | load m => show lastSet (s.load m).cur ops = _; rw [load_cur]; rfl

theorem copy_run_some (s : VarSt V) (m : String) (v : V) (h : s.copy m = some v) (ops : List (VarOp V)) : (s.run ops).copy m = some v := by
  induction ops generalizing s with
  | nil => exact h
  | cons op ops ih =>
    rw [run_cons]
    refine ih _ ?_
    cases op with
    | set w => cases w <;> exact h
    | load m' =>
      show (s.load m').copy m = _
      rw [load_copy]
      by_cases h1 : m = m'
      · rw [if_pos h1, ← h1, h]; rfl
      · rw [if_neg h1, h]

/-- Through the package, the value used is always the last one set; a refused argument changes nothing. -/
theorem C87_live (s : VarSt V) (ops : List (VarOp V)) : (s.run ops).useLive = lastSet s.cur ops := cur_run s ops

theorem copy_run_none (s : VarSt V) (m : String) (h : s.copy m = none) (ops : List (VarOp V)) (hops : VarOp.load m ∉ ops) : (s.run ops).copy m = none := by
  induction ops generalizing s with
  | nil => exact h
  | cons op ops ih =>
    rw [run_cons]
    refine ih _ ?_ fun h => hops (List.mem_cons_of_mem _ h)
    cases op with
    | set w => cases w <;> exact h
    | load m' =>
      show (s.load m').copy m = _
      have h1 : m ≠ m' := fun h => hops (by simp [h])
      rw [load_copy, if_neg h1, h]

/-- What a function of a module that imports the value by name uses: the value that was current when the module was first loaded. -/
theorem C87_copies (s : VarSt V) (m : String) (h : s.copy m = none) (before after : List (VarOp V)) (hb : VarOp.load m ∉ before) :
    (s.run (before ++ .load m :: after)).useCopy m = lastSet s.cur before := by
  rw [run_append, run_cons, useCopy_eq, copy_run_some _ m (s.run before).cur]
  · exact cur_run s before
  · show ((s.run before).load m).copy m = _
    rw [load_copy, if_pos rfl, copy_run_none s m h before hb]
    rfl

/-- If the setting is only changed before the modules are loaded (in the beginning of the code), all uses agree on the last value set. Missing (`_partial`): any
later change, `C87_violated`. -/
theorem C87_beginning_partial (v : V) (before after : List (VarOp V)) (hb : ∀ m, VarOp.load m ∉ before) (ha : ∀ w, VarOp.set (some w) ∉ after)
    (m : String) (hm : m ≠ "kerch") :
    ((VarSt.init v).run (before ++ after)).useCopy m = lastSet v (before ++ after) ∧
      ((VarSt.init v).run (before ++ after)).useLive = lastSet v (before ++ after) := by
  refine ⟨?_, cur_run _ _⟩
  have hinit : (VarSt.init v).copy m = none := by
    have : ¬ "kerch" = m := fun h => hm h.symm
    simp [VarSt.init, VarSt.copy, List.find?_cons, this]
  have inv : ∀ (ops : List (VarOp V)), (∀ w, VarOp.set (some w) ∉ ops) → ∀ (s : VarSt V), (s.copy m = none ∨ s.copy m = some s.cur) →
      (s.run ops).useCopy m = lastSet s.cur ops := by
    intro ops
    induction ops with
    | nil => intro _ s hs; rw [useCopy_eq]; rcases hs with hs | hs <;> simp [VarSt.run, hs, lastSet]
    | cons op ops ih =>
      intro h s hs
      have h' : ∀ w, VarOp.set (some w) ∉ ops := fun w hw => h w (List.mem_cons_of_mem _ hw)
      rw [run_cons]
      cases op with
      | set u => cases u with
        | none => exact ih h' s hs
        | some u => exact absurd List.mem_cons_self (h u)
      | load m' =>
        show ((s.load m').run ops).useCopy m = lastSet s.cur ops
        rw [← load_cur s m']
        refine ih h' (s.load m') ?_
        rw [load_copy, load_cur]
        by_cases h1 : m = m'
        · subst h1; rcases hs with hs | hs <;> simp [hs]
        · rw [if_neg h1]; exact hs
  have happ : ∀ (w : V) (a b : List (VarOp V)), lastSet w (a ++ b) = lastSet (lastSet w a) b := by
    intro w a b
    induction a generalizing w with
    | nil => rfl
    | cons op a ih =>
      cases op with
      | set u => cases u <;> exact ih _
      | load m => exact ih _
  rw [run_append, happ, inv after ha _ (.inl (copy_run_none _ m hinit before (hb m))), cur_run]
  rfl

/-- Violation: once a module is loaded its functions keep the former value, so that two parts of the package differ. -/
theorem C87_violated (s : VarSt V) (m : String) (v : V) (hv : v ≠ s.useCopy m) :
    (s.run [.load m, .set (some v)]).useLive = v ∧ (s.run [.load m, .set (some v)]).useCopy m ≠ v := by
  refine ⟨rfl, ?_⟩
  rw [useCopy_eq] at hv
  have : (s.run [.load m, .set (some v)]).copy m = some ((s.copy m).getD s.cur) := by
    show (s.load m).copy m = _
    rw [load_copy, if_pos rfl]
  rw [useCopy_eq, this]
  exact fun h => hv h.symm

/-- Violation: the documented attribute of the package itself (`kerch.FTYPE`) never changes. -/
theorem C87_attribute_violated (v : V) (ops : List (VarOp V)) : ((VarSt.init v).run ops).useCopy "kerch" = v := by
  rw [useCopy_eq, copy_run_some _ "kerch" v (by simp [VarSt.init, VarSt.copy])]
  rfl

/-- Single precision (`32`) by default, double precision set first: both the casts and the identities are in double precision, the attribute is not. -/
example : let s := (VarSt.init 32).run ([.set none, .set (some 64)] ++ [.load "cast"]);
    s.useCopy "cast" = 64 ∧ s.useLive = 64 ∧ s.useCopy "kerch" = 32 := by
  refine ⟨?_, ?_, C87_attribute_violated _ _⟩
  · exact (C87_beginning_partial 32 [.set none, .set (some 64)] [.load "cast"] (by simp) (by simp) "cast" (by decide)).1
  · exact (C87_beginning_partial 32 [.set none, .set (some 64)] [.load "cast"] (by simp) (by simp) "cast" (by decide)).2

/-! ## Cases -/

example : (LogSt.init.run [.create ⟨0, "RBF"⟩ none, .create ⟨1, "RBF"⟩ (some 10)]).read ⟨0, "RBF"⟩ = 10 := by
  rw [C86_name_level_partial _ _ _ (by decide)]
  rfl
example : (LogSt.init.run [.setGlobal 40, .create ⟨0, "RBF"⟩ none]).read ⟨0, "RBF"⟩ = 40 := (C86_global _ 40 ⟨0, "RBF"⟩ (by decide)).2
example := C86_shared_violated "RBF" (by decide) 10 (by decide)
example : ((VarSt.init 32).run ([.set (some 64)] ++ .load "cast" :: [.set (some 16)])).useCopy "cast" = 64 :=
  C87_copies (VarSt.init 32) "cast" rfl [.set (some 64)] [.set (some 16)] (by simp)
example := C87_violated (VarSt.init 32) "cast" 64 (by decide)


end Settings
end Kerch
