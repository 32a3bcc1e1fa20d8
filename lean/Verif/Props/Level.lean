import Verif.Model.Level
import Verif.Lemmas.Dict
/-!
# C51, C52: parameters of a level and its outputs
-/
set_option linter.unusedSectionVars false
set_option linter.unusedSimpArgs false
namespace Kerch
open Level
variable {P D X Y : Type} (F : Fns P D X Y)

/-! ## specification -/

/-- Specification: what the last assignment of parameters in a history determines.  A level holds primal parameters, dual
parameters, or none; an assignment replaces whatever was held; changing the output dimension discards everything. -/
inductive Held (P D : Type)
  | none
  | primal (p : P)
  | dual (d : D)

/-- Effect of an operation on the specification. -/
def Held.step : Held P D → Op P D X → Held P D
  | _, .setPrimal (some p) => .primal p
  | _, .setPrimal Option.none => .none
  | _, .setDual (some d) => .dual d
  | _, .setDual Option.none => .none
  | _, .setDim => .none
  | h, .forward _ _ _ => h
  | h, .reset => h

/-- The parameters held after a history, starting without parameters. -/
def held (ops : List (Op P D X)) : Held P D := ops.foldl Held.step .none

/-- The output demanded by the specification. -/
def Held.out (x : X) : Held P D → Rep → Except Err Y
  | .primal p, .primal => .ok (F.outP p x)
  | .dual d, .dual => .ok (F.outD d x)
  | _, _ => .error .notInitialized

/-! ## helper lemmas -/

theorem forward_params (s : St P D Y) (id : Nat) (x : X) (r : Rep) :
    (s.forward F id x r).2.primal = s.primal ∧ (s.forward F id x r).2.dual = s.dual := ⟨rfl, rfl⟩

theorem forward_fresh (s : St P D Y) (id : Nat) (x : X) (r : Rep) (h : s.cache.dict.find (id, r) = none)
    (hl : ∃ z, s.cache.level = .num z) : (s.forward F id x r).1 = s.eval F x r := by
  obtain ⟨z, hz⟩ := hl
  simp only [St.forward, CacheSt.get, Bool.false_eq_true, if_false, h, CacheSt.save, CacheSt.resolveLevel]
  cases he : s.eval F x r with
  | error e => rfl
  | ok v =>
    have : CacheSt.getLevel s.cache (.str "normal") = .num 2 := rfl
    simp only [this, hz, Lvl.le]
    by_cases h2 : (2 : Int) ≤ z <;> simp [h2]

theorem forward_cached (s : St P D Y) (id : Nat) (x : X) (r : Rep) (e : Entry Y) (h : s.cache.dict.find (id, r) = some e) :
    (s.forward F id x r).1 = .ok e.val := by
  simp [St.forward, CacheSt.get, h]

theorem forward_stores (s : St P D Y) (id : Nat) (x : X) (r : Rep) (v : Y) (h : s.cache.dict.find (id, r) = none)
    (hl : ∃ z, s.cache.level = .num z ∧ 2 ≤ z) (hv : s.eval F x r = .ok v) :
    (s.forward F id x r).2.cache.dict.find (id, r) = some ⟨.num 2, false, v⟩ := by
  obtain ⟨z, hz, h2⟩ := hl
  have : CacheSt.getLevel s.cache (.str "normal") = .num 2 := rfl
  simp [St.forward, CacheSt.get, h, CacheSt.save, CacheSt.resolveLevel, hv, this, hz, Lvl.le, h2, Dict.find_set]

theorem forward_level (s : St P D Y) (id : Nat) (x : X) (r : Rep) :
    (s.forward F id x r).2.cache.level = s.cache.level := by
  simp only [St.forward, CacheSt.get, Bool.false_eq_true, if_false]
  cases hf : s.cache.dict.find (id, r) with
  | some e => rfl
  | none =>
    simp only [CacheSt.save]
    cases he : s.eval F x r with
    | error e => rfl
    | ok v =>
      simp only
      cases hle : (CacheSt.resolveLevel defaultCacheLevel s.cache {}).le s.cache.level with
      | error e => rfl
      | ok b => cases b <;> rfl

theorem step_level (s : St P D Y) (o : Op P D X) : (s.step F o).cache.level = s.cache.level := by
  cases o with
  | setPrimal p => cases p <;> rfl
  | setDual d => cases d <;> rfl
  | setDim => rfl
  | forward id x r => exact forward_level F s id x r
  | reset => rfl

theorem run_level (s : St P D Y) (ops : List (Op P D X)) : (s.run F ops).cache.level = s.cache.level := by
  unfold St.run
  induction ops generalizing s with
  | nil => rfl
  | cons o t ih => rw [List.foldl_cons, ih, step_level]

/-- With a level below `normal` no output is kept. -/
theorem step_empty (s : St P D Y) (o : Op P D X) (z : Int) (hz : s.cache.level = .num z) (h2 : z < 2)
    (hd : s.cache.dict = []) : (s.step F o).cache.dict = [] := by
  cases o with
  | setPrimal p => cases p <;> exact hd
  | setDual d => cases d <;> exact hd
  | setDim => exact hd
  | forward id x r =>
    have : CacheSt.getLevel s.cache (.str "normal") = .num 2 := rfl
    simp only [St.step, St.forward, CacheSt.get, Bool.false_eq_true, if_false, hd, Dict.find, CacheSt.save, CacheSt.resolveLevel]
    cases he : s.eval F x r with
    | error e => exact hd
    | ok v =>
      simp only [this, hz, Lvl.le]
      rw [if_neg (by simp; omega)]
      exact hd
  | reset => rfl

theorem run_empty (s : St P D Y) (ops : List (Op P D X)) (z : Int) (hz : s.cache.level = .num z) (h2 : z < 2)
    (hd : s.cache.dict = []) : (s.run F ops).cache.dict = [] := by
  unfold St.run
  induction ops generalizing s with
  | nil => exact hd
  | cons o t ih =>
    rw [List.foldl_cons]
    exact ih _ (by rw [step_level, hz]) (step_empty F s o z hz h2 hd)

/-- What the parameters are, as functions of the history: `primal` is the last primal parameter ever assigned. -/
def lastPrimal : List (Op P D X) → Option P
  | [] => none
  | .setPrimal (some p) :: t => (lastPrimal t).or (some p)
  | _ :: t => lastPrimal t

theorem run_primal (s : St P D Y) (ops : List (Op P D X)) :
    (s.run F ops).primal = (lastPrimal ops).or s.primal := by
  unfold St.run
  induction ops generalizing s with
  | nil => simp [lastPrimal]
  | cons o t ih =>
    rw [List.foldl_cons, ih]
    cases o with
    | setPrimal p =>
      cases p with
      | none => rfl
      | some p => simp [lastPrimal, St.step, St.setPrimal]
    | setDual d => cases d <;> rfl
    | setDim => rfl
    | forward id x r => rfl
    | reset => rfl

/-- The dual parameters follow the specification. -/
theorem run_dual (ops : List (Op P D X)) (s : St P D Y) (h : Held P D)
    (hs : s.dual = match h with | .dual d => some d | _ => none) :
    (s.run F ops).dual = match ops.foldl Held.step h with | .dual d => some d | _ => none := by
  unfold St.run
  induction ops generalizing s h with
  | nil => exact hs
  | cons o t ih =>
    rw [List.foldl_cons, List.foldl_cons]
    apply ih
    cases o with
    | setPrimal p => cases p <;> rfl
    | setDual d => cases d <;> rfl
    | setDim => rfl
    | forward id x r => exact hs
    | reset => exact hs

/-! ## C51 -/

/-- **C51**, partial (one direction): for every history, evaluations in dual representation of inputs not evaluated before only
ever use dual parameters that are still valid: assigned after the last assignment of primal ones, after the last change of the
output dimension, and not unset.  In particular after assigning primal parameters a dual evaluation is refused. -/
theorem C51_dual_partial (lvl : LvlArg) (hl : ∃ z, (CacheSt.init lvl : CacheSt FKey Y).level = .num z)
    (ops : List (Op P D X)) (id : Nat) (x : X)
    (hf : ((St.init lvl : St P D Y).run F ops).cache.dict.find (id, .dual) = none) :
    (((St.init lvl : St P D Y).run F ops).forward F id x .dual).1 = (held ops).out F x .dual := by
  rw [forward_fresh F _ id x .dual hf (by rw [run_level]; exact hl)]
  have := run_dual F ops (St.init lvl : St P D Y) .none rfl
  unfold held
  simp only [St.eval, this]
  cases ops.foldl Held.step Held.none <;> rfl

/-- **C51**, partial: primal evaluations are right after every history that assigns primal parameters last. -/
theorem C51_primal_partial (lvl : LvlArg) (hl : ∃ z, (CacheSt.init lvl : CacheSt FKey Y).level = .num z)
    (ops : List (Op P D X)) (id : Nat) (x : X) (p : P) (hp : held ops = .primal p)
    (hf : ((St.init lvl : St P D Y).run F ops).cache.dict.find (id, .primal) = none) :
    (((St.init lvl : St P D Y).run F ops).forward F id x .primal).1 = .ok (F.outP p x) := by
  rw [forward_fresh F _ id x .primal hf (by rw [run_level]; exact hl)]
  have h1 := run_primal F (St.init lvl : St P D Y) ops
  have h2 : lastPrimal ops = some p := by
    have key : ∀ (ops : List (Op P D X)) (h : Held P D) (q : Option P),
        (∀ p, h = .primal p → q = some p) → ∀ p, ops.foldl Held.step h = .primal p → (lastPrimal ops).or q = some p := by
      intro ops
      induction ops with
      | nil => intro h q hq p hp; simpa [lastPrimal] using hq p hp
      | cons o t ih =>
        intro h q hq p hp
        rw [List.foldl_cons] at hp
        cases o with
        | setPrimal p' =>
          cases p' with
          | none =>
            exact ih _ q (by intro p h'; simp [Held.step] at h') p hp
          | some p' =>
            have := ih _ (some p') (by intro p h'; simp [Held.step] at h'; rw [h']) p hp
            simp only [lastPrimal]
            cases hl' : lastPrimal t with
            | none => rw [hl'] at this; simpa using this
            | some w => rw [hl'] at this; simpa using this
        | setDual d => cases d <;> exact ih _ q (by intro p h'; simp [Held.step] at h') p hp
        | setDim => exact ih _ q (by intro p h'; simp [Held.step] at h') p hp
        | forward id x r => exact ih _ q (fun p h' => hq p h') p hp
        | reset => exact ih _ q (fun p h' => hq p h') p hp
    have := key ops .none none (by intro p h; simp at h) p hp
    simpa using this
  simp only [St.eval, h1, h2]
  rfl

/-- **C51** violated: assigning dual parameters does not invalidate the primal ones; whatever the history before, the primal
evaluation of a new input is still computed from the last primal parameters. -/
theorem C51_setDual_violated (lvl : LvlArg) (hl : ∃ z, (CacheSt.init lvl : CacheSt FKey Y).level = .num z)
    (ops : List (Op P D X)) (p : P) (hp : lastPrimal ops = some p) (d : D) (id : Nat) (x : X)
    (hf : ((St.init lvl : St P D Y).run F (ops ++ [.setDual (some d)])).cache.dict.find (id, .primal) = none) :
    (((St.init lvl : St P D Y).run F (ops ++ [.setDual (some d)])).forward F id x .primal).1 = .ok (F.outP p x) ∧
    (held (ops ++ [.setDual (some d)])).out F x .primal = .error .notInitialized := by
  constructor
  · rw [forward_fresh F _ id x .primal hf (by rw [run_level]; exact hl)]
    have h1 := run_primal F (St.init lvl : St P D Y) (ops ++ [.setDual (some d)])
    have h2 : lastPrimal (ops ++ [Op.setDual (X := X) (some d)]) = some p := by
      rw [← hp]
      clear hp hf h1
      induction ops with
      | nil => rfl
      | cons o t ih =>
        cases o with
        | setPrimal q =>
          cases q with
          | none => simpa [lastPrimal] using ih
          | some q => simp only [List.cons_append, lastPrimal, ih]
        | setDual d => simpa [lastPrimal] using ih
        | setDim => simpa [lastPrimal] using ih
        | forward id x r => simpa [lastPrimal] using ih
        | reset => simpa [lastPrimal] using ih
    simp only [St.eval, h1, h2]
    rfl
  · simp [held, List.foldl_append, Held.step, Held.out]

/-- **C51** violated: unsetting the primal parameters (`primal_param = None`), or changing the output dimension, leaves them in
place. -/
theorem C51_unset_violated (lvl : LvlArg) (hl : ∃ z, (CacheSt.init lvl : CacheSt FKey Y).level = .num z) (p : P) (id : Nat) (x : X) :
    (((St.init lvl : St P D Y).run F [.setPrimal (some p), .setPrimal none]).forward F id x .primal).1 = .ok (F.outP p x) ∧
    (((St.init lvl : St P D Y).run F [.setPrimal (some p), .setDim]).forward F id x .primal).1 = .ok (F.outP p x) := by
  constructor
  · exact forward_fresh F _ id x .primal rfl hl
  · exact forward_fresh F _ id x .primal rfl hl

/-! ## C52 -/

/-- **C52**, partial: with a cache level below `normal`, `forward` reflects the current parameters after every history, and
does not depend on the identities of the objects passed. -/
theorem C52_light_partial (lvl : LvlArg) (z : Int) (hz : (CacheSt.init lvl : CacheSt FKey Y).level = .num z) (h2 : z < 2)
    (ops : List (Op P D X)) (id : Nat) (x : X) (r : Rep) :
    (((St.init lvl : St P D Y).run F ops).forward F id x r).1 = ((St.init lvl : St P D Y).run F ops).eval F x r := by
  apply forward_fresh
  · rw [run_empty F (St.init lvl : St P D Y) ops z hz h2 rfl]; rfl
  · rw [run_level]; exact ⟨z, hz⟩

/-- **C52**, partial: at every level, `forward` reflects the current parameters right after a reset of the cache. -/
theorem C52_reset_partial (s : St P D Y) (hl : ∃ z, s.cache.level = .num z) (ops : List (Op P D X)) (id : Nat) (x : X) (r : Rep) :
    (((s.run F ops).step F .reset).forward F id x r).1 = (s.run F ops).eval F x r := by
  apply forward_fresh
  · rfl
  · rw [step_level, run_level]; exact hl

/-- **C52** violated: with the default cache level, an input evaluated before keeps its old output after an assignment of new
parameters (by the user or by `solve`), whatever these are. -/
theorem C52_stale_violated (ops : List (Op P D X)) (id : Nat) (x : X) (p p' : P)
    (hp : held ops = .primal p)
    (hf : ((St.init (.str "normal") : St P D Y).run F ops).cache.dict.find (id, .primal) = none) :
    (((St.init (.str "normal") : St P D Y).run F (ops ++ [.forward id x .primal, .setPrimal (some p')])).forward F id x .primal).1
      = .ok (F.outP p x) := by
  have hl : ∃ z, (CacheSt.init (.str "normal") : CacheSt FKey Y).level = .num z := ⟨2, rfl⟩
  have h1 := C51_primal_partial F (.str "normal") hl ops id x p hp hf
  have hev : ((St.init (.str "normal") : St P D Y).run F ops).eval F x .primal = .ok (F.outP p x) := by
    rw [← forward_fresh F _ id x .primal hf (by rw [run_level]; exact hl)]; exact h1
  have hst := forward_stores F _ id x .primal _ hf (by rw [run_level]; exact ⟨2, rfl, Int.le_refl _⟩) hev
  have hrun : (St.init (.str "normal") : St P D Y).run F (ops ++ [.forward id x .primal, .setPrimal (some p')]) =
      ((((St.init (.str "normal") : St P D Y).run F ops).forward F id x .primal).2).setPrimal (some p') := by
    simp [St.run, List.foldl_append, St.step]
  rw [hrun]
  exact forward_cached F (((((St.init (.str "normal") : St P D Y).run F ops).forward F id x .primal).2).setPrimal (some p'))
    id x .primal _ hst

/-- **C52** violated: outputs are remembered under the *identity* of the input, so that another input stored later at the same
address gets the output of the first one. -/
theorem C52_identity_violated (id : Nat) (x x' : X) (p : P) :
    (((St.init (.str "normal") : St P D Y).run F [.setPrimal (some p), .forward id x .primal]).forward F id x' .primal).1
      = .ok (F.outP p x) := by
  have hst := forward_stores F ((St.init (.str "normal") : St P D Y).run F [.setPrimal (some p)]) id x .primal (F.outP p x) rfl
    ⟨2, rfl, Int.le_refl _⟩ rfl
  exact forward_cached F _ id x' .primal _ hst

/-! ## non-vacuity -/

/-- Levels with known names are numbers. -/
example : ∃ z, (CacheSt.init (.str "light") : CacheSt FKey Nat).level = .num z ∧ z < 2 := ⟨1, rfl, by decide⟩
/-- A history ending with primal parameters, with an evaluation in between, for which the input `7` has not been evaluated. -/
example : held ([.setDual (some 3), .forward 5 10 .dual, .setPrimal (some 4)] : List (Op Nat Nat Nat)) = .primal 4 ∧
    ((St.init (.str "normal") : St Nat Nat Nat).run ⟨fun p x => p + x, fun d x => d * x⟩
      [.setDual (some 3), .forward 5 10 .dual, .setPrimal (some 4)]).cache.dict.find (7, .primal) = none := ⟨rfl, rfl⟩
/-- The stale value differs from the right one. -/
example : (((St.init (.str "normal") : St Nat Nat Nat).run ⟨fun p x => p + x, fun d x => d * x⟩
      [.setPrimal (some 3), .forward 5 10 .primal, .setPrimal (some 4)]).forward ⟨fun p x => p + x, fun d x => d * x⟩ 5 10 .primal).1
      = .ok 13 := by
  exact C52_stale_violated ⟨fun p x => p + x, fun d x => d * x⟩ [.setPrimal (some 3)] 5 10 3 4 rfl rfl

end Kerch
