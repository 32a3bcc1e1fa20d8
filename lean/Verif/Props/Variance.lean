import Mathlib.Tactic.Ring
import Mathlib.Tactic.FieldSimp
import Mathlib.Tactic.NormNum
import Verif.Model.KPCA
import Verif.Lemmas.Dict
import Verif.Props.KernelMat
/-!
# C46: `total_variance`
-/
set_option linter.unusedSectionVars false
set_option linter.unusedSimpArgs false
namespace Kerch
open Level KPCA

/-! ## specification -/

/-- Counting the normalised calls in a representation. -/
def countNormalised (r : Rep) (m : ℕ) : VOp → ℕ
  | .call r' b => if b ∧ r' = r then m + 1 else m
  | .resetDual => 0

/-- Number of normalised calls in a representation since the last assignment of primal parameters. -/
def normalised (r : Rep) (ops : List VOp) : ℕ := ops.foldl (countNormalised r) 0

/-- The lowest cache level at which the variance in a representation is remembered: `normal` for the default one, `total` for the other one. -/
def VarEnv.minLevel (E : VarEnv) (r : Rep) : Int := if r = E.dflt then 2 else 4

/-! ## helper lemmas -/

theorem resolve_var (E : VarEnv) (r : Rep) (c : CacheSt Rep ℝ) :
    CacheSt.resolveLevel defaultCacheLevel c { levelKey := some (E.key r) } = .num (VarEnv.minLevel E r) := by
  unfold VarEnv.key VarEnv.minLevel
  by_cases h : r = E.dflt <;> simp [h] <;> rfl

/-- What one call returns and leaves. -/
theorem total_cached (E : VarEnv) (r : Rep) (b : Bool) (c : CacheSt Rep ℝ) (e : Entry ℝ) (h : c.dict.find r = some e) :
    totalVariance E r b c = (.ok (if b then e.val / E.n else e.val),
      if b then { c with dict := c.dict.set r { e with val := e.val / E.n } } else c) := by
  unfold totalVariance
  have : CacheSt.get defaultCacheLevel r { levelKey := some (E.key r) } (fun c => (.ok (E.tr r), c)) c = (.ok e.val, c) := by
    simp [CacheSt.get, h]
  rw [this]
  cases b <;> simp [h]

theorem total_fresh (E : VarEnv) (r : Rep) (b : Bool) (c : CacheSt Rep ℝ) (z : Int) (hz : c.level = .num z) (h : c.dict.find r = none) :
    totalVariance E r b c = (.ok (if b then E.tr r / E.n else E.tr r),
      if VarEnv.minLevel E r ≤ z then
        if b then { c with dict := (c.dict.set r ⟨.num (VarEnv.minLevel E r), false, E.tr r⟩).set r ⟨.num (VarEnv.minLevel E r), false, E.tr r / E.n⟩ }
        else { c with dict := c.dict.set r ⟨.num (VarEnv.minLevel E r), false, E.tr r⟩ }
      else c) := by
  have hg : CacheSt.get defaultCacheLevel r { levelKey := some (E.key r) } (fun c => (.ok (E.tr r), c)) c =
      (.ok (E.tr r), if VarEnv.minLevel E r ≤ z then { c with dict := c.dict.set r ⟨.num (VarEnv.minLevel E r), false, E.tr r⟩ } else c) := by
    simp only [CacheSt.get, Bool.false_eq_true, if_false, h, CacheSt.save, resolve_var, hz, Lvl.le]
    by_cases hle : VarEnv.minLevel E r ≤ z <;> simp [hle, hz]
  unfold totalVariance
  rw [hg]
  by_cases hle : VarEnv.minLevel E r ≤ z
  · cases b <;> simp [hle, Dict.find_set]
  · cases b <;> simp [hle, h]

theorem total_level (E : VarEnv) (r : Rep) (b : Bool) (c : CacheSt Rep ℝ) (z : Int) (hz : c.level = .num z) :
    (totalVariance E r b c).2.level = .num z := by
  cases h : c.dict.find r with
  | some e => rw [total_cached E r b c e h]; cases b <;> exact hz
  | none =>
    rw [total_fresh E r b c z hz h]
    by_cases hle : VarEnv.minLevel E r ≤ z
    · cases b <;> simp [hle, hz]
    · simp [hle, hz]

/-- The invariant of histories: what is remembered is the trace divided once per normalised call, or nothing is remembered. -/
def VInv (E : VarEnv) (z : Int) (cnt : Rep → ℕ) (c : CacheSt Rep ℝ) : Prop :=
  c.level = .num z ∧ c.dict.WF ∧ ∀ r,
    (∃ e, c.dict.find r = some e ∧ VarEnv.minLevel E r ≤ z ∧ e.val = E.tr r / E.n ^ cnt r) ∨
    (c.dict.find r = none ∧ (VarEnv.minLevel E r ≤ z → cnt r = 0))

theorem vinv_call (E : VarEnv) (z : Int) (cnt : Rep → ℕ) (c : CacheSt Rep ℝ) (h : VInv E z cnt c) (r : Rep) (b : Bool) :
    (totalVariance E r b c).1 = .ok (E.tr r / E.n ^ ((if VarEnv.minLevel E r ≤ z then cnt r else 0) + (if b then 1 else 0))) ∧
    VInv E z (fun r' => if b ∧ r = r' then cnt r' + 1 else cnt r') (totalVariance E r b c).2 := by
  obtain ⟨hz, hw, hi⟩ := h
  rcases hi r with ⟨e, he, hle, hv⟩ | ⟨hn, h0⟩
  · rw [total_cached E r b c e he]
    cases b with
    | false => exact ⟨by simp [hv, hle], hz, hw, by simpa using hi⟩
    | true =>
      refine ⟨by simp [hv, hle, pow_succ, div_div], hz, hw.set _ _, fun r' => ?_⟩
      by_cases hr : r = r'
      · subst hr
        left
        exact ⟨{ e with val := e.val / E.n }, by simp [Dict.find_set], hle, by simp [hv, pow_succ, div_div]⟩
      · have := hi r'
        simp only [if_true, Dict.find_set, if_neg (Ne.symm hr), true_and, if_neg hr, hr]
        simpa [Ne.symm hr, hr] using this
  · rw [total_fresh E r b c z hz hn]
    by_cases hle : VarEnv.minLevel E r ≤ z
    · have h0' := h0 hle
      cases b with
      | false =>
        refine ⟨by simp [hle, h0'], by simp [hle, hz], by simpa [hle] using hw.set _ _, fun r' => ?_⟩
        by_cases hr : r = r'
        · subst hr
          left
          exact ⟨⟨.num (VarEnv.minLevel E r), false, E.tr r⟩, by simp [hle, Dict.find_set], hle, by simp [h0']⟩
        · have := hi r'
          simpa [hle, Dict.find_set, Ne.symm hr, hr] using this
      | true =>
        refine ⟨by simp [hle, h0'], by simp [hle, hz], by simpa [hle] using (hw.set _ _).set _ _, fun r' => ?_⟩
        by_cases hr : r = r'
        · subst hr
          left
          exact ⟨⟨.num (VarEnv.minLevel E r), false, E.tr r / E.n⟩, by simp [hle, Dict.find_set], hle, by simp [h0']⟩
        · have := hi r'
          simpa [hle, Dict.find_set, Ne.symm hr, hr] using this
    · refine ⟨by cases b <;> simp [hle], by simp [hle, hz], by simpa [hle] using hw, fun r' => ?_⟩
      by_cases hr : r = r'
      · subst hr
        right
        exact ⟨by simpa [hle] using hn, fun h => absurd h hle⟩
      · have := hi r'
        simpa [hle, hr] using this

theorem vinv_reset (E : VarEnv) (z : Int) (cnt : Rep → ℕ) (c : CacheSt Rep ℝ) (h : VInv E z cnt c) :
    VInv E z (fun _ => 0) (vstep E c .resetDual) := by
  obtain ⟨hz, hw, -⟩ := h
  have hpop : ∀ (d : Dict Rep (Entry ℝ)) (w : d.WF) (k : Rep), (if d.has k then d.pop k else d).WF ∧
      ∀ k', (if d.has k then d.pop k else d).find k' = if k' = k then none else d.find k' := by
    intro d w k
    by_cases hk : d.has k = true
    · rw [if_pos hk]
      refine ⟨w.pop k, fun k' => ?_⟩
      rw [Dict.find_pop w]
      simp only [eq_comm]
    · rw [if_neg hk]
      refine ⟨w, fun k' => ?_⟩
      by_cases hkk : k' = k
      · subst hkk
        rw [if_pos rfl]
        simp only [Dict.has, Bool.not_eq_true, Option.isSome_eq_false_iff, Option.isNone_iff_eq_none] at hk
        exact hk
      · rw [if_neg hkk]
  obtain ⟨w1, f1⟩ := hpop c.dict hw .primal
  obtain ⟨w2, f2⟩ := hpop _ w1 .dual
  refine ⟨hz, w2, fun r => Or.inr ⟨?_, fun _ => rfl⟩⟩
  show Dict.find (if Dict.has (if c.dict.has Rep.primal = true then c.dict.pop Rep.primal else c.dict) Rep.dual = true then
      Dict.pop (if c.dict.has Rep.primal = true then c.dict.pop Rep.primal else c.dict) Rep.dual else
      if c.dict.has Rep.primal = true then c.dict.pop Rep.primal else c.dict) r = none
  rw [f2, f1]
  cases r <;> simp

theorem vinv_run (E : VarEnv) (z : Int) (ops : List VOp) (cnt : Rep → ℕ) (c : CacheSt Rep ℝ) (h : VInv E z cnt c) :
    VInv E z (fun r => ops.foldl (countNormalised r) (cnt r)) (vrun E c ops) := by
  unfold vrun
  induction ops generalizing cnt c with
  | nil => exact h
  | cons o t ih =>
    rw [List.foldl_cons]
    simp only [List.foldl_cons]
    cases o with
    | call r b => exact ih _ _ (vinv_call E z cnt c h r b).2
    | resetDual => exact ih _ _ (vinv_reset E z cnt c h)

/-! ## C46 -/

/-- **C46**, what `total_variance` returns after every history: the trace, divided by the number of points once if `normalize` is asked and *once more
for each earlier normalised call* in this representation, if the value is remembered at the current cache level. -/
theorem C46_history_violated (E : VarEnv) (lvl : LvlArg) (z : Int) (hz : (CacheSt.init lvl : CacheSt Rep ℝ).level = .num z) (ops : List VOp)
    (r : Rep) (b : Bool) :
    (totalVariance E r b (vrun E (CacheSt.init lvl) ops)).1 =
      .ok (E.tr r / E.n ^ ((if VarEnv.minLevel E r ≤ z then normalised r ops else 0) + (if b then 1 else 0))) :=
  (vinv_call E z _ _ (vinv_run E z ops (fun _ => 0) (CacheSt.init lvl) ⟨hz, Dict.WF.nil, fun _ => Or.inr ⟨rfl, fun _ => rfl⟩⟩) r b).1

/-- **C46**, partial: without normalised calls in this representation since the last assignment of parameters, the (possibly normalised) trace is
returned at every cache level. -/
theorem C46_partial (E : VarEnv) (lvl : LvlArg) (z : Int) (hz : (CacheSt.init lvl : CacheSt Rep ℝ).level = .num z) (ops : List VOp)
    (r : Rep) (h : normalised r ops = 0) (b : Bool) :
    (totalVariance E r b (vrun E (CacheSt.init lvl) ops)).1 = .ok (if b then E.tr r / E.n else E.tr r) := by
  rw [C46_history_violated E lvl z hz ops r b, h]
  cases b <;> simp

/-- **C46**, partial: at the levels `none` and `light`, nothing depends on the history. -/
theorem C46_light_partial (E : VarEnv) (lvl : LvlArg) (z : Int) (hz : (CacheSt.init lvl : CacheSt Rep ℝ).level = .num z) (h2 : z < 2)
    (ops : List VOp) (r : Rep) (b : Bool) :
    (totalVariance E r b (vrun E (CacheSt.init lvl) ops)).1 = .ok (if b then E.tr r / E.n else E.tr r) := by
  have : ¬ VarEnv.minLevel E r ≤ z := by unfold VarEnv.minLevel; split <;> omega
  rw [C46_history_violated E lvl z hz ops r b, if_neg this]
  cases b <;> simp

/-- **C46** violated at the default level: the second of two identical calls returns another value as soon as there are at least two points and the trace
is not zero. -/
theorem C46_repeat_violated (E : VarEnv) (hn : 2 ≤ E.n) (ht : E.tr E.dflt ≠ 0) :
    (totalVariance E E.dflt true (vrun E (CacheSt.init (.str "normal")) [.call E.dflt true])).1 ≠
      (totalVariance E E.dflt true (vrun E (CacheSt.init (.str "normal")) [])).1 := by
  rw [C46_history_violated E _ 2 rfl, C46_history_violated E _ 2 rfl]
  have h2 : (2 : ℝ) ≤ E.n := by exact_mod_cast hn
  have h0 : (E.n : ℝ) ≠ 0 := by linarith
  have hm : VarEnv.minLevel E E.dflt ≤ 2 := by simp [VarEnv.minLevel]
  simp only [hm, if_true, normalised, countNormalised, and_self, List.foldl_cons, List.foldl_nil]
  intro h
  have h' := Except.ok.inj h
  simp only [zero_add, Nat.reduceAdd, pow_one] at h'
  rw [div_eq_div_iff (by positivity) h0] at h'
  have : (E.n : ℝ) = E.n ^ 2 := mul_left_cancel₀ ht h'
  nlinarith

/-- **C46** violated: the normalised variances of the two representations differ by the number of points (with `kappa = 1`), since the covariance
matrix is already normalised by it. -/
theorem C46_agree_violated {n d : ℕ} (hn : n ≠ 0) (Φ : Fin n → Fin d → ℝ) (dflt : Rep) (lvl : LvlArg) (z : Int)
    (hz : (CacheSt.init lvl : CacheSt Rep ℝ).level = .num z) :
    let E : VarEnv := ⟨dflt, ∑ j, levelC Φ j j, ∑ i, levelK 1 Φ i i, n⟩
    ∃ p q, (totalVariance E .primal true (CacheSt.init lvl)).1 = .ok p ∧ (totalVariance E .dual true (CacheSt.init lvl)).1 = .ok q ∧ q = n * p := by
  intro E
  refine ⟨_, _, C46_partial E lvl z hz [] .primal rfl true, C46_partial E lvl z hz [] .dual rfl true, ?_⟩
  have : Nonempty (Fin n) := ⟨⟨0, Nat.pos_of_ne_zero hn⟩⟩
  have h := C31_trace (n := Fin n) (d := Fin d) (Matrix.of Φ)
  have hk : E.tr .dual = n * E.tr .primal := by
    show ∑ i, levelK 1 Φ i i = n * ∑ j, levelC Φ j j
    simp only [levelK, levelC, one_mul]
    simpa [Matrix.trace] using h
  simp only [if_true, hk]
  ring

/-! ## non-vacuity -/

example : (CacheSt.init (.str "normal") : CacheSt Rep ℝ).level = .num 2 := rfl
example : normalised .primal [.call .primal true, .call .primal true, .call .dual true, .call .primal false] = 2 := rfl
example : normalised .primal [.call .primal true, .resetDual, .call .dual true, .call .primal false] = 0 := rfl
/-- With ten points and trace 5: after two normalised calls the unnormalised variance is 0.05. -/
example : (totalVariance ⟨.primal, 5, 50, 10⟩ .primal false
    (vrun ⟨.primal, 5, 50, 10⟩ (CacheSt.init (.str "normal")) [.call .primal true, .call .primal true])).1 = .ok (5 / 100) := by
  have := C46_history_violated ⟨.primal, 5, 50, 10⟩ (.str "normal") 2 rfl [.call .primal true, .call .primal true] .primal false
  rw [this]
  simp [VarEnv.minLevel, normalised, countNormalised, VarEnv.tr]
  norm_num

end Kerch
