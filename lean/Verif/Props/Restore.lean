import Verif.Model.Restore
import Mathlib.Tactic.NormNum
/-!
# C115: loading a saved state restores the behaviour
-/
set_option linter.unusedSectionVars false
set_option linter.unusedSimpArgs false
namespace Kerch
namespace Restore

variable {C D V O : Type}

/-! ## Specification: what a level shows, from its sample, its bandwidth if it has one, and its parameter -/

/-- The bandwidth in use. -/
def sigmaOf (f : Fns C D V O) (c : C) (σ : Option ℝ) : ℝ := σ.getD (f.med c)

/-- What is shown. -/
def shown (f : Fns C D V O) (c : C) (σ : Option ℝ) (d : D) : ℝ × V × O :=
  (sigmaOf f c σ, f.kern c (sigmaOf f c σ), f.out (f.kern c (sigmaOf f c σ)) d)

/-- The bandwidth a level has, if any. -/
def St.bandwidth (s : St C D V) : Option ℝ := if s.defined then some s.sigma.val else none

/-- A level that has come out of some history. -/
def Reached (f : Fns C D V O) (s : St C D V) : Prop := ∃ p σ d os, s = (St.init p σ d).run f os

/-! ## Helper lemmas -/

structure Inv (f : Fns C D V O) (s : St C D V) : Prop where
  K : ∀ v, s.K = some v → s.defined = true ∧ v = f.kern s.sample.val s.sigma.val
  shape : s.sigma.shape = if s.defined then [] else [1]
  one : s.defined = false → s.sigma.val = 1

theorem Inv.init (f : Fns C D V O) (p : P C) (σ : Option ℝ) (d : D) : Inv f (St.init p σ d : St C D V) := by
  cases σ
  · exact ⟨fun v h => by simp [St.init] at h, rfl, fun _ => rfl⟩
  · exact ⟨fun v h => by simp [St.init] at h, rfl, fun h => by simp [St.init] at h⟩

theorem Inv.setSigma (f : Fns C D V O) (s : St C D V) (σ : ℝ) : Inv f (s.setSigma σ) :=
  ⟨fun v h => by simp [St.setSigma] at h, rfl, fun h => by simp [St.setSigma] at h⟩

theorem Inv.determine {f : Fns C D V O} {s : St C D V} (h : Inv f s) : Inv f (s.determine f) := by
  unfold St.determine
  split
  · exact h
  · exact Inv.setSigma f s _

theorem determine_defined (f : Fns C D V O) (s : St C D V) : (s.determine f).defined = true := by
  unfold St.determine
  split
  · assumption
  · rfl

theorem Inv.readK {f : Fns C D V O} {s : St C D V} (h : Inv f s) : Inv f (s.readK f).2 := by
  unfold St.readK
  split
  · exact h
  · refine ⟨?_, h.determine.shape, h.determine.one⟩
    rintro v hv
    exact ⟨determine_defined f s, (Option.some.inj hv).symm⟩

theorem Inv.op {f : Fns C D V O} {s : St C D V} (h : Inv f s) (o : Op C D) : Inv f (s.op f o) := by
  cases o with
  | readK => exact h.readK
  | setSigma σ => exact Inv.setSigma f s σ
  | initSample p => exact ⟨fun v h => by simp [St.op] at h, h.shape, h.one⟩
  | updateSample c => exact ⟨fun v h => by simp [St.op] at h, h.shape, h.one⟩
  | dual p => exact ⟨h.K, h.shape, h.one⟩
  | reset => exact ⟨fun v h => by simp [St.op] at h, h.shape, h.one⟩

theorem Inv.run {f : Fns C D V O} {s : St C D V} (h : Inv f s) (os : List (Op C D)) : Inv f (s.run f os) := by
  induction os generalizing s with
  | nil => exact h
  | cons o os ih => exact ih (h.op o)

theorem Reached.inv {f : Fns C D V O} {s : St C D V} (h : Reached f s) : Inv f s := by
  obtain ⟨p, σ, d, os, rfl⟩ := h
  exact (Inv.init f p σ d).run os

theorem observe_eq {f : Fns C D V O} {s : St C D V} (h : Inv f s) : s.observe f = shown f s.sample.val s.bandwidth s.dual.val := by
  have hs : (s.determine f).sigma.val = sigmaOf f s.sample.val s.bandwidth := by
    unfold St.determine St.bandwidth sigmaOf
    by_cases e : s.defined = true
    · rw [if_pos e, if_pos e]; rfl
    · rw [if_neg e, if_neg e]; rfl
  have hk : (s.readK f).1 = f.kern s.sample.val (sigmaOf f s.sample.val s.bandwidth) := by
    unfold St.readK
    split
    · rename_i v hv
      obtain ⟨hd, hv⟩ := h.K v hv
      rw [hv]
      simp [St.bandwidth, hd, sigmaOf]
    · have h1 : (s.determine f).sample = s.sample := by
        unfold St.determine; split <;> rfl
      show f.kern (s.determine f).sample.val (s.determine f).sigma.val = _
      rw [h1, hs]
  unfold St.observe shown
  rw [hs, hk]

theorem loadP_same {A : Type} {p q : P A} (h : q.shape = p.shape) : loadP p q = (false, ⟨p.shape, q.val⟩) := by
  obtain ⟨ps, pv⟩ := p
  obtain ⟨qs, qv⟩ := q
  dsimp only at h
  subst h
  unfold loadP
  by_cases e : qs = []
  · subst e; simp
  · simp [e]

theorem loadP_ne {A : Type} {p q : P A} (h : q.shape ≠ p.shape) (hp : p.shape ≠ []) : loadP p q = (true, p) := by
  unfold loadP
  simp [hp, h]

theorem loadP_sigma {f : Fns C D V O} {a b : St C D V} (ha : Inv f a) (hb : Inv f b) :
    loadP b.sigma a.sigma = if a.defined = true ∧ b.defined = false then (true, b.sigma) else (false, ⟨b.sigma.shape, a.sigma.val⟩) := by
  have h1 := ha.shape
  have h2 := hb.shape
  unfold loadP
  cases ea : a.defined <;> cases eb : b.defined <;> rw [ea] at h1 <;> rw [eb] at h2 <;> simp [h1, h2]

/-! ## Properties -/

/-- C115, what is shown by a level: it depends on the sample, the bandwidth it has, and the parameter, whatever the history. -/
theorem C115_shown (f : Fns C D V O) (s : St C D V) (h : Reached f s) : s.observe f = shown f s.sample.val s.bandwidth s.dual.val := observe_eq h.inv

/-- C115, when loading is refused: if a shape differs, and if the saved level has a bandwidth while the other does not have one yet. -/
theorem C115_refused (f : Fns C D V O) (a b : St C D V) (ha : Reached f a) (hb : Reached f b) (h1 : b.sample.shape ≠ []) (h2 : b.dual.shape ≠ []) :
    (load b a).1 = .error .runtimeError ↔ a.sample.shape ≠ b.sample.shape ∨ a.dual.shape ≠ b.dual.shape ∨ (a.defined = true ∧ b.defined = false) := by
  unfold load
  rw [loadP_sigma ha.inv hb.inv]
  by_cases e1 : a.sample.shape = b.sample.shape
  · rw [loadP_same e1]
    by_cases e2 : a.dual.shape = b.dual.shape
    · rw [loadP_same e2]
      by_cases e3 : a.defined = true ∧ b.defined = false
      · rw [if_pos e3]; simp [e3]
      · rw [if_neg e3]; simp [e1, e2, e3]
    · rw [loadP_ne e2 h2]; simp [e2]
  · rw [loadP_ne e1 h1]; simp [e1]

/-- C115, what holds: a level of the same shapes, with a bandwidth if the saved one has one and none otherwise, from which nothing has been computed, shows after loading exactly what the saved one shows. -/
theorem C115_partial (f : Fns C D V O) (a b : St C D V) (ha : Reached f a) (hb : Reached f b) (h1 : a.sample.shape = b.sample.shape) (h2 : a.dual.shape = b.dual.shape)
    (hd : a.defined = b.defined) (hK : b.K = none) :
    (load b a).1 = .ok () ∧ (load b a).2.observe f = a.observe f := by
  have h3 : loadP b.sigma a.sigma = (false, ⟨b.sigma.shape, a.sigma.val⟩) := by
    rw [loadP_sigma ha.inv hb.inv, if_neg (by rw [hd]; rintro ⟨x, y⟩; rw [x] at y; cases y)]
  refine ⟨by unfold load; rw [h3, loadP_same h1, loadP_same h2]; rfl, ?_⟩
  have e : (load b a).2 = { b with sample := ⟨b.sample.shape, a.sample.val⟩, sigma := ⟨b.sigma.shape, a.sigma.val⟩, dual := ⟨b.dual.shape, a.dual.val⟩ } := by
    unfold load; rw [h3, loadP_same h1, loadP_same h2]
  have hi : Inv f (load b a).2 := by
    rw [e]
    refine ⟨fun v hv => ?_, hb.inv.shape, fun q => ha.inv.one (hd.trans q)⟩
    rw [show _ = none from hK] at hv
    cases hv
  rw [observe_eq hi, observe_eq ha.inv, e]
  unfold St.bandwidth
  rw [hd]

/-- C115, what holds after a reset: the same, whatever has been computed before. -/
theorem C115_reset_partial (f : Fns C D V O) (a b : St C D V) (ha : Reached f a) (hb : Reached f b) (h1 : a.sample.shape = b.sample.shape) (h2 : a.dual.shape = b.dual.shape)
    (hd : a.defined = b.defined) :
    (load b a).1 = .ok () ∧ ((load b a).2.op f .reset).observe f = a.observe f := by
  have hb' : Reached f (b.op f .reset) := by
    obtain ⟨p, σ, d, os, rfl⟩ := hb
    exact ⟨p, σ, d, os ++ [.reset], by simp [St.run]⟩
  exact C115_partial f a (b.op f .reset) ha hb' h1 h2 hd rfl

/-- C115 is violated: a level whose bandwidth was never given has determined one, as all do at the first evaluation. Its state cannot be loaded into a level made in the same way; the sample is nevertheless loaded, and the bandwidth shown
is the heuristic one for that sample, whatever the saved one is. -/
theorem C115_fresh_violated (f : Fns C D V O) (a : St C D V) (ha : Reached f a) (hd : a.defined = true) (p : P C) (hp : p.shape = a.sample.shape) (d : D) :
    let b : St C D V := St.init p none d
    (load b a).1 = .error .runtimeError ∧ (load b a).2.sample.val = a.sample.val ∧ ((load b a).2.observe f).1 = f.med a.sample.val := by
  intro b
  have h3 : loadP b.sigma a.sigma = (true, b.sigma) := by
    rw [loadP_sigma ha.inv (Inv.init f p none d), if_pos ⟨hd, rfl⟩]
  have h1 : loadP b.sample a.sample = (false, ⟨b.sample.shape, a.sample.val⟩) := loadP_same hp.symm
  have e : (load b a).2.sample.val = a.sample.val := by unfold load; rw [h1]
  refine ⟨by unfold load; rw [h1, h3]; rfl, e, ?_⟩
  have hdef : (load b a).2.defined = false := rfl
  show ((load b a).2.determine f).sigma.val = _
  unfold St.determine
  rw [if_neg (by rw [hdef]; decide), e]
  rfl

/-- C115 is violated: parameters that have been fitted cannot be loaded into a level without. -/
theorem C115_parameters_violated (f : Fns C D V O) (a : St C D V) (p : P C) (σ : Option ℝ) (d : D) (hs : a.dual.shape.length = 2) :
    let b : St C D V := St.init p σ d
    (load b a).1 = .error .runtimeError ∧ (load b a).2.dual = b.dual := by
  intro b
  have h3 : loadP b.dual a.dual = (true, b.dual) := by
    apply loadP_ne
    · intro h; rw [h] at hs; simp [b, St.init] at hs
    · simp [b, St.init]
  unfold load
  rw [h3]
  simp

/-- C115 is violated: a kernel matrix computed before is still shown after loading, which succeeds. -/
theorem C115_stale_violated (f : Fns C D V O) (a b : St C D V) (ha : Reached f a) (hb : Reached f b) (h1 : a.sample.shape = b.sample.shape) (h2 : a.dual.shape = b.dual.shape)
    (hd : a.defined = b.defined) (v : V) (hK : b.K = some v) :
    (load b a).1 = .ok () ∧ ((load b a).2.observe f).2.1 = (b.observe f).2.1 := by
  refine ⟨(C115_reset_partial f a b ha hb h1 h2 hd).1, ?_⟩
  have hK' : (load b a).2.K = some v := hK
  show ((load b a).2.readK f).1 = (b.readK f).1
  unfold St.readK
  rw [hK', hK]

/-- C115 is violated: a level that has not determined its bandwidth yet, loaded into one that has, gives one with bandwidth 1 instead of the heuristic one. -/
theorem C115_undefined_violated (f : Fns C D V O) (a b : St C D V) (ha : Reached f a) (hb : Reached f b) (h1 : a.sample.shape = b.sample.shape) (h2 : a.dual.shape = b.dual.shape)
    (hda : a.defined = false) (hdb : b.defined = true) :
    (load b a).1 = .ok () ∧ ((load b a).2.observe f).1 = 1 ∧ (a.observe f).1 = f.med a.sample.val := by
  have h3 : loadP b.sigma a.sigma = (false, ⟨b.sigma.shape, a.sigma.val⟩) := by
    rw [loadP_sigma ha.inv hb.inv, if_neg (by rw [hda]; simp)]
  have hs : (load b a).2.sigma.val = 1 := by
    unfold load; rw [h3]; exact ha.inv.one hda
  refine ⟨by unfold load; rw [h3, loadP_same h1, loadP_same h2]; rfl, ?_, ?_⟩
  · show ((load b a).2.determine f).sigma.val = 1
    unfold St.determine
    rw [if_pos (show (load b a).2.defined = true from hdb), hs]
  · show (a.determine f).sigma.val = _
    unfold St.determine
    rw [if_neg (by rw [hda]; decide)]
    rfl

/-! ## Cases -/

/-- Samples, matrices, parameters and outputs are numbers; the heuristic is half the sample. -/
noncomputable def demo : Fns ℝ ℝ ℝ ℝ := ⟨fun c σ => c / σ, fun c => c / 2, fun v d => v * d⟩

/-- A level with a bandwidth given and changed, evaluated, and fitted. -/
noncomputable def saved : St ℝ ℝ ℝ := (St.init ⟨[7, 2], 8⟩ (some 5) 0).run demo [.readK, .setSigma 4, .dual ⟨[3, 7], 10⟩, .readK]

/-- Another one, made with other values. -/
noncomputable def other : St ℝ ℝ ℝ := (St.init ⟨[7, 2], 1⟩ (some 1) 0).run demo [.dual ⟨[3, 7], 0⟩]

example : saved.sample.shape = other.sample.shape ∧ saved.dual.shape = other.dual.shape ∧ saved.defined = other.defined ∧ other.K = none ∧
    (load other saved).2.observe demo = (4, 2, 20) ∧ saved.observe demo = (4, 2, 20) := by
  have h := C115_partial demo saved other ⟨_, _, _, _, rfl⟩ ⟨_, _, _, _, rfl⟩ rfl rfl rfl rfl
  have e : saved.observe demo = (4, 2, 20) := by
    rw [C115_shown demo saved ⟨_, _, _, _, rfl⟩]
    simp [saved, St.run, St.op, St.init, St.readK, St.determine, St.setSigma, St.bandwidth, shown, sigmaOf, demo]
    norm_num
  exact ⟨rfl, rfl, rfl, rfl, h.2.trans e, e⟩

/-- With a kernel matrix computed before, the other one goes on showing it: 1 instead of 2. -/
example : ((load (other.op demo .readK) saved).2.observe demo).2.1 = 1 := by
  have h := C115_stale_violated demo saved (other.op demo .readK) ⟨_, _, _, _, rfl⟩ ⟨⟨[7, 2], 1⟩, some 1, 0, [.dual ⟨[3, 7], 0⟩, .readK], rfl⟩ rfl rfl rfl 1
    (by simp [other, St.run, St.op, St.init, St.readK, St.determine, demo])
  rw [h.2]
  simp [other, St.run, St.op, St.init, St.readK, St.determine, demo, St.observe]

/-- Without a given bandwidth: the heuristic one was determined, then trained to another value; the new level is back at the heuristic one. -/
example : let a : St ℝ ℝ ℝ := (St.init ⟨[7, 2], 8⟩ none 0).run demo [.readK, .setSigma 3]
    a.defined = true ∧ (a.observe demo).1 = 3 ∧ ((load (St.init ⟨[7, 2], 8⟩ none 0) a).2.observe demo).1 = 4 := by
  intro a
  refine ⟨rfl, ?_, ?_⟩
  · rw [C115_shown demo a ⟨_, _, _, _, rfl⟩]; rfl
  · rw [(C115_fresh_violated demo a ⟨_, _, _, _, rfl⟩ rfl ⟨[7, 2], 8⟩ rfl 0).2.2]
    simp [a, St.run, St.op, St.init, St.readK, St.determine, St.setSigma, demo]
    norm_num

/-- A level with another number of parameters is refused. -/
example : (load ((St.init ⟨[7, 2], 1⟩ (some 1) 0).run demo [.dual ⟨[4, 7], 0⟩]) saved).1 = .error .runtimeError :=
  (C115_refused demo saved _ ⟨_, _, _, _, rfl⟩ ⟨_, _, _, _, rfl⟩ (by decide) (by decide)).2 (Or.inr (Or.inl (by decide)))
example := C115_reset_partial demo saved (other.op demo .readK) ⟨_, _, _, _, rfl⟩ ⟨⟨[7, 2], 1⟩, some 1, 0, [.dual ⟨[3, 7], 0⟩, .readK], rfl⟩ rfl rfl rfl
example := C115_parameters_violated demo saved ⟨[7, 2], 8⟩ (some 5) 0 rfl
example := C115_undefined_violated demo (St.init ⟨[7, 2], 8⟩ none 0) (St.init ⟨[7, 2], 1⟩ (some 3) 0) ⟨⟨[7, 2], 8⟩, none, 0, [], rfl⟩ ⟨⟨[7, 2], 1⟩, some 3, 0, [], rfl⟩ rfl rfl rfl rfl


end Restore
end Kerch
