import Verif.Model.Refit
import Mathlib.Data.List.Infix
import Mathlib.Data.List.Range
import Mathlib.Data.List.Zip
import Mathlib.Data.List.FinRange
/-!
# C105: a level can be fitted again, and everything then comes from the last fit

Property theorems; the helper lemmas are in the first section.
-/
set_option linter.unusedSectionVars false
set_option linter.unusedSimpArgs false
namespace Kerch
namespace Refit

/-! ## Specification -/

variable {D R : Type}

/-- The contract of the eigendecompositions: as many pairs as rows, vectors of this length. -/
structure Sound (E : Env D R) : Prop where
  lenK : ∀ d sel, (E.eigK d sel).length = sel.length
  vecK : ∀ d sel, ∀ p ∈ E.eigK d sel, p.2.length = sel.length
  lenC : ∀ d sel, (E.eigC d sel).length = E.dim d
  vecC : ∀ d sel, ∀ p ∈ E.eigC d sel, p.2.length = E.dim d

/-- The components a fit with `k` components (all if `none`) must have: among all eigenpairs, those at the first `k` positions of which the value is not negligible. -/
def components (E : Env D R) (k : Option ℕ) (all : List (R × List R)) : List (R × List R) :=
  all.zipIdx.filterMap fun p => if (∀ j, k = some j → p.2 < j) ∧ E.small p.1.1 = false then some p.1 else none

/-! ## Helper lemmas -/

theorem zipIdx_components (E : Env D R) (k : ℕ) (all : List (R × List R)) (i : ℕ) :
    (all.zipIdx i).filterMap (fun p => if p.2 < k + i ∧ E.small p.1.1 = false then some p.1 else none) = (all.take k).filter fun p => !E.small p.1 := by
  induction all generalizing k i with
  | nil => simp
  | cons p t ih =>
    cases k with
    | zero =>
      have := ih 0 (i + 1)
      simp only [List.zipIdx_cons, List.filterMap_cons, List.take_zero, List.filter_nil] at this ⊢
      rw [if_neg (by simp)]
      simp only
      have h : ∀ q ∈ t.zipIdx (i + 1), (if q.2 < 0 + i ∧ E.small q.1.1 = false then some q.1 else none) = (none : Option (R × List R)) := by
        intro q hq
        have := List.le_snd_of_mem_zipIdx hq
        rw [if_neg (by rintro ⟨h, _⟩; omega)]
      rw [List.filterMap_congr h]
      simp
    | succ k =>
      have := ih k (i + 1)
      simp only [List.zipIdx_cons, List.filterMap_cons, List.take_succ_cons, List.filter_cons]
      have e : k + 1 + i = k + (i + 1) := by omega
      rw [e, this]
      cases h : E.small p.1
      · rw [if_pos ⟨by omega, rfl⟩]; simp
      · rw [if_neg (by rintro ⟨_, h'⟩; cases h')]; simp

theorem keep_components (E : Env D R) (k : ℕ) (all : List (R × List R)) : keep E k all = components E (some k) all := by
  rw [keep, components, ← zipIdx_components E k all 0]
  refine List.filterMap_congr fun p _ => ?_
  simp

theorem keep_none (E : Env D R) (all : List (R × List R)) : keep E all.length all = components E none all := by
  rw [keep_components, components, components]
  refine List.filterMap_congr fun p hp => ?_
  have := List.snd_lt_of_mem_zipIdx hp
  simp at this
  simp [this]

theorem keep_ge (E : Env D R) (k : ℕ) (all : List (R × List R)) (h : all.length ≤ k) : keep E k all = components E none all := by
  rw [← keep_none, keep, keep, List.take_of_length_le h, List.take_length]

theorem components_ge (E : Env D R) (k : ℕ) (all : List (R × List R)) (h : all.length ≤ k) : components E (some k) all = components E none all := by
  rw [← keep_components, keep_ge E k all h]

/-- The number of pairs used and the pairs kept, in either representation. -/
theorem clamp_keep (E : Env D R) (s : St D R) (all : List (R × List R)) :
    keep E (clampDim s all.length).2 all = components E s.dim all := by
  unfold clampDim
  cases h : s.dim with
  | none => simpa using keep_none E all
  | some k =>
    by_cases hk : all.length < k
    · simp only [hk, if_true]
      rw [keep_none, components_ge E k all hk.le]
    · simp only [hk, if_false]
      exact keep_components E k all

theorem mem_components (E : Env D R) (k : Option ℕ) (all : List (R × List R)) (p : R × List R) (h : p ∈ components E k all) : p ∈ all := by
  rw [components, List.mem_filterMap] at h
  obtain ⟨q, hq, h2⟩ := h
  split at h2
  · cases h2; exact List.fst_mem_of_mem_zipIdx hq
  · cases h2

theorem stretch_self {α : Type} (l : List α) : stretch l.length l = l := by simp [stretch]

theorem stretch_length {α : Type} (n : ℕ) (l : List α) (h : l.length = n ∨ l.length = 1) : (stretch n l).length = n := by
  unfold stretch
  split
  · assumption
  · match l, h with
    | [a], _ => simp
    | [], h => simp at h; subst h; simp at *
    | a :: b :: t, h => rename_i hn; simp at h; simp at hn; omega

theorem range_pick (r : List R) (n : ℕ) (h : r.length = n) : (List.range n).filterMap (r[·]?) = r := by
  subst h
  induction r with
  | nil => simp
  | cons a t ih =>
    rw [List.length_cons, List.range_succ_eq_map, List.filterMap_cons]
    simp only [List.getElem?_cons_zero, List.filterMap_map]
    congr 1

theorem pick_range (t : Ten R) (h : ∀ r ∈ t.rows, r.length = t.width) : pick (List.range t.width) t = .ok t := by
  unfold pick
  rw [if_pos (by simp)]
  congr 1
  cases t with
  | mk w rows =>
    simp only [List.length_range, Ten.mk.injEq, true_and]
    conv_rhs => rw [← List.map_id rows]
    exact List.map_congr_left fun r hr => range_pick r w (h r hr)

theorem copy_same (dst src : Ten R) (h : ∀ r ∈ src.rows, r.length = src.width) (h1 : src.rows.length = dst.rows.length) (h2 : src.width = dst.width) :
    copyInto dst src = .ok src := by
  unfold copyInto
  rw [if_pos ⟨Or.inl h1, Or.inl h2⟩]
  cases src with
  | mk w rows =>
    simp only at h h1 h2
    subst h2
    rw [show rows.map (stretch dst.width) = rows from by
      conv_rhs => rw [← List.map_id rows]
      exact List.map_congr_left fun r hr => by rw [← h r hr, stretch_self]; rfl]
    rw [← h1, stretch_self]

theorem clamp_num (s : St D R) (m : ℕ) : (clampDim s m).2 ≤ m := by
  unfold clampDim
  cases s.dim with
  | none => simp
  | some k => by_cases h : m < k <;> simp [h]; omega

theorem clamp_data (s : St D R) (m : ℕ) : (clampDim s m).1.data = s.data ∧ (clampDim s m).1.sel = s.sel ∧ (clampDim s m).1.primal = s.primal
    ∧ (clampDim s m).1.vals = s.vals ∧ (clampDim s m).1.root = s.root ∧ (clampDim s m).1.keeps = s.keeps := by
  unfold clampDim
  cases s.dim with
  | none => simp
  | some k => by_cases h : m < k <;> simp [h, setDim]

theorem clamp_dual (s : St D R) (m : ℕ) : (clampDim s m).1.dual = if (∃ k, s.dim = some k ∧ m < k) then Ten.empty else s.dual := by
  unfold clampDim
  cases s.dim with
  | none => simp
  | some k => by_cases h : m < k <;> simp [h, setDim]

theorem sub_keep (E : Env D R) (k : ℕ) (all : List (R × List R)) (h : k ≤ all.length) : k - ((all.take k).length - (keep E k all).length) = (keep E k all).length := by
  have : (keep E k all).length ≤ (all.take k).length := List.length_filter_le _ _
  rw [List.length_take] at this ⊢
  omega

/-- `_solve_dual` with its intermediate steps resolved. -/
theorem solveDual_eq (E : Env D R) (hE : Sound E) (s : St D R) :
    solveDual E s = match updateDual E { (clampDim s s.sel.length).1 with dim := some (components E s.dim (E.eigK s.data s.sel)).length }
        ⟨s.sel.length, (components E s.dim (E.eigK s.data s.sel)).map (·.2)⟩ s.sel with
      | (.error e, s) => (.error e, s)
      | (.ok (), t) => (.ok (), { t with vals := (components E s.dim (E.eigK s.data s.sel)).map fun p => E.fact s.sel.length p.1 }) := by
  have hc := clamp_keep E s (E.eigK s.data s.sel)
  have hn := clamp_num s s.sel.length
  obtain ⟨h1, h2, -⟩ := clamp_data s s.sel.length
  rw [hE.lenK] at hc
  unfold solveDual
  simp only [h1, h2, hc]
  have := sub_keep E (clampDim s s.sel.length).2 (E.eigK s.data s.sel) (by rw [hE.lenK]; exact hn)
  rw [hc] at this
  rw [this]
  rfl

/-- What is stored on the full sample. -/
theorem update_full (E : Env D R) (s : St D R) (V : List (List R)) (hV : ∀ r ∈ V, r.length = E.num s.data) :
    updateDual E s ⟨E.num s.data, V⟩ (List.range (E.num s.data))
      = if s.dual.nelement = 0 then
          (match s.dim with
            | none => (.error .assertionError, s)
            | some k => match copyInto (⟨E.num s.data, List.replicate k (List.replicate (E.num s.data) E.noise)⟩ : Ten R) ⟨E.num s.data, V⟩ with
              | .error e => (.error e, { s with dual := ⟨E.num s.data, List.replicate k (List.replicate (E.num s.data) E.noise)⟩ })
              | .ok t => (.ok (), { s with dual := t }))
        else match copyInto s.dual ⟨E.num s.data, V⟩ with
          | .error e => (.error e, s)
          | .ok t => (.ok (), { s with dual := t }) := by
  have hp := pick_range (⟨E.num s.data, V⟩ : Ten R) hV
  simp only at hp
  unfold updateDual
  by_cases h : s.dual.nelement = 0
  · simp only [h, if_true, initDual]
    cases s.dim with
    | none => rfl
    | some k => simp only [hp]; rfl
  · simp only [h, if_false, hp]
    rfl

theorem update_new (E : Env D R) (s : St D R) (V : List (List R)) (hV : ∀ r ∈ V, r.length = E.num s.data) (h0 : s.dual.nelement = 0) (hk : s.dim = some V.length) :
    updateDual E s ⟨E.num s.data, V⟩ (List.range (E.num s.data)) = (.ok (), { s with dual := ⟨E.num s.data, V⟩ }) := by
  rw [update_full E s V hV, if_pos h0, hk]
  simp only
  rw [copy_same (⟨E.num s.data, List.replicate V.length (List.replicate (E.num s.data) E.noise)⟩ : Ten R) ⟨E.num s.data, V⟩ hV (by simp) rfl]

/-- Everything of the last fit is found again: the values, and the components if there are any. -/
def DualOf (E : Env D R) (kept : List (R × List R)) (s : St D R) : Prop :=
  s.vals = kept.map (fun p => E.fact s.sel.length p.1) ∧ (kept ≠ [] → readDual s = .ok ⟨s.sel.length, kept.map (·.2)⟩)
    ∧ (kept = [] → readDual s = .error .notInitialized)

theorem dualOf_stored (E : Env D R) (s : St D R) (n : ℕ) (kept : List (R × List R)) (hn : s.sel = List.range n) (hv : s.vals = kept.map (fun p => E.fact s.sel.length p.1))
    (hd : s.dual = ⟨n, kept.map (·.2)⟩) (hk : ∀ p ∈ kept, p.2.length = n) (h0 : n = 0 → kept = []) : DualOf E kept s := by
  refine ⟨hv, fun h => ?_, fun h => ?_⟩
  · have hne : s.dual.nelement ≠ 0 := by
      rw [hd]
      simp only [Ten.nelement, List.length_map]
      refine Nat.mul_ne_zero (by simpa using h) fun h' => h (h0 h')
    unfold readDual
    rw [if_pos hne, hd, hn, List.length_range]
    exact pick_range ⟨n, kept.map (·.2)⟩ (by
      intro r hr
      obtain ⟨p, hp, rfl⟩ := List.mem_map.1 hr
      exact hk p hp)
  · unfold readDual
    rw [if_neg]
    rw [hd, h]
    simp [Ten.nelement]

/-! ## C105 -/

/-- **C105**, partial (dual). Fitting a level that has no dual parameters, or of which the output dimension has just been assigned, or that asks for more components than
points, gives the components of its data. Missing (`_partial`): fitting again otherwise, `C105_again`, `C105_resized_violated`. -/
theorem C105_dual_partial (E : Env D R) (hE : Sound E) (s : St D R) (hsel : s.sel = List.range (E.num s.data))
    (h : s.dual.nelement = 0 ∨ ∃ k, s.dim = some k ∧ E.num s.data < k) :
    (solveDual E s).1 = .ok () ∧ DualOf E (components E s.dim (E.eigK s.data s.sel)) (solveDual E s).2 := by
  rw [solveDual_eq E hE]
  obtain ⟨h1, h2, -⟩ := clamp_data s s.sel.length
  have hlen : s.sel.length = E.num s.data := by rw [hsel, List.length_range]
  have hd : (clampDim s s.sel.length).1.dual.nelement = 0 := by
    rw [clamp_dual]
    split
    · rfl
    · rename_i hk
      rcases h with h | ⟨k, hk1, hk2⟩
      · exact h
      · exact absurd ⟨k, hk1, by rw [hlen]; exact hk2⟩ hk
  obtain ⟨kept, hkept⟩ : ∃ kept, kept = components E s.dim (E.eigK s.data s.sel) := ⟨_, rfl⟩
  have hmem : ∀ p ∈ kept, p.2.length = E.num s.data := by
    intro p hp
    rw [hkept] at hp
    rw [hE.vecK _ _ p (mem_components E _ _ p hp), hlen]
  have hz : E.num s.data = 0 → kept = [] := by
    intro h0
    have := hE.lenK s.data s.sel
    rw [hlen, h0, List.length_eq_zero_iff] at this
    rw [hkept, this]
    rfl
  obtain ⟨u, hu⟩ : ∃ u : St D R, u = { (clampDim s s.sel.length).1 with dim := some kept.length } := ⟨_, rfl⟩
  rw [← hkept, ← hu]
  have hud : u.data = s.data := by rw [hu]; exact h1
  have hus : u.sel = s.sel := by rw [hu]; exact h2
  have := update_new E u (kept.map (·.2)) (by
    intro r hr
    obtain ⟨p, hp, rfl⟩ := List.mem_map.1 hr
    rw [hud]; exact hmem p hp) (by rw [hu]; exact hd) (by rw [hu, List.length_map])
  rw [hud] at this
  rw [hlen, hsel, this]
  refine ⟨rfl, ?_⟩
  refine dualOf_stored E _ (E.num s.data) kept (by rw [← hsel, ← hus]) ?_ rfl hmem hz
  simp only [hus, hlen]

/-- A second fit, resolved: what is stored is what `copy_` makes of it. -/
theorem again_eq (E : Env D R) (hE : Sound E) (s : St D R) (hsel : s.sel = List.range (E.num s.data)) (hd : s.dual.nelement ≠ 0)
    (hk : ∀ k, s.dim = some k → k ≤ E.num s.data) :
    (copyInto s.dual ⟨E.num s.data, (components E s.dim (E.eigK s.data s.sel)).map (·.2)⟩ = .error .runtimeError →
      (solveDual E s).1 = .error .runtimeError ∧ (solveDual E s).2.dual = s.dual ∧ (solveDual E s).2.vals = s.vals ∧ (solveDual E s).2.sel = s.sel) ∧
    ∀ t, copyInto s.dual ⟨E.num s.data, (components E s.dim (E.eigK s.data s.sel)).map (·.2)⟩ = .ok t →
      (solveDual E s).1 = .ok () ∧ (solveDual E s).2.dual = t ∧ (solveDual E s).2.sel = s.sel
        ∧ (solveDual E s).2.vals = (components E s.dim (E.eigK s.data s.sel)).map (fun p => E.fact s.sel.length p.1) := by
  rw [solveDual_eq E hE]
  obtain ⟨h1, h2, -, h3, -⟩ := clamp_data s s.sel.length
  have hlen : s.sel.length = E.num s.data := by rw [hsel, List.length_range]
  have hdc : (clampDim s s.sel.length).1.dual = s.dual := by
    rw [clamp_dual, if_neg]
    rintro ⟨k, hk1, hk2⟩
    have := hk k hk1
    omega
  obtain ⟨kept, hkept⟩ : ∃ kept, kept = components E s.dim (E.eigK s.data s.sel) := ⟨_, rfl⟩
  have hmem : ∀ p ∈ kept, p.2.length = E.num s.data := by
    intro p hp
    rw [hkept] at hp
    rw [hE.vecK _ _ p (mem_components E _ _ p hp), hlen]
  obtain ⟨u, hu⟩ : ∃ u : St D R, u = { (clampDim s s.sel.length).1 with dim := some kept.length } := ⟨_, rfl⟩
  rw [← hkept, ← hu]
  have hud : u.data = s.data := by rw [hu]; exact h1
  have hus : u.sel = s.sel := by rw [hu]; exact h2
  have huv : u.vals = s.vals := by rw [hu]; exact h3
  have hudual : u.dual = s.dual := by rw [hu]; exact hdc
  have := update_full E u (kept.map (·.2)) (by
    intro r hr
    obtain ⟨p, hp, rfl⟩ := List.mem_map.1 hr
    rw [hud]; exact hmem p hp)
  rw [hud, hudual, if_neg hd] at this
  rw [hlen, hsel, this]
  refine ⟨fun he => ?_, fun t ht => ?_⟩
  · rw [he]; exact ⟨rfl, hudual, huv, by rw [← hsel]; exact hus⟩
  · rw [ht]; exact ⟨rfl, rfl, by rw [← hsel]; exact hus, rfl⟩

/-- Fitting again a level that has dual parameters and does not ask for more components than points: it gives the components of its data exactly when there are as many
as before, on as many points as before (or a single point). In all other cases what was stored is wrong or the fit raises. -/
theorem C105_again (E : Env D R) (hE : Sound E) (s : St D R) (hsel : s.sel = List.range (E.num s.data)) (hd : s.dual.nelement ≠ 0)
    (hk : ∀ k, s.dim = some k → k ≤ E.num s.data) (hw : ∀ r ∈ s.dual.rows, r.length = s.dual.width) :
    ((solveDual E s).1 = .ok () ∧ DualOf E (components E s.dim (E.eigK s.data s.sel)) (solveDual E s).2)
      ↔ (components E s.dim (E.eigK s.data s.sel)).length = s.dual.rows.length ∧ (E.num s.data = s.dual.width ∨ E.num s.data = 1) := by
  obtain ⟨he, ho⟩ := again_eq E hE s hsel hd hk
  obtain ⟨kept, hkept⟩ : ∃ kept, kept = components E s.dim (E.eigK s.data s.sel) := ⟨_, rfl⟩
  rw [← hkept] at he ho ⊢
  have hlen : s.sel.length = E.num s.data := by rw [hsel, List.length_range]
  have hmem : ∀ p ∈ kept, p.2.length = E.num s.data := by
    intro p hp
    rw [hkept] at hp
    rw [hE.vecK _ _ p (mem_components E _ _ p hp), hlen]
  have hrow : s.dual.rows.length ≠ 0 := fun h => hd (by rw [Ten.nelement, h, Nat.zero_mul])
  have hwid : s.dual.width ≠ 0 := fun h => hd (by rw [Ten.nelement, h, Nat.mul_zero])
  constructor
  · rintro ⟨hok, hdo⟩
    by_cases hc : (kept.length = s.dual.rows.length ∨ kept.length = 1) ∧ (E.num s.data = s.dual.width ∨ E.num s.data = 1)
    · refine ⟨?_, hc.2⟩
      obtain ⟨h1, h2, h3, h4⟩ := ho _ (by
        unfold copyInto
        rw [if_pos (by simpa using hc)])
      rcases hc.1 with h | h
      · exact h
      have hr := hdo.2.1 (by intro h'; rw [h'] at h; cases h)
      unfold readDual at hr
      split at hr
      · unfold pick at hr
        split at hr
        · rw [Except.ok.injEq] at hr
          have := congrArg (fun t : Ten R => t.rows.length) hr
          simp only [List.length_map] at this
          rw [h2] at this
          simp only at this
          rw [stretch_length _ _ (by rw [List.length_map, List.length_map]; exact Or.inr h)] at this
          exact this.symm
        · cases hr
      · cases hr
    · rw [(he (by unfold copyInto; rw [if_neg (by simpa using hc)])).1] at hok
      cases hok
  · rintro ⟨h1, h2⟩
    have hkne : kept ≠ [] := by intro h'; rw [h'] at h1; exact hrow h1.symm
    rcases h2 with h2 | h2
    · obtain ⟨g1, g2, g3, g4⟩ := ho _ (copy_same s.dual ⟨E.num s.data, kept.map (·.2)⟩ (by
        intro r hr
        obtain ⟨p, hp, rfl⟩ := List.mem_map.1 hr
        exact hmem p hp) (by simpa using h1) h2)
      refine ⟨g1, dualOf_stored E _ (E.num s.data) kept (by rw [g3, hsel]) (by rw [g4, g3]) g2 hmem fun h0 => absurd (h2.symm.trans h0) hwid⟩
    · -- a single point
      have hcopy : copyInto s.dual ⟨E.num s.data, kept.map (·.2)⟩ = .ok ⟨s.dual.width, (kept.map (·.2)).map (stretch s.dual.width)⟩ := by
        unfold copyInto
        rw [if_pos ⟨Or.inl (by simpa using h1), Or.inr h2⟩]
        simp only
        congr 2
        rw [← h1]
        have := stretch_self ((kept.map (·.2)).map (stretch s.dual.width))
        rwa [List.length_map, List.length_map] at this
      obtain ⟨g1, g2, g3, g4⟩ := ho _ hcopy
      refine ⟨g1, by rw [g4, g3], fun _ => ?_, fun h => absurd h hkne⟩
      unfold readDual
      rw [if_pos (by rw [g2]; simp only [Ten.nelement, List.length_map]; exact Nat.mul_ne_zero (by rw [h1]; exact hrow) hwid), g2, g3, hsel, h2]
      unfold pick
      rw [if_pos (by simp; omega)]
      simp only [List.length_range, List.map_map]
      congr 2
      refine List.map_congr_left fun p hp => ?_
      have hl := hmem p hp
      rw [h2] at hl
      obtain ⟨a, ha⟩ := List.length_eq_one_iff.1 hl
      simp only [Function.comp, ha]
      have : (stretch s.dual.width [a])[0]? = some a := by
        unfold stretch
        split
        · rfl
        · simp only [List.getElem?_replicate]
          rw [if_pos (by omega)]
      simp [List.range_succ, this]

/-- Fitting again on another number of points raises `RuntimeError`, and the parameters and values kept are those of the former fit. -/
theorem C105_resized_violated (E : Env D R) (hE : Sound E) (s : St D R) (hsel : s.sel = List.range (E.num s.data)) (hd : s.dual.nelement ≠ 0)
    (hk : ∀ k, s.dim = some k → k ≤ E.num s.data) (hn : E.num s.data ≠ s.dual.width) (h1 : E.num s.data ≠ 1) :
    (solveDual E s).1 = .error .runtimeError ∧ (solveDual E s).2.dual = s.dual ∧ (solveDual E s).2.vals = s.vals := by
  obtain ⟨he, -⟩ := again_eq E hE s hsel hd hk
  obtain ⟨a, b, c, -⟩ := he (by unfold copyInto; rw [if_neg]; rintro ⟨-, h | h⟩; exacts [hn h, h1 h])
  exact ⟨a, b, c⟩

/-- The same when fewer components are found than before, two at least. -/
theorem C105_pruned_violated (E : Env D R) (hE : Sound E) (s : St D R) (hsel : s.sel = List.range (E.num s.data)) (hd : s.dual.nelement ≠ 0)
    (hk : ∀ k, s.dim = some k → k ≤ E.num s.data) (hn : (components E s.dim (E.eigK s.data s.sel)).length ≠ s.dual.rows.length)
    (h1 : (components E s.dim (E.eigK s.data s.sel)).length ≠ 1) :
    (solveDual E s).1 = .error .runtimeError ∧ (solveDual E s).2.dual = s.dual ∧ (solveDual E s).2.vals = s.vals := by
  obtain ⟨he, -⟩ := again_eq E hE s hsel hd hk
  obtain ⟨a, b, c, -⟩ := he (by
    unfold copyInto
    rw [if_neg]
    rintro ⟨h | h, -⟩
    · exact hn (by simpa using h)
    · exact h1 (by simpa using h))
  exact ⟨a, b, c⟩

/-- When a single component is found where there were several, the fit returns normally, all components are this one, and there is a single value. -/
theorem C105_single_violated (E : Env D R) (hE : Sound E) (s : St D R) (hsel : s.sel = List.range (E.num s.data)) (hd : s.dual.nelement ≠ 0)
    (hk : ∀ k, s.dim = some k → k ≤ E.num s.data) (hn : E.num s.data = s.dual.width) (v : R) (e : List R)
    (h1 : components E s.dim (E.eigK s.data s.sel) = [(v, e)]) :
    (solveDual E s).1 = .ok () ∧ readDual (solveDual E s).2 = .ok ⟨E.num s.data, List.replicate s.dual.rows.length e⟩
      ∧ (solveDual E s).2.vals = [E.fact (E.num s.data) v] := by
  have hlen : s.sel.length = E.num s.data := by rw [hsel, List.length_range]
  obtain ⟨-, ho⟩ := again_eq E hE s hsel hd hk
  rw [h1] at ho
  have hel : e.length = E.num s.data := by
    rw [← hlen]
    exact hE.vecK _ _ (v, e) (mem_components E _ _ _ (by rw [h1]; simp))
  have hst : ∀ n, stretch n [e] = List.replicate n e := by
    intro n
    unfold stretch
    split
    · rename_i h; rw [← h]; rfl
    · rfl
  obtain ⟨g1, g2, g3, g4⟩ := ho ⟨s.dual.width, List.replicate s.dual.rows.length e⟩ (by
    unfold copyInto
    rw [if_pos ⟨Or.inr rfl, Or.inl hn⟩]
    simp only [List.map_cons, List.map_nil]
    rw [show stretch s.dual.width e = e from by rw [← hn, ← hel, stretch_self], hst])
  refine ⟨g1, ?_, by rw [g4, hlen]; rfl⟩
  have hp := pick_range (⟨E.num s.data, List.replicate s.dual.rows.length e⟩ : Ten R) (by
    intro r hr
    rw [List.eq_of_mem_replicate hr, hel])
  unfold readDual
  rw [if_pos, g2, g3, hsel, ← hn]
  · exact hp
  · rw [g2]
    simpa [Ten.nelement] using hd

/-- Assigning the output dimension before each fit avoids all this. -/
theorem C105_assigned (E : Env D R) (hE : Sound E) (s : St D R) (hsel : s.sel = List.range (E.num s.data)) (k : ℕ) :
    (solveDual E (setDim s k)).1 = .ok () ∧ DualOf E (components E (some k) (E.eigK s.data s.sel)) (solveDual E (setDim s k)).2 :=
  C105_dual_partial E hE (setDim s k) hsel (Or.inl rfl)

theorem components_le (E : Env D R) (k : ℕ) (all : List (R × List R)) : (components E (some k) all).length ≤ k := by
  rw [← keep_components, keep]
  exact (List.length_filter_le _ _).trans (by rw [List.length_take]; omega)

theorem components_le_all (E : Env D R) (k : Option ℕ) (all : List (R × List R)) : (components E k all).length ≤ all.length := by
  rw [components]
  exact (List.length_filterMap_le _ _).trans (by rw [List.length_zipIdx])

/-- The number of components asked for is forgotten: whatever it was, later fits never find more than the present one did. -/
theorem C105_number_violated (E : Env D R) (hE : Sound E) (s : St D R) (hsel : s.sel = List.range (E.num s.data)) (h : s.dual.nelement = 0) (d : D) :
    (components E (setData E (solveDual E s).2 d).dim (E.eigK d (List.range (E.num d)))).length ≤ (components E s.dim (E.eigK s.data s.sel)).length := by
  have hdim : (solveDual E s).2.dim = some (components E s.dim (E.eigK s.data s.sel)).length := by
    rw [solveDual_eq E hE]
    obtain ⟨h1, h2, -⟩ := clamp_data s s.sel.length
    have hlen : s.sel.length = E.num s.data := by rw [hsel, List.length_range]
    have hd : (clampDim s s.sel.length).1.dual.nelement = 0 := by
      rw [clamp_dual]
      split
      · rfl
      · exact h
    obtain ⟨kept, hkept⟩ : ∃ kept, kept = components E s.dim (E.eigK s.data s.sel) := ⟨_, rfl⟩
    obtain ⟨u, hu⟩ : ∃ u : St D R, u = { (clampDim s s.sel.length).1 with dim := some kept.length } := ⟨_, rfl⟩
    rw [← hkept, ← hu]
    have hud : u.data = s.data := by rw [hu]; exact h1
    have := update_new E u (kept.map (·.2)) (by
      intro r hr
      obtain ⟨p, hp, rfl⟩ := List.mem_map.1 hr
      rw [hkept] at hp
      rw [hud, hE.vecK _ _ p (mem_components E _ _ p hp), hlen]) (by rw [hu]; exact hd) (by rw [hu, List.length_map])
    rw [hud] at this
    rw [hlen, hsel, this]
    simp only [hu]
  rw [setData, hdim]
  exact components_le E _ _

/-! ### LS-SVM -/

/-- A LS-SVM without dual parameters, fitted in dual, has the solution of its system; fitted again it has it if there are as many points as before. Missing (`_partial`):
another number of points, `C105_lssvm_violated`. -/
theorem C105_lssvm_partial (E : Env D R) (s : St D R) (hsel : s.sel = List.range (E.num s.data)) (o : ℕ) (hdim : s.dim = some o) (h0 : o ≠ 0) (hn : E.num s.data ≠ 0)
    (hc : (E.dualSol s.data s.sel).length = o) (hr : ∀ c ∈ E.dualSol s.data s.sel, c.length = s.sel.length)
    (h : s.dual.nelement = 0 ∨ (s.dual.rows.length = o ∧ s.dual.width = E.num s.data)) :
    (solveLSSVM E s).1 = .ok () ∧ readDual (solveLSSVM E s).2 = .ok ⟨s.sel.length, E.dualSol s.data s.sel⟩ := by
  have hlen : s.sel.length = E.num s.data := by rw [hsel, List.length_range]
  have hst : solveLSSVM E s = (.ok (), { s with dual := ⟨E.num s.data, E.dualSol s.data s.sel⟩ }) := by
    have hV : ∀ r ∈ E.dualSol s.data s.sel, r.length = E.num s.data := fun r h => by rw [hr r h, hlen]
    unfold solveLSSVM
    rw [hlen]
    conv_lhs => rw [show updateDual E s ⟨E.num s.data, E.dualSol s.data s.sel⟩ s.sel = updateDual E s ⟨E.num s.data, E.dualSol s.data s.sel⟩ (List.range (E.num s.data)) from by rw [← hsel]]
    by_cases hz : s.dual.nelement = 0
    · exact update_new E s _ hV hz (by rw [hc, hdim])
    · rw [update_full E s _ hV, if_neg hz]
      rcases h with h | ⟨h1, h2⟩
      · exact absurd h hz
      · rw [copy_same s.dual ⟨E.num s.data, E.dualSol s.data s.sel⟩ hV (by rw [hc, h1]) h2.symm]
  rw [hst]
  refine ⟨rfl, ?_⟩
  unfold readDual
  rw [if_pos (by simp only [Ten.nelement, hc]; exact Nat.mul_ne_zero h0 hn)]
  simp only
  have := pick_range (⟨E.num s.data, E.dualSol s.data s.sel⟩ : Ten R) (fun c hcc => by rw [hr c hcc, hlen])
  simp only at this
  rw [← hsel] at this
  rw [this, hlen]

/-- A LS-SVM that has dual parameters cannot be fitted in dual on another number of points. -/
theorem C105_lssvm_violated (E : Env D R) (s : St D R) (hsel : s.sel = List.range (E.num s.data)) (hr : ∀ c ∈ E.dualSol s.data s.sel, c.length = s.sel.length)
    (hd : s.dual.nelement ≠ 0) (hn : E.num s.data ≠ s.dual.width) (h1 : E.num s.data ≠ 1) : solveLSSVM E s = (.error .runtimeError, s) := by
  have hlen : s.sel.length = E.num s.data := by rw [hsel, List.length_range]
  have hV : ∀ r ∈ E.dualSol s.data s.sel, r.length = E.num s.data := fun r h => by rw [hr r h, hlen]
  unfold solveLSSVM
  rw [hlen]
  conv_lhs => rw [show updateDual E s ⟨E.num s.data, E.dualSol s.data s.sel⟩ s.sel = updateDual E s ⟨E.num s.data, E.dualSol s.data s.sel⟩ (List.range (E.num s.data)) from by rw [← hsel]]
  rw [update_full E s _ hV, if_neg hd]
  have : copyInto s.dual ⟨E.num s.data, E.dualSol s.data s.sel⟩ = .error .runtimeError := by
    unfold copyInto
    rw [if_neg]
    rintro ⟨-, h | h⟩
    exacts [hn h, h1 h]
  rw [this]

/-! ### Selected points -/

/-- The points of the sample taken in another order `π` (`stochastic(idx=...)`): the fit returns normally, and the dual parameters read are the components at `π ∘ π` instead of
the components, which are right only if the order is its own inverse. -/
theorem C105_shuffled_violated (E : Env D R) (hE : Sound E) (s : St D R) (n : ℕ) (hn : E.num s.data = n) (π : Equiv.Perm (Fin n))
    (hsel : s.sel = List.ofFn fun i => (π i).val) (h : s.dual.nelement = 0) (v : Fin n → R) (a : R)
    (hc : components E s.dim (E.eigK s.data s.sel) = [(a, List.ofFn v)]) :
    (solveDual E s).1 = .ok () ∧ readDual (solveDual E s).2 = .ok ⟨n, [List.ofFn fun i => v (π (π i))]⟩ := by
  have hpick : ∀ u : Fin n → R, (List.ofFn fun i => (π i).val).filterMap ((List.ofFn u)[·]?) = List.ofFn fun i => u (π i) := by
    intro u
    have e1 : (List.ofFn fun i => (π i).val) = (List.finRange n).map fun i => (π i).val := List.ofFn_eq_map
    have e2 : (List.ofFn fun i => u (π i)) = (List.finRange n).map fun i => u (π i) := List.ofFn_eq_map
    rw [e1, e2, List.filterMap_map, ← List.filterMap_eq_map]
    refine List.filterMap_congr fun i _ => ?_
    simp
  have hn0 : n ≠ 0 := by
    rintro rfl
    have := hE.lenK s.data s.sel
    rw [hsel] at this
    simp at this
    have hz : components E s.dim (E.eigK s.data s.sel) = [] := by
      rw [hsel]
      simp [this, components]
    rw [hc] at hz
    cases hz
  have hlen : s.sel.length = n := by rw [hsel, List.length_ofFn]
  rw [solveDual_eq E hE, hc, hlen]
  obtain ⟨h1, h2, -⟩ := clamp_data s n
  have hd : (clampDim s n).1.dual.nelement = 0 := by
    rw [clamp_dual]
    split
    · rfl
    · exact h
  have hup : updateDual E { (clampDim s n).1 with dim := some [(a, List.ofFn v)].length } ⟨n, [(a, List.ofFn v)].map (·.2)⟩ s.sel
      = (.ok (), { (clampDim s n).1 with dim := some 1, dual := ⟨n, [List.ofFn fun i => v (π i)]⟩ }) := by
    unfold updateDual
    simp only [hd, if_true, initDual, h1, hn, List.length_singleton, List.map_cons, List.map_nil]
    have hpk : pick s.sel (⟨n, [List.ofFn v]⟩ : Ten R) = .ok ⟨n, [List.ofFn fun i => v (π i)]⟩ := by
      unfold pick
      rw [if_pos (by rw [hsel]; simp [List.all_eq_true]), hlen, hsel]
      simp only [List.map_cons, List.map_nil, hpick]
    rw [hpk]
    simp only
    rw [copy_same (⟨n, List.replicate 1 (List.replicate n E.noise)⟩ : Ten R) ⟨n, [List.ofFn fun i => v (π i)]⟩ (by simp) (by simp) rfl]
  rw [hup]
  refine ⟨rfl, ?_⟩
  unfold readDual
  rw [if_pos (by simp [Ten.nelement, hn0])]
  simp only [h2]
  unfold pick
  rw [if_pos (by rw [hsel]; simp [List.all_eq_true]), hlen, hsel]
  simp only [List.map_cons, List.map_nil]
  rw [hpick fun i => v (π i)]

/-- Fitting in dual with a selection of several points, but not all, always raises: `IndexError` if a selected position is not smaller than their number, `RuntimeError` otherwise. -/
theorem C105_selection_violated (E : Env D R) (hE : Sound E) (s : St D R) (h1 : 1 < s.sel.length) (hm : s.sel.length < E.num s.data)
    (hd : s.dual.nelement = 0 ∨ s.dual.width = E.num s.data) :
    (solveDual E s).1 = .error (if ∃ i ∈ s.sel, s.sel.length ≤ i then .indexError else .runtimeError) := by
  rw [solveDual_eq E hE]
  obtain ⟨h1', h2', -⟩ := clamp_data s s.sel.length
  obtain ⟨kept, hkept⟩ : ∃ kept, kept = components E s.dim (E.eigK s.data s.sel) := ⟨_, rfl⟩
  rw [← hkept]
  obtain ⟨u, hu⟩ : ∃ u : St D R, u = { (clampDim s s.sel.length).1 with dim := some kept.length } := ⟨_, rfl⟩
  rw [← hu]
  have hud : u.data = s.data := by rw [hu]; exact h1'
  have hudim : u.dim = some kept.length := by rw [hu]
  have hdd : u.dual.nelement = 0 ∨ u.dual.width = E.num s.data := by
    rw [hu]
    simp only
    rw [clamp_dual]
    split
    · exact Or.inl rfl
    · exact hd
  -- the parameters exist and cover the whole sample
  have hst : ∃ w : St D R, w.dual.width = E.num s.data ∧ (if u.dual.nelement = 0 then initDual E u else (.ok (), u)) = (.ok (), w) := by
    by_cases hz : u.dual.nelement = 0
    · rw [if_pos hz, initDual, hudim]
      refine ⟨_, ?_, rfl⟩
      simp only [hud]
    · rw [if_neg hz]
      exact ⟨u, hdd.resolve_left hz, rfl⟩
  obtain ⟨w, hw, he⟩ := hst
  unfold updateDual
  rw [he]
  simp only
  by_cases hi : ∃ i ∈ s.sel, s.sel.length ≤ i
  · rw [if_pos hi]
    have : pick s.sel (⟨s.sel.length, kept.map (·.2)⟩ : Ten R) = .error .indexError := by
      unfold pick
      rw [if_neg]
      rw [List.all_eq_true]
      intro hall
      obtain ⟨i, hi, hle⟩ := hi
      have := hall i hi
      simp at this
      omega
    rw [this]
  · rw [if_neg hi]
    unfold pick
    rw [if_pos (by
      rw [List.all_eq_true]
      intro i hii
      simp only [decide_eq_true_eq]
      by_contra hc
      exact hi ⟨i, hii, by omega⟩)]
    simp only
    unfold copyInto
    rw [if_neg]
    rintro ⟨-, h | h⟩
    · simp only at h; omega
    · simp only at h; omega

/-! ### Primal -/

/-- Not more components stored than features. -/
def Flat (s : St D R) : Prop := s.primal.rows.length ≤ s.primal.width

theorem setPrimal_eq (s : St D R) (d : ℕ) (V : List (List R)) (hV : ∀ r ∈ V, r.length = d) (hl : V.length ≤ d) (hs : Flat s) :
    setPrimal s ⟨d, V⟩ = if V = [] then (.error .notInitialized, { s with dual := Ten.empty, primal := ⟨d, V⟩ })
      else (.ok (), { s with dual := Ten.empty, primal := ⟨d, V⟩, dim := some V.length }) := by
  unfold setPrimal
  simp only
  by_cases h : s.primal.nelement ≠ 0 ∧ s.primal.rows.length = d ∧ s.primal.width = V.length
  · rw [if_pos h]
    obtain ⟨h0, h1, h2⟩ := h
    unfold Flat at hs
    have e1 : s.primal.rows.length = V.length := by omega
    have e2 : s.primal.width = d := by omega
    rw [copy_same s.primal ⟨d, V⟩ hV e1.symm e2.symm]
    have : V ≠ [] := by
      rintro rfl
      exact h0 (by rw [Ten.nelement, e1]; simp)
    rw [if_neg this]
  · rw [if_neg h]
    by_cases hn : V = []
    · rw [if_pos hn, if_pos]
      rw [hn]; simp [Ten.nelement]
    · have : d ≠ 0 := by
        rintro rfl
        exact hn (List.length_eq_zero_iff.1 (Nat.le_zero.1 hl))
      rw [if_neg hn, if_neg]
      exact Nat.mul_ne_zero (by simpa using hn) this

theorem solvePrimal_eq (E : Env D R) (hE : Sound E) (s : St D R) (hs : Flat s) :
    solvePrimal E s = if components E s.dim (E.eigC s.data s.sel) = [] then
        (.error .notInitialized, { s with dual := Ten.empty, primal := ⟨E.dim s.data, []⟩, dim := some 0 })
      else (.ok (), { s with
        dual := Ten.empty
        primal := ⟨E.dim s.data, (components E s.dim (E.eigC s.data s.sel)).map (·.2)⟩
        dim := some (components E s.dim (E.eigC s.data s.sel)).length
        vals := (components E s.dim (E.eigC s.data s.sel)).map (·.1) }) := by
  have hc := clamp_keep E s (E.eigC s.data s.sel)
  have hn := clamp_num s (E.dim s.data)
  obtain ⟨h1, h2, h3, h4, h5, h6⟩ := clamp_data s (E.dim s.data)
  rw [hE.lenC] at hc
  obtain ⟨kept, hkept⟩ : ∃ kept, kept = components E s.dim (E.eigC s.data s.sel) := ⟨_, rfl⟩
  have hmem : ∀ r ∈ kept.map (·.2), r.length = E.dim s.data := by
    intro r hr
    obtain ⟨p, hp, rfl⟩ := List.mem_map.1 hr
    rw [hkept] at hp
    exact hE.vecC _ _ p (mem_components E _ _ p hp)
  have hle : (kept.map (·.2)).length ≤ E.dim s.data := by
    rw [List.length_map, hkept, ← hE.lenC s.data s.sel]
    exact components_le_all E _ _
  have hsub := sub_keep E (clampDim s (E.dim s.data)).2 (E.eigC s.data s.sel) (by rw [hE.lenC]; exact hn)
  rw [hc] at hsub
  unfold solvePrimal
  simp only [h1, h2, hc, hsub]
  rw [← hkept, setPrimal_eq _ _ _ hmem hle (by unfold Flat; simp only [h3]; exact hs)]
  by_cases hz : kept = []
  · rw [if_pos hz, if_pos (by rw [hz]; rfl)]
    simp only [h3, h4, h5, h6, hz, List.map_nil, List.length_nil]
  · rw [if_neg hz, if_neg (by simpa using hz)]
    simp only [h3, h4, h5, h6, List.length_map]

theorem flat_solvePrimal (E : Env D R) (hE : Sound E) (s : St D R) (hs : Flat s) : Flat (solvePrimal E s).2 := by
  rw [solvePrimal_eq E hE s hs]
  unfold Flat
  split
  · simp
  · simp only [List.length_map]
    rw [← hE.lenC s.data s.sel]
    exact components_le_all E _ _

theorem updateDual_rest (E : Env D R) (s : St D R) (val : Ten R) (idx : List ℕ) : (updateDual E s val idx).2.primal = s.primal ∧ (updateDual E s val idx).2.root = s.root
    ∧ (updateDual E s val idx).2.data = s.data ∧ (updateDual E s val idx).2.sel = s.sel ∧ (updateDual E s val idx).2.keeps = s.keeps := by
  have hinit : (initDual E s).2.primal = s.primal ∧ (initDual E s).2.root = s.root ∧ (initDual E s).2.data = s.data ∧ (initDual E s).2.sel = s.sel
      ∧ (initDual E s).2.keeps = s.keeps := by
    unfold initDual
    cases s.dim <;> simp
  have hi : ∀ q : Except Err Unit × St D R, q = (if s.dual.nelement = 0 then initDual E s else (.ok (), s)) →
      q.2.primal = s.primal ∧ q.2.root = s.root ∧ q.2.data = s.data ∧ q.2.sel = s.sel ∧ q.2.keeps = s.keeps := by
    intro q hq
    rw [hq]
    split
    · exact hinit
    · simp
  unfold updateDual
  obtain ⟨q, hq⟩ : ∃ q, q = (if s.dual.nelement = 0 then initDual E s else (.ok (), s)) := ⟨_, rfl⟩
  have := hi q hq
  rw [← hq]
  obtain ⟨r, u⟩ := q
  cases r with
  | error e => simpa using this
  | ok a =>
    cases a
    simp only at this ⊢
    cases pick idx val with
    | error e => simpa using this
    | ok v =>
      simp only
      cases copyInto u.dual v with
      | error e => simpa using this
      | ok t => simpa using this

theorem solveDual_rest (E : Env D R) (s : St D R) : (solveDual E s).2.primal = s.primal ∧ (solveDual E s).2.root = s.root
    ∧ (solveDual E s).2.data = s.data ∧ (solveDual E s).2.sel = s.sel ∧ (solveDual E s).2.keeps = s.keeps := by
  obtain ⟨h1, h2, h3, h4, h5, h6⟩ := clamp_data s s.sel.length
  unfold solveDual
  simp only
  obtain ⟨u, hu⟩ : ∃ u : St D R, u = { (clampDim s s.sel.length).1 with
      dim := some ((clampDim s s.sel.length).2 - (((E.eigK (clampDim s s.sel.length).1.data (clampDim s s.sel.length).1.sel).take (clampDim s s.sel.length).2).length
        - (keep E (clampDim s s.sel.length).2 (E.eigK (clampDim s s.sel.length).1.data (clampDim s s.sel.length).1.sel)).length)) } := ⟨_, rfl⟩
  have hr := updateDual_rest E u ⟨s.sel.length, (keep E (clampDim s s.sel.length).2 (E.eigK (clampDim s s.sel.length).1.data (clampDim s s.sel.length).1.sel)).map (·.2)⟩
    (clampDim s s.sel.length).1.sel
  subst hu
  dsimp only at hr ⊢
  split
  · rename_i he; rw [he] at hr; exact ⟨hr.1.trans h3, hr.2.1.trans h5, hr.2.2.1.trans h1, hr.2.2.2.1.trans h2, hr.2.2.2.2.trans h6⟩
  · rename_i he; rw [he] at hr; exact ⟨hr.1.trans h3, hr.2.1.trans h5, hr.2.2.1.trans h1, hr.2.2.2.1.trans h2, hr.2.2.2.2.trans h6⟩

variable [Mul R]

theorem readW_rest (E : Env D R) (s : St D R) : (readW E s).2.primal = s.primal ∧ (readW E s).2.data = s.data ∧ (readW E s).2.sel = s.sel
    ∧ (readW E s).2.keeps = s.keeps ∧ (s.keeps = false → (readW E s).2.root = s.root) := by
  unfold readW
  cases readPrimal s with
  | error e => simp
  | ok p =>
    simp only
    split <;> simp +contextual

theorem flat_step (E : Env D R) (hE : Sound E) (s : St D R) (hs : Flat s) (o : Op D) : Flat (step E s o) := by
  cases o with
  | data d => exact hs
  | select idx => exact hs
  | dim k => exact hs
  | solvePrimal => exact flat_solvePrimal E hE s hs
  | solveDual => unfold Flat step; rw [(solveDual_rest E s).1]; exact hs
  | readW => unfold Flat step; rw [(readW_rest E s).1]; exact hs

theorem flat_run (E : Env D R) (hE : Sound E) (s : St D R) (hs : Flat s) (ops : List (Op D)) : Flat (run E s ops) := by
  induction ops generalizing s with
  | nil => exact hs
  | cons o t ih => exact ih _ (flat_step E hE s hs o)

theorem readPrimal_of (s : St D R) (d : ℕ) (V : List (List R)) (hp : s.primal = ⟨d, V⟩) (hV : V ≠ []) (hd : d ≠ 0) : readPrimal s = .ok ⟨d, V⟩ := by
  unfold readPrimal
  rw [hp, if_pos]
  exact Nat.mul_ne_zero (by simpa using hV) hd

/-- **C105** (primal). Whatever was done before, a fit in primal gives the components of the present data, on the present selection, and unsets the dual parameters. -/
theorem C105_primal (E : Env D R) (hE : Sound E) (d : D) (k : Option ℕ) (keeps : Bool) (ops : List (Op D)) (s : St D R) (hs : s = run E (init E d k keeps) ops)
    (h : components E s.dim (E.eigC s.data s.sel) ≠ []) :
    (solvePrimal E s).1 = .ok () ∧ readPrimal (solvePrimal E s).2 = .ok ⟨E.dim s.data, (components E s.dim (E.eigC s.data s.sel)).map (·.2)⟩
      ∧ (solvePrimal E s).2.vals = (components E s.dim (E.eigC s.data s.sel)).map (·.1) ∧ readDual (solvePrimal E s).2 = .error .notInitialized := by
  have hf : Flat s := by rw [hs]; exact flat_run E hE _ (by simp [Flat, init, Ten.empty]) ops
  have hd : E.dim s.data ≠ 0 := by
    intro h0
    have := components_le_all E s.dim (E.eigC s.data s.sel)
    rw [hE.lenC, h0] at this
    exact h (List.length_eq_zero_iff.1 (Nat.le_zero.1 this))
  rw [solvePrimal_eq E hE s hf, if_neg h]
  refine ⟨rfl, ?_, rfl, ?_⟩
  · exact readPrimal_of _ _ _ rfl (by simpa using h) hd
  · unfold readDual
    rw [if_neg (by simp [Ten.nelement, Ten.empty])]

/-- A fit that has nothing to keep is refused; the output dimension asked for is lost, as are the dual parameters, while the values stay those of the former fit. -/
theorem C105_nothing (E : Env D R) (hE : Sound E) (d : D) (k : Option ℕ) (keeps : Bool) (ops : List (Op D)) (s : St D R) (hs : s = run E (init E d k keeps) ops)
    (h : components E s.dim (E.eigC s.data s.sel) = []) :
    (solvePrimal E s).1 = .error .notInitialized ∧ (solvePrimal E s).2.dim = some 0 ∧ (solvePrimal E s).2.vals = s.vals
      ∧ readPrimal (solvePrimal E s).2 = .error .notInitialized ∧ readDual (solvePrimal E s).2 = .error .notInitialized := by
  have hf : Flat s := by rw [hs]; exact flat_run E hE _ (by simp [Flat, init, Ten.empty]) ops
  rw [solvePrimal_eq E hE s hf, if_pos h]
  refine ⟨rfl, rfl, rfl, ?_, ?_⟩
  · unfold readPrimal; rw [if_neg (by simp [Ten.nelement])]
  · unfold readDual; rw [if_neg (by simp [Ten.nelement, Ten.empty])]

/-! ### The weights -/

/-- The weights a fit must give: each component times the square root of its value. -/
def weights (E : Env D R) (kept : List (R × List R)) : List (List R) := kept.map fun p => p.2.map (· * E.sqrt p.1)

theorem readW_solved (E : Env D R) (hE : Sound E) (s : St D R) (hs : Flat s) (h : components E s.dim (E.eigC s.data s.sel) ≠ []) (ρ : Option (List R)) (hρ : s.root = ρ) :
    (readW E (solvePrimal E s).2).1 = ρ.elim (.ok ⟨E.dim s.data, weights E (components E s.dim (E.eigC s.data s.sel))⟩)
      fun r => if (components E s.dim (E.eigC s.data s.sel)).length = r.length then
          .ok ⟨E.dim s.data, List.zipWith (fun c x => c.map (· * x)) ((components E s.dim (E.eigC s.data s.sel)).map (·.2)) r⟩
        else .error .runtimeError := by
  have hd : E.dim s.data ≠ 0 := by
    intro h0
    have := components_le_all E s.dim (E.eigC s.data s.sel)
    rw [hE.lenC, h0] at this
    exact h (List.length_eq_zero_iff.1 (Nat.le_zero.1 this))
  rw [solvePrimal_eq E hE s hs, if_neg h]
  unfold readW
  rw [readPrimal_of _ _ _ rfl (by simpa using h) hd]
  simp only [hρ]
  cases ρ with
  | none =>
    simp only [Option.getD_none, List.length_map, if_true, Option.elim_none]
    rw [List.map_map, List.zipWith_map, List.zipWith_self]
    rfl
  | some r =>
    simp only [Option.getD_some, List.length_map, Option.elim_some]
    by_cases hl : (components E s.dim (E.eigC s.data s.sel)).length = r.length
    · rw [if_pos hl, if_pos hl]
    · rw [if_neg hl, if_neg hl]

theorem root_run (E : Env D R) (hE : Sound E) (s : St D R) (hs : Flat s) (ops : List (Op D)) (hr : s.root = none) (h : Op.readW ∉ ops ∨ s.keeps = false) :
    (run E s ops).root = none ∧ (run E s ops).keeps = s.keeps := by
  induction ops generalizing s with
  | nil => exact ⟨hr, rfl⟩
  | cons o t ih =>
    have hstep : (step E s o).root = none ∧ (step E s o).keeps = s.keeps := by
      cases o with
      | data d => exact ⟨rfl, rfl⟩
      | select idx => exact ⟨rfl, rfl⟩
      | dim k => exact ⟨hr, rfl⟩
      | solvePrimal =>
        unfold step
        simp only
        rw [solvePrimal_eq E hE s hs]
        split <;> exact ⟨hr, rfl⟩
      | solveDual => exact ⟨by unfold step; simp only; rw [(solveDual_rest E s).2.1, hr], (solveDual_rest E s).2.2.2.2⟩
      | readW =>
        rcases h with h | h
        · exact absurd (List.mem_cons_self ..) h
        · exact ⟨by unfold step; simp only; rw [(readW_rest E s).2.2.2.2 h, hr], (readW_rest E s).2.2.2.1⟩
    have := ih (step E s o) (flat_step E hE s hs o) hstep.1 (by
      rcases h with h | h
      · exact Or.inl fun h' => h (List.mem_cons_of_mem _ h')
      · exact Or.inr (by rw [hstep.2, h]))
    exact ⟨this.1, by rw [← hstep.2]; exact this.2⟩

/-- The weights have not been read since the data or the selection last changed. -/
def Unread (ops : List (Op D)) : Prop := ∃ pre mid, ops = pre ++ mid ∧ Op.readW ∉ mid ∧ (pre = [] ∨ ∃ p, (∃ d, pre = p ++ [Op.data d]) ∨ ∃ i, pre = p ++ [Op.select i])

/-- **C105**, partial (weights). After a fit in primal the weights are the components times the square roots of the values, if they have not been read since the data or the selection
last changed, or if the cache level is below `normal`. Missing (`_partial`): otherwise, `C105_weights_violated`, `C105_stale_violated`. -/
theorem C105_weights_partial (E : Env D R) (hE : Sound E) (d : D) (k : Option ℕ) (keeps : Bool) (ops : List (Op D)) (s : St D R) (hs : s = run E (init E d k keeps) ops)
    (hu : Unread ops ∨ keeps = false) (h : components E s.dim (E.eigC s.data s.sel) ≠ []) :
    (readW E (solvePrimal E s).2).1 = .ok ⟨E.dim s.data, weights E (components E s.dim (E.eigC s.data s.sel))⟩ := by
  have h0 : Flat (init E d k keeps) := by simp [Flat, init, Ten.empty]
  have hf : Flat s := by rw [hs]; exact flat_run E hE _ h0 ops
  have hr : s.root = none := by
    rw [hs]
    rcases hu with ⟨pre, mid, rfl, hm, hp⟩ | hk
    · have hrun : run E (init E d k keeps) (pre ++ mid) = run E (run E (init E d k keeps) pre) mid := by simp [run]
      rw [hrun]
      refine (root_run E hE _ (flat_run E hE _ h0 pre) mid ?_ (Or.inl hm)).1
      rcases hp with rfl | ⟨p, ⟨d', rfl⟩ | ⟨i, rfl⟩⟩
      · rfl
      · simp [run, step, setData]
      · simp [run, step, select]
    · exact (root_run E hE _ h0 ops rfl (Or.inr hk)).1
  exact readW_solved E hE s hf h none hr

/-- Reading the weights between two fits with different numbers of components makes the weights unreadable after the second. -/
theorem C105_weights_violated (E : Env D R) (hE : Sound E) (d : D) (k j : ℕ) (h : components E (some k) (E.eigC d (List.range (E.num d))) ≠ [])
    (hj : components E (some j) (E.eigC d (List.range (E.num d))) ≠ [])
    (hl : (components E (some k) (E.eigC d (List.range (E.num d)))).length ≠ (components E (some j) (E.eigC d (List.range (E.num d)))).length) :
    (readW E (run E (init E d (some k) true) [.solvePrimal, .readW, .dim j, .solvePrimal])).1 = .error .runtimeError := by
  have h0 : Flat (init E d (some k) true) := by simp [Flat, init, Ten.empty]
  obtain ⟨u, hu⟩ : ∃ u, u = run E (init E d (some k) true) [.solvePrimal, .readW, .dim j] := ⟨_, rfl⟩
  have hf : Flat u := by rw [hu]; exact flat_run E hE _ h0 _
  have hd : E.dim d ≠ 0 := by
    intro h0
    have := components_le_all E (some k) (E.eigC d (List.range (E.num d)))
    rw [hE.lenC, h0] at this
    exact h (List.length_eq_zero_iff.1 (Nat.le_zero.1 this))
  have hroot : u.root = some ((components E (some k) (E.eigC d (List.range (E.num d)))).map fun p => E.sqrt p.1) ∧ u.dim = some j ∧ u.data = d
      ∧ u.sel = List.range (E.num d) := by
    rw [hu]
    simp only [run, List.foldl_cons, List.foldl_nil, step]
    rw [solvePrimal_eq E hE _ h0]
    rw [if_neg (by simpa [init] using h)]
    unfold readW
    rw [readPrimal_of _ (E.dim d) ((components E (some k) (E.eigC d (List.range (E.num d)))).map (·.2)) rfl (by simpa using h) hd]
    simp [init, setDim]
  have hrun : run E (init E d (some k) true) [.solvePrimal, .readW, .dim j, .solvePrimal] = (solvePrimal E u).2 := by rw [hu]; rfl
  rw [hrun, readW_solved E hE u hf (by rw [hroot.2.1, hroot.2.2.1, hroot.2.2.2]; exact hj) _ hroot.1]
  simp only [hroot.2.1, hroot.2.2.1, hroot.2.2.2, List.length_map, Option.elim_some]
  rw [if_neg (Ne.symm hl)]

/-- Reading the weights after changing the data and before fitting again (as `forward` does in primal) makes the next fit use the values of the former: the weights are the components of the new
data times the square roots of the values of the old. -/
theorem C105_stale_violated (E : Env D R) (hE : Sound E) (d e : D) (k : ℕ) (h : (components E (some k) (E.eigC d (List.range (E.num d)))).length = k)
    (he : (components E (some k) (E.eigC e (List.range (E.num e)))).length = k) (hk : k ≠ 0) :
    (readW E (run E (init E d (some k) true) [.solvePrimal, .data e, .readW, .solvePrimal])).1
      = .ok ⟨E.dim e, List.zipWith (fun p q => p.2.map (· * E.sqrt q.1)) (components E (some k) (E.eigC e (List.range (E.num e))))
          (components E (some k) (E.eigC d (List.range (E.num d))))⟩ := by
  have h0 : Flat (init E d (some k) true) := by simp [Flat, init, Ten.empty]
  have hne : components E (some k) (E.eigC d (List.range (E.num d))) ≠ [] := by
    intro h'; rw [h'] at h; exact hk h.symm
  have hne' : components E (some k) (E.eigC e (List.range (E.num e))) ≠ [] := by
    intro h'; rw [h'] at he; exact hk he.symm
  have hd : E.dim d ≠ 0 := by
    intro h0
    have := components_le_all E (some k) (E.eigC d (List.range (E.num d)))
    rw [hE.lenC, h0] at this
    exact hne (List.length_eq_zero_iff.1 (Nat.le_zero.1 this))
  obtain ⟨u, hu⟩ : ∃ u, u = run E (init E d (some k) true) [.solvePrimal, .data e, .readW] := ⟨_, rfl⟩
  have hf : Flat u := by rw [hu]; exact flat_run E hE _ h0 _
  have hroot : u.root = some ((components E (some k) (E.eigC d (List.range (E.num d)))).map fun p => E.sqrt p.1) ∧ u.dim = some k ∧ u.data = e
      ∧ u.sel = List.range (E.num e) := by
    rw [hu]
    simp only [run, List.foldl_cons, List.foldl_nil, step]
    rw [solvePrimal_eq E hE _ h0]
    rw [if_neg (by simpa [init] using hne)]
    unfold readW
    rw [readPrimal_of _ (E.dim d) ((components E (some k) (E.eigC d (List.range (E.num d)))).map (·.2)) rfl (by simpa using hne) hd]
    simp [init, setData, h]
  have hrun : run E (init E d (some k) true) [.solvePrimal, .data e, .readW, .solvePrimal] = (solvePrimal E u).2 := by rw [hu]; rfl
  rw [hrun, readW_solved E hE u hf (by rw [hroot.2.1, hroot.2.2.1, hroot.2.2.2]; exact hne') _ hroot.1]
  simp only [hroot.2.1, hroot.2.2.1, hroot.2.2.2, List.length_map, Option.elim_some]
  rw [if_pos (by rw [h, he])]
  congr 2
  rw [List.zipWith_map]

/-! ## Non-vacuity -/

/-- Data are lists of eigenvalues of a diagonal kernel matrix (and covariance), in descending order, one per point; values are integers. -/
def exEnv : Env (List ℕ) ℕ where
  num d := d.length
  dim d := d.length
  eigK d sel := sel.zipIdx.map fun p => (d.getD p.1 0, (List.range sel.length).map fun j => if j = p.2 then 1 else 0)
  eigC d _ := d.zipIdx.map fun p => (p.1, (List.range d.length).map fun j => if j = p.2 then 1 else 0)
  small v := v = 0
  fact _ v := v
  sqrt v := v
  dualSol _ sel := [List.replicate sel.length 1]
  noise := 7

theorem exSound : Sound exEnv := by
  refine ⟨fun d sel => by simp [exEnv], fun d sel p hp => ?_, fun d sel => by simp [exEnv], fun d sel p hp => ?_⟩
  · simp only [exEnv, List.mem_map] at hp
    obtain ⟨q, -, rfl⟩ := hp
    simp
  · simp only [exEnv, List.mem_map] at hp
    obtain ⟨q, -, rfl⟩ := hp
    simp [exEnv]

/-- Two components of three points, then on four points. -/
example : (solveDual exEnv (run exEnv (init exEnv [5, 4, 3] (some 2) true) [.solveDual, .data [9, 8, 7, 6]])).1 = .error .runtimeError :=
  (C105_resized_violated exEnv exSound _ (by decide) (by decide) (by decide) (by decide) (by decide)).1

/-- On three other points. -/
example : (solveDual exEnv (run exEnv (init exEnv [5, 4, 3] (some 2) true) [.solveDual, .data [9, 8, 7]])).1 = .ok () :=
  ((C105_again exEnv exSound _ (by decide) (by decide) (by decide) (by decide)).2 (by decide)).1

/-- On three points of which a single component is not negligible: the parameters are twice this component. -/
example : readDual (solveDual exEnv (run exEnv (init exEnv [5, 4, 3] (some 2) true) [.solveDual, .data [9, 0, 0]])).2 = .ok ⟨3, [[1, 0, 0], [1, 0, 0]]⟩ :=
  (C105_single_violated exEnv exSound _ (by decide) (by decide) (by decide) (by decide) 9 [1, 0, 0] (by decide)).2.1

/-- Three components, then two of three other points. -/
example : (solveDual exEnv (run exEnv (init exEnv [5, 4, 3] (some 3) true) [.solveDual, .data [9, 8, 0]])).1 = .error .runtimeError :=
  (C105_pruned_violated exEnv exSound _ (by decide) (by decide) (by decide) (by decide) (by decide)).1

/-- Three components asked for, one found on the first data, one on the next although there are three. -/
example : (components exEnv (setData exEnv (solveDual exEnv (init exEnv [5, 0, 0] (some 3) true)).2 [9, 8, 7]).dim (exEnv.eigK [9, 8, 7] (List.range 3))).length = 1 := by decide

/-- A LS-SVM of one output fitted on three points, then on four. -/
example : readDual (solveLSSVM exEnv (init exEnv [5, 4, 3] (some 1) true)).2 = .ok ⟨3, [[1, 1, 1]]⟩ :=
  (C105_lssvm_partial exEnv _ (by decide) 1 rfl (by decide) (by decide) rfl (by decide) (Or.inl (by decide))).2

example : (solveLSSVM exEnv (setData exEnv (solveLSSVM exEnv (init exEnv [5, 4, 3] (some 1) true)).2 [5, 4, 3, 2])).1 = .error .runtimeError := by
  rw [C105_lssvm_violated exEnv _ (by decide) (by decide) (by decide) (by decide) (by decide)]

/-- Nothing to keep. -/
example : (solvePrimal exEnv (init exEnv [0, 0] (some 2) true)).1 = .error .notInitialized :=
  (C105_nothing exEnv exSound [0, 0] (some 2) true [] _ rfl (by decide)).1

/-- Points in a cyclic order. -/
example : readDual (solveDual exEnv (select (init exEnv [5, 4, 3] (some 1) true) [1, 2, 0])).2 = .ok ⟨3, [[0, 1, 0]]⟩ := by decide

/-- A selection of two points of three. -/
example : (solveDual exEnv (select (init exEnv [5, 4, 3] (some 1) true) [1, 2])).1 = .error .indexError := by
  rw [C105_selection_violated exEnv exSound _ (by decide) (by decide) (by decide)]; decide

/-- Weights of two components, of a second fit, and the wrong ones. -/
example : (readW exEnv (run exEnv (init exEnv [5, 4, 3] (some 2) true) [.solvePrimal, .data [9, 8, 7], .solvePrimal])).1 = .ok ⟨3, [[9, 0, 0], [0, 8, 0]]⟩ := by decide

example : (readW exEnv (run exEnv (init exEnv [5, 4, 3] (some 2) true) [.solvePrimal, .data [9, 8, 7], .readW, .solvePrimal])).1 = .ok ⟨3, [[5, 0, 0], [0, 4, 0]]⟩ := by
  rw [C105_stale_violated exEnv exSound _ _ 2 (by decide) (by decide) (by decide)]; decide

example : (readW exEnv (run exEnv (init exEnv [5, 4, 3] (some 2) true) [.solvePrimal, .readW, .dim 1, .solvePrimal])).1 = .error .runtimeError :=
  C105_weights_violated exEnv exSound _ 2 1 (by decide) (by decide) (by decide)

/-- **C105** violated: after selecting fewer points (`stochastic(idx=...)`) the solution is refused, of whatever data; the error depends on the numbers selected. -/
theorem C105_select_violated (E : Env D R) (hE : Sound E) (s : St D R) (idx : List ℕ) (h1 : 1 < idx.length) (hm : idx.length < E.num s.data)
    (hd : s.dual.nelement = 0 ∨ s.dual.width = E.num s.data) :
    (solveDual E (select s idx)).1 = .error (if ∃ i ∈ idx, idx.length ≤ i then .indexError else .runtimeError) :=
  C105_selection_violated E hE (select s idx) h1 hm hd

/-- **C105** Selecting all points again makes the solution the one of the data, if nothing has been solved or another dimension was assigned. -/
theorem C105_reselect (E : Env D R) (hE : Sound E) (s : St D R) (idx : List ℕ) (k : ℕ) :
    DualOf E (components E (some k) (E.eigK s.data (List.range (E.num s.data)))) (solveDual E (setDim (select (select s idx) (List.range (E.num s.data))) k)).2 :=
  (C105_assigned E hE (select (select s idx) (List.range (E.num s.data))) rfl k).2

example := C105_dual_partial exEnv exSound (init exEnv [5, 4, 3] (some 2) true) (by decide) (Or.inl (by decide))
example := C105_assigned exEnv exSound (run exEnv (init exEnv [5, 4, 3] (some 2) true) [.solveDual, .data [9, 8, 7, 6]]) (by decide) 3
example := C105_number_violated exEnv exSound (init exEnv [5, 0, 0] (some 3) true) (by decide) (by decide) [9, 8, 7]
/-- The points selected in the order three, one, two: the single component is permuted twice. -/
example := C105_shuffled_violated exEnv exSound (select (init exEnv [0, 0, 5] (some 1) true) [2, 0, 1]) 3 rfl ((Equiv.swap 0 1).trans (Equiv.swap 1 2)) (by decide) (by decide)
  (fun i => if i = 0 then 1 else 0) 5 (by decide)
example := C105_primal exEnv exSound [5, 4, 3] (some 2) true [.solveDual] _ rfl (by decide)
example := C105_weights_partial exEnv exSound [5, 4, 3] (some 2) true [.solveDual] _ rfl (Or.inl ⟨[], [.solveDual], rfl, by simp, Or.inl rfl⟩) (by decide)
example : (solveDual exEnv (select (init exEnv [5, 4, 3] (some 2) true) [0, 2])).1 = .error .indexError := by
  rw [C105_select_violated exEnv exSound (init exEnv [5, 4, 3] (some 2) true) [0, 2] (by decide) (by decide) (Or.inl (by decide)), if_pos (by decide)]
example := C105_reselect exEnv exSound (init exEnv [5, 4, 3] (some 2) true) [0, 2] 2


end Refit
end Kerch
