import Verif.Model.MultiView
import Verif.Lemmas.Dict
import Mathlib.Data.List.SplitLengths
import Mathlib.Data.List.OfFn
import Mathlib.Tactic.Ring
import Mathlib.Tactic.Linarith
import Mathlib.Algebra.BigOperators.Fin
/-!
# C53 (multi-view features, kernels and weights), C54 (multi-view prediction)
-/
set_option linter.unusedSectionVars false
set_option linter.unusedSimpArgs false
namespace Kerch
open MView

variable {X R : Type}

/-! ## specification -/

/-- The identifier names a view: by position, possibly counted from the end, or by name. -/
def Names (V : Dict String (View X R)) : Key → View X R → Prop
  | .int i, v => ∃ (j : Nat) (s : String), V[j]? = some (s, v) ∧ (i = j ∨ i = (j : Int) - V.length)
  | .str s, v => V.find s = some v

/-- The views meant by an argument, each with its points. -/
inductive Picks (V : Dict String (View X R)) : MView.Arg X → List (View X R × List X) → Prop
  | none : Picks V .none (V.map fun e => (e.2, e.2.sample))
  | tensor (xs : List X) : Picks V (.tensor xs) (V.map fun e => (e.2, xs))
  | dict (items : List (Key × Option (List X))) (L : List (View X R × List X))
      (h : List.Forall₂ (fun it p => Names V it.1 p.1 ∧ p.2 = it.2.getD p.1.sample) items L) : Picks V (.dict items) L
  | list (ids : List Key) (L : List (View X R × List X)) (h : List.Forall₂ (fun id p => Names V id p.1 ∧ p.2 = p.1.sample) ids L) : Picks V (.list ids) L
  | str (s : String) (v : View X R) (h : V.find s = some v) : Picks V (.str s) [(v, v.sample)]

/-- Inner product of two rows. -/
def rowDot [Semiring R] (a b : List R) : R := (List.zipWith (· * ·) a b).sum

/-- An explicit view: the kernel is the inner product of the features, of which there are `dim`. -/
def ExplicitView [Semiring R] (v : View X R) : Prop := (∀ x, (v.phi x).length = v.dim) ∧ ∀ x y, v.k x y = rowDot (v.phi x) (v.phi y)

/-! ## helper lemmas -/

theorem view_of_names (V : Dict String (View X R)) (key : Key) (v : View X R) (h : Names V key v) : view V key = .ok v := by
  cases key with
  | int i =>
    obtain ⟨j, s, hj, hi⟩ := h
    have hlt : j < V.length := by
      by_contra hh
      rw [List.getElem?_eq_none (by omega)] at hj
      simp at hj
    unfold view
    simp only
    rcases hi with rfl | rfl
    · have h1 : ¬ ((j : Int) < 0) := by omega
      rw [if_neg h1, if_pos (by omega)]
      simp [hj]
    · have h1 : ((j : Int) - (V.length : Int) < 0) := by omega
      rw [if_pos h1, if_pos (by omega)]
      have : ((j : Int) - V.length + V.length).toNat = j := by omega
      rw [this, hj]
  | str s =>
    unfold view
    simp only
    rw [show V.find s = some v from h]

theorem collect_ok {α β γ : Type} (f : α → Except Err β) (g : γ → β) (as : List α) (L : List γ)
    (h : List.Forall₂ (fun a p => f a = .ok (g p)) as L) : collect (as.map f) = .ok (L.map g) := by
  induction h with
  | nil => rfl
  | cons h1 _ ih =>
    rw [List.map_cons, h1, collect, ih]
    rfl

theorem phis_picks (V : Dict String (View X R)) (a : MView.Arg X) (L : List (View X R × List X)) (h : Picks V a L) :
    phis V a = .ok (L.map fun p => p.2.map p.1.phi) := by
  cases h with
  | none => simp [phis, View.phiMat]
  | tensor xs => simp [phis, View.phiMat]
  | dict items L h =>
    apply collect_ok
    refine h.imp ?_
    rintro it p ⟨h1, h2⟩
    rw [view_of_names V _ _ h1, h2]
    rfl
  | list ids L h =>
    apply collect_ok
    refine h.imp ?_
    rintro id p ⟨h1, h2⟩
    rw [view_of_names V _ _ h1, h2]
    rfl
  | str s v h =>
    simp only [phis]
    rw [view_of_names V (.str s) v h]
    rfl

theorem ks_picks (V : Dict String (View X R)) (a : MView.Arg X) (L : List (View X R × List X)) (h : Picks V a L) (hn : a ≠ .none) :
    ks V a = .ok (L.map fun p => p.2.map fun x => p.1.sample.map (p.1.k x)) := by
  cases h with
  | none => exact absurd rfl hn
  | tensor xs => simp [ks, View.kMat]
  | dict items L h =>
    apply collect_ok
    refine h.imp ?_
    rintro it p ⟨h1, h2⟩
    rw [view_of_names V _ _ h1, h2]
    rfl
  | list ids L h =>
    apply collect_ok
    refine h.imp ?_
    rintro id p ⟨h1, h2⟩
    rw [view_of_names V _ _ h1, h2]
    rfl
  | str s v h =>
    simp only [ks]
    rw [view_of_names V (.str s) v h]
    rfl

theorem hcat_spec {n : Nat} (ms : List (List (List R))) (hne : ms ≠ []) (hl : ∀ m ∈ ms, m.length = n) :
    ∃ M, hcat ms = .ok M ∧ M.length = n ∧ ∀ i, i < n → M[i]? = some (ms.flatMap fun m => m[i]?.getD []) := by
  induction ms with
  | nil => exact absurd rfl hne
  | cons m t ih =>
    have hm := hl m (by simp)
    cases t with
    | nil =>
      refine ⟨m, rfl, hm, ?_⟩
      intro i hi
      rw [List.getElem?_eq_getElem (by omega)]
      simp [List.getElem?_eq_getElem (show i < m.length by omega)]
    | cons m' t' =>
      obtain ⟨M, h1, h2, h3⟩ := ih (by simp) (fun x hx => hl x (by simp [hx]))
      refine ⟨m.zipWith (· ++ ·) M, ?_, ?_, ?_⟩
      · rw [hcat, h1]
        simp only
        rw [if_pos (by omega)]
      · simp [hm, h2]
      · intro i hi
        rw [List.getElem?_zipWith, h3 i hi, List.getElem?_eq_getElem (show i < m.length by omega)]
        simp [List.getElem?_eq_getElem (show i < m.length by omega)]

theorem hcat_mismatch (m : List (List R)) (t : List (List (List R))) (M : List (List R)) (h : hcat t = .ok M) (hne : m.length ≠ M.length) :
    hcat (m :: t) = .error .runtimeError := by
  cases t with
  | nil => simp [hcat] at h
  | cons m' t' =>
    rw [hcat, h]
    simp only
    rw [if_neg hne]

theorem sumFrom_spec {n s : Nat} [AddCommMonoid R] (ms : List (List (List R))) (acc : List (List R)) (ha : acc.length = n)
    (hac : ∀ r ∈ acc, r.length = s) (hl : ∀ m ∈ ms, m.length = n ∧ ∀ r ∈ m, r.length = s) :
    ∃ M, sumFrom acc ms = .ok M ∧ M.length = n ∧ ∀ i j, i < n → j < s →
      ∃ r, M[i]? = some r ∧ r.length = s ∧
        r[j]? = some (((acc :: ms).map fun m => ((m[i]?.getD [])[j]?.getD 0)).sum) := by
  induction ms generalizing acc with
  | nil =>
    refine ⟨acc, rfl, ha, ?_⟩
    intro i j hi hj
    have h1 : i < acc.length := by omega
    have h2 := hac acc[i] (List.getElem_mem h1)
    refine ⟨acc[i], List.getElem?_eq_getElem h1, h2, ?_⟩
    simp [List.getElem?_eq_getElem h1, List.getElem?_eq_getElem (show j < acc[i].length by omega)]
  | cons m t ih =>
    obtain ⟨hm1, hm2⟩ := hl m (by simp)
    have hadd : addB acc m = .ok (acc.zipWith (List.zipWith (· + ·)) m) := by
      unfold addB
      rw [if_pos (by omega)]
    have hlen : (acc.zipWith (List.zipWith (· + ·)) m).length = n := by simp [ha, hm1]
    have hrows : ∀ r ∈ acc.zipWith (List.zipWith (· + ·)) m, r.length = s := by
      intro r hr
      obtain ⟨i, hi, rfl⟩ := List.mem_iff_getElem.mp hr
      rw [List.getElem_zipWith, List.length_zipWith]
      have h1 : i < acc.length := by simp at hi; omega
      have h2 : i < m.length := by simp at hi; omega
      rw [hac _ (List.getElem_mem h1), hm2 _ (List.getElem_mem h2), Nat.min_self]
    obtain ⟨M, h1, h2, h3⟩ := ih (acc.zipWith (List.zipWith (· + ·)) m) hlen hrows (fun x hx => hl x (by simp [hx]))
    refine ⟨M, ?_, h2, ?_⟩
    · rw [sumFrom, hadd]
      exact h1
    · intro i j hi hj
      obtain ⟨r, k1, k2, k3⟩ := h3 i j hi hj
      refine ⟨r, k1, k2, ?_⟩
      rw [k3]
      have e1 : i < acc.length := by omega
      have e2 : i < m.length := by omega
      have e3 : j < acc[i].length := by rw [hac _ (List.getElem_mem e1)]; exact hj
      have e4 : j < m[i].length := by rw [hm2 _ (List.getElem_mem e2)]; exact hj
      simp only [List.map_cons, List.sum_cons, List.getElem?_zipWith, List.getElem?_eq_getElem e1, List.getElem?_eq_getElem e2, Option.getD_some,
        List.getElem?_eq_getElem e3, List.getElem?_eq_getElem e4, Option.map₂_some_some]
      rw [add_assoc]

theorem rowDot_append [Semiring R] (a b c d : List R) (h : a.length = b.length) : rowDot (a ++ c) (b ++ d) = rowDot a b + rowDot c d := by
  unfold rowDot
  rw [List.zipWith_append h, List.sum_append]

theorem rowDot_flatMap [Semiring R] {β : Type} (L : List β) (f g : β → List R) (h : ∀ b ∈ L, (f b).length = (g b).length) :
    rowDot (L.flatMap f) (L.flatMap g) = (L.map fun b => rowDot (f b) (g b)).sum := by
  induction L with
  | nil => rfl
  | cons b t ih =>
    rw [List.flatMap_cons, List.flatMap_cons, rowDot_append _ _ _ _ (h b (by simp)), ih (fun b hb => h b (by simp [hb])), List.map_cons, List.sum_cons]

theorem cumsum_getElem (ds : List Nat) (acc i : Nat) : (cumsum acc ds)[i]? = if i < ds.length then some (acc + (ds.take (i + 1)).sum) else none := by
  induction ds generalizing acc i with
  | nil => simp [cumsum]
  | cons d t ih =>
    cases i with
    | zero => simp [cumsum]
    | succ i =>
      simp only [cumsum, List.getElem?_cons_succ, ih, List.length_cons, List.take_succ_cons, List.sum_cons]
      by_cases h : i < t.length
      · rw [if_pos h, if_pos (by omega)]
        congr 1
        omega
      · rw [if_neg h, if_neg (by omega)]

theorem splitLengths_getElem {α : Type} (ds : List Nat) (W : List α) (i : Nat) (hi : i < ds.length) :
    (ds.splitLengths W)[i]? = some ((W.drop (ds.take i).sum).take ds[i]) := by
  induction ds generalizing W i with
  | nil => simp at hi
  | cons d t ih =>
    cases i with
    | zero => simp
    | succ i =>
      rw [List.splitLengths_cons, List.getElem?_cons_succ, ih (W.drop d) i (by simpa using hi)]
      simp [List.drop_drop]

theorem weightFromView_spec {α : Type} (V : Dict String (View X R)) (W : List α) (i : Nat) :
    weightFromView V W i = match ((dims V).splitLengths W)[i]? with
      | some B => .ok B
      | none => .error .indexError := by
  unfold weightFromView
  simp only
  have hl : (dims V).length = V.length := by simp [dims]
  by_cases hi : i < (dims V).length
  · rw [splitLengths_getElem _ _ _ hi]
    have hs : ((dims V).take (i + 1)).sum = ((dims V).take i).sum + (dims V)[i] := List.sum_take_succ _ _ hi
    by_cases h0 : i = 0
    · subst h0
      rw [if_pos rfl, cumsum_getElem, if_pos hi]
      simp [rows, hs]
    · rw [if_neg h0, cumsum_getElem, cumsum_getElem, if_pos (by omega), if_pos hi]
      simp only [rows, Nat.zero_add]
      rw [show i - 1 + 1 = i by omega, hs]
      congr 2
      omega
  · rw [List.getElem?_eq_none (l := (dims V).splitLengths W) (by rw [List.length_splitLengths]; omega)]
    by_cases h0 : i = 0
    · subst h0
      rw [if_pos rfl, cumsum_getElem, if_neg hi]
    · rw [if_neg h0, cumsum_getElem, cumsum_getElem, if_neg hi]
      cases (if i - 1 < (dims V).length then some (0 + ((dims V).take (i - 1 + 1)).sum) else none) <;> rfl

theorem rowMul_append {m : Type} [Semiring R] (a b : List R) (A B : List (m → R)) (h : a.length = A.length) :
    rowMul (a ++ b) (A ++ B) = rowMul a A + rowMul b B := by
  unfold rowMul
  rw [List.zipWith_append h, List.sum_append]

/-! ## C53 -/

/-- **C53**, features: for every argument, the row of each point is the concatenation of the features of the views meant, in their order. -/
theorem C53_phi (V : Dict String (View X R)) (a : MView.Arg X) (L : List (View X R × List X)) (h : Picks V a L) (hne : L ≠ []) (n : Nat)
    (hn : ∀ p ∈ L, p.2.length = n) :
    ∃ M, phi V a = .ok M ∧ M.length = n ∧ ∀ i (hi : i < n), M[i]? = some (L.attach.flatMap fun p => p.1.1.phi (p.1.2[i]'(by rw [hn p.1 p.2]; exact hi))) := by
  obtain ⟨M, h1, h2, h3⟩ := hcat_spec (n := n) (L.map fun p => p.2.map p.1.phi) (by simpa using hne) (by
    intro m hm
    obtain ⟨p, hp, rfl⟩ := List.mem_map.mp hm
    rw [List.length_map, hn p hp])
  refine ⟨M, ?_, h2, ?_⟩
  · unfold phi
    rw [phis_picks V a L h]
    exact h1
  · intro i hi
    rw [h3 i hi, List.flatMap_map]
    congr 1
    conv_lhs => rw [← List.attach_map_subtype_val L]
    rw [List.flatMap_map]
    congr 1
    funext p
    have : i < p.1.2.length := by rw [hn p.1 p.2]; exact hi
    simp [List.getElem?_eq_getElem this]

/-- **C53**, kernels: for every argument but `None`, the entry of each point and sample point is the sum of the kernels of the views meant. -/
theorem C53_k_partial [AddCommMonoid R] (V : Dict String (View X R)) (a : MView.Arg X) (ha : a ≠ .none) (L : List (View X R × List X)) (h : Picks V a L)
    (hne : L ≠ []) (n s : Nat) (hn : ∀ p ∈ L, p.2.length = n) (hs : ∀ p ∈ L, p.1.sample.length = s) :
    ∃ M, MView.k V a = .ok M ∧ M.length = n ∧ ∀ i (hi : i < n) j (hj : j < s), ∃ r, M[i]? = some r ∧ r.length = s ∧
      r[j]? = some ((L.attach.map fun p => p.1.1.k (p.1.2[i]'(by rw [hn p.1 p.2]; exact hi)) (p.1.1.sample[j]'(by rw [hs p.1 p.2]; exact hj))).sum) := by
  obtain ⟨p0, t, rfl⟩ := List.exists_cons_of_ne_nil hne
  have hlen : ∀ p ∈ p0 :: t, (p.2.map fun x => p.1.sample.map (p.1.k x)).length = n ∧
      ∀ r ∈ p.2.map (fun x => p.1.sample.map (p.1.k x)), r.length = s := by
    intro p hp
    refine ⟨by rw [List.length_map, hn p hp], ?_⟩
    intro r hr
    obtain ⟨x, _, rfl⟩ := List.mem_map.mp hr
    rw [List.length_map, hs p hp]
  obtain ⟨M, h1, h2, h3⟩ := sumFrom_spec (n := n) (s := s) (t.map fun p => p.2.map fun x => p.1.sample.map (p.1.k x))
    (p0.2.map fun x => p0.1.sample.map (p0.1.k x)) (hlen p0 (by simp)).1 (hlen p0 (by simp)).2 (by
      intro m hm
      obtain ⟨p, hp, rfl⟩ := List.mem_map.mp hm
      exact hlen p (by simp [hp]))
  refine ⟨M, ?_, h2, ?_⟩
  · unfold MView.k
    rw [ks_picks V a _ h ha]
    exact h1
  · intro i hi j hj
    obtain ⟨r, k1, k2, k3⟩ := h3 i j hi hj
    refine ⟨r, k1, k2, ?_⟩
    rw [k3]
    congr 2
    rw [← List.map_cons (f := fun p : View X R × List X => p.2.map fun x => p.1.sample.map (p.1.k x)), List.map_map]
    conv_lhs => rw [← List.attach_map_subtype_val (p0 :: t)]
    rw [List.map_map]
    congr 1
    funext p
    have e1 : i < p.1.2.length := by rw [hn p.1 p.2]; exact hi
    have e2 : j < p.1.1.sample.length := by rw [hs p.1 p.2]; exact hj
    simp [List.getElem?_eq_getElem e1, List.getElem?_eq_getElem e2]

/-- The kernel matrix of the sample is the one on all views' own samples. -/
theorem C53_K [AddCommMonoid R] (V : Dict String (View X R)) (hne : V ≠ []) (s : Nat) (hs : ∀ e ∈ V, e.2.sample.length = s) :
    ∃ M, MView.K V = .ok M ∧ M.length = s ∧ ∀ i (hi : i < s) j (hj : j < s), ∃ r, M[i]? = some r ∧ r.length = s ∧
      r[j]? = some ((V.attach.map fun e => e.1.2.k (e.1.2.sample[i]'(by rw [hs e.1 e.2]; exact hi)) (e.1.2.sample[j]'(by rw [hs e.1 e.2]; exact hj))).sum) := by
  obtain ⟨e0, t, rfl⟩ := List.exists_cons_of_ne_nil hne
  have hlen : ∀ e ∈ e0 :: t, (e.2.kMat none).length = s ∧ ∀ r ∈ e.2.kMat none, r.length = s := by
    intro e he
    refine ⟨by simp [View.kMat, hs e he], ?_⟩
    intro r hr
    obtain ⟨x, _, rfl⟩ := List.mem_map.mp hr
    rw [List.length_map, hs e he]
  obtain ⟨M, h1, h2, h3⟩ := sumFrom_spec (n := s) (s := s) (t.map fun e => e.2.kMat none) (e0.2.kMat none) (hlen e0 (by simp)).1 (hlen e0 (by simp)).2 (by
      intro m hm
      obtain ⟨p, hp, rfl⟩ := List.mem_map.mp hm
      exact hlen p (by simp [hp]))
  refine ⟨M, h1, h2, ?_⟩
  intro i hi j hj
  obtain ⟨r, k1, k2, k3⟩ := h3 i j hi hj
  refine ⟨r, k1, k2, ?_⟩
  rw [k3]
  congr 2
  rw [← List.map_cons (f := fun e : String × View X R => e.2.kMat none), List.map_map]
  conv_lhs => rw [← List.attach_map_subtype_val (e0 :: t)]
  rw [List.map_map]
  congr 1
  funext p
  have e1 : i < p.1.2.sample.length := by rw [hs p.1 p.2]; exact hi
  have e2 : j < p.1.2.sample.length := by rw [hs p.1 p.2]; exact hj
  simp [View.kMat, List.getElem?_eq_getElem e1, List.getElem?_eq_getElem e2]

/-- **C53**, consistency: with explicit views, the multi-view kernel matrix of the sample is the inner product of the multi-view features of the sample. -/
theorem C53_consistent [CommSemiring R] (V : Dict String (View X R)) (hne : V ≠ []) (he : ∀ e ∈ V, ExplicitView e.2) (s : Nat)
    (hs : ∀ e ∈ V, e.2.sample.length = s) :
    ∃ M P, MView.K V = .ok M ∧ phi V .none = .ok P ∧ M.length = s ∧ P.length = s ∧
      ∀ i j, i < s → j < s → ∃ r a b, M[i]? = some r ∧ P[i]? = some a ∧ P[j]? = some b ∧ r[j]? = some (rowDot a b) := by
  obtain ⟨M, m1, m2, m3⟩ := C53_K V hne s hs
  obtain ⟨P, p1, p2, p3⟩ := C53_phi V .none _ Picks.none (by simpa using hne) s (by
    intro p hp
    obtain ⟨e, he, rfl⟩ := List.mem_map.mp hp
    exact hs e he)
  refine ⟨M, P, m1, p1, m2, p2, ?_⟩
  intro i j hi hj
  obtain ⟨r, r1, r2, r3⟩ := m3 i hi j hj
  refine ⟨r, _, _, r1, p3 i hi, p3 j hj, ?_⟩
  rw [r3]
  congr 1
  rw [rowDot_flatMap _ _ _ (by
    rintro ⟨p, hp⟩ -
    obtain ⟨e, hee, rfl⟩ := List.mem_map.mp hp
    rw [(he e hee).1, (he e hee).1])]
  have key : ∀ (L : List (View X R × List X)) (hL : ∀ p ∈ L, p.2.length = s) (W : List (String × View X R))
      (hW : ∀ e ∈ W, e.2.sample.length = s) (heW : ∀ e ∈ W, ExplicitView e.2) (hLW : L = W.map fun e => (e.2, e.2.sample)),
      (W.attach.map fun e => e.1.2.k (e.1.2.sample[i]'(by rw [hW e.1 e.2]; exact hi)) (e.1.2.sample[j]'(by rw [hW e.1 e.2]; exact hj))).sum =
      (L.attach.map fun p => rowDot (p.1.1.phi (p.1.2[i]'(by rw [hL p.1 p.2]; exact hi))) (p.1.1.phi (p.1.2[j]'(by rw [hL p.1 p.2]; exact hj)))).sum := by
    intro L hL W hW heW hLW
    have e1 : (W.attach.map fun e => e.1.2.k (e.1.2.sample[i]'(by rw [hW e.1 e.2]; exact hi)) (e.1.2.sample[j]'(by rw [hW e.1 e.2]; exact hj))) =
        W.map fun e => ((e.2.sample[i]?.bind fun x => e.2.sample[j]?.map fun y => rowDot (e.2.phi x) (e.2.phi y)).getD 0) := by
      conv_rhs => rw [← List.attach_map_subtype_val W]
      rw [List.map_map]
      apply List.map_congr_left
      intro e _
      have f1 : i < e.1.2.sample.length := by rw [hW e.1 e.2]; exact hi
      have f2 : j < e.1.2.sample.length := by rw [hW e.1 e.2]; exact hj
      simp [List.getElem?_eq_getElem f1, List.getElem?_eq_getElem f2, (heW e.1 e.2).2]
    have e2 : (L.attach.map fun p => rowDot (p.1.1.phi (p.1.2[i]'(by rw [hL p.1 p.2]; exact hi))) (p.1.1.phi (p.1.2[j]'(by rw [hL p.1 p.2]; exact hj)))) =
        L.map fun p => ((p.2[i]?.bind fun x => p.2[j]?.map fun y => rowDot (p.1.phi x) (p.1.phi y)).getD 0) := by
      conv_rhs => rw [← List.attach_map_subtype_val L]
      rw [List.map_map]
      apply List.map_congr_left
      intro p _
      have f1 : i < p.1.2.length := by rw [hL p.1 p.2]; exact hi
      have f2 : j < p.1.2.length := by rw [hL p.1 p.2]; exact hj
      simp [List.getElem?_eq_getElem f1, List.getElem?_eq_getElem f2]
    rw [e1, e2, hLW, List.map_map]
    rfl
  exact key _ (by
    intro p hp
    obtain ⟨e, he, rfl⟩ := List.mem_map.mp hp
    exact hs e he) V hs he rfl

/-- C53 fails without argument: the features of the sample are given, the kernel matrix is refused, whatever the views. -/
theorem C53_none_violated [AddCommMonoid R] (V : Dict String (View X R)) (hne : V ≠ []) (s : Nat) (hs : ∀ e ∈ V, e.2.sample.length = s) :
    (∃ P, phi V .none = .ok P) ∧ MView.k V .none = .error .notImplemented := by
  obtain ⟨P, p1, _⟩ := C53_phi V .none _ Picks.none (by simpa using hne) s (by
    intro p hp
    obtain ⟨e, he, rfl⟩ := List.mem_map.mp hp
    exact hs e he)
  exact ⟨⟨P, p1⟩, rfl⟩

/-- C53 fails for different numbers of points: the features are refused, the kernels silently added by repeating the single point. -/
theorem C53_sizes_violated [AddCommMonoid R] (V : Dict String (View X R)) (a b : String) (va vb : View X R) (ha : V.find a = some va)
    (hb : V.find b = some vb) (x : X) (ys : List X) (hy : ys.length ≠ 1) :
    phi V (.dict [(.str a, some [x]), (.str b, some ys)]) = .error .runtimeError ∧
    MView.k V (.dict [(.str a, some [x]), (.str b, some ys)]) =
      .ok (ys.map fun y => List.zipWith (· + ·) (va.sample.map (va.k x)) (vb.sample.map (vb.k y))) := by
  have hp : Picks V (.dict [(.str a, some [x]), (.str b, some ys)]) [(va, [x]), (vb, ys)] := by
    apply Picks.dict
    exact .cons ⟨ha, rfl⟩ (.cons ⟨hb, rfl⟩ .nil)
  constructor
  · unfold phi
    rw [phis_picks V _ _ hp]
    simp only [List.map_cons, List.map_nil]
    exact hcat_mismatch _ _ (ys.map vb.phi) rfl (by simp; omega)
  · unfold MView.k
    rw [ks_picks V _ _ hp (by simp)]
    simp only [List.map_cons, List.map_nil, sumFrom, addB, List.length_map, List.length_cons, List.length_nil]
    rw [if_neg (by omega)]
    simp [List.map_map, Function.comp_def]

/-- **C53**, weights: the blocks of the views partition the rows of the weights in the order of the views, for every list of views and weights of the right
size. -/
theorem C53_weights {α : Type} (V : Dict String (View X R)) (W : List α) (hW : W.length = dimFeature V) :
    ∃ blocks : List (List α), blocks.map List.length = V.map (fun e => e.2.dim) ∧ blocks.flatten = W ∧
      (∀ i B, blocks[i]? = some B → weightFromView V W i = .ok B) ∧ ∀ i, V.length ≤ i → weightFromView V W i = .error .indexError := by
  refine ⟨(dims V).splitLengths W, List.map_splitLengths_length W (dims V) (Nat.le_of_eq hW.symm),
    List.flatten_splitLengths W (dims V) (Nat.le_of_eq hW), ?_, ?_⟩
  · intro i B hB
    rw [weightFromView_spec, hB]
  · intro i hi
    rw [weightFromView_spec, List.getElem?_eq_none (by rw [List.length_splitLengths]; simpa [dims] using hi)]

/-- **C53**, outputs: the primal output of the multi-view is the sum of the views' outputs with their own blocks. -/
theorem C53_forward {m : Type} [Semiring R] (V : Dict String (View X R)) (hd : ∀ e ∈ V, ∀ x, (e.2.phi x).length = e.2.dim) (x : X) (W : List (m → R))
    (hW : W.length = dimFeature V) :
    ∃ blocks : List (List (m → R)), (∀ i, i < V.length → ∃ B, blocks[i]? = some B ∧ weightFromView V W i = .ok B) ∧
      rowMul (V.flatMap fun e => e.2.phi x) W = (List.zipWith (fun e B => rowMul (e.2.phi x) B) V blocks).sum := by
  obtain ⟨blocks, h1, h2, h3, h4⟩ := C53_weights V W hW
  have hlen : blocks.length = V.length := by simpa using congrArg List.length h1
  refine ⟨blocks, ?_, ?_⟩
  · intro i hi
    have : i < blocks.length := by omega
    exact ⟨blocks[i], List.getElem?_eq_getElem this, h3 i _ (List.getElem?_eq_getElem this)⟩
  · rw [← h2]
    clear h2 h3 h4 hW hlen
    induction V generalizing blocks with
    | nil =>
      cases blocks with
      | nil => rfl
      | cons => simp at h1
    | cons e t ih =>
      cases blocks with
      | nil => simp at h1
      | cons B bs =>
        simp only [List.map_cons, List.cons.injEq] at h1
        rw [List.flatMap_cons, List.flatten_cons, rowMul_append _ _ _ _ (by rw [hd e (by simp), h1.1]),
          ih (fun e he => hd e (by simp [he])) bs h1.2, List.zipWith_cons_cons, List.sum_cons]

/-- C53 fails on the code as it is: no multi-view can be constructed, and nothing can be attached to one, whatever the arguments. -/
theorem C53_construct_violated (views : List (View X R)) (dimOut : Option Nat) (V : Dict String (View X R)) (a : Att X R) :
    construct views = .error .nameError ∧ (attach dimOut V a).2 = V ∧ ((∀ v, a = .view v → (attach dimOut V a).1 ≠ .ok ()) ∧
      ∀ m, a = .dict m → (attach dimOut V a).1 ≠ .ok ()) := by
  refine ⟨rfl, by cases a <;> rfl, ?_, ?_⟩
  · rintro v rfl
    simp [attach]
  · rintro v rfl
    simp [attach]

/-! ## C54 -/

theorem checkKnown_spec (known : String → Option (Option Nat)) (names : List String) (n0 : Option Nat) (p0 : List String) (n : Nat) (p : List String)
    (h : checkKnown known names n0 p0 = .ok (n, p)) :
    p = p0 ++ names.filter (fun k => known k = none) ∧ (∀ k ∈ names, ∀ c, known k = some (some c) → c = n) ∧ (∀ m, n0 = some m → m = n) := by
  induction names generalizing n0 p0 with
  | nil =>
    cases n0 with
    | none => simp [checkKnown] at h
    | some m =>
      simp only [checkKnown, Except.ok.injEq, Prod.mk.injEq] at h
      refine ⟨by simp [h.2], by simp, ?_⟩
      intro m' hm'
      cases hm'
      exact h.1
  | cons k t ih =>
    rw [checkKnown] at h
    cases hk : known k with
    | none =>
      rw [hk] at h
      obtain ⟨h1, h2, h3⟩ := ih _ _ h
      refine ⟨by rw [h1, List.filter_cons_of_pos (by simp [hk])]; simp, ?_, h3⟩
      intro k' hk' c hc
      rcases List.mem_cons.mp hk' with rfl | hk'
      · rw [hk] at hc; simp at hc
      · exact h2 k' hk' c hc
    | some o =>
      cases o with
      | none =>
        rw [hk] at h
        obtain ⟨h1, h2, h3⟩ := ih _ _ h
        refine ⟨by rw [h1, List.filter_cons_of_neg (by simp [hk])], ?_, h3⟩
        intro k' hk' c hc
        rcases List.mem_cons.mp hk' with rfl | hk'
        · rw [hk] at hc; simp at hc
        · exact h2 k' hk' c hc
      | some c0 =>
        rw [hk] at h
        simp only at h
        cases n0 with
        | none =>
          obtain ⟨h1, h2, h3⟩ := ih _ _ h
          refine ⟨by rw [h1, List.filter_cons_of_neg (by simp [hk])], ?_, by simp⟩
          intro k' hk' c hc
          rcases List.mem_cons.mp hk' with rfl | hk'
          · rw [hk] at hc
            cases hc
            exact h3 _ rfl
          · exact h2 k' hk' c hc
        | some m =>
          simp only at h
          by_cases hm : m = c0
          · rw [if_pos hm] at h
            obtain ⟨h1, h2, h3⟩ := ih _ _ h
            refine ⟨by rw [h1, List.filter_cons_of_neg (by simp [hk])], ?_, h3⟩
            intro k' hk' c hc
            rcases List.mem_cons.mp hk' with rfl | hk'
            · rw [hk] at hc
              cases hc
              rw [← hm]
              exact h3 m rfl
            · exact h2 k' hk' c hc
          · rw [if_neg hm] at h; simp at h

/-- **C54**, what is predicted: if the inputs are accepted, the views predicted are exactly those not given, in the order of the views, and all the given ones
have the same number of points. -/
theorem C54_requested (known : String → Option (Option Nat)) (names : List String) (n : Nat) (p : List String)
    (h : checkKnown known names none [] = .ok (n, p)) :
    p = names.filter (fun k => known k = none) ∧ ∀ k ∈ names, ∀ c, known k = some (some c) → c = n := by
  obtain ⟨h1, h2, _⟩ := checkKnown_spec known names none [] n p h
  exact ⟨by simpa using h1, h2⟩

/-- **C54**, projections: with weights derived from the dual parameters (`W = Φᵀ H` on the known and on the predicted views), the kernel image predicted in the
dual representation is the one of the features predicted in the primal one, for every input. -/
theorem C54_project {q a b n s : Type} [Fintype a] [Fintype b] [Fintype n] [Fintype s] [DecidableEq s] (vals : s → ℝ) (φk : Matrix q a ℝ)
    (Φk : Matrix n a ℝ) (Φp : Matrix n b ℝ) (H : Matrix n s ℝ) :
    projectPrimal vals φk (Φk.transpose * H) (Φp.transpose * H) * Φp.transpose =
      projectDual vals (φk * Φk.transpose) H (Φp * Φp.transpose) := by
  unfold projectPrimal projectDual
  have : (Φp.transpose * H).transpose * (Φp.transpose * H) = H.transpose * (Φp * Φp.transpose) * H := by
    rw [Matrix.transpose_mul, Matrix.transpose_transpose]
    simp only [Matrix.mul_assoc]
  rw [this, Matrix.transpose_mul, Matrix.transpose_transpose]
  simp only [Matrix.mul_assoc]

/-- C54 holds for the first predicted view in the primal representation: it gets its own columns. -/
theorem C54_first_partial (row : List R) (d : Nat) (ds : List Nat) :
    (slices row 0 (d :: ds))[0]? = ((d :: ds).splitLengths row)[0]? := by
  simp [slices, rows]

theorem slices_getElem (row : List R) (dim i : Nat) (ds : List Nat) (hi : i < ds.length) :
    (slices row dim ds)[i]? = some (rows row ((dim :: ds)[i]'(by simp; omega)) ds[i]) := by
  induction ds generalizing dim i with
  | nil => simp at hi
  | cons d t ih =>
    cases i with
    | zero => simp [slices]
    | succ i => simpa [slices] using ih d i (by simpa using hi)

/-- C54 fails for every further predicted view following one with features: it gets fewer columns than it has features. -/
theorem C54_block_violated (row : List R) (ds : List Nat) (hrow : row.length = ds.sum) (i : Nat) (hi : i + 1 < ds.length) (hpos : 0 < ds[i])
    (hpos' : 0 < ds[i + 1]) :
    ∃ b own, (slices row 0 ds)[i + 1]? = some b ∧ (ds.splitLengths row)[i + 1]? = some own ∧ own.length = ds[i + 1] ∧ b.length < ds[i + 1] ∧ b ≠ own := by
  have hlen : ((ds.splitLengths row)[i + 1]'(by rw [List.length_splitLengths]; exact hi)).length = ds[i + 1] :=
    List.splitLengths_length_getElem row ds (Nat.le_of_eq hrow.symm) (i + 1) _
  refine ⟨_, _, slices_getElem row 0 (i + 1) ds hi, List.getElem?_eq_getElem (by rw [List.length_splitLengths]; exact hi), hlen, ?_, ?_⟩
  · simp [rows]
    omega
  · intro h
    have := congrArg List.length h
    rw [hlen] at this
    simp [rows] at this
    omega

/-- C54 fails with the default method, in both representations: no view is ever predicted, the number of neighbours being passed as the name of a method. -/
theorem C54_smoother_violated (knn : Nat) (pre : List (List R) → Except Err (List X)) (d : Nat) (viewPhi prod transform : List (List R)) :
    (∀ xs, predictPrimal1 .smoother knn pre d viewPhi prod ≠ .ok xs) ∧ ∀ xs : List X, predictDual1 .smoother knn transform ≠ .ok xs := by
  constructor
  · intro xs
    unfold predictPrimal1
    simp only
    split <;> simp [implicitPreimage]
  · intro xs
    simp [predictDual1, implicitPreimage]

/-! ## non-vacuity -/

/-- Two explicit views on integers. -/
def exViews : Dict String (View Int Int) :=
  [("0", ⟨1, fun x => [x], fun x y => x * y, [1, 2]⟩), ("1", ⟨2, fun x => [x, x * x], fun x y => x * y + (x * x) * (y * y), [3, 4]⟩)]

example : MView.phi exViews .none = .ok [[1, 3, 9], [2, 4, 16]] := by rfl
example : MView.K exViews = .ok [[1 + 9 + 81, 2 + 12 + 144], [2 + 12 + 144, 4 + 16 + 256]] := by rfl
example : ∀ e ∈ exViews, ExplicitView e.2 := by
  intro e he
  simp only [exViews, List.mem_cons, List.not_mem_nil, or_false] at he
  rcases he with rfl | rfl
  · exact ⟨fun _ => rfl, fun x y => by simp [rowDot]⟩
  · exact ⟨fun _ => rfl, fun x y => by simp [rowDot]⟩
example : weightFromView exViews ["a", "b", "c"] 1 = .ok ["b", "c"] := by rfl
example : Picks exViews (.list [.int (-1), .str "0"]) [(exViews[1].2, [3, 4]), (exViews[0].2, [1, 2])] := by
  apply Picks.list
  exact .cons ⟨⟨1, "1", rfl, Or.inr rfl⟩, rfl⟩ (.cons ⟨rfl, rfl⟩ .nil)
example : checkKnown (fun k => if k = "a" then some (some 3) else none) ["b", "a", "c"] none [] = .ok (3, ["b", "c"]) := by rfl
example : slices [1, 2, 3, 4, 5] 0 [2, 3] = [[1, 2], [3]] := by rfl

end Kerch
