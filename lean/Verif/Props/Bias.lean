import Verif.Model.Bias
import Mathlib.Tactic.Common
/-!
# C100: the bias of a view is the one last given and enters its output
-/
set_option linter.unusedSectionVars false
set_option linter.unusedSimpArgs false
namespace Kerch
namespace Bias

open Cast (Tensor Arg Nest)

variable {α : Type}

/-! ## Specification -/

/-- `v` is a bias for `d` outputs, namely the vector `l`: a scalar stands for `d` equal entries. -/
inductive Fits (conv : α → α) (d : Nat) : Arg α → List α → Prop
  | scalar (x : α) : Fits conv d (.other (.leaf x)) (List.replicate d (conv x))
  | scalarTensor (x : α) : Fits conv d (.tensor ⟨[], [x]⟩) (List.replicate d (conv x))
  | vector (l : List α) (h : l.length = d) : Fits conv d (.tensor ⟨[d], l⟩) (l.map conv)

/-- No operation of the history asks for a bias. -/
def NeverRequired (ops : List (Op α)) : Prop := ∀ op ∈ ops, op ≠ .setRequires true

/-! ## Helper lemmas -/

theorem flatten_replicate_single (d : Nat) (x : α) : (List.replicate d [x]).flatten = List.replicate d x := by
  induction d with
  | zero => rfl
  | succ d ih => simp [List.replicate_succ, ih]

/-- What is stored for a value that fits. -/
theorem shaped_of_fits (conv : α → α) (d : Nat) (hd : 0 < d) (v : Arg α) (l : List α) (h : Fits conv d v l) :
    ∃ t, Cast.castf conv v = .ok (some t) ∧ shaped (some d) (Cast.squeeze t) = .ok ⟨[d], l⟩ := by
  cases h with
  | scalar x =>
    refine ⟨⟨[1, 1], [conv x]⟩, rfl, ?_⟩
    simp [shaped, Cast.squeeze, flatten_replicate_single]
  | scalarTensor x =>
    refine ⟨⟨[1, 1], [conv x]⟩, rfl, ?_⟩
    simp [shaped, Cast.squeeze, flatten_replicate_single]
  | vector l h =>
    refine ⟨⟨[d, 1], l.map conv⟩, rfl, ?_⟩
    by_cases h1 : d = 1
    · subst h1
      obtain ⟨x, rfl⟩ := List.length_eq_one_iff.1 h
      simp [shaped, Cast.squeeze]
    · simp [shaped, Cast.squeeze, h1]

theorem run_biasTrainable (conv : α → α) (ops : List (Op α)) : ∀ s : St α,
    (s.run conv ops).biasTrainable = s.biasTrainable ∧ (s.run conv ops).dimOutput = s.dimOutput := by
  induction ops with
  | nil => intro s; exact ⟨rfl, rfl⟩
  | cons op ops ih =>
    intro s
    have h : (s.step conv op).biasTrainable = s.biasTrainable ∧ (s.step conv op).dimOutput = s.dimOutput := by
      cases op with
      | set v =>
        simp only [St.step, St.set]
        split
        · exact ⟨rfl, rfl⟩
        · exact ⟨rfl, rfl⟩
        · split
          · exact ⟨rfl, rfl⟩
          · simp only [St.store]
            split
            · split <;> exact ⟨rfl, rfl⟩
            · split <;> exact ⟨rfl, rfl⟩
      | setRequires v => simp only [St.step, St.setRequires]; split <;> exact ⟨rfl, rfl⟩
      | setTrainable v => exact ⟨rfl, rfl⟩
      | backward => exact ⟨rfl, rfl⟩
    obtain ⟨h1, h2⟩ := ih (s.step conv op)
    exact ⟨h1.trans h.1, h2.trans h.2⟩

theorem run_never (conv : α → α) (ops : List (Op α)) (hn : NeverRequired ops) : ∀ s : St α, s.requires = false → s.bias.rg = false → s.bias.grad = false →
    (s.run conv ops).requires = false ∧ (s.run conv ops).bias.rg = false ∧ (s.run conv ops).bias.grad = false := by
  induction ops with
  | nil => intro s h1 h2 h3; exact ⟨h1, h2, h3⟩
  | cons op ops ih =>
    intro s h1 h2 h3
    have h : (s.step conv op).requires = false ∧ (s.step conv op).bias.rg = false ∧ (s.step conv op).bias.grad = false := by
      cases op with
      | set v =>
        simp only [St.step, St.set]
        split
        · exact ⟨h1, h2, h3⟩
        · exact ⟨h1, h2, h3⟩
        · split
          · exact ⟨h1, h2, h3⟩
          · simp only [St.store, St.andTrainable, h1]
            split
            · exact ⟨rfl, rfl, rfl⟩
            · split <;> exact ⟨rfl, h2, h3⟩
      | setRequires v =>
        cases v with
        | true => exact absurd rfl (hn _ List.mem_cons_self)
        | false => exact ⟨rfl, rfl, h3⟩
      | setTrainable v => exact ⟨h1, by simp [St.step, St.setTrainable, h1], h3⟩
      | backward => exact ⟨h1, h2, by simp [St.step, h2, h3]⟩
    exact ih (fun o ho => hn o (List.mem_cons_of_mem _ ho)) (s.step conv op) h.1 h.2.1 h.2.2

/-! ## Properties -/

/-- **C100** violated: no view that uses a bias can be built, whatever the other arguments. -/
theorem C100_construct_violated (conv : α → α) (dimOutput : Option Nat) (biasTrainable : Bool) (v : Arg α) :
    construct conv dimOutput true biasTrainable v = (.error .attributeError, none) := rfl

/-- **C100** violated: a bias given to a view built without `requires_bias` is dropped silently. -/
theorem C100_dropped_violated (conv : α → α) (dimOutput : Option Nat) (biasTrainable : Bool) (v : Arg α) :
    ∃ s, construct conv dimOutput false biasTrainable v = (.ok (), some s) ∧ s.get = none := ⟨_, rfl, rfl⟩

/-- **C100** (partial) On any view that is not waiting for the missing attribute, and whose bias was not announced as trainable without having a gradient, an
assignment that fits succeeds and is what is read afterwards, whatever the bias was before; nothing else changes. -/
theorem C100_assign_partial (conv : α → α) (s : St α) (d : Nat) (hd : 0 < d) (hs : s.dimOutput = some d)
    (hr : s.requires = true → s.paramTrainable ≠ none) (ht : s.biasTrainable = true → s.bias.value.data.length ≠ 0 → s.bias.grad = true)
    (v : Arg α) (l : List α) (h : Fits conv d v l) :
    (s.set conv v).1 = .ok () ∧ (s.set conv v).2.get = some ⟨[d], l⟩ ∧ (s.set conv v).2.requires = s.requires ∧
      (s.set conv v).2.paramTrainable = s.paramTrainable := by
  obtain ⟨t, h1, h2⟩ := shaped_of_fits conv d hd v l h
  have hl : l.length = d := by
    cases h with
    | scalar => simp
    | scalarTensor => simp
    | vector l h => simpa using h
  simp only [St.set, h1, hs, h2, St.store]
  by_cases he : s.bias.value.data.length = 0
  · rw [if_pos he]
    unfold St.andTrainable
    cases hq : s.requires with
    | false => simp [St.get, hl]; omega
    | true =>
      cases hp : s.paramTrainable with
      | none => exact absurd hp (hr hq)
      | some w => simp [St.get, hl, hq, hp]; omega
  · rw [if_neg he]
    have : (s.biasTrainable && !s.bias.grad) = false := by
      cases hb : s.biasTrainable with
      | false => rfl
      | true => simp [ht hb he]
    simp [this, St.get, hl]; omega

/-- **C100** (partial) Histories: on a view built without bias and without `bias_trainable`, after any sequence of operations that never asks for a bias,
assigning a value that fits succeeds, and it is read back. -/
theorem C100_history_partial (conv : α → α) (d : Nat) (hd : 0 < d) (b : Arg α) (ops : List (Op α)) (hn : NeverRequired ops)
    (v : Arg α) (l : List α) (h : Fits conv d v l) :
    ∃ s, construct conv (some d) false false b = (.ok (), some s) ∧
      (((s.run conv ops).set conv v).1 = .ok () ∧ ((s.run conv ops).set conv v).2.get = some ⟨[d], l⟩) := by
  refine ⟨_, rfl, ?_⟩
  obtain ⟨h1, h2⟩ := run_biasTrainable conv ops (⟨false, none, false, some d, ⟨empty, false, false⟩⟩ : St α)
  obtain ⟨h3, h4, h5⟩ := run_never conv ops hn (⟨false, none, false, some d, ⟨empty, false, false⟩⟩ : St α) rfl rfl rfl
  obtain ⟨a, b, _⟩ := C100_assign_partial conv _ d hd h2 (fun hq => by rw [h3] at hq; exact absurd hq (by decide))
    (fun hq => by rw [h1] at hq; cases hq) v l h
  exact ⟨a, b⟩

/-- **C100** violated: a bias that does not fit, a matrix or a vector of another length, is not refused but stored. The output cannot be computed any more. -/
theorem C100_misfit_violated (conv : α → α) (s : St α) (d : Nat) (hs : s.dimOutput = some d)
    (hr : s.requires = true → s.paramTrainable ≠ none) (ht : s.biasTrainable = true → s.bias.value.data.length ≠ 0 → s.bias.grad = true)
    (t : Tensor α) (ht2 : t.shape.length = 1 ∨ t.shape.length = 2) (h1 : ∀ n ∈ t.shape, 2 ≤ n) (hdat : t.data ≠ []) (hne : t.shape ≠ [d]) :
    (s.set conv (.tensor t)).1 = .ok () ∧ (s.set conv (.tensor t)).2.get = some ⟨t.shape, t.data.map conv⟩ ∧
      (s.requires = true → ∀ add scale (out : List α), out.length = d →
        (s.set conv (.tensor t)).2.forward add scale out = .error .runtimeError) := by
  have hf : t.shape.filter (· != 1) = t.shape := by
    rw [List.filter_eq_self]; intro n hn; have := h1 n hn; simp; omega
  have hc : ∃ u, Cast.castf conv (.tensor t) = .ok (some u) ∧ Cast.squeeze u = ⟨t.shape, t.data.map conv⟩ := by
    rcases t with ⟨sh, dat⟩
    rcases ht2 with h2 | h2
    · obtain ⟨n, rfl⟩ := List.length_eq_one_iff.1 h2
      refine ⟨⟨[n, 1], dat.map conv⟩, rfl, ?_⟩
      have := h1 n (by simp)
      have h0 : n ≠ 1 := by omega
      simp [Cast.squeeze, h0]
    · obtain ⟨n, m, rfl⟩ : ∃ n m, sh = [n, m] := by
        rcases sh with _ | ⟨n, _ | ⟨m, _ | ⟨k, r⟩⟩⟩ <;> simp at h2
        exact ⟨n, m, rfl⟩
      refine ⟨⟨[n, m], dat.map conv⟩, rfl, ?_⟩
      simp only [Cast.squeeze]
      rw [hf]
  obtain ⟨u, hu, hq⟩ := hc
  have hsh : shaped s.dimOutput (Cast.squeeze u) = .ok ⟨t.shape, t.data.map conv⟩ := by
    rw [hq]; unfold shaped; simp only; rw [if_neg (by omega)]
  have key : (s.set conv (.tensor t)).1 = .ok () ∧ (s.set conv (.tensor t)).2.bias.value = ⟨t.shape, t.data.map conv⟩ ∧
      (s.set conv (.tensor t)).2.requires = s.requires := by
    simp only [St.set, hu, hsh, St.store]
    by_cases he : s.bias.value.data.length = 0
    · rw [if_pos he]
      unfold St.andTrainable
      cases hq : s.requires with
      | false => simp [hq]
      | true =>
        cases hp : s.paramTrainable with
        | none => exact absurd hp (hr hq)
        | some w => simp [hq]
    · rw [if_neg he]
      have : (s.biasTrainable && !s.bias.grad) = false := by
        cases hb : s.biasTrainable with
        | false => rfl
        | true => simp [ht hb he]
      simp [this]
  refine ⟨key.1, ?_, fun hreq add scale out ho => ?_⟩
  · rw [St.get, key.2.1]; simp [hdat]
  · rw [St.forward, key.2.2, hreq, if_pos rfl, key.2.1]
    rw [if_neg]
    simpa [ho] using hne

/-- **C100** violated: asking for a bias later raises as well, and leaves a view that cannot compute its output any more, nor be given a bias. -/
theorem C100_later_violated (conv : α → α) (d : Nat) (hd : 0 < d) (biasTrainable : Bool) (b : Arg α) :
    ∃ s, construct conv (some d) false biasTrainable b = (.ok (), some s) ∧ (s.setRequires true).1 = .error .attributeError ∧
      (∀ add scale (out : List α), out.length = d → s.forward add scale out = .ok out ∧
        (s.setRequires true).2.forward add scale out = .error .runtimeError) ∧
      (∀ v l, Fits conv d v l → ((s.setRequires true).2.set conv v).1 = .error .attributeError) := by
  refine ⟨_, rfl, rfl, fun add scale out ho => ⟨rfl, ?_⟩, fun v l h => ?_⟩
  · simp only [St.setRequires, St.andTrainable, St.forward, if_true]
    rw [if_neg]
    simp [empty]; omega
  · obtain ⟨t, h1, h2⟩ := shaped_of_fits conv d hd v l h
    simp [St.set, h1, h2, St.setRequires, St.andTrainable, St.store, empty]

/-- **C100** The output of a view that requires a bias is the one without plus the scaled bias, entry by entry; without, the bias plays no role. -/
theorem C100_output (add : α → α → α) (scale : α → α) (s : St α) (out : List α) :
    (s.requires = false → s.forward add scale out = .ok out) ∧
    (s.requires = true → ∀ l : List α, l.length = out.length → s.get = some ⟨[out.length], l⟩ →
      ∃ r, s.forward add scale out = .ok r ∧ r.length = out.length ∧
        ∀ i (hi : i < out.length) (hl : i < l.length), r[i]? = some (add out[i] (scale l[i]))) := by
  refine ⟨fun h => by simp [St.forward, h], fun h l hl hg => ?_⟩
  have hv : s.bias.value = ⟨[out.length], l⟩ := by
    unfold St.get at hg
    split at hg
    · exact Option.some.inj hg
    · exact absurd hg (by simp)
  refine ⟨_, by rw [St.forward, h, if_pos rfl, hv, if_pos rfl], by simp [hl], fun i hi hi' => ?_⟩
  simp [List.getElem?_zipWith, List.getElem?_eq_getElem hi, List.getElem?_eq_getElem hi']

/-- **C100** violated: `bias_trainable=True` makes no bias trainable, after any history that never asks for a bias, and a bias announced so can be assigned
once only: afterwards the value is changed but an exception is raised. -/
theorem C100_trainable_violated (conv : α → α) (d : Nat) (hd : 0 < d) (b : Arg α) (ops : List (Op α)) (hn : NeverRequired ops)
    (v w : Arg α) (l m : List α) (h : Fits conv d v l) (h' : Fits conv d w m) :
    ∃ s, construct conv (some d) false true b = (.ok (), some s) ∧ (s.run conv ops).bias.rg = false ∧
      ((((s.run conv ops).set conv v).2.set conv w).1 = .error .attributeError) := by
  refine ⟨_, rfl, ?_⟩
  obtain ⟨h1, h2⟩ := run_biasTrainable conv ops (⟨false, none, true, some d, ⟨empty, false, false⟩⟩ : St α)
  obtain ⟨h3, h4, h5⟩ := run_never conv ops hn (⟨false, none, true, some d, ⟨empty, false, false⟩⟩ : St α) rfl rfl rfl
  refine ⟨h4, ?_⟩
  generalize (St.run conv (⟨false, none, true, some d, ⟨empty, false, false⟩⟩ : St α) ops) = s at *
  obtain ⟨t, e1, e2⟩ := shaped_of_fits conv d hd v l h
  obtain ⟨t', e1', e2'⟩ := shaped_of_fits conv d hd w m h'
  have hl : l.length = d := by
    cases h with
    | scalar => simp
    | scalarTensor => simp
    | vector l h => simpa using h
  have hl0 : ¬ l = [] := by intro e; rw [e] at hl; simp at hl; omega
  simp only [St.set, e1, e1', h2, e2, St.store]
  by_cases he : s.bias.value.data.length = 0
  · rw [if_pos he]
    simp only [St.andTrainable, h3, Bool.false_eq_true, if_false, h2, e2', h1]
    simp [hl0]
  · rw [if_neg he]
    simp [h1, h5, h2, e2', hl0]

/-- **C100** violated: initialising the parameters of a view that requires a bias raises after having set the bias to zero. -/
theorem C100_init_violated (conv : α → α) (zero : α) (s : St α) (d : Nat) (hd : 0 < d) (hs : s.dimOutput = some d)
    (hr : s.requires = true → s.paramTrainable ≠ none) (ht : s.biasTrainable = true → s.bias.value.data.length ≠ 0 → s.bias.grad = true) :
    (s.initBias conv zero).1 = .error .attributeError ∧ (s.initBias conv zero).2.get = some ⟨[d], List.replicate d (conv zero)⟩ := by
  obtain ⟨h1, h2, _⟩ := C100_assign_partial conv s d hd hs hr ht (.tensor ⟨[d], List.replicate d zero⟩) _ (.vector (List.replicate d zero) (by simp))
  rw [List.map_replicate] at h2
  unfold St.initBias
  rw [hs]
  simp only
  revert h1 h2
  rcases s.set conv (.tensor ⟨[d], List.replicate d zero⟩) with ⟨r, s'⟩
  intro h1 h2
  simp only at h1 h2
  subst h1
  exact ⟨rfl, h2⟩

/-- A fresh view without bias. -/
def fresh (d : Nat) : St Nat := ⟨false, none, false, some d, ⟨empty, false, false⟩⟩

/-- Concrete cases: a scalar repeated, a vector after it, a bias in the output, a matrix kept. -/
example : construct id (some 3) false false .none = (.ok (), some (fresh 3)) := rfl
example : ((fresh 3).set id (.other (.leaf 5))).2.get = some ⟨[3], [5, 5, 5]⟩ := rfl
example : (((fresh 2).run id [.set (.other (.leaf 5)), .setTrainable true, .backward]).set id (.tensor ⟨[2], [7, 8]⟩)).2.get = some ⟨[2], [7, 8]⟩ := rfl
example : St.forward (· + ·) (2 * ·) (⟨true, some false, false, some 2, ⟨⟨[2], [7, 8]⟩, false, false⟩⟩ : St Nat) [1, 2] = .ok [15, 18] := rfl
example : ((fresh 2).set id (.tensor ⟨[2, 2], [1, 2, 3, 4]⟩)).2.get = some ⟨[2, 2], [1, 2, 3, 4]⟩ := rfl
example : Fits id 2 (.tensor ⟨[2], [7, 8]⟩) [7, 8] := .vector [7, 8] rfl
/-- A view that requires a bias and can be given one: trainability assigned before. -/
example : (((fresh 2).setTrainable true).setRequires true).1 = .ok () ∧
    ((((fresh 2).setTrainable true).setRequires true).2.set id (.other (.leaf 5))).1 = .ok () := ⟨rfl, rfl⟩

end Bias
end Kerch
