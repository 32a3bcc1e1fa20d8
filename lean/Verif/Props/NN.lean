import Verif.Model.NN
import Verif.Props.Preimage
import Mathlib.Tactic.Positivity
import Mathlib.Tactic.NormNum
/-!
# C101: a kernel given by networks: reconstructions, their loss, pre-images and trainability
-/
set_option linter.unusedSectionVars false
set_option linter.unusedSimpArgs false
namespace Kerch
namespace NN
open Finset

variable {n d m : ℕ} [NeZero n]

/-! ## Specification -/

/-- `r` is the outcome of a reconstruction that gives the data `x` back. -/
def GivesBack {ι : Type} (r : Except Err (Option (ι → Fin d → ℝ))) (x : ι → Fin d → ℝ) : Prop := r = .ok (some x)

/-- The decoder undoes the encoder. -/
def Undoes {a b : ℕ} (g : Net b a) (f : Net a b) : Prop := ∀ z, g (f z) = z

/-! ## Helper lemmas -/

theorem applyNet_same {ι : Type} {a b : ℕ} (f : Net a b) (Y : ι → Fin a → ℝ) : applyNet f Y = .ok fun i => f (Y i) := by
  simp [applyNet]

theorem applyNet_other {ι : Type} {a b c : ℕ} (f : Net a b) (Y : ι → Fin c → ℝ) (h : a ≠ c) : applyNet f Y = .error .runtimeError := by
  simp [applyNet, h]

/-! ## Construction -/

/-- **C101**, construction: it succeeds exactly if an encoder that is a network is given, and the decoder, if given, is one too. -/
theorem C101_construct {α : Type} (kw : Kwargs α) :
    (∃ o, construct kw = .ok o) ↔ (∃ e, kw.encoder = some (some e)) ∧ kw.decoder ≠ some none := by
  obtain ⟨e, g, t, t'⟩ := kw
  rcases e with _ | _ | e <;> rcases g with _ | _ | g <;> simp [construct]

/-- **C101**, construction: otherwise it is refused with an assertion; when it succeeds the networks are those given. -/
theorem C101_networks {α : Type} (kw : Kwargs α) :
    (∀ e, construct kw = .error e → e = .assertionError) ∧
    ∀ o, construct kw = .ok o → kw.encoder = some (some o.encoder) ∧ kw.decoder = o.decoder.map some := by
  obtain ⟨e, g, t, t'⟩ := kw
  constructor
  · intro err h
    rcases e with _ | _ | e <;> rcases g with _ | _ | g <;> simp [construct] at h <;> exact h.symm
  · intro o h
    rcases e with _ | _ | e <;> rcases g with _ | _ | g <;> simp [construct] at h <;> subst h <;> simp

/-- **C101 is violated**: `networks_trainable=False`, the documented argument, has no effect. -/
theorem C101_trainable_violated {α : Type} (e : α) (g : Option (Option α)) (hg : g ≠ some none) (b : Bool) :
    ∃ o, construct ⟨some (some e), g, none, some b⟩ = .ok o ∧ o.trainable = true := by
  rcases g with _ | _ | g
  · exact ⟨_, rfl, rfl⟩
  · exact absurd rfl hg
  · exact ⟨_, rfl, rfl⟩

/-- What does have effect is `network_trainable`. Missing: the documented name. -/
theorem C101_trainable_partial {α : Type} (kw : Kwargs α) (o : Obj α) (h : construct kw = .ok o) (b : Bool) (hb : kw.networkTrainable = some b) :
    o.trainable = b := by
  obtain ⟨e, g, t, t'⟩ := kw
  simp only at hb
  subst hb
  rcases e with _ | _ | e <;> rcases g with _ | _ | g <;> simp [construct] at h <;> subst h <;> rfl

example : ∃ o, construct (⟨some (some 1), some (some 2), none, some false⟩ : Kwargs Nat) = .ok o ∧ o.trainable = true :=
  C101_trainable_violated 1 (some (some 2)) (by simp) false

/-! ## Reconstructions -/

/-- **C101**, levels: on a level whose output is `f` of the transformed data, with a decoder undoing `f`, `decode` gives back any data, the sample or others,
for every chain of invertible transforms. Missing: plain kernels, see `C101_decode_violated`. -/
theorem C101_level_partial {c : ℕ} (p : List Kind) (hp : Kind.sphere ∉ p) (hv : Kind.variance ∈ p → n ≠ 1) (pts : Fin n → Fin d → ℝ) (f : Net d c) (g : Net c d)
    (h : Undoes g f) (a : Arg (Fin d → ℝ)) :
    GivesBack (decodeOf p pts (some g) ((eoos id pts p a).map fun Y i => f (Y i))) (a.pt pts) := by
  obtain ⟨Y, hY, hr⟩ := C17_revert_apply_partial id pts p hp (by simpa using hv) a
  have e : (fun i => g (f (Y i))) = Y := funext fun i => h _
  simp only [GivesBack, decodeOf, hY, Option.map_some, applyNet_same, e]
  exact hr

/-- **C101 is violated** by kernels: as `decode` passes the kernel matrix to the decoder instead of the features, it raises whenever the number of points
of the sample is not the number of features, whatever the encoder, the decoder of these features and the data. -/
theorem C101_decode_violated (p q : List Kind) (enc : Net d m) (g : Net m d) (pts : Fin n → Fin d → ℝ) (h : m ≠ n) (a : Arg (Fin d → ℝ)) :
    decode p q enc (some g) pts a = .error .runtimeError := by
  unfold decode decodeOf
  cases callKernel p q enc pts a with
  | none => simp [h]
  | some Y => simp [applyNet_other g Y h]

/-- **C101 is violated** by kernels, values: as many points as features, a decoder undoing the encoder, and yet a point that is not given back. -/
theorem C101_decode_value_violated : ∃ (enc g : Net 1 1) (pts : Fin 1 → Fin 1 → ℝ) (x : Unit → Fin 1 → ℝ), Undoes g enc ∧
    GivesBack (decode [] [] enc (some g) pts (.batch Unit x)) (fun _ _ => 6) ∧ x = fun _ _ => 3 := by
  refine ⟨id, id, fun _ _ => 2, fun _ _ => 3, fun _ => rfl, ?_, rfl⟩
  simp [GivesBack, decode, decodeOf, callKernel, Preimage.phi, esample, eoos, applyNet_same, erevert]
  norm_num

/-- **C101**, no decoder: `decode` is refused and the loss is null. -/
theorem C101_no_decoder {e : ℕ} (p q : List Kind) (enc : Net d m) (pts : Fin n → Fin d → ℝ) (a : Arg (Fin d → ℝ)) :
    decode p q enc (none : Option (Net e d)) pts a = .error .notInitialized ∧
    loss (none : Option (Net e d)) pts (decode p q enc (none : Option (Net e d)) pts .sample) = .ok (some 0) := ⟨rfl, rfl⟩

/-! ## Loss -/

/-- **C101**, loss: it is never negative, and null exactly if the sample is given back. -/
theorem C101_loss (hd : 0 < d) {α : Type} (g : α) (pts r : Fin n → Fin d → ℝ) :
    ∃ l, loss (some g) pts (.ok (some r)) = .ok (some l) ∧ 0 ≤ l ∧ (l = 0 ↔ GivesBack (.ok (some r)) pts) := by
  have hn : (0 : ℝ) < n * d := by
    have h1 : (0 : ℝ) < n := by exact_mod_cast Nat.pos_of_ne_zero (NeZero.ne n)
    have h2 : (0 : ℝ) < d := by exact_mod_cast hd
    exact mul_pos h1 h2
  have hs : 0 ≤ ∑ i, ∑ j, (pts i j - r i j) ^ 2 := sum_nonneg fun i _ => sum_nonneg fun j _ => sq_nonneg _
  refine ⟨mse pts r, rfl, div_nonneg hs hn.le, ?_⟩
  unfold mse GivesBack
  rw [div_eq_zero_iff, or_iff_left hn.ne', sum_eq_zero_iff_of_nonneg fun i _ => sum_nonneg fun j _ => sq_nonneg _]
  constructor
  · intro h
    have e : r = pts := by
      funext i j
      have h1 := h i (mem_univ _)
      rw [sum_eq_zero_iff_of_nonneg fun j _ => sq_nonneg _] at h1
      have h2 := pow_eq_zero_iff (two_ne_zero) |>.1 (h1 j (mem_univ _))
      linarith
    rw [e]
  · intro h
    injection h with h
    injection h with h
    subst h
    intro i _
    simp

/-- **C101**, loss of a level: null with a decoder undoing the output. Missing: kernels, see below. -/
theorem C101_level_loss_partial (hd : 0 < d) {c : ℕ} (p : List Kind) (hp : Kind.sphere ∉ p) (hv : Kind.variance ∈ p → n ≠ 1) (pts : Fin n → Fin d → ℝ)
    (f : Net d c) (g : Net c d) (h : Undoes g f) :
    loss (some g) pts (decodeOf p pts (some g) ((eoos id pts p .sample).map fun Y i => f (Y i))) = .ok (some 0) := by
  have hb := C101_level_partial p hp hv pts f g h .sample
  obtain ⟨l, h1, _, h3⟩ := C101_loss hd g pts pts
  have h4 : decodeOf p pts (some g) ((eoos id pts p .sample).map fun Y i => f (Y i)) = .ok (some pts) := hb
  rw [h4, h1, h3.2 rfl]

/-- **C101 is violated** by the loss of a kernel: it raises. -/
theorem C101_loss_violated (p q : List Kind) (enc : Net d m) (g : Net m d) (pts : Fin n → Fin d → ℝ) (h : m ≠ n) :
    loss (some g) pts (decode p q enc (some g) pts .sample) = .error .runtimeError := by
  rw [C101_decode_violated p q enc g pts h .sample]
  rfl

/-- Transforms that cannot be undone are refused. -/
theorem C101_sphere {ι : Type} {c : ℕ} (p : List Kind) (hp : Kind.sphere ∈ p) (pts : Fin n → Fin d → ℝ) (g : Net c d) (Y : ι → Fin c → ℝ) :
    decodeOf p pts (some g) (some Y) = .error .bijectionError := by
  simp only [decodeOf, applyNet_same]
  exact C17_sphere id pts p hp _

/-! ## Pre-images -/

/-- **C101 is violated** by pre-images: `explicit_preimage` always raises, whatever the networks and the transforms. -/
theorem C101_preimage_violated {ι : Type} (err : Err) (found : Except Err Bool) (p q : List Kind) (enc : Net d m) (dec : Option (Net m d))
    (pts : Fin n → Fin d → ℝ) (F : Option (ι → Fin m → ℝ)) :
    ∃ e, Preimage.explicitPreimage p q enc (preimage (load err viewName found) dec) pts F = .error e :=
  C83_refused p q enc _ pts F (.inr (.inr ⟨err, rfl⟩))

/-! ## Concrete cases -/

/-- A level on three points of the plane, centred, whose output is twice the data. -/
example : GivesBack (decodeOf [.mean] (fun (i : Fin 3) (j : Fin 2) => (i : ℝ) * j) (some fun y j => y j / 2)
    ((eoos id (fun (i : Fin 3) (j : Fin 2) => (i : ℝ) * j) [.mean] (.batch Unit fun _ _ => 7)).map fun Y i j => 2 * Y i j)) fun _ _ => 7 :=
  C101_level_partial [.mean] (by decide) (by simp) _ (fun y j => 2 * y j) (fun y j => y j / 2) (fun z => by funext j; simp) (.batch Unit fun _ _ => 7)

/-- A kernel with an invertible encoder of the plane and three points. -/
example : decode [] [] (id : Net 2 2) (some id) (fun (i : Fin 3) (j : Fin 2) => (i : ℝ) * j) .sample = .error .runtimeError :=
  C101_decode_violated [] [] id id _ (by decide) .sample

end NN
end Kerch
