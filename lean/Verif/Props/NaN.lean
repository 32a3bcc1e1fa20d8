import Verif.Model.ImplicitNaN
import Verif.Props.PSD
import Verif.Props.KernelFun
/-!
# C116: normalised kernel values are numbers
-/
set_option linter.unusedSectionVars false
set_option linter.unusedSimpArgs false
namespace Kerch
namespace NaN
open Finset

variable {X n : Type} [Fintype n] [Nonempty n] (κ : X → X → ℝ) (pts : n → X)

/-! ## Helper lemmas -/

/-- The values at two points. -/
noncomputable def chainN : List Kind → X → X → Option ℝ
  | [] => fun x y => some (κ x y)
  | .mean :: p => fun x y => (chainN p x y).bind fun m => (meanN fun l => chainN p x (pts l)).bind fun a => (meanN fun l => chainN p y (pts l)).bind fun b =>
      (meanN fun l => meanN fun l' => chainN p (pts l) (pts l')).bind fun s => some (m - a - b + s)
  | .sphere :: p => fun x y => (chainN p x y).bind fun m => (sqrtN (chainN p x x)).bind fun a => (sqrtN (chainN p y y)).bind fun b => some (m / clampEps (a * b))
  | _ :: p => chainN p

theorem chainN_symm (hκ : ∀ x y, κ x y = κ y x) (p : List Kind) (x y : X) : chainN κ pts p x y = chainN κ pts p y x := by
  induction p generalizing x y with
  | nil => simp only [chainN, hκ x y]
  | cons k p ih =>
    cases k with
    | mean =>
      simp only [chainN]
      rw [ih x y]
      cases chainN κ pts p y x with
      | none => rfl
      | some m =>
        cases meanN fun l => chainN κ pts p x (pts l) with
        | none =>
          cases meanN fun l => chainN κ pts p y (pts l) <;> rfl
        | some a =>
          cases meanN fun l => chainN κ pts p y (pts l) with
          | none => rfl
          | some b =>
            cases meanN fun l => meanN fun l' => chainN κ pts p (pts l) (pts l') with
            | none => rfl
            | some s => simp only [Option.bind_some]; congr 1; ring
    | sphere =>
      simp only [chainN]
      rw [ih x y]
      cases chainN κ pts p y x with
      | none => rfl
      | some m =>
        cases sqrtN (chainN κ pts p x x) with
        | none => cases sqrtN (chainN κ pts p y y) <;> rfl
        | some a =>
          cases sqrtN (chainN κ pts p y y) with
          | none => rfl
          | some b => simp only [Option.bind_some]; rw [mul_comm]
    | _ => simp only [chainN]; exact ih x y

theorem ioosN_chainN (hκ : ∀ x y, κ x y = κ y x) (p : List Kind) (hp : ∀ k ∈ p, k = .mean ∨ k = .sphere) (a b : Arg X) :
    ioosN κ pts p a b = .ok fun i j => chainN κ pts p (a.pt pts i) (b.pt pts j) := by
  induction p generalizing a b with
  | nil =>
    cases a <;> cases b <;> simp only [ioosN, chainN, Arg.pt]
    congr 1; funext i j; rw [hκ]
  | cons k p ih =>
    have ih := ih fun k hk => hp k (List.mem_cons_of_mem _ hk)
    have hs : ∀ a b : Arg X, istepN k (ioosN κ pts p) a b = .ok fun i j => chainN κ pts (k :: p) (a.pt pts i) (b.pt pts j) := by
      intro a b
      rcases hp k List.mem_cons_self with rfl | rfl <;> simp only [istepN, ih, bind, Except.bind, chainN, Arg.pt]
    cases a with
    | batch ι x => cases b <;> exact hs _ _
    | sample =>
      cases b with
      | sample => exact hs _ _
      | batch ι y =>
        show (istepN k (ioosN κ pts p) (.batch ι y) .sample).map _ = _
        rw [hs]
        show Except.ok _ = _
        congr 1
        funext i j
        exact chainN_symm κ pts hκ _ _ _

theorem meanN_some (f : n → ℝ) : (meanN fun i => some (f i)) = some (tmean f) := by
  unfold meanN
  rw [if_pos (show ∀ i, (some (f i)).isSome = true from fun i => rfl)]
  rfl

theorem sqrtN_some {v : ℝ} (h : 0 ≤ v) : sqrtN (some v) = some (Real.sqrt v) := by
  simp [sqrtN, h]

/-- The squared norms met at the normalisations of a chain are not negative, on the sample and at the points of `Z`. -/
def NormsNonneg (Z : Set X) (p : List Kind) : Prop := ∀ q, (Kind.sphere :: q) <:+ p → ∀ x ∈ Z, 0 ≤ kchain κ pts q x x

theorem chainN_kchain {Z : Set X} (hZ : ∀ l, pts l ∈ Z) (p : List Kind) (hp : ∀ k ∈ p, k = .mean ∨ k = .sphere) (h : NormsNonneg κ pts Z p) {x y : X} (hx : x ∈ Z) (hy : y ∈ Z) :
    chainN κ pts p x y = some (kchain κ pts p x y) := by
  induction p generalizing x y with
  | nil => rfl
  | cons k p ih =>
    have ih := fun {x y : X} => @ih (fun k hk => hp k (List.mem_cons_of_mem _ hk)) (fun q hq => h q (hq.trans (List.suffix_cons k p))) x y
    rcases hp k List.mem_cons_self with rfl | rfl
    · have e1 : ∀ z ∈ Z, (fun l => chainN κ pts p z (pts l)) = fun l => some (kchain κ pts p z (pts l)) := fun z hz => funext fun l => ih hz (hZ l)
      have e2 : (fun l => meanN fun l' => chainN κ pts p (pts l) (pts l')) = fun l => some (tmean fun l' => kchain κ pts p (pts l) (pts l')) :=
        funext fun l => by rw [e1 _ (hZ l), meanN_some]
      simp only [chainN, kchain]
      rw [ih hx hy, e1 x hx, e1 y hy, e2, meanN_some, meanN_some, meanN_some]
      rfl
    · have := h p List.suffix_rfl
      simp only [chainN, kchain]
      rw [ih hx hy, ih hx hx, ih hy hy, sqrtN_some (this x hx), sqrtN_some (this y hy)]
      rfl

/-! ## Properties -/

/-- C116, where all values are numbers: if no squared norm met at a normalisation is negative, the values of the code are those of `ioos`, which the other theorems about kernel values are about. -/
theorem C116_agree_partial (hκ : ∀ x y, κ x y = κ y x) (p : List Kind) (hp : ∀ k ∈ p, k = .mean ∨ k = .sphere) (Z : Set X) (hZ : ∀ l, pts l ∈ Z) (h : NormsNonneg κ pts Z p)
    (a b : Arg X) (ha : ∀ i, a.pt pts i ∈ Z) (hb : ∀ j, b.pt pts j ∈ Z) :
    ioosN κ pts p a b = (ioos κ pts p a b).map fun M i j => some (M i j) := by
  rw [ioosN_chainN κ pts hκ p hp, ioos_kchain κ pts hκ p hp]
  show _ = Except.ok _
  congr 1
  funext i j
  exact chainN_kchain κ pts hZ p hp h (ha i) (hb j)

/-- C116, positive semi-definite kernels: a kernel that is centred any number of times and then normalised gives numbers only, with ones on the diagonal wherever the squared norm is not negligible. -/
theorem C116_psd_partial (hκ : ∀ x y, κ x y = κ y x) (hpsd : PSDOn Set.univ κ) (q : List Kind) (hq : ∀ k ∈ q, k = .mean) (a b : Arg X) :
    ∃ M : a.I n → b.I n → ℝ, ioosN κ pts (.sphere :: q) a b = .ok (fun i j => some (M i j)) ∧ ∀ i j, a.pt pts i = b.pt pts j → EPS ≤ kchain κ pts q (a.pt pts i) (b.pt pts j) → M i j = 1 := by
  have hc : PSDOn Set.univ (kchain κ pts q) := by
    induction q with
    | nil => exact hpsd
    | cons k q ih =>
      obtain rfl := hq k List.mem_cons_self
      exact (ih fun k hk => hq k (List.mem_cons_of_mem _ hk)).center pts fun _ => trivial
  have hp : ∀ k ∈ Kind.sphere :: q, k = .mean ∨ k = .sphere := by
    intro k hk
    rcases List.mem_cons.mp hk with rfl | hk
    · exact .inr rfl
    · exact .inl (hq k hk)
  have hd : ∀ x, 0 ≤ kchain κ pts q x x := fun x => by
    have := (hc Unit (fun _ => x) fun _ => trivial).2 fun _ => 1
    simpa using this
  have hn : NormsNonneg κ pts Set.univ (.sphere :: q) := by
    intro r hr x _
    rcases List.suffix_cons_iff.1 hr with h | h
    · rw [(List.cons.inj h).2]; exact hd x
    · have := hq _ (h.subset List.mem_cons_self)
      cases this
  refine ⟨fun i j => kchain κ pts (.sphere :: q) (a.pt pts i) (b.pt pts j), ?_, fun i j e hE => ?_⟩
  · rw [ioosN_chainN κ pts hκ _ hp]
    congr 1
    funext i j
    exact chainN_kchain κ pts (Z := Set.univ) (fun _ => trivial) _ hp hn trivial trivial
  · simp only [kchain]
    rw [e] at hE ⊢
    rw [Real.mul_self_sqrt (hd _), clampEps_of_le hE, div_self]
    have : (0 : ℝ) < EPS := by norm_num [EPS]
    linarith

/-- C116, exactly: after centring and one normalisation, a value is a number if and only if neither of its two points has a negative squared norm. -/
theorem C116_exact_partial (hκ : ∀ x y, κ x y = κ y x) (q : List Kind) (hq : ∀ k ∈ q, k = .mean) (a b : Arg X) :
    ∃ M, ioosN κ pts (.sphere :: q) a b = .ok M ∧ ∀ i j, (M i j).isSome = true ↔
      0 ≤ kchain κ pts q (a.pt pts i) (a.pt pts i) ∧ 0 ≤ kchain κ pts q (b.pt pts j) (b.pt pts j) := by
  have hp : ∀ k ∈ Kind.sphere :: q, k = .mean ∨ k = .sphere := by
    intro k hk
    rcases List.mem_cons.mp hk with rfl | hk
    · exact .inr rfl
    · exact .inl (hq k hk)
  have hn : NormsNonneg κ pts Set.univ q := by
    intro r hr x _
    cases hq _ (hr.subset List.mem_cons_self)
  refine ⟨_, ioosN_chainN κ pts hκ _ hp a b, fun i j => ?_⟩
  have e : ∀ x y, chainN κ pts q x y = some (kchain κ pts q x y) := fun x y =>
    chainN_kchain κ pts (Z := Set.univ) (fun _ => trivial) q (fun k hk => .inl (hq k hk)) hn trivial trivial
  simp only [chainN, e, sqrtN]
  by_cases h1 : 0 ≤ kchain κ pts q (a.pt pts i) (a.pt pts i) <;> by_cases h2 : 0 ≤ kchain κ pts q (b.pt pts j) (b.pt pts j) <;> simp [h1, h2]

/-- C116, symmetry and independence of the batch also hold with the values that are not numbers: every value is a function of its two points. -/
theorem C116_symmetric (hκ : ∀ x y, κ x y = κ y x) (p : List Kind) (hp : ∀ k ∈ p, k = .mean ∨ k = .sphere) :
    ∃ V : X → X → Option ℝ, (∀ x y, V x y = V y x) ∧ ∀ a b : Arg X, ioosN κ pts p a b = .ok fun i j => V (a.pt pts i) (b.pt pts j) :=
  ⟨chainN κ pts p, chainN_symm κ pts hκ p, ioosN_chainN κ pts hκ p hp⟩

/-- C116 is violated: one point of the sample with a negative squared norm, and centring after normalising leaves no number at all, whatever else is asked for, also out of sample. -/
theorem C116_spread_violated (hκ : ∀ x y, κ x y = κ y x) (r q : List Kind) (hr : ∀ k ∈ r, k = .mean ∨ k = .sphere) (hq : ∀ k ∈ q, k = .mean) (l : n)
    (hl : kchain κ pts q (pts l) (pts l) < 0) (a b : Arg X) :
    ioosN κ pts (r ++ .mean :: .sphere :: q) a b = .ok fun _ _ => none := by
  have hp : ∀ k ∈ r ++ .mean :: .sphere :: q, k = .mean ∨ k = .sphere := by
    intro k hk
    rcases List.mem_append.mp hk with hk | hk
    · exact hr k hk
    · rcases List.mem_cons.mp hk with rfl | hk
      · exact .inl rfl
      · rcases List.mem_cons.mp hk with rfl | hk
        · exact .inr rfl
        · exact .inl (hq k hk)
  rw [ioosN_chainN κ pts hκ _ hp]
  congr 1
  funext i j
  generalize a.pt pts i = x
  generalize b.pt pts j = y
  have hn : NormsNonneg κ pts Set.univ q := by
    intro r hr x _
    cases hq _ (hr.subset List.mem_cons_self)
  have e : ∀ x y, chainN κ pts q x y = some (kchain κ pts q x y) := fun x y =>
    chainN_kchain κ pts (Z := Set.univ) (fun _ => trivial) q (fun k hk => .inl (hq k hk)) hn trivial trivial
  clear hp
  induction r generalizing x y with
  | nil =>
    have hs : ∀ z, chainN κ pts (.sphere :: q) z (pts l) = none := by
      intro z
      simp only [chainN, e, sqrtN, if_neg (not_le.mpr hl)]
      cases (if 0 ≤ kchain κ pts q z z then some (Real.sqrt (kchain κ pts q z z)) else none) <;> rfl
    have hm : ∀ z, (meanN fun l => chainN κ pts (.sphere :: q) z (pts l)) = none := by
      intro z
      unfold meanN
      rw [if_neg]
      intro h
      have := h l
      simp only [hs] at this
      cases this
    show (chainN κ pts (.sphere :: q) x y).bind _ = none
    cases chainN κ pts (.sphere :: q) x y with
    | none => rfl
    | some m =>
      show (meanN fun l => chainN κ pts (.sphere :: q) x (pts l)).bind _ = none
      rw [hm]
      rfl
  | cons k r ih =>
    have ih := ih fun k hk => hr k (List.mem_cons_of_mem _ hk)
    rcases hr k List.mem_cons_self with rfl | rfl <;> simp only [List.cons_append, chainN, ih, Option.bind_none]

/-- The points -1, 0 and 1. -/
def three : Fin 3 → Fin 1 → ℝ := fun i _ => (i : ℝ) - 1

/-- The uniform kernel of bandwidth 1 on the line. -/
noncomputable def uniformLine : (Fin 1 → ℝ) → (Fin 1 → ℝ) → ℝ := fun x y => if |x 0 - y 0| ≤ 1 then 1 else 0

theorem uniformLine_eq (x y : Fin 1 → ℝ) : statKernel .uniform .manhattan 1 x y = .ok (uniformLine x y) := by
  have hd : manhattan x y = |x 0 - y 0| := by simp [manhattan]
  simp [statKernel, distSigma, hd, uniformLine, profile, Except.map]

theorem three_norm : kchain uniformLine three [.mean] (three 1) (three 1) = -2 / 9 := by
  have e : ∀ i j : Fin 3, uniformLine (three i) (three j) = if |(i : ℝ) - j| ≤ 1 then 1 else 0 := by
    intro i j
    simp [uniformLine, three]
  simp only [kchain, tmean, Fin.sum_univ_three, e, Fintype.card_fin]
  norm_num

/-- C116 is violated: the uniform kernel (bandwidth 1), centred and normalised, on the points -1, 0, 1: everything that involves the middle point is not a number. -/
theorem C116_uniform_violated : ∃ M : Fin 3 → Fin 3 → Option ℝ, (∀ x y, statKernel .uniform .manhattan 1 x y = .ok (uniformLine x y)) ∧
    ioosN uniformLine three [.sphere, .mean] .sample .sample = .ok M ∧ ∀ j, M 1 j = none ∧ M j 1 = none := by
  have hκ : ∀ x y, uniformLine x y = uniformLine y x := fun x y => by unfold uniformLine; rw [abs_sub_comm]
  obtain ⟨M, h1, h2⟩ := C116_exact_partial uniformLine three hκ [.mean] (by simp) .sample .sample
  have hneg : ¬ 0 ≤ kchain uniformLine three [.mean] (three 1) (three 1) := by rw [three_norm]; norm_num
  refine ⟨M, uniformLine_eq, h1, fun j => ⟨?_, ?_⟩⟩
  · rw [← Option.not_isSome_iff_eq_none, h2]
    exact fun h => hneg h.1
  · rw [← Option.not_isSome_iff_eq_none, h2]
    exact fun h => hneg h.2

/-! ## Cases -/

/-- Centring, normalising and centring again: nothing is left, for the sample as for other points. -/
example (x : Fin 4 → Fin 1 → ℝ) : ioosN uniformLine three [.mean, .sphere, .mean] (.batch (Fin 4) x) .sample = .ok fun _ _ => none :=
  C116_spread_violated uniformLine three (fun x y => by unfold uniformLine; rw [abs_sub_comm]) [] [.mean] (by simp) (by simp) 1 (by rw [three_norm]; norm_num) _ _

/-- The linear kernel on the same points: all numbers, and ones for the outer points. -/
example : ∃ M : Fin 3 → Fin 3 → ℝ, ioosN linearKernel three [.sphere, .mean] .sample .sample = .ok (fun i j => some (M i j)) ∧ M 0 0 = 1 := by
  obtain ⟨M, h1, h2⟩ := C116_psd_partial linearKernel three (fun x y => dotProduct_comm _ _) C26_linear [.mean] (by simp) .sample .sample
  refine ⟨M, h1, h2 0 0 rfl ?_⟩
  simp [kchain, tmean, Fin.sum_univ_three, linearKernel, dotProduct, three, Arg.pt]
  norm_num [EPS]

/-- C116: values that are not numbers never change which calls raise, nor what they raise: that only depends on the transforms and on which arguments are given. -/
theorem C116_errors (κ κ' : X → X → ℝ) (pts : n → X) (p : List Kind) (a b : Arg X) :
    (ioosN κ pts p a b).map (fun _ => ()) = (ioos κ' pts p a b).map fun _ => () := by
  have step : ∀ (k : Kind) (N : (a b : Arg X) → Except Err (a.I n → b.I n → Option ℝ)) (M : (a b : Arg X) → Except Err (a.I n → b.I n → ℝ)),
      (∀ a b, (N a b).map (fun _ => ()) = (M a b).map fun _ => ()) → ∀ a b, (istepN k N a b).map (fun _ => ()) = (istep k M a b).map fun _ => () := by
    intro k N M h a b
    cases k with
    | mean =>
      have h1 := h a .sample
      have h2 := h .sample .sample
      have h3 := h b .sample
      have h4 := h a b
      simp only [istepN, istep]
      cases e1 : N a .sample <;> cases e1' : M a .sample <;> rw [e1, e1'] at h1 <;> try cases h1
      · rfl
      cases e2 : N .sample .sample <;> cases e2' : M .sample .sample <;> rw [e2, e2'] at h2 <;> try cases h2
      · rfl
      cases e3 : N b .sample <;> cases e3' : M b .sample <;> rw [e3, e3'] at h3 <;> try cases h3
      · rfl
      cases e4 : N a b <;> cases e4' : M a b <;> rw [e4, e4'] at h4 <;> try cases h4
      · rfl
      rfl
    | sphere =>
      have h1 := h a b
      have h2 := h a a
      have h3 := h b b
      simp only [istepN, istep]
      cases e1 : N a b <;> cases e1' : M a b <;> rw [e1, e1'] at h1 <;> try cases h1
      · rfl
      cases e2 : N a a <;> cases e2' : M a a <;> rw [e2, e2'] at h2 <;> try cases h2
      · rfl
      cases e3 : N b b <;> cases e3' : M b b <;> rw [e3, e3'] at h3 <;> try cases h3
      · rfl
      rfl
    | minimum => cases a <;> cases b <;> rfl
    | variance => cases a <;> cases b <;> rfl
    | minmax => cases a <;> cases b <;> rfl
  induction p generalizing a b with
  | nil => cases a <;> cases b <;> rfl
  | cons k p ih =>
    have hs := step k _ _ ih
    cases a with
    | batch ι x => simp only [ioosN, ioos]; exact hs _ _
    | sample =>
      cases b with
      | sample => simp only [ioosN, ioos]; exact hs _ _
      | batch ι y =>
        have h1 := hs (.batch ι y) .sample
        simp only [ioosN, ioos]
        cases e1 : istepN k (ioosN κ pts p) (.batch ι y) .sample <;> cases e1' : istep k (ioos κ' pts p) (.batch ι y) .sample <;> rw [e1, e1'] at h1 <;> try cases h1
        · rfl
        · rfl

end NaN
end Kerch
