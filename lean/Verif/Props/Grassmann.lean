import Verif.Model.Grassmann
import Mathlib.Analysis.SpecialFunctions.Trigonometric.Bounds
import Mathlib.Tactic.Linarith
import Mathlib.Tactic.Ring
import Mathlib.Tactic.FieldSimp
import Mathlib.Tactic.Positivity
import Mathlib.Tactic.LinearCombination
import Mathlib.Tactic.Module
import Mathlib.Tactic.NormNum
import Mathlib.Topology.Order.IntermediateValue
import Mathlib.Tactic.NormNum.OfScientific
set_option linter.unusedSectionVars false
set_option linter.unusedSimpArgs false
/-!
# C107: the optimisers on the sphere keep each row of a parameter on it
-/
namespace Kerch
namespace Grassmann
open Finset
noncomputable section
variable {E : Type} [NormedAddCommGroup E] [InnerProductSpace ℝ E] {p : Type} [Fintype p]

local notation "⟪" x ", " y "⟫" => inner ℝ x y

/-! ## Helpers -/

theorem inner_self' (x : E) : ⟪x, x⟫ = ‖x‖ ^ 2 := real_inner_self_eq_norm_sq x

theorem unit_norm (eps : ℝ) (h : 0 ≤ eps) (v : E) : ‖unit eps v‖ = ‖v‖ / (‖v‖ + eps) := by
  unfold unit
  rw [norm_smul, Real.norm_of_nonneg (by positivity)]
  ring

/-- Everything about the factor `r = a / (a + ε)` that is needed. -/
theorem ratio (eps a : ℝ) (h : 0 ≤ eps) (ha : 0 ≤ a) : 0 ≤ a / (a + eps) ∧ a / (a + eps) ≤ 1 ∧ a * (1 - (a / (a + eps)) ^ 2) ≤ 2 * eps := by
  rcases eq_or_lt_of_le (add_nonneg ha h) with h0 | h0
  · have : a = 0 := by linarith
    subst this
    simp [h]
  have hr0 : 0 ≤ a / (a + eps) := by positivity
  have hr1 : a / (a + eps) ≤ 1 := by rw [div_le_one h0]; linarith
  refine ⟨hr0, hr1, ?_⟩
  have e : a * (1 - (a / (a + eps)) ^ 2) = eps * ((a / (a + eps)) * (1 + a / (a + eps))) := by field_simp; ring
  rw [e]
  have : (a / (a + eps)) * (1 + a / (a + eps)) ≤ 1 * 2 := mul_le_mul hr1 (by linarith) (by linarith) (by norm_num)
  nlinarith

/-- The starting point of a step: a unit vector up to `ε`. -/
theorem near_unit (eps : ℝ) (h : 0 ≤ eps) (P : E) (hP : 1 / 2 ≤ ‖P‖) : ‖unit eps P‖ ≤ 1 ∧ 1 - ‖unit eps P‖ ^ 2 ≤ 4 * eps := by
  rw [unit_norm eps h]
  obtain ⟨h1, h2, h3⟩ := ratio eps ‖P‖ h (norm_nonneg P)
  refine ⟨h2, ?_⟩
  have : 0 ≤ 1 - (‖P‖ / (‖P‖ + eps)) ^ 2 := by nlinarith
  nlinarith

theorem gproj_norm (y g : E) (hy : ‖y‖ ≤ 1) : ‖gproj y g‖ ≤ ‖g‖ := by
  have e : ‖gproj y g‖ ^ 2 = ‖g‖ ^ 2 - (2 - ‖y‖ ^ 2) * ⟪y, g⟫ ^ 2 := by
    unfold gproj
    rw [← inner_self', inner_sub_left, inner_sub_right, inner_sub_right, inner_smul_left, inner_smul_right, inner_smul_right, inner_smul_left, inner_self', inner_self', real_inner_comm y g]
    simp only [conj_trivial]
    rw [real_inner_comm g y]
    ring
  have : ‖y‖ ^ 2 ≤ 1 := by nlinarith [norm_nonneg y]
  have : ‖gproj y g‖ ^ 2 ≤ ‖g‖ ^ 2 := by rw [e]; nlinarith [sq_nonneg (⟪y, g⟫ : ℝ)]
  exact le_of_sq_le_sq this (norm_nonneg g)

theorem gproj_inner (y g : E) : ⟪y, gproj y g⟫ = ⟪y, g⟫ * (1 - ‖y‖ ^ 2) := by
  unfold gproj
  rw [inner_sub_right, inner_smul_right, inner_self']
  ring

theorem clip_eq (b : Option ℝ) (hb : ∀ x, b = some x → 0 ≤ x) (h : E) : ∃ s : ℝ, 0 ≤ s ∧ s ≤ 1 ∧ clip b h = s • h := by
  unfold clip
  cases b with
  | none => exact ⟨1, by norm_num, le_rfl, (one_smul _ _).symm⟩
  | some x =>
    simp only
    split
    · rename_i hx
      have h0 := hb x rfl
      have : 0 < ‖h‖ := lt_of_le_of_lt h0 hx
      exact ⟨x / ‖h‖, by positivity, by rw [div_le_one this]; exact hx.le, rfl⟩
    · exact ⟨1, by norm_num, le_rfl, (one_smul _ _).symm⟩

/-- A clipped direction: not longer than the gradient, and almost tangent. -/
theorem hat_bounds (eps : ℝ) (h : 0 ≤ eps) (b : Option ℝ) (hb : ∀ x, b = some x → 0 ≤ x) (P g : E) (hP : 1 / 2 ≤ ‖P‖) :
    ‖clip b (gproj (unit eps P) g)‖ ≤ ‖g‖ ∧ |⟪unit eps P, clip b (gproj (unit eps P) g)⟫| ≤ 4 * eps * ‖g‖ := by
  obtain ⟨hy1, hy2⟩ := near_unit eps h P hP
  obtain ⟨s, h0, h1, he⟩ := clip_eq b hb (gproj (unit eps P) g)
  have hn := gproj_norm (unit eps P) g hy1
  rw [he]
  constructor
  · rw [norm_smul, Real.norm_of_nonneg h0]
    nlinarith [norm_nonneg (gproj (unit eps P) g)]
  · rw [inner_smul_right, gproj_inner, abs_mul, abs_mul, abs_of_nonneg h0]
    have hz : 0 ≤ 1 - ‖unit eps P‖ ^ 2 := by nlinarith [norm_nonneg (unit eps P)]
    rw [abs_of_nonneg hz]
    have hi : |⟪unit eps P, g⟫| ≤ ‖g‖ := by
      refine (abs_real_inner_le_norm _ _).trans ?_
      nlinarith [norm_nonneg g]
    have : |⟪unit eps P, g⟫| * (1 - ‖unit eps P‖ ^ 2) ≤ ‖g‖ * (4 * eps) := mul_le_mul hi hy2 hz (norm_nonneg g)
    have h3 : 0 ≤ |⟪unit eps P, g⟫| * (1 - ‖unit eps P‖ ^ 2) := by positivity
    nlinarith

theorem sin_abs_le (a : ℝ) (ha : 0 ≤ a) : |Real.sin a| ≤ a := by
  have := Real.abs_sin_le_abs (x := a)
  rwa [abs_of_nonneg ha] at this

theorem trig (a : ℝ) : Real.sin a ^ 2 + Real.cos a ^ 2 = 1 := Real.sin_sq_add_cos_sq a

/-- One move: `y` almost of norm one, `d` almost tangent. -/
theorem gexp_near (eps : ℝ) (h : 0 < eps) (y d : E) (hy1 : ‖y‖ ≤ 1) (hy2 : 1 - ‖y‖ ^ 2 ≤ 4 * eps) : |‖gexp eps y d‖ ^ 2 - 1| ≤ 6 * eps + 2 * |⟪y, d⟫| := by
  obtain ⟨r0, r1, r2⟩ := ratio eps ‖d‖ h.le (norm_nonneg d)
  rw [← unit_norm eps h.le] at r0 r1 r2
  have hs := sin_abs_le ‖d‖ (norm_nonneg d)
  have ht := trig ‖d‖
  have e : ‖gexp eps y d‖ ^ 2 = Real.cos ‖d‖ ^ 2 * ‖y‖ ^ 2 + Real.sin ‖d‖ ^ 2 * ‖unit eps d‖ ^ 2 + 2 * Real.sin ‖d‖ * Real.cos ‖d‖ * ⟪y, unit eps d⟫ := by
    unfold gexp
    rw [← inner_self', inner_add_left, inner_add_right, inner_add_right, inner_smul_left, inner_smul_left, inner_smul_left, inner_smul_left, inner_smul_right, inner_smul_right,
      inner_smul_right, inner_smul_right, inner_self', inner_self', real_inner_comm y (unit eps d)]
    simp only [conj_trivial]
    ring
  have hq : |Real.sin ‖d‖| * |⟪y, unit eps d⟫| ≤ |⟪y, d⟫| := by
    unfold unit
    rw [inner_smul_right, abs_mul, abs_of_nonneg (show 0 ≤ (‖d‖ + eps)⁻¹ by positivity), ← mul_assoc]
    have : |Real.sin ‖d‖| * (‖d‖ + eps)⁻¹ ≤ 1 := by
      rw [← div_eq_mul_inv, div_le_one (by positivity)]
      linarith
    nlinarith [abs_nonneg (⟪y, d⟫ : ℝ)]
  obtain ⟨S, hS⟩ : ∃ S, S = Real.sin ‖d‖ := ⟨_, rfl⟩
  obtain ⟨C, hC⟩ : ∃ C, C = Real.cos ‖d‖ := ⟨_, rfl⟩
  obtain ⟨q, hqd⟩ : ∃ q, q = (⟪y, unit eps d⟫ : ℝ) := ⟨_, rfl⟩
  rw [← hS, ← hC, ← hqd] at e
  rw [← hS] at hs
  rw [← hS, ← hqd] at hq
  rw [← hS, ← hC] at ht
  have hS1 : |S| ≤ 1 := by rw [hS]; exact Real.abs_sin_le_one _
  have hC1 : |C| ≤ 1 := by rw [hC]; exact Real.abs_cos_le_one _
  have hcross : |2 * S * C * q| ≤ 2 * |⟪y, d⟫| := by
    rw [abs_mul, abs_mul, abs_mul, abs_two]
    have : |S| * |C| * |q| ≤ |⟪y, d⟫| := by
      calc |S| * |C| * |q| = (|S| * |q|) * |C| := by ring
        _ ≤ |⟪y, d⟫| * 1 := mul_le_mul hq hC1 (abs_nonneg _) (abs_nonneg _)
        _ = _ := mul_one _
    nlinarith
  have hn1 : 0 ≤ 1 - ‖y‖ ^ 2 := by nlinarith [norm_nonneg y]
  have hn2 : 0 ≤ 1 - ‖unit eps d‖ ^ 2 := by nlinarith
  have hc2 : C ^ 2 ≤ 1 := by nlinarith [sq_nonneg S]
  have hs2 : S ^ 2 ≤ ‖d‖ := by rw [← sq_abs]; nlinarith [abs_nonneg S]
  have a1 : C ^ 2 * (1 - ‖y‖ ^ 2) ≤ 4 * eps := by nlinarith [sq_nonneg C]
  have a2 : S ^ 2 * (1 - ‖unit eps d‖ ^ 2) ≤ 2 * eps := (mul_le_mul_of_nonneg_right hs2 hn2).trans r2
  have a3 : 0 ≤ C ^ 2 * (1 - ‖y‖ ^ 2) := by positivity
  have a4 : 0 ≤ S ^ 2 * (1 - ‖unit eps d‖ ^ 2) := by positivity
  have e2 : ‖gexp eps y d‖ ^ 2 - 1 = -(C ^ 2 * (1 - ‖y‖ ^ 2)) - S ^ 2 * (1 - ‖unit eps d‖ ^ 2) + 2 * S * C * q := by rw [e]; linear_combination ht
  rw [e2]
  rw [abs_le] at hcross ⊢
  constructor <;> linarith [hcross.1, hcross.2]

/-- The direction after the move (`gpt`). -/
theorem gpt_near (eps : ℝ) (h : 0 < eps) (y d : E) (hy1 : ‖y‖ ≤ 1) (hy2 : 1 - ‖y‖ ^ 2 ≤ 4 * eps) :
    ‖gpt eps y d‖ ≤ ‖d‖ + |⟪y, d⟫| ∧ |⟪gexp eps y d, gpt eps y d⟫| ≤ |⟪y, d⟫| + 2 * eps + 4 * eps * ‖d‖ := by
  obtain ⟨r0, r1, r2⟩ := ratio eps ‖d‖ h.le (norm_nonneg d)
  rw [← unit_norm eps h.le] at r0 r1 r2
  have ht := trig ‖d‖
  have hq : ‖d‖ * |⟪y, unit eps d⟫| ≤ |⟪y, d⟫| := by
    unfold unit
    rw [inner_smul_right, abs_mul, abs_of_nonneg (by positivity), ← mul_assoc]
    have : ‖d‖ * (‖d‖ + eps)⁻¹ ≤ 1 := by
      rw [← div_eq_mul_inv, div_le_one (by positivity)]
      linarith
    nlinarith [abs_nonneg (⟪y, d⟫ : ℝ)]
  have e : ‖gpt eps y d‖ ^ 2 = ‖d‖ ^ 2 * (Real.cos ‖d‖ ^ 2 * ‖unit eps d‖ ^ 2 + Real.sin ‖d‖ ^ 2 * ‖y‖ ^ 2 - 2 * Real.sin ‖d‖ * Real.cos ‖d‖ * ⟪y, unit eps d⟫) := by
    unfold gpt
    rw [norm_smul, mul_pow, norm_norm]
    congr 1
    rw [← inner_self', inner_sub_left, inner_sub_right, inner_sub_right, inner_smul_left, inner_smul_left, inner_smul_left, inner_smul_left,
      inner_smul_right, inner_smul_right, inner_smul_right, inner_smul_right, inner_self', inner_self', real_inner_comm y (unit eps d)]
    simp only [conj_trivial]
    ring
  have f : (⟪gexp eps y d, gpt eps y d⟫ : ℝ) = ‖d‖ * ((Real.cos ‖d‖ ^ 2 - Real.sin ‖d‖ ^ 2) * ⟪y, unit eps d⟫ + Real.sin ‖d‖ * Real.cos ‖d‖ * (‖unit eps d‖ ^ 2 - ‖y‖ ^ 2)) := by
    unfold gpt gexp
    rw [inner_smul_right, inner_sub_right, inner_add_left, inner_add_left, inner_smul_left, inner_smul_left, inner_smul_left, inner_smul_left, inner_smul_right, inner_smul_right,
      inner_smul_right, inner_smul_right, inner_self', inner_self', real_inner_comm y (unit eps d)]
    simp only [conj_trivial]
    ring
  obtain ⟨S, hS⟩ : ∃ S, S = Real.sin ‖d‖ := ⟨_, rfl⟩
  obtain ⟨C, hC⟩ : ∃ C, C = Real.cos ‖d‖ := ⟨_, rfl⟩
  obtain ⟨q, hqd⟩ : ∃ q, q = (⟪y, unit eps d⟫ : ℝ) := ⟨_, rfl⟩
  rw [← hS, ← hC, ← hqd] at e f
  rw [← hqd] at hq
  rw [← hS, ← hC] at ht
  have hn1 : 0 ≤ 1 - ‖y‖ ^ 2 := by nlinarith [norm_nonneg y]
  have hn2 : 0 ≤ 1 - ‖unit eps d‖ ^ 2 := by nlinarith
  have hsc : |S * C| ≤ 1 := by rw [abs_le]; constructor <;> nlinarith [sq_nonneg (S - C), sq_nonneg (S + C)]
  have hcs : |C ^ 2 - S ^ 2| ≤ 1 := by rw [abs_le]; constructor <;> nlinarith [sq_nonneg S, sq_nonneg C]
  have hd := norm_nonneg d
  constructor
  · refine le_of_sq_le_sq ?_ (by positivity)
    rw [e]
    have g1 : C ^ 2 * ‖unit eps d‖ ^ 2 + S ^ 2 * ‖y‖ ^ 2 ≤ 1 := by nlinarith [sq_nonneg S, sq_nonneg C]
    have g2 : -(2 * S * C * q) ≤ 2 * |q| := by
      have : |S * C * q| ≤ |q| := by rw [abs_mul]; nlinarith [abs_nonneg q]
      have := (abs_le.1 this).1
      linarith
    have g3 : ‖d‖ ^ 2 * (C ^ 2 * ‖unit eps d‖ ^ 2 + S ^ 2 * ‖y‖ ^ 2 - 2 * S * C * q) ≤ ‖d‖ ^ 2 * (1 + 2 * |q|) := mul_le_mul_of_nonneg_left (by linarith) (sq_nonneg _)
    have g4 : ‖d‖ ^ 2 * (1 + 2 * |q|) = ‖d‖ ^ 2 + 2 * ‖d‖ * (‖d‖ * |q|) := by ring
    nlinarith [abs_nonneg (⟪y, d⟫ : ℝ), sq_nonneg (⟪y, d⟫ : ℝ), sq_abs (⟪y, d⟫ : ℝ)]
  · rw [f, abs_mul, abs_of_nonneg hd]
    have g1 : |(C ^ 2 - S ^ 2) * q| ≤ |q| := by rw [abs_mul]; nlinarith [abs_nonneg q]
    have g2 : |S * C * (‖unit eps d‖ ^ 2 - ‖y‖ ^ 2)| ≤ (1 - ‖unit eps d‖ ^ 2) + (1 - ‖y‖ ^ 2) := by
      rw [abs_mul]
      have : |‖unit eps d‖ ^ 2 - ‖y‖ ^ 2| ≤ (1 - ‖unit eps d‖ ^ 2) + (1 - ‖y‖ ^ 2) := by rw [abs_le]; constructor <;> linarith
      nlinarith [abs_nonneg (‖unit eps d‖ ^ 2 - ‖y‖ ^ 2)]
    have g3 := (abs_add_le ((C ^ 2 - S ^ 2) * q) (S * C * (‖unit eps d‖ ^ 2 - ‖y‖ ^ 2))).trans (add_le_add g1 g2)
    have g4 := mul_le_mul_of_nonneg_left g3 hd
    have g5 : ‖d‖ * (|q| + ((1 - ‖unit eps d‖ ^ 2) + (1 - ‖y‖ ^ 2))) = ‖d‖ * |q| + ‖d‖ * (1 - ‖unit eps d‖ ^ 2) + ‖d‖ * (1 - ‖y‖ ^ 2) := by ring
    have g6 : ‖d‖ * (1 - ‖y‖ ^ 2) ≤ ‖d‖ * (4 * eps) := mul_le_mul_of_nonneg_left hy2 hd
    have g7 : ‖d‖ * (4 * eps) = 4 * eps * ‖d‖ := by ring
    linarith

set_option maxHeartbeats 1000000 in
/-- The momentum after the move (`gpt2`), which is along it. -/
theorem gpt2_near (eps : ℝ) (h : 0 < eps) (y w : E) (f : ℝ) (hy1 : ‖y‖ ≤ 1) (hy2 : 1 - ‖y‖ ^ 2 ≤ 4 * eps) :
    ‖gpt2 eps y w (f • w)‖ ≤ ‖w‖ + |⟪y, w⟫| ∧ |⟪gexp eps y (f • w), gpt2 eps y w (f • w)⟫| ≤ |⟪y, w⟫| + 8 * eps * ‖w‖ := by
  obtain ⟨r0, r1, r2⟩ := ratio eps ‖f • w‖ h.le (norm_nonneg _)
  obtain ⟨b, hb⟩ : ∃ b, b = ‖f • w‖ := ⟨_, rfl⟩
  have hb0 : 0 ≤ b := by rw [hb]; exact norm_nonneg _
  have hbf : b = |f| * ‖w‖ := by rw [hb, norm_smul, Real.norm_eq_abs]
  obtain ⟨ρ, hρ⟩ : ∃ ρ, ρ = b / (b + eps) := ⟨_, rfl⟩
  rw [← hb, ← hρ] at r0 r1 r2
  obtain ⟨l, hl⟩ : ∃ l, l = f * ‖w‖ ^ 2 / (b + eps) := ⟨_, rfl⟩
  have hbe : 0 < b + eps := by linarith
  have hw := norm_nonneg w
  have hb2 : b ^ 2 = f ^ 2 * ‖w‖ ^ 2 := by rw [hbf, mul_pow, sq_abs]
  have hρf : ρ ^ 2 = f ^ 2 * ‖w‖ ^ 2 / (b + eps) ^ 2 := by rw [hρ, div_pow, hb2]
  have hl2 : |l| = ρ * ‖w‖ := by
    rw [hl, abs_div, abs_mul, abs_of_pos hbe, abs_of_nonneg (sq_nonneg ‖w‖), show |f| * ‖w‖ ^ 2 = b * ‖w‖ by rw [hbf]; ring, hρ]; ring
  have hl2' : l ^ 2 = ρ ^ 2 * ‖w‖ ^ 2 := by rw [← sq_abs, hl2]; ring
  have hs := sin_abs_le b hb0
  have ht := trig b
  obtain ⟨S, hS⟩ : ∃ S, S = Real.sin b := ⟨_, rfl⟩
  obtain ⟨C, hC⟩ : ∃ C, C = Real.cos b := ⟨_, rfl⟩
  obtain ⟨q, hq⟩ : ∃ q, q = (⟪y, w⟫ : ℝ) := ⟨_, rfl⟩
  have hu : unit eps (f • w) = (f / (b + eps)) • w := by unfold unit; rw [← hb, smul_smul]; congr 1; ring
  have hg : gpt2 eps y w (f • w) = (1 - ρ ^ 2 * (1 - C)) • w - (l * S) • y := by
    unfold gpt2
    rw [hu, ← hb, inner_smul_left, inner_self', conj_trivial, ← hS, ← hC, smul_add, smul_smul, smul_smul, smul_smul, sub_smul, one_smul]
    have e1 : f / (b + eps) * ‖w‖ ^ 2 * (1 - C) * (f / (b + eps)) = ρ ^ 2 * (1 - C) := by
      rw [hρf]; field_simp
    have e2 : f / (b + eps) * ‖w‖ ^ 2 * S = l * S := by rw [hl]; ring
    rw [e2, mul_assoc, mul_assoc, ← mul_assoc (‖w‖ ^ 2), ← mul_assoc, ← mul_assoc, e1]
    abel
  rw [← hS] at hs
  rw [← hS, ← hC] at ht
  rw [← hq]
  have hκ0 : 0 ≤ 1 - C := by rw [hC]; linarith [Real.cos_le_one b]
  have hκ2 : 1 - C ≤ 2 := by rw [hC]; linarith [Real.neg_one_le_cos b]
  have hρ2 : ρ ^ 2 ≤ 1 := by nlinarith
  have hρ0 : 0 ≤ ρ ^ 2 := sq_nonneg ρ
  have hS1 : |S| ≤ 1 := by rw [hS]; exact Real.abs_sin_le_one b
  have hC1 : |C| ≤ 1 := by rw [hC]; exact Real.abs_cos_le_one b
  have hy2' : 0 ≤ 1 - ‖y‖ ^ 2 := by nlinarith [norm_nonneg y]
  obtain ⟨k, hk⟩ : ∃ k, k = 1 - ρ ^ 2 * (1 - C) := ⟨_, rfl⟩
  rw [← hk] at hg
  have hk1 : |k| ≤ 1 := by rw [hk, abs_le]; constructor <;> nlinarith
  constructor
  · refine le_of_sq_le_sq ?_ (by positivity)
    have e : ‖gpt2 eps y w (f • w)‖ ^ 2 = k ^ 2 * ‖w‖ ^ 2 + l ^ 2 * S ^ 2 * ‖y‖ ^ 2 - 2 * k * (l * S) * q := by
      rw [hg, ← inner_self', inner_sub_left, inner_sub_right, inner_sub_right, inner_smul_left, inner_smul_left, inner_smul_left, inner_smul_left, inner_smul_right, inner_smul_right,
        inner_smul_right, inner_smul_right, inner_self', inner_self', real_inner_comm y w, ← hq]
      simp only [conj_trivial]
      ring
    rw [e, hl2']
    have hkk : k ^ 2 + ρ ^ 2 * S ^ 2 ≤ 1 := by
      have : k ^ 2 + ρ ^ 2 * S ^ 2 = 1 - ρ ^ 2 * (1 - C) ^ 2 * (1 - ρ ^ 2) := by rw [hk]; linear_combination ρ ^ 2 * ht
      rw [this]
      have : 0 ≤ ρ ^ 2 * (1 - C) ^ 2 * (1 - ρ ^ 2) := mul_nonneg (by positivity) (by linarith)
      linarith
    have hy3 : ‖y‖ ^ 2 ≤ 1 := by linarith
    have a1 : ρ ^ 2 * ‖w‖ ^ 2 * S ^ 2 * ‖y‖ ^ 2 ≤ ρ ^ 2 * ‖w‖ ^ 2 * S ^ 2 := mul_le_of_le_one_right (by positivity) hy3
    have a2 : k ^ 2 * ‖w‖ ^ 2 + ρ ^ 2 * ‖w‖ ^ 2 * S ^ 2 ≤ ‖w‖ ^ 2 := by
      have : k ^ 2 * ‖w‖ ^ 2 + ρ ^ 2 * ‖w‖ ^ 2 * S ^ 2 = (k ^ 2 + ρ ^ 2 * S ^ 2) * ‖w‖ ^ 2 := by ring
      rw [this]
      exact mul_le_of_le_one_left (sq_nonneg _) hkk
    have a3 : |k * (l * S) * q| ≤ ‖w‖ * |q| := by
      rw [abs_mul, abs_mul, abs_mul, hl2]
      refine mul_le_mul_of_nonneg_right ?_ (abs_nonneg q)
      have : |k| * (ρ * ‖w‖ * |S|) ≤ 1 * (1 * ‖w‖ * 1) := by
        refine mul_le_mul hk1 ?_ (by positivity) (by norm_num)
        refine mul_le_mul ?_ hS1 (abs_nonneg _) (by positivity)
        exact mul_le_mul_of_nonneg_right r1 hw
      linarith
    have := (abs_le.1 a3).1
    have a4 : (‖w‖ + |q|) ^ 2 = ‖w‖ ^ 2 + 2 * (‖w‖ * |q|) + |q| ^ 2 := by ring
    have := sq_nonneg |q|
    linarith
  · have e : (⟪gexp eps y (f • w), gpt2 eps y w (f • w)⟫ : ℝ) = q * (C * k - ρ ^ 2 * S ^ 2) + l * S * ((1 - C) * (1 - ρ ^ 2) + C * (1 - ‖y‖ ^ 2)) := by
      have e3 : l * (f / (b + eps)) = ρ ^ 2 := by
        rw [hl, hρf]; field_simp
      have e4 : f / (b + eps) * ‖w‖ ^ 2 = l := by rw [hl]; ring
      unfold gexp
      rw [hg, hu, ← hb, ← hS, ← hC, inner_add_left, inner_sub_right, inner_sub_right, inner_smul_left, inner_smul_left, inner_smul_left, inner_smul_left, inner_smul_left,
        inner_smul_left, inner_smul_right, inner_smul_right, inner_smul_right, inner_smul_right, inner_self', inner_self', real_inner_comm y w, ← hq]
      simp only [conj_trivial]
      rw [hk]
      linear_combination (S * (1 - ρ ^ 2 * (1 - C))) * e4 - S ^ 2 * q * e3
    rw [e]
    have b1 : |C * k - ρ ^ 2 * S ^ 2| ≤ 1 := by
      have : C * k - ρ ^ 2 * S ^ 2 = (1 - ρ ^ 2) * C + ρ ^ 2 * (C ^ 2 - S ^ 2) := by rw [hk]; ring
      rw [this, abs_le]
      have c1 := abs_le.1 hC1
      have c2 : -1 ≤ C ^ 2 - S ^ 2 := by nlinarith [sq_nonneg C]
      have c3 : C ^ 2 - S ^ 2 ≤ 1 := by nlinarith [sq_nonneg S]
      have c4 : (1 - ρ ^ 2) * C ≤ (1 - ρ ^ 2) * 1 := mul_le_mul_of_nonneg_left c1.2 (by linarith)
      have c5 : (1 - ρ ^ 2) * (-1) ≤ (1 - ρ ^ 2) * C := mul_le_mul_of_nonneg_left c1.1 (by linarith)
      have c6 : ρ ^ 2 * (C ^ 2 - S ^ 2) ≤ ρ ^ 2 * 1 := mul_le_mul_of_nonneg_left c3 hρ0
      have c7 : ρ ^ 2 * (-1) ≤ ρ ^ 2 * (C ^ 2 - S ^ 2) := mul_le_mul_of_nonneg_left c2 hρ0
      constructor <;> linarith
    have b2 : |q * (C * k - ρ ^ 2 * S ^ 2)| ≤ |q| := by rw [abs_mul]; exact mul_le_of_le_one_right (abs_nonneg _) b1
    have b3 : |l * S * ((1 - C) * (1 - ρ ^ 2))| ≤ 4 * eps * ‖w‖ := by
      rw [abs_mul, abs_mul, hl2, abs_of_nonneg (mul_nonneg hκ0 (by linarith))]
      have d1 : ρ * ‖w‖ * |S| * ((1 - C) * (1 - ρ ^ 2)) ≤ ‖w‖ * b * (2 * (1 - ρ ^ 2)) := by
        refine mul_le_mul ?_ (mul_le_mul_of_nonneg_right hκ2 (by linarith)) (mul_nonneg hκ0 (by linarith)) (by positivity)
        refine mul_le_mul ?_ hs (abs_nonneg _) hw
        exact mul_le_of_le_one_left hw r1
      have d2 : ‖w‖ * b * (2 * (1 - ρ ^ 2)) = 2 * ‖w‖ * (b * (1 - ρ ^ 2)) := by ring
      have d3 : 2 * ‖w‖ * (b * (1 - ρ ^ 2)) ≤ 2 * ‖w‖ * (2 * eps) := mul_le_mul_of_nonneg_left r2 (by positivity)
      linarith
    have b4 : |l * S * (C * (1 - ‖y‖ ^ 2))| ≤ 4 * eps * ‖w‖ := by
      rw [abs_mul, abs_mul, abs_mul, hl2, abs_of_nonneg hy2']
      have d1 : ρ * ‖w‖ * |S| * (|C| * (1 - ‖y‖ ^ 2)) ≤ ‖w‖ * 1 * (1 * (4 * eps)) := by
        refine mul_le_mul ?_ (mul_le_mul hC1 hy2 hy2' (by norm_num)) (by positivity) (by positivity)
        refine mul_le_mul ?_ hS1 (abs_nonneg _) hw
        exact mul_le_of_le_one_left hw r1
      linarith
    have e5 : q * (C * k - ρ ^ 2 * S ^ 2) + l * S * ((1 - C) * (1 - ρ ^ 2) + C * (1 - ‖y‖ ^ 2))
        = q * (C * k - ρ ^ 2 * S ^ 2) + l * S * ((1 - C) * (1 - ρ ^ 2)) + l * S * (C * (1 - ‖y‖ ^ 2)) := by ring
    rw [e5]
    have f1 := abs_add_le (q * (C * k - ρ ^ 2 * S ^ 2) + l * S * ((1 - C) * (1 - ρ ^ 2))) (l * S * (C * (1 - ‖y‖ ^ 2)))
    have f2 := abs_add_le (q * (C * k - ρ ^ 2 * S ^ 2)) (l * S * ((1 - C) * (1 - ρ ^ 2)))
    linarith

/-- Normalising a point almost of norm one. -/
theorem renorm (eps D : ℝ) (h : 0 ≤ eps) (hD0 : 0 ≤ D) (hD : D ≤ 1 / 2) (P : E) (hP : |‖P‖ ^ 2 - 1| ≤ D) (m : E) :
    1 / 2 ≤ ‖P‖ ∧ |⟪unit eps P, m⟫| ≤ (1 + D) * |⟪P, m⟫| := by
  have hP' := (abs_le.1 hP).1
  have hn := norm_nonneg P
  have h1 : 1 / 2 ≤ ‖P‖ := by nlinarith
  refine ⟨h1, ?_⟩
  unfold unit
  rw [inner_smul_left, conj_trivial, abs_mul, abs_of_nonneg (by positivity)]
  refine mul_le_mul_of_nonneg_right ?_ (abs_nonneg _)
  rw [inv_le_comm₀ (by positivity) (by positivity)]
  have : (1 + D)⁻¹ ≤ ‖P‖ := by
    rw [inv_le_iff_one_le_mul₀ (by positivity)]
    refine le_of_sq_le_sq ?_ (by positivity)
    have : (1 + D) ^ 2 * (1 - D) ≤ (1 + D) ^ 2 * ‖P‖ ^ 2 := mul_le_mul_of_nonneg_left (by linarith) (sq_nonneg _)
    have h2 : (‖P‖ * (1 + D)) ^ 2 = (1 + D) ^ 2 * ‖P‖ ^ 2 := by ring
    have h3 : (1 + D) ^ 2 * (1 - D) = 1 + D * (1 - D - D ^ 2) := by ring
    have h4 : 0 ≤ D * (1 - D - D ^ 2) := mul_nonneg hD0 (by nlinarith)
    linarith
  linarith

/-! ## C107 -/

/-- Specification: a row is on the sphere up to `δ`. -/
def OnSphere (δ : ℝ) (x : E) : Prop := |‖x‖ ^ 2 - 1| ≤ δ

/-- What a history of SGDG keeps. -/
structure SgdInv (eps A T : ℝ) (s : Sgd p E) : Prop where
  point : ∀ i, 1 / 2 ≤ ‖s.P i‖
  length : ∀ i, ‖s.mom i‖ ≤ A + T
  tangent : ∀ i, |⟪unit eps (s.P i), s.mom i⟫| ≤ (1 + (6 * eps + 2 * T)) * (T + 2 * eps + 4 * eps * A)

theorem sgd_step (eps : ℝ) (h : 0 < eps) (a : Args) (A B T : ℝ) (hT : 0 ≤ T) (hm : 0 ≤ a.momentum) (hc : ∀ x, a.gradClip = some x → 0 ≤ x)
    (h1 : a.momentum * (A + T) + B ≤ A) (h2 : a.momentum * ((1 + (6 * eps + 2 * T)) * (T + 2 * eps + 4 * eps * A)) + 4 * eps * B ≤ T) (h3 : 6 * eps + 2 * T ≤ 1 / 2)
    (s : Sgd p E) (hs : SgdInv eps A T s) (e : Event p E) (hl : 0 ≤ e.lr) (hB : ∀ i, e.lr * ‖gradient a.omega (fun j => unit eps (s.P j)) e.G i‖ ≤ B) :
    SgdInv eps A T (s.step eps a e) ∧ ∀ i, OnSphere (6 * eps + 2 * T) ((s.step eps a e).P i) := by
  have key : ∀ i, ‖s.new eps a e i‖ ≤ A ∧ |⟪unit eps (s.P i), s.new eps a e i⟫| ≤ T := by
    intro i
    obtain ⟨g1, g2⟩ := hat_bounds eps h.le a.gradClip hc (s.P i) (gradient a.omega (fun j => unit eps (s.P j)) e.G i) (hs.point i)
    have hB' := hB i
    unfold Sgd.new
    constructor
    · refine (norm_sub_le _ _).trans ?_
      rw [norm_smul, norm_smul, Real.norm_of_nonneg hm, Real.norm_of_nonneg hl]
      have c1 := mul_le_mul_of_nonneg_left (hs.length i) hm
      have c2 := mul_le_mul_of_nonneg_left g1 hl
      linarith
    · rw [inner_sub_right, inner_smul_right, inner_smul_right]
      refine (abs_sub _ _).trans ?_
      rw [abs_mul, abs_mul, abs_of_nonneg hm, abs_of_nonneg hl]
      have c1 := mul_le_mul_of_nonneg_left (hs.tangent i) hm
      have c2 := mul_le_mul_of_nonneg_left g2 hl
      have c3 := mul_le_mul_of_nonneg_left hB' (show 0 ≤ 4 * eps by linarith)
      linarith
  have hsph : ∀ i, OnSphere (6 * eps + 2 * T) ((s.step eps a e).P i) := by
    intro i
    obtain ⟨y1, y2⟩ := near_unit eps h.le (s.P i) (hs.point i)
    have := gexp_near eps h (unit eps (s.P i)) (s.new eps a e i) y1 y2
    have := (key i).2
    unfold OnSphere
    simp only [Sgd.step]
    linarith
  have hD : 0 ≤ 6 * eps + 2 * T := by linarith
  refine ⟨⟨fun i => (renorm eps _ h.le hD h3 _ (hsph i) 0).1, fun i => ?_, fun i => ?_⟩, hsph⟩
  · obtain ⟨y1, y2⟩ := near_unit eps h.le (s.P i) (hs.point i)
    have := (gpt_near eps h (unit eps (s.P i)) (s.new eps a e i) y1 y2).1
    simp only [Sgd.step]
    linarith [key i]
  · obtain ⟨y1, y2⟩ := near_unit eps h.le (s.P i) (hs.point i)
    have g := (gpt_near eps h (unit eps (s.P i)) (s.new eps a e i) y1 y2).2
    refine (renorm eps _ h.le hD h3 _ (hsph i) _).2.trans (mul_le_mul_of_nonneg_left ?_ (by linarith))
    simp only [Sgd.step]
    have := mul_le_mul_of_nonneg_left (key i).1 (show 0 ≤ 4 * eps by linarith)
    linarith [key i]

/-- Specification: at each step of a history, a condition on the point reached and the next event holds. -/
def Along {S V : Type} (step : S → V → S) (c : S → V → Prop) : S → List V → Prop
  | _, [] => True
  | s, e :: es => c s e ∧ Along step c (step s e) es

theorem sgd_run (eps : ℝ) (h : 0 < eps) (a : Args) (A B T : ℝ) (hT : 0 ≤ T) (hm : 0 ≤ a.momentum) (hc : ∀ x, a.gradClip = some x → 0 ≤ x)
    (h1 : a.momentum * (A + T) + B ≤ A) (h2 : a.momentum * ((1 + (6 * eps + 2 * T)) * (T + 2 * eps + 4 * eps * A)) + 4 * eps * B ≤ T) (h3 : 6 * eps + 2 * T ≤ 1 / 2)
    (es : List (Event p E)) (s : Sgd p E) (hs : SgdInv eps A T s)
    (he : Along (Sgd.step eps a) (fun s e => 0 ≤ e.lr ∧ ∀ i, e.lr * ‖gradient a.omega (fun j => unit eps (s.P j)) e.G i‖ ≤ B) s es) (hne : es ≠ []) (i : p) :
    OnSphere (6 * eps + 2 * T) ((s.run eps a es).P i) := by
  induction es generalizing s with
  | nil => exact absurd rfl hne
  | cons e es ih =>
    obtain ⟨⟨c1, c2⟩, c3⟩ := he
    obtain ⟨g1, g2⟩ := sgd_step eps h a A B T hT hm hc h1 h2 h3 s hs e c1 c2
    by_cases h0 : es = []
    · rw [h0]; exact g2 i
    · exact ih (s.step eps a e) g1 c3 h0

/-- **C107** (SGDG, partial). From any parameter of which the rows are not shorter than a half, with any momentum, gradient clipping and orthogonality factor, along any history of
gradients of which the steps (learning rate times length) are at most `B`, every row is on the unit sphere up to `6ε + 2T`, `T` (how far the momentum may be from being tangent) being
any solution of `h1`, `h2` with the bound `A` on the length of a move. (With `ε = 10⁻⁸`, see the examples: steps of length one and a momentum of 0.9 leave `10⁻⁵`.)
Missing (`_partial`): lying exactly on the sphere, `C107_exact_violated`; steps of any length, `C107_collapse_violated`. -/
theorem C107_sgd_partial (eps : ℝ) (h : 0 < eps) (a : Args) (A B T : ℝ) (hA : 0 ≤ A) (hT : 0 ≤ T) (hm : 0 ≤ a.momentum) (hc : ∀ x, a.gradClip = some x → 0 ≤ x)
    (h1 : a.momentum * (A + T) + B ≤ A) (h2 : a.momentum * ((1 + (6 * eps + 2 * T)) * (T + 2 * eps + 4 * eps * A)) + 4 * eps * B ≤ T) (h3 : 6 * eps + 2 * T ≤ 1 / 2)
    (P : p → E) (hP : ∀ i, 1 / 2 ≤ ‖P i‖) (es : List (Event p E)) (hne : es ≠ [])
    (he : Along (Sgd.step eps a) (fun s e => 0 ≤ e.lr ∧ ∀ i, e.lr * ‖gradient a.omega (fun j => unit eps (s.P j)) e.G i‖ ≤ B) (Sgd.init P) es) (i : p) :
    OnSphere (6 * eps + 2 * T) (((Sgd.init P).run eps a es).P i) := by
  refine sgd_run eps h a A B T hT hm hc h1 h2 h3 es _ ⟨hP, fun i => ?_, fun i => ?_⟩ he hne i
  · simp only [Sgd.init, norm_zero]; linarith
  · simp only [Sgd.init, inner_zero_right, abs_zero]; positivity

/-- What a history of AdamG keeps. -/
structure AdamInv (eps A D T beta1 beta2 : ℝ) (s : Adam p E) : Prop where
  point : ∀ i, 1 / 2 ≤ ‖s.P i‖
  length : ∀ i, ‖s.m i‖ ≤ A + T
  tangent : ∀ i, |⟪unit eps (s.P i), s.m i⟫| ≤ (1 + D) * (T + 8 * eps * A)
  v : ∀ i, 0 ≤ s.v i
  b1 : 0 ≤ s.b1 ∧ s.b1 ≤ beta1
  b2 : 0 ≤ s.b2 ∧ s.b2 ≤ beta2

theorem adam_step (eps : ℝ) (h : 0 < eps) (a : Args) (beta2 epsilon A G L T : ℝ) (hT : 0 ≤ T) (hL : 0 ≤ L) (hε : 0 < epsilon) (hm : 0 ≤ a.momentum) (hm1 : a.momentum < 1)
    (hb : 0 ≤ beta2) (hb1 : beta2 ≤ 1) (hc : ∀ x, a.gradClip = some x → 0 ≤ x)
    (h1 : a.momentum * (A + T) + (1 - a.momentum) * G ≤ A) (h2 : a.momentum * ((1 + (6 * eps + 2 * L * T)) * (T + 8 * eps * A)) + (1 - a.momentum) * (4 * eps * G) ≤ T)
    (h3 : 6 * eps + 2 * L * T ≤ 1 / 2)
    (s : Adam p E) (hs : AdamInv eps A (6 * eps + 2 * L * T) T a.momentum beta2 s) (e : Event p E) (hl : 0 ≤ e.lr) (hlL : e.lr ≤ L * ((1 - a.momentum) * Real.sqrt epsilon))
    (hG : ∀ i, ‖gradient a.omega (fun j => unit eps (s.P j)) e.G i‖ ≤ G) :
    AdamInv eps A (6 * eps + 2 * L * T) T a.momentum beta2 (s.step eps beta2 epsilon a e) ∧ ∀ i, OnSphere (6 * eps + 2 * L * T) ((s.step eps beta2 epsilon a e).P i) := by
  have hm2 : 0 ≤ 1 - a.momentum := by linarith
  have key : ∀ i, ‖s.mnew eps a e i‖ ≤ A ∧ |⟪unit eps (s.P i), s.mnew eps a e i⟫| ≤ T := by
    intro i
    obtain ⟨g1, g2⟩ := hat_bounds eps h.le a.gradClip hc (s.P i) (gradient a.omega (fun j => unit eps (s.P j)) e.G i) (hs.point i)
    have hG' := hG i
    unfold Adam.mnew Adam.hat
    constructor
    · refine (norm_add_le _ _).trans ?_
      rw [norm_smul, norm_smul, Real.norm_of_nonneg hm, Real.norm_of_nonneg hm2]
      have c1 := mul_le_mul_of_nonneg_left (hs.length i) hm
      have c2 := mul_le_mul_of_nonneg_left (g1.trans hG') hm2
      linarith
    · rw [inner_add_right, inner_smul_right, inner_smul_right]
      refine (abs_add_le _ _).trans ?_
      rw [abs_mul, abs_mul, abs_of_nonneg hm, abs_of_nonneg hm2]
      have c1 := mul_le_mul_of_nonneg_left (hs.tangent i) hm
      have c2 := mul_le_mul_of_nonneg_left (g2.trans (mul_le_mul_of_nonneg_left hG' (show 0 ≤ 4 * eps by linarith))) hm2
      linarith
  have hv : ∀ i, 0 ≤ s.vnew eps beta2 a e i := by
    intro i
    unfold Adam.vnew
    have := hs.v i
    have : 0 ≤ (⟪s.hat eps a e i, s.hat eps a e i⟫ : ℝ) := real_inner_self_nonneg
    have : 0 ≤ 1 - beta2 := by linarith
    positivity
  have hf : ∀ i, |s.factor eps beta2 epsilon a e i| ≤ L := by
    intro i
    have hb' : 0 < 1 - s.b1 := by linarith [hs.b1.2]
    have hv' := hv i
    have hsq : Real.sqrt epsilon ≤ Real.sqrt (s.vnew eps beta2 a e i + epsilon) := Real.sqrt_le_sqrt (by linarith)
    have hsp : 0 < Real.sqrt epsilon := Real.sqrt_pos.2 hε
    have hsp' : 0 < Real.sqrt (s.vnew eps beta2 a e i + epsilon) := lt_of_lt_of_le hsp hsq
    have hs1 : Real.sqrt (1 - s.b2) ≤ 1 := Real.sqrt_le_one.2 (by linarith [hs.b2.1])
    unfold Adam.factor
    rw [neg_mul, neg_div, abs_neg, abs_of_nonneg (by positivity), div_le_iff₀ hsp', div_mul_eq_mul_div, div_le_iff₀ hb']
    have c1 : Real.sqrt (1 - s.b2) * e.lr ≤ 1 * (L * ((1 - a.momentum) * Real.sqrt epsilon)) := mul_le_mul hs1 hlL hl (by norm_num)
    have c2 : (1 - a.momentum) * Real.sqrt epsilon ≤ (1 - s.b1) * Real.sqrt (s.vnew eps beta2 a e i + epsilon) := mul_le_mul (by linarith [hs.b1.2]) hsq hsp.le hb'.le
    have c3 := mul_le_mul_of_nonneg_left c2 hL
    linarith
  have hsph : ∀ i, OnSphere (6 * eps + 2 * L * T) ((s.step eps beta2 epsilon a e).P i) := by
    intro i
    obtain ⟨y1, y2⟩ := near_unit eps h.le (s.P i) (hs.point i)
    have g := gexp_near eps h (unit eps (s.P i)) (s.factor eps beta2 epsilon a e i • s.mnew eps a e i) y1 y2
    rw [inner_smul_right, abs_mul] at g
    have := mul_le_mul (hf i) (key i).2 (abs_nonneg _) hL
    unfold OnSphere
    simp only [Adam.step]
    linarith
  have hD : 0 ≤ 6 * eps + 2 * L * T := by positivity
  refine ⟨⟨fun i => (renorm eps _ h.le hD h3 _ (hsph i) 0).1, fun i => ?_, fun i => ?_, hv, ?_, ?_⟩, hsph⟩
  · obtain ⟨y1, y2⟩ := near_unit eps h.le (s.P i) (hs.point i)
    have := (gpt2_near eps h (unit eps (s.P i)) (s.mnew eps a e i) (s.factor eps beta2 epsilon a e i) y1 y2).1
    simp only [Adam.step]
    linarith [key i]
  · obtain ⟨y1, y2⟩ := near_unit eps h.le (s.P i) (hs.point i)
    have g := (gpt2_near eps h (unit eps (s.P i)) (s.mnew eps a e i) (s.factor eps beta2 epsilon a e i) y1 y2).2
    refine (renorm eps _ h.le hD h3 _ (hsph i) _).2.trans (mul_le_mul_of_nonneg_left ?_ (by linarith))
    simp only [Adam.step]
    have := mul_le_mul_of_nonneg_left (key i).1 (show 0 ≤ 8 * eps by linarith)
    linarith [key i]
  · simp only [Adam.step]
    refine ⟨mul_nonneg hs.b1.1 hm, ?_⟩
    have := mul_le_mul hs.b1.2 hm1.le hm hm
    linarith
  · simp only [Adam.step]
    refine ⟨mul_nonneg hs.b2.1 hb, ?_⟩
    have := mul_le_mul hs.b2.2 hb1 hb hb
    linarith

/-- **C107** (AdamG, partial), as `C107_sgd_partial`, `G` being a bound on the gradients and `L` one on the factor between the momentum and the move. -/
theorem C107_adam_partial (eps : ℝ) (h : 0 < eps) (a : Args) (beta2 epsilon A G L T : ℝ) (hA : 0 ≤ A) (hT : 0 ≤ T) (hL : 0 ≤ L) (hε : 0 < epsilon) (hm : 0 ≤ a.momentum)
    (hm1 : a.momentum < 1) (hb : 0 ≤ beta2) (hb1 : beta2 ≤ 1) (hc : ∀ x, a.gradClip = some x → 0 ≤ x)
    (h1 : a.momentum * (A + T) + (1 - a.momentum) * G ≤ A) (h2 : a.momentum * ((1 + (6 * eps + 2 * L * T)) * (T + 8 * eps * A)) + (1 - a.momentum) * (4 * eps * G) ≤ T)
    (h3 : 6 * eps + 2 * L * T ≤ 1 / 2) (P : p → E) (hP : ∀ i, 1 / 2 ≤ ‖P i‖) (es : List (Event p E)) (hne : es ≠ [])
    (he : Along (Adam.step eps beta2 epsilon a) (fun s e => 0 ≤ e.lr ∧ e.lr ≤ L * ((1 - a.momentum) * Real.sqrt epsilon)
      ∧ ∀ i, ‖gradient a.omega (fun j => unit eps (s.P j)) e.G i‖ ≤ G) (Adam.init a.momentum beta2 P) es) (i : p) :
    OnSphere (6 * eps + 2 * L * T) (((Adam.init a.momentum beta2 P).run eps beta2 epsilon a es).P i) := by
  have h0 : AdamInv eps A (6 * eps + 2 * L * T) T a.momentum beta2 (Adam.init a.momentum beta2 P) := by
    refine ⟨hP, fun i => ?_, fun i => ?_, fun i => le_rfl, ⟨hm, le_rfl⟩, ⟨hb, le_rfl⟩⟩
    · simp only [Adam.init, norm_zero]; linarith
    · simp only [Adam.init, inner_zero_right, abs_zero]; positivity
  have hrun : ∀ (es : List (Event p E)) (s : Adam p E), AdamInv eps A (6 * eps + 2 * L * T) T a.momentum beta2 s → es ≠ [] →
      Along (Adam.step eps beta2 epsilon a) (fun s e => 0 ≤ e.lr ∧ e.lr ≤ L * ((1 - a.momentum) * Real.sqrt epsilon)
        ∧ ∀ i, ‖gradient a.omega (fun j => unit eps (s.P j)) e.G i‖ ≤ G) s es → OnSphere (6 * eps + 2 * L * T) ((s.run eps beta2 epsilon a es).P i) := by
    intro es
    induction es with
    | nil => intro s _ hne; exact absurd rfl hne
    | cons e es ih =>
      intro s hs _ he
      obtain ⟨⟨c1, c2, c3⟩, c4⟩ := he
      obtain ⟨g1, g2⟩ := adam_step eps h a beta2 epsilon A G L T hT hL hε hm hm1 hb hb1 hc h1 h2 h3 s hs e c1 c2 c3
      by_cases hz : es = []
      · rw [hz]; exact g2 i
      · exact ih (s.step eps beta2 epsilon a e) g1 hz c4
  exact hrun es _ h0 hne he

/-- Rows are never exactly on the sphere at rest: without gradient a step leaves every row strictly inside. -/
theorem C107_exact_violated (eps : ℝ) (h : 0 < eps) (a : Args) (ha : a.omega = 0) (P : p → E) (lr : ℝ) (i : p) :
    ‖(((Sgd.init P).step eps a ⟨fun _ => 0, lr⟩).P i)‖ < 1 := by
  have hg : gproj (unit eps (P i)) (0 : E) = 0 := by simp [gproj]
  have hc : clip a.gradClip (0 : E) = 0 := by
    unfold clip
    cases a.gradClip with
    | none => rfl
    | some b => simp
  have hn : (Sgd.init P).new eps a ⟨fun _ => 0, lr⟩ i = 0 := by
    simp only [Sgd.new, Sgd.init, gradient, ha, ne_eq, not_true_eq_false, if_false, hg, hc, smul_zero, sub_zero]
  simp only [Sgd.step, hn, gexp, norm_zero, Real.cos_zero, one_smul, Real.sin_zero, zero_smul, add_zero]
  simp only [Sgd.init]
  rw [unit_norm eps h.le, div_lt_one (by positivity)]
  linarith

/-- A gradient along a row may bring it to zero: the row is only almost of norm one, hence what remains of such a gradient is along it. -/
theorem C107_collapse_violated (eps : ℝ) (h : 0 < eps) (P : p → E) (i : p) (hi : P i ≠ 0) :
    ∃ G : p → E, ((Sgd.init P).step eps ⟨0, none, 0⟩ ⟨G, 1⟩).P i = 0 := by
  classical
  obtain ⟨y, hy⟩ : ∃ y, y = unit eps (P i) := ⟨_, rfl⟩
  have hn0 : 0 < ‖P i‖ := norm_pos_iff.2 hi
  have hy1 : ‖y‖ = ‖P i‖ / (‖P i‖ + eps) := by rw [hy, unit_norm eps h.le]
  have hc0 : 0 < ‖y‖ := by rw [hy1]; positivity
  have hc1 : ‖y‖ < 1 := by rw [hy1, div_lt_one (by positivity)]; linarith
  obtain ⟨θ, hθ, hθ0⟩ : ∃ θ ∈ Set.Icc (Real.pi / 2) Real.pi, Real.cos θ + Real.sin θ * ((θ / ‖y‖) / (θ + eps)) = 0 := by
    have hcont : ContinuousOn (fun θ : ℝ => Real.cos θ + Real.sin θ * ((θ / ‖y‖) / (θ + eps))) (Set.Icc (Real.pi / 2) Real.pi) := by
      refine ContinuousOn.add Real.continuous_cos.continuousOn (ContinuousOn.mul Real.continuous_sin.continuousOn (ContinuousOn.div (by fun_prop) (by fun_prop) fun θ hθ => ?_))
      have := hθ.1
      have := Real.pi_pos
      exact (by linarith : 0 < θ + eps).ne'
    have hiv := intermediate_value_Icc' (by linarith [Real.pi_pos]) hcont
    have h0 : (0 : ℝ) ∈ Set.Icc (Real.cos Real.pi + Real.sin Real.pi * ((Real.pi / ‖y‖) / (Real.pi + eps)))
        (Real.cos (Real.pi / 2) + Real.sin (Real.pi / 2) * (((Real.pi / 2) / ‖y‖) / (Real.pi / 2 + eps))) := by
      rw [Real.cos_pi, Real.sin_pi, Real.cos_pi_div_two, Real.sin_pi_div_two]
      have := Real.pi_pos
      exact ⟨by linarith, by positivity⟩
    obtain ⟨θ, h1, h2⟩ := hiv h0
    exact ⟨θ, h1, h2⟩
  have hθp : 0 < θ := lt_of_lt_of_le (by linarith [Real.pi_pos]) hθ.1
  obtain ⟨β, hβ⟩ : ∃ β, β = θ / ‖y‖ := ⟨_, rfl⟩
  have hβ0 : 0 < β := by rw [hβ]; positivity
  have hz : 0 < 1 - ‖y‖ ^ 2 := by nlinarith
  refine ⟨fun _ => (-(β / (1 - ‖y‖ ^ 2))) • y, ?_⟩
  have hg : gproj y ((-(β / (1 - ‖y‖ ^ 2))) • y) = (-β) • y := by
    unfold gproj
    rw [inner_smul_right, inner_self', ← sub_smul]
    congr 1
    field_simp
    ring
  have hnew : (Sgd.init P).new eps ⟨0, none, 0⟩ ⟨fun _ => (-(β / (1 - ‖y‖ ^ 2))) • y, 1⟩ i = β • y := by
    have e : (Sgd.init P).new eps ⟨0, none, 0⟩ ⟨fun _ => (-(β / (1 - ‖y‖ ^ 2))) • y, 1⟩ i = (0 : ℝ) • (0 : E) - (1 : ℝ) • gproj (unit eps (P i)) ((-(β / (1 - ‖y‖ ^ 2))) • y) := by
      simp [Sgd.new, Sgd.init, gradient, clip]
    rw [e, ← hy, hg]
    simp
  have hnorm : ‖β • y‖ = θ := by rw [norm_smul, Real.norm_of_nonneg hβ0.le, hβ]; field_simp
  simp only [Sgd.step, hnew]
  have : (Sgd.init P).P i = P i := rfl
  rw [this, ← hy]
  unfold gexp unit
  rw [hnorm, smul_smul, smul_smul, ← add_smul]
  have : Real.cos θ + Real.sin θ * (θ + eps)⁻¹ * β = 0 := by rw [← hθ0, hβ]; ring
  rw [this, zero_smul]

/-- The orthogonality factor given to an optimiser is ignored: whatever it is, the gradients are not regularised (unless a parameter group has its own). -/
theorem C107_omega_violated (a : Args) (Y G : p → E) (i : p) : gradient (group a none).omega Y G i = G i ∧ ∀ w : ℝ, (group a (some w)).omega = w := by
  refine ⟨?_, fun w => rfl⟩
  simp [group, gradient]

open Classical in
/-- What the orthogonality factor would do, in a parameter group that has its own: the gradient is that of the loss plus `ω/2 ‖YYᵀ - I‖²`, that is, the regularisation is minimal where the
rows are orthonormal. -/
theorem C107_regularisation (omega : ℝ) (Y G Z : p → E) :
    HasDerivAt (fun t : ℝ => (∑ i, ⟪G i, Y i + t • Z i⟫) + omega / 2 * ∑ i, ∑ j, (⟪Y i + t • Z i, Y j + t • Z j⟫ - if i = j then 1 else 0) ^ 2)
      (∑ i, ⟪gradient omega Y G i, Z i⟫) 0 := by
  have hin : ∀ i j, HasDerivAt (fun t : ℝ => ⟪Y i + t • Z i, Y j + t • Z j⟫) (⟪Y i, Z j⟫ + ⟪Z i, Y j⟫) 0 := by
    intro i j
    have e : (fun t : ℝ => ⟪Y i + t • Z i, Y j + t • Z j⟫) = fun t : ℝ => ⟪Y i, Y j⟫ + t * (⟪Y i, Z j⟫ + ⟪Z i, Y j⟫) + t ^ 2 * ⟪Z i, Z j⟫ := by
      funext t
      simp only [inner_add_left, inner_add_right, real_inner_smul_left, real_inner_smul_right]
      ring
    rw [e]
    have h1 : HasDerivAt (fun t : ℝ => t * (⟪Y i, Z j⟫ + ⟪Z i, Y j⟫)) (1 * (⟪Y i, Z j⟫ + ⟪Z i, Y j⟫)) 0 := (hasDerivAt_id (0 : ℝ)).mul_const _
    have h2 : HasDerivAt (fun t : ℝ => t ^ 2 * ⟪Z i, Z j⟫) (((2 : ℕ) : ℝ) * 0 ^ (2 - 1) * ⟪Z i, Z j⟫) 0 := (hasDerivAt_pow 2 (0 : ℝ)).mul_const _
    have := (h1.const_add ⟪Y i, Y j⟫).fun_add h2
    simpa using this
  have hG : HasDerivAt (fun t : ℝ => ∑ i, ⟪G i, Y i + t • Z i⟫) (∑ i, ⟪G i, Z i⟫) 0 := by
    refine HasDerivAt.fun_sum fun i _ => ?_
    have e : (fun t : ℝ => ⟪G i, Y i + t • Z i⟫) = fun t : ℝ => ⟪G i, Y i⟫ + t * ⟪G i, Z i⟫ := by
      funext t
      rw [inner_add_right, real_inner_smul_right]
    rw [e]
    have h1 : HasDerivAt (fun t : ℝ => t * ⟪G i, Z i⟫) (1 * ⟪G i, Z i⟫) 0 := (hasDerivAt_id (0 : ℝ)).mul_const _
    simpa using h1.const_add ⟪G i, Y i⟫
  have hR : HasDerivAt (fun t : ℝ => omega / 2 * ∑ i, ∑ j, (⟪Y i + t • Z i, Y j + t • Z j⟫ - if i = j then 1 else 0) ^ 2)
      (omega / 2 * ∑ i, ∑ j, 2 * (⟪Y i, Y j⟫ - if i = j then 1 else 0) * (⟪Y i, Z j⟫ + ⟪Z i, Y j⟫)) 0 := by
    refine HasDerivAt.const_mul _ (HasDerivAt.fun_sum fun i _ => HasDerivAt.fun_sum fun j _ => ?_)
    have := ((hin i j).sub_const (if i = j then 1 else 0)).fun_pow 2
    simpa using this
  refine (hG.fun_add hR).congr_deriv ?_
  have hterm : ∀ i, ⟪gradient omega Y G i, Z i⟫ = ⟪G i, Z i⟫ + 2 * omega * ((∑ j, ⟪Y i, Y j⟫ * ⟪Y j, Z i⟫) - ⟪Y i, Z i⟫) := by
    intro i
    by_cases h0 : omega = 0
    · simp [gradient, h0]
    · rw [gradient, if_pos h0, inner_add_left, real_inner_smul_left, inner_sub_left, sum_inner]
      simp only [real_inner_smul_left]
  simp only [hterm, sum_add_distrib]
  congr 1
  have hsym : ∑ i, ∑ j, 2 * (⟪Y i, Y j⟫ - if i = j then 1 else 0) * (⟪Y i, Z j⟫ + ⟪Z i, Y j⟫) = 4 * ∑ i, ∑ j, (⟪Y i, Y j⟫ - if i = j then (1 : ℝ) else 0) * ⟪Y j, Z i⟫ := by
    have h1 : ∑ i, ∑ j, 2 * (⟪Y i, Y j⟫ - if i = j then 1 else 0) * (⟪Y i, Z j⟫ + ⟪Z i, Y j⟫) =
        (∑ i, ∑ j, 2 * (⟪Y i, Y j⟫ - if i = j then (1 : ℝ) else 0) * ⟪Y i, Z j⟫) + ∑ i, ∑ j, 2 * (⟪Y i, Y j⟫ - if i = j then (1 : ℝ) else 0) * ⟪Y j, Z i⟫ := by
      rw [← sum_add_distrib]
      refine sum_congr rfl fun i _ => ?_
      rw [← sum_add_distrib]
      refine sum_congr rfl fun j _ => ?_
      rw [real_inner_comm (Y j) (Z i)]
      ring
    have h2 : (∑ i, ∑ j, 2 * (⟪Y i, Y j⟫ - if i = j then (1 : ℝ) else 0) * ⟪Y i, Z j⟫) = ∑ i, ∑ j, 2 * (⟪Y i, Y j⟫ - if i = j then (1 : ℝ) else 0) * ⟪Y j, Z i⟫ := by
      rw [sum_comm]
      refine sum_congr rfl fun i _ => sum_congr rfl fun j _ => ?_
      rw [real_inner_comm (Y j) (Y i)]
      simp only [eq_comm]
    rw [h1, h2, ← two_mul, mul_sum, mul_sum]
    refine sum_congr rfl fun i _ => ?_
    rw [mul_sum, mul_sum]
    refine sum_congr rfl fun j _ => ?_
    ring
  rw [hsym, ← mul_sum]
  have h3 : ∑ i, ∑ j, (⟪Y i, Y j⟫ - if i = j then (1 : ℝ) else 0) * ⟪Y j, Z i⟫ = ∑ i, ((∑ j, ⟪Y i, Y j⟫ * ⟪Y j, Z i⟫) - ⟪Y i, Z i⟫) := by
    refine sum_congr rfl fun i _ => ?_
    simp only [sub_mul, sum_sub_distrib]
    congr 1
    rw [sum_eq_single i]
    · simp
    · intro j _ hj; simp [Ne.symm hj]
    · simp
  rw [h3]
  ring

/-- Were the vectors divided by their norm only (`ε = 0`), the maps would be those of the sphere: the exponential, and transports along it that keep lengths and angles and lead to vectors
tangent at the point reached. -/
theorem C107_transport (y d : E) (hy : ‖y‖ = 1) (hd : ⟪y, d⟫ = 0) :
    ‖gexp 0 y d‖ = 1 ∧ gpt 0 y d = gpt2 0 y d d ∧
    (∀ w : E, ⟪y, w⟫ = 0 → ⟪gexp 0 y d, gpt2 0 y w d⟫ = 0) ∧ ∀ w w' : E, ⟪y, w⟫ = 0 → ⟪y, w'⟫ = 0 → ⟪gpt2 0 y w d, gpt2 0 y w' d⟫ = ⟪w, w'⟫ := by
  by_cases h0 : d = 0
  · subst h0
    simp only [gexp, gpt, gpt2, unit, norm_zero, Real.cos_zero, Real.sin_zero, smul_zero, inner_zero_left, zero_smul, add_zero, sub_zero, one_smul]
    exact ⟨hy, trivial, fun w hw => hw, fun w w' _ _ => trivial⟩
  have hn : 0 < ‖d‖ := norm_pos_iff.2 h0
  obtain ⟨u, hu⟩ : ∃ u : E, u = unit 0 d := ⟨_, rfl⟩
  have hdu : d = ‖d‖ • u := by rw [hu, unit, add_zero, smul_smul, mul_inv_cancel₀ hn.ne', one_smul]
  have hu1 : (⟪u, u⟫ : ℝ) = 1 := by rw [inner_self', hu, unit_norm 0 le_rfl, add_zero, div_self hn.ne', one_pow]
  have hyu : (⟪y, u⟫ : ℝ) = 0 := by rw [hu, unit, inner_smul_right, hd, mul_zero]
  have huy : (⟪u, y⟫ : ℝ) = 0 := by rw [real_inner_comm]; exact hyu
  have hyy : (⟪y, y⟫ : ℝ) = 1 := by rw [inner_self', hy, one_pow]
  have ht := trig ‖d‖
  refine ⟨?_, ?_, fun w hw => ?_, fun w w' hw hw' => ?_⟩
  · have : ‖gexp 0 y d‖ ^ 2 = 1 := by
      rw [← inner_self']
      simp only [gexp, ← hu, inner_add_left, inner_add_right, inner_smul_left, inner_smul_right, conj_trivial, hu1, hyu, huy, hyy]
      linear_combination ht
    exact (pow_eq_one_iff_of_nonneg (norm_nonneg _) (by norm_num)).1 this
  · have e : (⟪u, d⟫ : ℝ) = ‖d‖ := by rw [hdu, inner_smul_right, hu1, mul_one, norm_smul, norm_norm, ← Real.sqrt_sq (norm_nonneg u), ← inner_self', hu1, Real.sqrt_one, mul_one]
    simp only [gpt, gpt2, ← hu, e]
    nth_rw 4 [hdu]
    rw [← sub_eq_zero]
    module
  · have hwy : (⟪w, y⟫ : ℝ) = 0 := by rw [real_inner_comm]; exact hw
    simp only [gexp, gpt2, ← hu, inner_add_left, inner_sub_right, inner_add_right, inner_smul_left, inner_smul_right, conj_trivial, hu1, hyu, huy, hyy, hw]
    ring
  · have hwy : (⟪w, y⟫ : ℝ) = 0 := by rw [real_inner_comm]; exact hw
    simp only [gpt2, ← hu, inner_sub_left, inner_add_left, inner_sub_right, inner_add_right, inner_smul_left, inner_smul_right, conj_trivial, hu1, hyu, huy, hyy, hw, hw', hwy,
      real_inner_comm u w]
    linear_combination (⟪u, w⟫ * ⟪u, w'⟫ : ℝ) * ht

/-! ### On a great circle -/

/-- Specification: the great circle through `y` and `u`, and its velocity. -/
def circle (y u : E) (t : ℝ) : E := Real.cos t • y + Real.sin t • u
def velocity (y u : E) (t : ℝ) : E := Real.cos t • u - Real.sin t • y

/-- Specification: a number cut to a bound. -/
def cut (b : Option ℝ) (c : ℝ) : ℝ := match b with
  | none => c
  | some b => if b < |c| then b / |c| * c else c

/-- Specification: gradient descent with momentum on a number, the angle. -/
def ball (μ : ℝ) (b : Option ℝ) (s : ℝ × ℝ) (e : ℝ × ℝ) : ℝ × ℝ := (s.1 + (μ * s.2 - e.2 * cut b e.1), μ * s.2 - e.2 * cut b e.1)

/-- Specification: Adam on a number, the angle, with the moments and the powers of the decay rates. -/
def scalarAdam (β1 β2 epsilon : ℝ) (b : Option ℝ) (s : ℝ × ℝ × ℝ × ℝ × ℝ) (e : ℝ × ℝ) : ℝ × ℝ × ℝ × ℝ × ℝ :=
  let m := β1 * s.2.1 + (1 - β1) * cut b e.1
  let v := β2 * s.2.2.1 + (1 - β2) * cut b e.1 ^ 2
  (s.1 - Real.sqrt (1 - s.2.2.2.2) / (1 - s.2.2.2.1) * e.2 * m / Real.sqrt (v + epsilon), m, v, s.2.2.2.1 * β1, s.2.2.2.2 * β2)

section
variable {y u : E} (hy : ⟪y, y⟫ = (1 : ℝ)) (hu : ⟪u, u⟫ = (1 : ℝ)) (hyu : ⟪y, u⟫ = (0 : ℝ))
include hy hu hyu

theorem circle_self (t : ℝ) : (⟪circle y u t, circle y u t⟫ : ℝ) = 1 ∧ (⟪velocity y u t, velocity y u t⟫ : ℝ) = 1 ∧ (⟪circle y u t, velocity y u t⟫ : ℝ) = 0 := by
  have huy : (⟪u, y⟫ : ℝ) = 0 := by rw [real_inner_comm]; exact hyu
  have ht := trig t
  unfold circle velocity
  simp only [inner_add_left, inner_sub_left, inner_sub_right, inner_add_right, inner_smul_left, inner_smul_right, conj_trivial, hy, hu, hyu, huy]
  refine ⟨?_, ?_, ?_⟩
  · linear_combination ht
  · linear_combination ht
  · ring

theorem circle_unit (t : ℝ) : unit 0 (circle y u t) = circle y u t := by
  have h : ‖circle y u t‖ = 1 := by
    have := (circle_self hy hu hyu t).1
    rw [inner_self'] at this
    exact (pow_eq_one_iff_of_nonneg (norm_nonneg _) (by norm_num)).1 this
  rw [unit, h, add_zero, inv_one, one_smul]

theorem velocity_norm (t : ℝ) : ‖velocity y u t‖ = 1 := by
  have := (circle_self hy hu hyu t).2.1
  rw [inner_self'] at this
  exact (pow_eq_one_iff_of_nonneg (norm_nonneg _) (by norm_num)).1 this

theorem smul_velocity_norm (t c : ℝ) : ‖c • velocity y u t‖ = |c| := by rw [norm_smul, velocity_norm hy hu hyu, mul_one, Real.norm_eq_abs]

theorem circle_proj (t c r : ℝ) : gproj (circle y u t) (c • velocity y u t + r • circle y u t) = c • velocity y u t := by
  obtain ⟨h1, -, h3⟩ := circle_self hy hu hyu t
  unfold gproj
  rw [inner_add_right, inner_smul_right, inner_smul_right, h1, h3]
  simp

theorem circle_clip (b : Option ℝ) (t c : ℝ) : clip b (c • velocity y u t) = cut b c • velocity y u t := by
  unfold clip cut
  cases b with
  | none => rfl
  | some b =>
    simp only [smul_velocity_norm hy hu hyu]
    split
    · rw [smul_smul]
    · rfl

theorem sign_facts (c : ℝ) : Real.cos |c| = Real.cos c ∧ Real.sin |c| * (|c|⁻¹ * c) = Real.sin c ∧ |c| * (|c|⁻¹ * c) = c := by
  refine ⟨Real.cos_abs c, ?_, ?_⟩
  · rcases lt_trichotomy c 0 with h | h | h
    · rw [abs_of_neg h, Real.sin_neg]
      have : (-c)⁻¹ * c = -1 := by rw [inv_neg, neg_mul, inv_mul_cancel₀ h.ne]
      rw [this]; ring
    · rw [h]; simp
    · rw [abs_of_pos h, inv_mul_cancel₀ h.ne', mul_one]
  · rcases eq_or_ne c 0 with h | h
    · rw [h]; simp
    · rw [← mul_assoc, mul_inv_cancel₀ (abs_ne_zero.2 h), one_mul]

theorem circle_exp (t c : ℝ) : gexp 0 (circle y u t) (c • velocity y u t) = circle y u (t + c) := by
  obtain ⟨f1, f2, -⟩ := sign_facts hy hu hyu c
  unfold gexp unit
  rw [smul_velocity_norm hy hu hyu, f1, add_zero, smul_smul, smul_smul, mul_assoc, f2]
  unfold circle velocity
  rw [Real.cos_add, Real.sin_add]
  module

theorem circle_gpt (t c : ℝ) : gpt 0 (circle y u t) (c • velocity y u t) = c • velocity y u (t + c) := by
  obtain ⟨f1, f2, f3⟩ := sign_facts hy hu hyu c
  have f4 : |c| * Real.sin |c| = c * Real.sin c := by
    rcases abs_choice c with h | h <;> rw [h]
    rw [Real.sin_neg]; ring
  unfold gpt unit
  rw [smul_velocity_norm hy hu hyu, f1, add_zero, smul_sub, smul_smul, smul_smul, smul_smul, smul_smul]
  have e1 : |c| * Real.cos c * |c|⁻¹ * c = c * Real.cos c := by linear_combination Real.cos c * f3
  rw [e1, f4]
  unfold circle velocity
  rw [Real.cos_add, Real.sin_add]
  module

theorem circle_gpt2 (t m c : ℝ) : gpt2 0 (circle y u t) (m • velocity y u t) (c • velocity y u t) = m • velocity y u (t + c) := by
  obtain ⟨f1, f2, f3⟩ := sign_facts hy hu hyu c
  unfold gpt2 unit
  rw [smul_velocity_norm hy hu hyu, f1, add_zero, smul_smul, inner_smul_left, inner_smul_right, (circle_self hy hu hyu t).2.1, conj_trivial, mul_one, smul_add, smul_smul, smul_smul, smul_smul]
  have e1 : |c|⁻¹ * c * m * Real.sin |c| = m * Real.sin c := by rw [← f2]; ring
  have e2 : |c|⁻¹ * c * m * (1 - Real.cos c) * (|c|⁻¹ * c) = m * (1 - Real.cos c) := by
    rcases eq_or_ne c 0 with h | h
    · rw [h]; simp
    · have : |c|⁻¹ * c * (|c|⁻¹ * c) = 1 := by
        rw [mul_mul_mul_comm, ← mul_inv, abs_mul_abs_self, inv_mul_cancel₀ (mul_ne_zero h h)]
      linear_combination (m * (1 - Real.cos c)) * this
  rw [e1, e2]
  unfold circle velocity
  rw [Real.cos_add, Real.sin_add]
  module

end

/-- **C107** (what SGDG does). Were `ε` null: if the gradients of each row are along the great circle through `y` and `u`, up to multiples of the row itself, the row follows this
circle, at the angle given by gradient descent with momentum on the angle. -/
theorem C107_sgd_circle (a : Args) (ha : a.omega = 0) (y u : p → E) (hy : ∀ i, ⟪y i, y i⟫ = (1 : ℝ)) (hu : ∀ i, ⟪u i, u i⟫ = (1 : ℝ)) (hyu : ∀ i, ⟪y i, u i⟫ = (0 : ℝ))
    (c : List ((p → ℝ) × (p → ℝ) × ℝ)) (t m : p → ℝ) (s : Sgd p E) (hP : ∀ i, s.P i = circle (y i) (u i) (t i)) (hm : ∀ i, s.mom i = m i • velocity (y i) (u i) (t i))
    (es : List (Event p E)) (hes : es.length = c.length)
    (he : ∀ k (hk : k < c.length), (es[k]'(hes ▸ hk)).lr = c[k].2.2 ∧ ∀ i, (es[k]'(hes ▸ hk)).G i
      = c[k].1 i • velocity (y i) (u i) (((c.take k).foldl (fun s e => ball a.momentum a.gradClip s (e.1 i, e.2.2)) (t i, m i)).1)
        + c[k].2.1 i • circle (y i) (u i) (((c.take k).foldl (fun s e => ball a.momentum a.gradClip s (e.1 i, e.2.2)) (t i, m i)).1)) (i : p) :
    (s.run 0 a es).P i = circle (y i) (u i) ((c.foldl (fun s e => ball a.momentum a.gradClip s (e.1 i, e.2.2)) (t i, m i)).1) := by
  induction c generalizing t m s es with
  | nil =>
    have : es = [] := List.length_eq_zero_iff.1 hes
    rw [this]
    exact hP i
  | cons d c ih =>
    obtain ⟨e, es, rfl⟩ : ∃ e es', es = e :: es' := by
      cases es with
      | nil => cases hes
      | cons e es => exact ⟨e, es, rfl⟩
    have h0 := he 0 (Nat.succ_pos _)
    simp only [List.getElem_cons_zero, List.take_zero, List.foldl_nil] at h0
    obtain ⟨h0l, h0G⟩ := h0
    have hnew : ∀ i, s.new 0 a e i = (a.momentum * m i - d.2.2 * cut a.gradClip (d.1 i)) • velocity (y i) (u i) (t i) := by
      intro i
      unfold Sgd.new gradient
      rw [hP i, hm i, circle_unit (hy i) (hu i) (hyu i), ha, if_neg (by simp), h0G i, circle_proj (hy i) (hu i) (hyu i), circle_clip (hy i) (hu i) (hyu i), h0l]
      module
    refine ih (fun i => (ball a.momentum a.gradClip (t i, m i) (d.1 i, d.2.2)).1) (fun i => (ball a.momentum a.gradClip (t i, m i) (d.1 i, d.2.2)).2) (s.step 0 a e)
      (fun i => ?_) (fun i => ?_) es (by simpa using hes) fun k hk => ?_
    · simp only [Sgd.step]
      rw [hnew i, hP i, circle_unit (hy i) (hu i) (hyu i), circle_exp (hy i) (hu i) (hyu i)]
      rfl
    · simp only [Sgd.step]
      rw [hnew i, hP i, circle_unit (hy i) (hu i) (hyu i), circle_gpt (hy i) (hu i) (hyu i)]
      rfl
    · have := he (k + 1) (by simpa using hk)
      simpa using this

/-- **C107** (what AdamG does). The same, at the angle given by Adam on the angle. -/
theorem C107_adam_circle (beta2 epsilon : ℝ) (a : Args) (ha : a.omega = 0) (y u : p → E) (hy : ∀ i, ⟪y i, y i⟫ = (1 : ℝ)) (hu : ∀ i, ⟪u i, u i⟫ = (1 : ℝ))
    (hyu : ∀ i, ⟪y i, u i⟫ = (0 : ℝ)) (c : List ((p → ℝ) × (p → ℝ) × ℝ)) (t m v : p → ℝ) (s : Adam p E) (hP : ∀ i, s.P i = circle (y i) (u i) (t i))
    (hm : ∀ i, s.m i = m i • velocity (y i) (u i) (t i)) (hv : ∀ i, s.v i = v i) (es : List (Event p E)) (hes : es.length = c.length)
    (he : ∀ k (hk : k < c.length), (es[k]'(hes ▸ hk)).lr = c[k].2.2 ∧ ∀ i, (es[k]'(hes ▸ hk)).G i
      = c[k].1 i • velocity (y i) (u i) (((c.take k).foldl (fun s e => scalarAdam a.momentum beta2 epsilon a.gradClip s (e.1 i, e.2.2)) (t i, m i, v i, s.b1, s.b2)).1)
        + c[k].2.1 i • circle (y i) (u i) (((c.take k).foldl (fun s e => scalarAdam a.momentum beta2 epsilon a.gradClip s (e.1 i, e.2.2)) (t i, m i, v i, s.b1, s.b2)).1)) (i : p) :
    (s.run 0 beta2 epsilon a es).P i
      = circle (y i) (u i) ((c.foldl (fun s e => scalarAdam a.momentum beta2 epsilon a.gradClip s (e.1 i, e.2.2)) (t i, m i, v i, s.b1, s.b2)).1) := by
  induction c generalizing t m v s es with
  | nil =>
    have : es = [] := List.length_eq_zero_iff.1 hes
    rw [this]
    exact hP i
  | cons d c ih =>
    obtain ⟨e, es, rfl⟩ : ∃ e es', es = e :: es' := by
      cases es with
      | nil => cases hes
      | cons e es => exact ⟨e, es, rfl⟩
    have h0 := he 0 (Nat.succ_pos _)
    simp only [List.getElem_cons_zero, List.take_zero, List.foldl_nil] at h0
    obtain ⟨h0l, h0G⟩ := h0
    have hhat : ∀ i, s.hat 0 a e i = cut a.gradClip (d.1 i) • velocity (y i) (u i) (t i) := by
      intro i
      unfold Adam.hat gradient
      rw [hP i, circle_unit (hy i) (hu i) (hyu i), ha, if_neg (by simp), h0G i, circle_proj (hy i) (hu i) (hyu i), circle_clip (hy i) (hu i) (hyu i)]
    have hmn : ∀ i, s.mnew 0 a e i = (a.momentum * m i + (1 - a.momentum) * cut a.gradClip (d.1 i)) • velocity (y i) (u i) (t i) := by
      intro i
      unfold Adam.mnew
      rw [hhat i, hm i]
      module
    have hvn : ∀ i, s.vnew 0 beta2 a e i = beta2 * v i + (1 - beta2) * cut a.gradClip (d.1 i) ^ 2 := by
      intro i
      unfold Adam.vnew
      rw [hhat i, hv i, inner_smul_left, inner_smul_right, (circle_self (hy i) (hu i) (hyu i) (t i)).2.1, conj_trivial]
      ring
    have hd : ∀ i, s.factor 0 beta2 epsilon a e i • s.mnew 0 a e i
        = ((scalarAdam a.momentum beta2 epsilon a.gradClip (t i, m i, v i, s.b1, s.b2) (d.1 i, d.2.2)).1 - t i) • velocity (y i) (u i) (t i) := by
      intro i
      rw [hmn i, smul_smul]
      congr 1
      unfold Adam.factor scalarAdam
      rw [hvn i, h0l]
      ring
    have hrec := ih (fun i => (scalarAdam a.momentum beta2 epsilon a.gradClip (t i, m i, v i, s.b1, s.b2) (d.1 i, d.2.2)).1)
      (fun i => (scalarAdam a.momentum beta2 epsilon a.gradClip (t i, m i, v i, s.b1, s.b2) (d.1 i, d.2.2)).2.1)
      (fun i => (scalarAdam a.momentum beta2 epsilon a.gradClip (t i, m i, v i, s.b1, s.b2) (d.1 i, d.2.2)).2.2.1) (s.step 0 beta2 epsilon a e)
      (fun i => ?_) (fun i => ?_) (fun i => ?_) es (by simpa using hes) fun k hk => ?_
    · exact hrec
    · simp only [Adam.step]
      rw [hd i, hP i, circle_unit (hy i) (hu i) (hyu i), circle_exp (hy i) (hu i) (hyu i), add_sub_cancel]
    · simp only [Adam.step]
      rw [hd i, hmn i, hP i, circle_unit (hy i) (hu i) (hyu i), circle_gpt2 (hy i) (hu i) (hyu i), add_sub_cancel]
      rfl
    · simp only [Adam.step]
      rw [hvn i]
      rfl
    · have := he (k + 1) (by simpa using hk)
      simp only [List.getElem_cons_succ, List.take_succ_cons, List.foldl_cons] at this
      exact this

/-! ## Non-vacuity -/

/-- Momentum 0.9, any clipping, any orthogonality factor, steps of length one at most, for ever: `10⁻⁵` around the sphere. -/
example (omega : ℝ) (P : p → E) (hP : ∀ i, ‖P i‖ = 1) (es : List (Event p E)) (hne : es ≠ [])
    (he : Along (Sgd.step 1e-8 ⟨omega, some 1, 0.9⟩) (fun s e => 0 ≤ e.lr ∧ ∀ i, e.lr * ‖gradient omega (fun j => unit 1e-8 (s.P j)) e.G i‖ ≤ 1) (Sgd.init P) es) (i : p) :
    |‖((Sgd.init P).run 1e-8 ⟨omega, some 1, 0.9⟩ es).P i‖ ^ 2 - 1| ≤ 1.1e-5 :=
  (C107_sgd_partial 1e-8 (by norm_num) ⟨omega, some 1, 0.9⟩ 11 1 5e-6 (by norm_num) (by norm_num) (by norm_num) (by rintro x h; cases h; norm_num) (by norm_num) (by norm_num)
    (by norm_num) P (fun i => by rw [hP i]; norm_num) es hne he i).trans (by norm_num)

/-- AdamG with its default factors, a learning rate of 0.01 at most and gradients of length one at most. -/
example (P : p → E) (hP : ∀ i, ‖P i‖ = 1) (es : List (Event p E)) (hne : es ≠ [])
    (he : Along (Adam.step 1e-8 0.99 1e-8 ⟨0, none, 0.9⟩) (fun s e => 0 ≤ e.lr ∧ e.lr ≤ 1000 * ((1 - 0.9) * Real.sqrt 1e-8)
      ∧ ∀ i, ‖gradient 0 (fun j => unit 1e-8 (s.P j)) e.G i‖ ≤ 1) (Adam.init 0.9 0.99 P) es) (i : p) :
    |‖((Adam.init 0.9 0.99 P).run 1e-8 0.99 1e-8 ⟨0, none, 0.9⟩ es).P i‖ ^ 2 - 1| ≤ 2.1e-3 :=
  (C107_adam_partial 1e-8 (by norm_num) ⟨0, none, 0.9⟩ 0.99 1e-8 1.00001 1 1000 1e-6 (by norm_num) (by norm_num) (by norm_num) (by norm_num) (by norm_num) (by norm_num)
    (by norm_num) (by norm_num) (by rintro x h; cases h) (by norm_num) (by norm_num) (by norm_num) P (fun i => by rw [hP i]; norm_num) es hne he i).trans (by norm_num)

/-- Two steps with a gradient along a constant direction. -/
example : Along (Sgd.step (p := Fin 1) (E := ℝ) 1e-8 ⟨0, none, 0.9⟩) (fun s e => 0 ≤ e.lr ∧ ∀ i, e.lr * ‖gradient 0 (fun j => unit 1e-8 (s.P j)) e.G i‖ ≤ 1)
    (Sgd.init fun _ => 1) [⟨fun _ => 3, 0.1⟩, ⟨fun _ => 3, 0.1⟩] := by
  simp only [Along, gradient, ne_eq, not_true_eq_false, if_false]
  norm_num

/-- Tangent vectors at a point of the circle. -/
example : ‖(EuclideanSpace.single 0 1 : EuclideanSpace ℝ (Fin 2))‖ = 1 ∧ (⟪(EuclideanSpace.single 0 1 : EuclideanSpace ℝ (Fin 2)), EuclideanSpace.single 1 3⟫ : ℝ) = 0 := by
  constructor
  · simp
  · simp [EuclideanSpace.inner_single_left]

/-- From rest at angle zero, one step down a slope of three with a rate of 0.1, and the radial part of the gradient is of no effect: angle -0.3. -/
example (y u : E) (hy : ⟪y, y⟫ = (1 : ℝ)) (hu : ⟪u, u⟫ = (1 : ℝ)) (hyu : ⟪y, u⟫ = (0 : ℝ)) (r : ℝ) :
    ((Sgd.init fun _ : Fin 1 => y).run 0 ⟨0, none, 0.9⟩ [⟨fun _ => (3 : ℝ) • u + r • y, 0.1⟩]).P 0 = circle y u (-0.3) := by
  have := C107_sgd_circle (p := Fin 1) ⟨0, none, 0.9⟩ rfl (fun _ => y) (fun _ => u) (fun _ => hy) (fun _ => hu) (fun _ => hyu) [(fun _ => 3, fun _ => r, 0.1)] (fun _ => 0)
    (fun _ => 0) (Sgd.init fun _ => y) (fun i => by simp [Sgd.init, circle]) (fun i => by simp [Sgd.init]) [⟨fun _ => (3 : ℝ) • u + r • y, 0.1⟩] rfl
    (fun k hk => by
      have : k = 0 := by simpa using hk
      subst this
      simp [circle, velocity]) 0
  rw [this]
  congr 1
  simp [ball, cut]
  norm_num

/-- From rest, the first step of AdamG does not depend on the size of the slope, up to `epsilon`: with a null `epsilon` the angle is the learning rate. -/
example (y u : E) (hy : ⟪y, y⟫ = (1 : ℝ)) (hu : ⟪u, u⟫ = (1 : ℝ)) (hyu : ⟪y, u⟫ = (0 : ℝ)) (c r : ℝ) (hc : 0 < c) :
    ((Adam.init 0.9 0.99 fun _ : Fin 1 => y).run 0 0.99 0 ⟨0, none, 0.9⟩ [⟨fun _ => c • u + r • y, 0.1⟩]).P 0 = circle y u (-0.1) := by
  have := C107_adam_circle (p := Fin 1) 0.99 0 ⟨0, none, 0.9⟩ rfl (fun _ => y) (fun _ => u) (fun _ => hy) (fun _ => hu) (fun _ => hyu) [(fun _ => c, fun _ => r, 0.1)] (fun _ => 0)
    (fun _ => 0) (fun _ => 0) (Adam.init 0.9 0.99 fun _ => y) (fun i => by simp [Adam.init, circle]) (fun i => by simp [Adam.init]) (fun i => by simp [Adam.init])
    [⟨fun _ => c • u + r • y, 0.1⟩] rfl
    (fun k hk => by
      have : k = 0 := by simpa using hk
      subst this
      simp [circle, velocity]) 0
  rw [this]
  congr 1
  simp only [List.foldl_cons, List.foldl_nil, scalarAdam, cut, Adam.init, mul_zero, zero_add, add_zero]
  rw [Real.sqrt_mul (by norm_num), Real.sqrt_sq hc.le]
  have h1 : Real.sqrt (1 - 0.99) ≠ 0 := by rw [Real.sqrt_ne_zero']; norm_num
  field_simp
  norm_num

end
end Grassmann
end Kerch
