import Verif.Lemmas.Nearest
import Mathlib.Analysis.SpecialFunctions.Log.Basic
import Mathlib.Analysis.SpecialFunctions.Exp
import Mathlib.Analysis.Complex.Exponential
import Mathlib.Tactic.Linarith
import Mathlib.Tactic.Ring
import Mathlib.Tactic.FieldSimp
/-
Relative errors of floating-point computations, on a logarithmic scale: they add in products and quotients.
-/
namespace Verif

/-- One rounding on the logarithmic scale. -/
noncomputable def vu : ℝ := -Real.log (1 - 1 / 2 ^ 53)

theorem vu_ge : 1 / 2 ^ 53 ≤ vu := by
  have := Real.log_le_sub_one_of_pos (show (0 : ℝ) < 1 - 1 / 2 ^ 53 by norm_num)
  unfold vu; linarith

theorem vu_le : vu ≤ 1.001 / 2 ^ 53 := by
  have := Real.one_sub_inv_le_log_of_pos (show (0 : ℝ) < 1 - 1 / 2 ^ 53 by norm_num)
  unfold vu
  have h : (1 - 1 / 2 ^ 53 : ℝ)⁻¹ - 1 ≤ 1.001 / 2 ^ 53 := by norm_num
  linarith

theorem vu_pos : 0 < vu := lt_of_lt_of_le (by norm_num) vu_ge

theorem vu_small : vu ≤ 1 / 10 ^ 15 := vu_le.trans (by norm_num)

/-- `y` is the result of at most `n` roundings of `x`. -/
def Rel (n x y : ℝ) : Prop := ∃ θ, |θ| ≤ n * vu ∧ y = x * Real.exp θ

theorem rel_self (x : ℝ) : Rel 0 x x := ⟨0, by simp, by simp⟩

theorem rel_fl {fl : ℝ → ℝ} (h : RoundsNearest fl) (x : ℝ) : Rel 1 x (fl x) := by
  have he := fl_err h x
  have hu : (2 : ℝ) ^ (-53 : ℤ) = 1 / 2 ^ 53 := by norm_num
  rw [hu] at he
  rcases eq_or_ne x 0 with rfl | hx
  · refine ⟨0, by simpa using vu_pos.le, ?_⟩
    simp at he ⊢
    exact he
  set δ := (fl x - x) / x with hδ
  have hd : |δ| ≤ 1 / 2 ^ 53 := by
    rw [hδ, abs_div, div_le_iff₀ (abs_pos.2 hx)]; exact he
  have hfx : fl x = x * (1 + δ) := by rw [hδ]; field_simp; ring
  obtain ⟨h1, h2⟩ := abs_le.1 hd
  have hpos : 0 < 1 + δ := by
    have : (1 : ℝ) / 2 ^ 53 < 1 := by norm_num
    linarith
  refine ⟨Real.log (1 + δ), ?_, by rw [Real.exp_log hpos, hfx]⟩
  rw [one_mul, abs_le]
  constructor
  · unfold vu
    rw [neg_neg]
    exact Real.log_le_log (by norm_num) (by linarith)
  · have := Real.log_le_sub_one_of_pos hpos
    have := vu_ge
    linarith

theorem rel_trans {n m x y z : ℝ} (h1 : Rel n x y) (h2 : Rel m y z) : Rel (n + m) x z := by
  obtain ⟨a, ha, rfl⟩ := h1
  obtain ⟨b, hb, rfl⟩ := h2
  refine ⟨a + b, ?_, by rw [Real.exp_add]; ring⟩
  rw [add_mul]
  exact (abs_add_le _ _).trans (add_le_add ha hb)

theorem rel_mul {n m x y x' y' : ℝ} (h1 : Rel n x x') (h2 : Rel m y y') : Rel (n + m) (x * y) (x' * y') := by
  obtain ⟨a, ha, rfl⟩ := h1
  obtain ⟨b, hb, rfl⟩ := h2
  refine ⟨a + b, ?_, by rw [Real.exp_add]; ring⟩
  rw [add_mul]
  exact (abs_add_le _ _).trans (add_le_add ha hb)

theorem rel_div {n m x y x' y' : ℝ} (h1 : Rel n x x') (h2 : Rel m y y') : Rel (n + m) (x / y) (x' / y') := by
  obtain ⟨a, ha, rfl⟩ := h1
  obtain ⟨b, hb, rfl⟩ := h2
  refine ⟨a - b, ?_, by rw [Real.exp_sub, div_mul_div_comm]⟩
  rw [add_mul]
  exact (abs_sub _ _).trans (add_le_add ha hb)

theorem rel_mono {n m x y : ℝ} (h : Rel n x y) (hnm : n ≤ m) : Rel m x y := by
  obtain ⟨a, ha, rfl⟩ := h
  exact ⟨a, ha.trans (mul_le_mul_of_nonneg_right hnm vu_pos.le), rfl⟩

theorem rel_neg {n x y : ℝ} (h : Rel n x y) : Rel n (-x) (-y) := by
  obtain ⟨a, ha, rfl⟩ := h
  exact ⟨a, ha, by ring⟩

theorem exp_sub_one_abs {n θ : ℝ} (hn : n ≤ 1000) (h : |θ| ≤ n * vu) : |Real.exp θ - 1| ≤ 1.001 * n * vu := by
  have hv := vu_small
  have hp := vu_pos
  have h1 : |θ| ≤ 1 / 10 ^ 12 := h.trans (by nlinarith)
  have h2 := Real.abs_exp_sub_one_sub_id_le (x := θ) (h1.trans (by norm_num))
  have h3 : |Real.exp θ - 1| ≤ |θ| + θ ^ 2 := by
    have := abs_add_le (Real.exp θ - 1 - θ) θ
    rw [sub_add_cancel] at this
    linarith
  have h4 : θ ^ 2 ≤ 1 / 10 ^ 12 * |θ| := by
    rw [← sq_abs, sq]
    exact mul_le_mul_of_nonneg_right h1 (abs_nonneg _)
  have : |θ| + θ ^ 2 ≤ 1.001 * |θ| := by
    have := abs_nonneg θ
    linarith
  linarith

theorem rel_abs {n x y : ℝ} (hn : n ≤ 1000) (h : Rel n x y) : |y - x| ≤ 1.001 * n * vu * |x| := by
  obtain ⟨a, ha, rfl⟩ := h
  rw [show x * Real.exp a - x = (Real.exp a - 1) * x by ring, abs_mul]
  exact mul_le_mul_of_nonneg_right (exp_sub_one_abs hn ha) (abs_nonneg _)

theorem rel_ne {n x y : ℝ} (h : Rel n x y) : y ≠ 0 ↔ x ≠ 0 := by
  obtain ⟨a, -, rfl⟩ := h
  simp [(Real.exp_pos a).ne']

end Verif
