import Verif.Lemmas.RelErr
import Verif.Spec.FilterFloat
import Verif.Lemmas.FilterSpectrum
import Mathlib.Analysis.Real.Pi.Bounds
import Mathlib.Analysis.SpecialFunctions.Trigonometric.Bounds
/-
Error analysis of the taps of the raised cosine filters.
-/
namespace Verif

variable {F : FilterFloats}

theorem acc_sin (h : FilterAccuracy F) {a : ℝ} (ha : IsDouble a) : |F.sin a - Real.sin a| ≤ 8 * vu * |Real.sin a| := by
  refine (h.sin a ha).2.trans (mul_le_mul_of_nonneg_right ?_ (abs_nonneg _))
  have := vu_ge
  calc (1 : ℝ) / 2 ^ 50 = 8 * (1 / 2 ^ 53) := by norm_num
    _ ≤ _ := by linarith

theorem acc_cos (h : FilterAccuracy F) {a : ℝ} (ha : IsDouble a) : |F.cos a - Real.cos a| ≤ 8 * vu * |Real.cos a| := by
  refine (h.cos a ha).2.trans (mul_le_mul_of_nonneg_right ?_ (abs_nonneg _))
  have := vu_ge
  calc (1 : ℝ) / 2 ^ 50 = 8 * (1 / 2 ^ 53) := by norm_num
    _ ≤ _ := by linarith

/-- A library sine at a perturbed argument. -/
theorem sin_err (h : FilterAccuracy F) {n a a' : ℝ} (ha : IsDouble a') (hn : n ≤ 1000) (hr : Rel n a a') :
    |F.sin a' - Real.sin a| ≤ 1.001 * n * vu * |a| + 8 * vu * |Real.sin a'| := by
  have h1 := acc_sin h ha
  have h2 := (Real.abs_sin_sub_sin_le a' a).trans (rel_abs hn hr)
  have := abs_sub_le (F.sin a') (Real.sin a') (Real.sin a)
  linarith

theorem cos_err (h : FilterAccuracy F) {n a a' : ℝ} (ha : IsDouble a') (hn : n ≤ 1000) (hr : Rel n a a') :
    |F.cos a' - Real.cos a| ≤ 1.001 * n * vu * |a| + 8 * vu := by
  have h1 := acc_cos h ha
  have h2 := (Real.abs_cos_sub_cos_le a' a).trans (rel_abs hn hr)
  have h3 := Real.abs_cos_le_one a'
  have := abs_sub_le (F.cos a') (Real.cos a') (Real.cos a)
  have : 8 * vu * |Real.cos a'| ≤ 8 * vu * 1 := by
    have := vu_pos
    gcongr
  linarith

theorem sinc_abs (a : ℝ) : |Real.sin a / a| ≤ 1 := by
  rcases eq_or_ne a 0 with rfl | h
  · simp
  · rw [abs_div, div_le_one (abs_pos.2 h)]
    exact Real.abs_sin_le_abs

/-- A library sine divided by the perturbed argument. -/
theorem sinc_err (h : FilterAccuracy F) {n a a' : ℝ} (ha : IsDouble a') (ha0 : a ≠ 0) (hn0 : 0 ≤ n) (hn : n ≤ 10) (hr : Rel n a a') :
    |F.fl (F.sin a' / a') - Real.sin a / a| ≤ (2.01 * n + 9.01) * vu := by
  have hv := vu_pos
  have hvs := vu_small
  have ha'0 : a' ≠ 0 := (rel_ne hr).2 ha0
  have hb := rel_abs (by linarith) hr
  have h1 : |Real.sin a' / a' - Real.sin a / a| ≤ 2.002 * n * vu := by
    have e : Real.sin a' / a' - Real.sin a / a = Real.sin a' / a' * ((a - a') / a) + (Real.sin a' - Real.sin a) / a := by
      field_simp; ring
    have e1 : |(a - a') / a| ≤ 1.001 * n * vu := by
      rw [abs_div, div_le_iff₀ (abs_pos.2 ha0), abs_sub_comm]; exact hb
    have e2 : |(Real.sin a' - Real.sin a) / a| ≤ 1.001 * n * vu := by
      rw [abs_div, div_le_iff₀ (abs_pos.2 ha0)]; exact (Real.abs_sin_sub_sin_le _ _).trans hb
    rw [e]
    refine (abs_add_le _ _).trans ?_
    rw [abs_mul]
    have := mul_le_mul (sinc_abs a') e1 (abs_nonneg _) zero_le_one
    linarith
  have h2 : |F.sin a' / a' - Real.sin a' / a'| ≤ 8 * vu := by
    rw [← sub_div, abs_div, div_le_iff₀ (abs_pos.2 ha'0)]
    refine (acc_sin h ha).trans ?_
    exact mul_le_mul_of_nonneg_left Real.abs_sin_le_abs (by linarith)
  have h3 : |F.sin a' / a'| ≤ 1.0001 := by
    have := abs_sub_abs_le_abs_sub (F.sin a' / a') (Real.sin a' / a')
    have := sinc_abs a'
    linarith
  have h4 := rel_abs (by norm_num) (rel_fl h.round (F.sin a' / a'))
  have h5 := abs_sub_le (F.fl (F.sin a' / a')) (F.sin a' / a') (Real.sin a / a)
  have h6 := abs_sub_le (F.sin a' / a') (Real.sin a' / a') (Real.sin a / a)
  have h7 : 1.001 * 1 * vu * |F.sin a' / a'| ≤ 1.001 * 1 * vu * 1.0001 := by gcongr
  nlinarith

/-- The computed `1 - w*w`. -/
theorem den_err (h : FilterAccuracy F) {n w w' : ℝ} (hn0 : 0 ≤ n) (hn : n ≤ 10) (hr : Rel n w w') :
    |F.fl (1 - F.fl (w' * w')) - (1 - w ^ 2)| ≤ (2.01 * n + 2.01) * vu * (1 + w ^ 2) := by
  have hv := vu_pos
  have hvs := vu_small
  have hq : Rel (n + n + 1) (w * w) (F.fl (w' * w')) := rel_trans (rel_mul hr hr) (rel_fl h.round _)
  have h1 := rel_abs (by linarith) hq
  rw [abs_of_nonneg (mul_self_nonneg w), ← sq w] at h1
  have h2 := rel_abs (by norm_num) (rel_fl h.round (1 - F.fl (w' * w')))
  have hw := sq_nonneg w
  have h3 : |1 - F.fl (w' * w')| ≤ 1 + 1.0001 * w ^ 2 := by
    obtain ⟨a, b⟩ := abs_le.1 h1
    have : 1.001 * (n + n + 1) * vu * w ^ 2 ≤ 0.0001 * w ^ 2 := by
      gcongr; nlinarith
    rw [abs_le]; constructor <;> nlinarith
  have h4 := abs_sub_le (F.fl (1 - F.fl (w' * w'))) (1 - F.fl (w' * w')) (1 - w ^ 2)
  have h5 : |1 - F.fl (w' * w') - (1 - w ^ 2)| = |F.fl (w' * w') - w ^ 2| := by
    rw [← abs_neg]; congr 1; ring
  rw [h5] at h4
  have h6 : 1.001 * 1 * vu * |1 - F.fl (w' * w')| ≤ 1.001 * 1 * vu * (1 + 1.0001 * w ^ 2) := by gcongr
  have h7 : 0 ≤ vu * w ^ 2 := by positivity
  have h8 : 0 ≤ n * vu * w ^ 2 := by positivity
  have h9 : 0 ≤ n * vu := by positivity
  nlinarith

/-- `cos (π w / 2) / (1 - w^2)` is at most `π/2`. -/
theorem cos_quot (w : ℝ) (hw : w ^ 2 ≠ 1) : |Real.cos (Real.pi * w / 2) / (1 - w ^ 2)| ≤ Real.pi / 2 := by
  have hp := Real.pi_pos
  wlog h0 : 0 ≤ w generalizing w
  · have := this (-w) (by rwa [neg_sq]) (by linarith)
    rwa [neg_sq, show Real.pi * -w / 2 = -(Real.pi * w / 2) by ring, Real.cos_neg] at this
  have hd : 1 - w ^ 2 ≠ 0 := fun h => hw (by linarith)
  rw [abs_div, div_le_iff₀ (abs_pos.2 hd)]
  have e : Real.cos (Real.pi * w / 2) = Real.sin (Real.pi / 2 * (1 - w)) := by
    rw [← Real.sin_pi_div_two_sub]; congr 1; ring
  rw [e]
  refine Real.abs_sin_le_abs.trans ?_
  rw [show (1 : ℝ) - w ^ 2 = (1 - w) * (1 + w) by ring, abs_mul, abs_mul, abs_of_pos (show 0 < Real.pi / 2 by positivity), abs_of_pos (show 0 < 1 + w by linarith)]
  have : 0 ≤ |1 - w| := abs_nonneg _
  have : 0 ≤ Real.pi / 2 * |1 - w| := by positivity
  nlinarith

/-- A quotient whose denominator has been perturbed. -/
theorem quot_err {c c' d d' e1 e2 M : ℝ} (hd : d ≠ 0) (hd' : d' ≠ 0) (hc : |c' - c| ≤ e1) (he : |d' - d| ≤ e2) (hM : |c / d| ≤ M) :
    |c' / d' - c / d| ≤ (e1 + M * e2) / |d'| := by
  have e : c' / d' - c / d = ((c' - c) + c / d * (d - d')) / d' := by field_simp; ring
  rw [e, abs_div]
  gcongr
  refine (abs_add_le _ _).trans ?_
  rw [abs_mul, abs_sub_comm d d']
  have := mul_le_mul hM he (abs_nonneg _) ((abs_nonneg _).trans hM)
  linarith

end Verif
