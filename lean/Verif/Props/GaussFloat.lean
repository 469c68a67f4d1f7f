import Verif.Model.GaussFloat
import Verif.Props.FilterFloat
/-
C137: the Gaussian and the rectangular filter in double precision.
-/
namespace Verif

variable {F : FilterFloats}

/-- A relative error of at most 2^-50 is at most nine roundings. -/
theorem rel_of_abs {x y : ℝ} (h : |y - x| ≤ 1 / 2 ^ 50 * |x|) : Rel 9 x y := by
  rcases eq_or_ne x 0 with rfl | hx
  · refine ⟨0, by simpa using vu_pos.le, ?_⟩
    simpa using h
  set δ := (y - x) / x with hδ
  have hd : |δ| ≤ 1 / 2 ^ 50 := by rw [hδ, abs_div, div_le_iff₀ (abs_pos.2 hx)]; exact h
  have hy : y = x * (1 + δ) := by rw [hδ]; field_simp; ring
  obtain ⟨h1, h2⟩ := abs_le.1 hd
  have hpos : 0 < 1 + δ := by
    have : (1 : ℝ) / 2 ^ 50 < 1 := by norm_num
    linarith
  refine ⟨Real.log (1 + δ), ?_, by rw [Real.exp_log hpos, hy]⟩
  have hv := vu_ge
  rw [abs_le]
  constructor
  · have := Real.one_sub_inv_le_log_of_pos hpos
    have hi : (1 + δ)⁻¹ ≤ 1 + 9 / 2 ^ 53 := by
      rw [inv_le_comm₀ hpos (by norm_num)]
      refine le_trans ?_ (show 1 - 1 / 2 ^ 50 ≤ 1 + δ by linarith)
      norm_num
    linarith
  · have := Real.log_le_sub_one_of_pos hpos
    linarith

/-- **C137**, `gaussianfilter`: in double precision, with `np.sqrt(np.pi)` the rounded root and `np.exp` accurate to four units in the last place, the returned times are
accurate to four units in the last place, and a tap at time `t` whose exponent `E = (π t/alpha)²` is at most 745 (beyond, `exp` underflows) has a relative error of at most
`(E + 2)/2^49`; the taps of `rectfilter` are exactly one. -/
theorem C137_gaussian (h : FilterAccuracy F) (sqrtPi : ℝ) (hs : sqrtPi = F.fl (Real.sqrt F.pi)) (exp : ℝ → ℝ)
    (hexp : ∀ a, IsDouble a → |exp a - Real.exp a| ≤ 1 / 2 ^ 50 * |Real.exp a|) (N : ℕ) (alpha Ts Fs : ℝ) (hN : N ≤ 2 ^ 53) (ha : alpha ≠ 0) (hF : 0 < Fs) :
    ∃ time taps : List ℝ, gaussianfilterF F sqrtPi exp N alpha Ts Fs = .ok (time, taps) ∧ time.length = N ∧ taps.length = N ∧
      rectfilterF F N Ts Fs = .ok (time, List.replicate N 1) ∧
      ∀ x, x < N → ∃ t r, time[x]? = some t ∧ taps[x]? = some r ∧ |t - ((x : ℝ) - N / 2) / Fs| ≤ 1 / 2 ^ 51 * |((x : ℝ) - N / 2) / Fs| ∧
        ((Real.pi * t / alpha) ^ 2 ≤ 745 → |r - Real.sqrt Real.pi / alpha * Real.exp (-(Real.pi * t / alpha) ^ 2)| ≤
          ((Real.pi * t / alpha) ^ 2 + 2) / 2 ^ 49 * |Real.sqrt Real.pi / alpha * Real.exp (-(Real.pi * t / alpha) ^ 2)|) := by
  refine ⟨(List.range N).map (timeF F N Fs), (List.range N).map fun x => gaussTapF F sqrtPi exp alpha (timeF F N Fs x), ?_, by simp, by simp, ?_, ?_⟩
  · unfold gaussianfilterF; rw [if_neg hF.ne', if_neg ha]
  · unfold rectfilterF; rw [if_neg hF.ne']
  intro x hx
  refine ⟨timeF F N Fs x, gaussTapF F sqrtPi exp alpha (timeF F N Fs x), by simp [List.getElem?_range hx], by simp [List.getElem?_range hx], time_err h N x Fs hN, ?_⟩
  generalize timeF F N Fs x = t
  intro hE
  set E := (Real.pi * t / alpha) ^ 2 with hEd
  have hE0 : 0 ≤ E := sq_nonneg _
  have hv := vu_small
  have hvp := vu_pos
  -- the exponent
  have hx2 : Rel 7 E (F.fl (F.fl (F.fl (F.pi * t) / alpha) * F.fl (F.fl (F.pi * t) / alpha))) := by
    have := rel_fl' h (rel_mul (rel_arg h alpha t) (rel_arg h alpha t))
    rw [← sq] at this
    exact rel_mono this (by norm_num)
  unfold gaussTapF
  dsimp only
  have hdx : IsDouble (-F.fl (F.fl (F.fl (F.pi * t) / alpha) * F.fl (F.fl (F.pi * t) / alpha))) := isDouble_neg (h.round.double _)
  set y := F.fl (F.fl (F.fl (F.pi * t) / alpha) * F.fl (F.fl (F.pi * t) / alpha)) with hy
  clear_value y
  have hyE := rel_abs (by norm_num) hx2
  rw [abs_of_nonneg hE0] at hyE
  have he1 : Rel (8 * E) (Real.exp (-E)) (Real.exp (-y)) := by
    refine ⟨E - y, ?_, by rw [← Real.exp_add]; congr 1; ring⟩
    rw [abs_sub_comm]
    refine hyE.trans ?_
    have := mul_nonneg hE0 hvp.le
    linarith
  have he2 := rel_trans he1 (rel_of_abs (hexp _ hdx))
  have hsq : Rel 2 (Real.sqrt Real.pi) sqrtPi := by
    rw [hs]
    have hp : Rel 1 (Real.sqrt Real.pi) (Real.sqrt F.pi) := by
      rw [h.pi]
      obtain ⟨θ, hθ, e⟩ := rel_fl h.round Real.pi
      refine ⟨θ / 2, ?_, ?_⟩
      · rw [abs_div]
        norm_num
        have := abs_nonneg θ
        linarith
      · rw [e, Real.sqrt_mul Real.pi_pos.le, Real.exp_half]
    exact rel_mono (rel_fl' h hp) (by norm_num)
  have hall := rel_fl' h (rel_mul (rel_fl' h (rel_div hsq (rel_self alpha))) he2)
  obtain ⟨θ, hθ, e⟩ := hall
  rw [e]
  set H := Real.sqrt Real.pi / alpha * Real.exp (-E) with hH
  rw [show H * Real.exp θ - H = (Real.exp θ - 1) * H by ring, abs_mul]
  refine mul_le_mul_of_nonneg_right ?_ (abs_nonneg _)
  have hθ2 : |θ| ≤ (8 * E + 13) * vu := hθ.trans (le_of_eq (by ring))
  have hsmall : |θ| ≤ 1 / 10 ^ 11 := by
    refine hθ2.trans ?_
    have : (8 * E + 13) * vu ≤ (8 * 745 + 13) * (1 / 10 ^ 15) := mul_le_mul (by linarith) hv hvp.le (by norm_num)
    refine this.trans (by norm_num)
  have h2 := Real.abs_exp_sub_one_sub_id_le (x := θ) (hsmall.trans (by norm_num))
  have h3 : |Real.exp θ - 1| ≤ |θ| + θ ^ 2 := by
    have := abs_add_le (Real.exp θ - 1 - θ) θ
    rw [sub_add_cancel] at this
    linarith
  have h4 : θ ^ 2 ≤ 1 / 10 ^ 11 * |θ| := by
    rw [← sq_abs, sq]
    exact mul_le_mul_of_nonneg_right hsmall (abs_nonneg _)
  have h5 : (8 * E + 13) * vu ≤ (8 * E + 13) * (1.001 / 2 ^ 53) := mul_le_mul_of_nonneg_left vu_le (by positivity)
  have h6 : |θ| ≤ (8 * E + 13) * (1.001 / 2 ^ 53) := hθ2.trans h5
  have h7 : |Real.exp θ - 1| ≤ 1.001 * |θ| := by
    have := abs_nonneg θ
    linarith
  have h8 : 1.001 * |θ| ≤ 1.001 * ((8 * E + 13) * (1.001 / 2 ^ 53)) := mul_le_mul_of_nonneg_left h6 (by norm_num)
  refine h7.trans (h8.trans ?_)
  rw [show (2 : ℝ) ^ 49 = 2 ^ 53 / 16 by norm_num]
  rw [div_div_eq_mul_div, ← mul_div_assoc, ← mul_div_assoc]
  refine div_le_div_of_nonneg_right ?_ (by norm_num)
  linarith

/-- The hypotheses are met by exact functions rounded to nearest: `gaussianfilter(8, 1, 1, 2)`; all taps exist. -/
example : ∃ time taps : List ℝ, gaussianfilterF libm (rnd53 (Real.sqrt libm.pi)) (fun a => rnd53 (Real.exp a)) 8 1 1 2 = .ok (time, taps) ∧
    taps.length = 8 ∧ rectfilterF libm 8 1 2 = .ok (time, List.replicate 8 1) := by
  obtain ⟨time, taps, h1, -, h2, h3, -⟩ := C137_gaussian libm_ok (rnd53 (Real.sqrt libm.pi)) rfl (fun a => rnd53 (Real.exp a))
    (fun a _ => (fl_err rnd53_nearest _).trans (mul_le_mul_of_nonneg_right (by norm_num) (abs_nonneg _))) 8 1 1 2 (by norm_num) (by norm_num) (by norm_num)
  exact ⟨time, taps, h1, h2, h3⟩

end Verif
