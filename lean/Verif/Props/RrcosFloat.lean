import Verif.Props.FilterFloat
import Verif.Lemmas.FilterMatched
/-
C137: the root raised cosine filter in double precision.
-/
namespace Verif

variable {F : FilterFloats}

open MeasureTheory

/-- The root raised cosine pulse is largest at time zero. -/
theorem rrcosTap_le (α T t : ℝ) (h0 : 0 ≤ α) (h1 : α ≤ 1) (hT : 0 < T) : |rrcosTap α T t| ≤ 1 - α + 4 * α / Real.pi := by
  have hpi := Real.pi_pos
  rcases h0.eq_or_lt with rfl | h0'
  · unfold rrcosTap
    by_cases ht : t = 0
    · simp [ht]
    · simp only [if_neg ht, ne_eq, not_true, false_and, if_false]
      unfold rrcosGeneral
      have := sinc_abs (Real.pi * t / T)
      simpa using this
  · have e0 : rrcosTap α T 0 = 1 - α + 4 * α / Real.pi := by unfold rrcosTap; rw [if_pos rfl]
    have hi := rrcSpectrum_integrable α T h0' hT
    have hz := rrcos_fourier α T 0 h0 h1 hT
    rw [e0] at hz
    simp only [mul_zero, Real.cos_zero, mul_one] at hz
    rw [hz, rrcos_fourier α T t h0 h1 hT, ← Real.norm_eq_abs]
    refine (norm_integral_le_integral_norm _).trans ?_
    refine integral_mono_of_nonneg (Filter.Eventually.of_forall fun f => norm_nonneg _) hi (Filter.Eventually.of_forall fun f => ?_)
    have hn : 0 ≤ rrcSpectrum α T f := by
      unfold rrcSpectrum; exact Real.sqrt_nonneg _
    dsimp only
    rw [Real.norm_eq_abs, abs_mul, abs_of_nonneg hn]
    exact mul_le_of_le_one_right hn (Real.abs_cos_le_one _)

theorem rel_x (h : FilterAccuracy F) (b Ts t : ℝ) : Rel 5 (Real.pi * t * b / Ts) (F.fl (F.fl (F.fl (F.pi * t) * F.fl b) / Ts)) := by
  have := rel_fl' h (rel_div (rel_fl' h (rel_mul (rel_fl' h (rel_mul (rel_pi h) (rel_self t))) (rel_fl h.round b))) (rel_self Ts))
  refine rel_mono this (by norm_num)

theorem rel_k (h : FilterAccuracy F) (alpha Ts t : ℝ) : Rel 3 (4 * alpha * t / Ts) (F.fl (F.fl (4 * alpha) * F.fl (t / Ts))) := by
  have := rel_fl' h (rel_mul (rel_fl h.round (4 * alpha)) (rel_fl h.round (t / Ts)))
  rw [← mul_div_assoc] at this
  refine rel_mono this (by norm_num)

theorem rrcosTap_general {alpha Ts t : ℝ} (hT : Ts ≠ 0) (ht : t ≠ 0) (hw : (4 * alpha * t / Ts) ^ 2 ≠ 1) :
    rrcosTap alpha Ts t = (Real.sin (Real.pi * t * (1 - alpha) / Ts) + (4 * alpha * t / Ts) * Real.cos (Real.pi * t * (1 + alpha) / Ts)) /
      (Real.pi * t / Ts * (1 - (4 * alpha * t / Ts) ^ 2)) := by
  unfold rrcosTap
  rw [if_neg ht, if_neg, if_neg]
  · unfold rrcosGeneral
    congr 1
    · ring
    · ring
  · rintro ⟨ha, e⟩
    apply hw
    rw [e, show 4 * alpha * (-Ts / (4 * alpha)) / Ts = -1 by field_simp]; norm_num
  · rintro ⟨ha, e⟩
    apply hw
    rw [e, show 4 * alpha * (Ts / (4 * alpha)) / Ts = 1 by field_simp]; norm_num

theorem rr_arith {A v S D E : ℝ} (hA : 0 < A) (hv : 0 < v) (hS : 1 ≤ S) (hD : 0 < D) (hE : 0.9 * (A * D) ≤ E) :
    (17.5 * v * A * (1 + A) + 1.274 * (12.5 * v * S * A)) / E ≤ 37.2 * (v * (1 + A) * S / D) := by
  have hvA : 0 < v * A := by positivity
  have h1 : 17.5 * v * A * (1 + A) + 1.274 * (12.5 * v * S * A) ≤ v * A * ((17.5 + 1.274 * 12.5) * ((1 + A) * S)) := by
    have e : 17.5 * v * A * (1 + A) + 1.274 * (12.5 * v * S * A) = v * A * (17.5 * (1 + A) + 1.274 * 12.5 * S) := by ring
    rw [e]
    refine mul_le_mul_of_nonneg_left ?_ hvA.le
    have : (1 + A) * 1 ≤ (1 + A) * S := by gcongr
    have : 1 * S ≤ (1 + A) * S := by gcongr; linarith
    linarith
  calc _ ≤ v * A * ((17.5 + 1.274 * 12.5) * ((1 + A) * S)) / (0.9 * (A * D)) := by
        gcongr
    _ = (17.5 + 1.274 * 12.5) / 0.9 * (v * (1 + A) * S / D) := by field_simp
    _ ≤ _ := by
        gcongr; norm_num

theorem rr_final {q x y Z : ℝ} (hq : |q| ≤ 1.274) (hx : |x - q| ≤ 37.2 * Z) (hZ : vu ≤ Z) (hy : Rel 1 x y) : |y - q| ≤ 127 * Z := by
  have hv := vu_pos
  have b1 := rel_abs (by norm_num) hy
  have b2 := abs_sub_le y x q
  have b3 : |x| ≤ 1.274 + 37.2 * Z := by
    have := abs_sub_abs_le_abs_sub x q
    linarith
  have b4 : 1.001 * 1 * vu * |x| ≤ 1.001 * 1 * vu * (1.274 + 37.2 * Z) := by gcongr
  have b7 : 0 ≤ Z := by linarith
  have b8 : vu * Z ≤ 1 / 10 ^ 15 * Z := mul_le_mul_of_nonneg_right vu_small b7
  linarith

set_option maxHeartbeats 1000000 in
theorem rrcosTapF_general (h : FilterAccuracy F) {alpha Ts t : ℝ} (h0 : 0 ≤ alpha) (h1 : alpha ≤ 1) (hT : 0 < Ts) (ht : t ≠ 0)
    (hD : 1 / 2 ^ 46 * (1 + (4 * alpha * t / Ts) ^ 2) ≤ |1 - (4 * alpha * t / Ts) ^ 2|) :
    ∃ r : ℝ, rrcosTapF F alpha Ts t = some (r : EReal) ∧
      |r - rrcosTap alpha Ts t| ≤ 1 / 2 ^ 46 * (1 + |Real.pi * t / Ts|) * (1 + (4 * alpha * t / Ts) ^ 2) / |1 - (4 * alpha * t / Ts) ^ 2| := by
  have hv := vu_pos
  have hvs := vu_small
  have hpi := Real.pi_pos
  have hpi4 := Real.pi_gt_d4
  have hns := not_special h hT.ne' four_ne_zero hD
  have hM := rrcosTap_le alpha Ts t h0 h1 hT
  have hrw := rel_w h 4 alpha Ts t
  have hrk := rel_k h alpha Ts t
  have hrx := rel_x h (1 - alpha) Ts t
  have hry := rel_x h (1 + alpha) Ts t
  set w := 4 * alpha * t / Ts with hwdef
  set w' := F.fl (F.fl (F.fl (4 * alpha) * t) / Ts) with hw'
  set A := Real.pi * t / Ts with hA
  have hA0 : A ≠ 0 := by rw [hA]; positivity
  have hAp : 0 < |A| := abs_pos.2 hA0
  set S := 1 + w ^ 2 with hS
  have hS1 : 1 ≤ S := by have := sq_nonneg w; linarith
  set D := |1 - w ^ 2| with hDdef
  have hD1 : 127 * vu * S ≤ D := le_trans (mul_le_mul_of_nonneg_right vu_127 (by linarith)) hD
  have hD0 : 0 < D := lt_of_lt_of_le (by positivity) hD1
  have hDS : D ≤ S := by
    rw [hDdef, abs_le]; constructor <;> · have := sq_nonneg w; linarith
  have hd0 : 1 - w ^ 2 ≠ 0 := abs_pos.1 hD0
  have hw1 : w ^ 2 ≠ 1 := fun e => hd0 (by linarith)
  have hpinv : 4 * alpha / Real.pi ≤ 1.274 * alpha := by
    rw [div_le_iff₀ hpi]; nlinarith
  have hM' : |rrcosTap alpha Ts t| ≤ 1.274 := by linarith
  rw [rrcosTap_general hT.ne' ht hw1, ← hwdef, ← hA] at hM' ⊢
  have hwA : |w| ≤ 1.274 * alpha * |A| := by
    have e : w = 4 * alpha / Real.pi * A := by rw [hwdef, hA]; field_simp
    rw [e, abs_mul, abs_of_nonneg (by positivity)]
    gcongr
  have hX : |Real.pi * t * (1 - alpha) / Ts| = |A| * (1 - alpha) := by
    rw [show Real.pi * t * (1 - alpha) / Ts = A * (1 - alpha) by rw [hA]; ring, abs_mul, abs_of_nonneg (show 0 ≤ 1 - alpha by linarith)]
  have hY : |Real.pi * t * (1 + alpha) / Ts| = |A| * (1 + alpha) := by
    rw [show Real.pi * t * (1 + alpha) / Ts = A * (1 + alpha) by rw [hA]; ring, abs_mul, abs_of_nonneg (show 0 ≤ 1 + alpha by linarith)]
  set X := Real.pi * t * (1 - alpha) / Ts with hXdef
  set Y := Real.pi * t * (1 + alpha) / Ts with hYdef
  set X' := F.fl (F.fl (F.fl (F.pi * t) * F.fl (1 - alpha)) / Ts) with hX'
  set Y' := F.fl (F.fl (F.fl (F.pi * t) * F.fl (1 + alpha)) / Ts) with hY'
  set k' := F.fl (F.fl (4 * alpha) * F.fl (t / Ts)) with hk'
  have hw0 := abs_nonneg w
  have hvw : vu * |w| ≤ 1 / 10 ^ 15 * |w| := by gcongr
  have hvw0 : 0 ≤ vu * |w| := by positivity
  have ha1 : 0 ≤ 1 - alpha := by linarith
  -- the sine
  have hs1 : |F.sin X' - Real.sin X| ≤ 13.02 * vu * (|A| * (1 - alpha)) := by
    have a1 := sin_err h (h.round.double _) (by norm_num) hrx
    have a2 := rel_abs (by norm_num) hrx
    have a3 : |X'| ≤ 1.0001 * |X| := by
      have := abs_sub_abs_le_abs_sub X' X
      have a7 := abs_nonneg X
      have a8 : vu * |X| ≤ 1 / 10 ^ 15 * |X| := by gcongr
      linarith
    have a4 : |Real.sin X'| ≤ 1.0001 * |X| := Real.abs_sin_le_abs.trans a3
    have a5 : 8 * vu * |Real.sin X'| ≤ 8 * vu * (1.0001 * |X|) := by gcongr
    rw [← hX]
    have a6 : 0 ≤ vu * |X| := by positivity
    change |F.sin X' - Real.sin X| ≤ 1.001 * 5 * vu * |X| + 8 * vu * |Real.sin X'| at a1
    linarith
  -- the cosine
  have hc1 : |F.cos Y' - Real.cos Y| ≤ 5.005 * vu * (|A| * (1 + alpha)) + 8 * vu := by
    have a1 := cos_err h (h.round.double _) (by norm_num) hry
    rw [hY] at a1
    refine a1.trans (le_of_eq (by ring))
  have hc2 : |F.cos Y'| ≤ 1.0001 := by
    have a1 := acc_cos h (h.round.double (F.fl (F.fl (F.pi * t) * F.fl (1 + alpha)) / Ts))
    change |F.cos Y' - Real.cos Y'| ≤ _ at a1
    have a2 := Real.abs_cos_le_one Y'
    have a3 := abs_sub_abs_le_abs_sub (F.cos Y') (Real.cos Y')
    have a4 : 8 * vu * |Real.cos Y'| ≤ 8 * vu * 1 := by gcongr
    linarith
  have hk1 := rel_abs (by norm_num) hrk
  have hm1 : |k' * F.cos Y' - w * Real.cos Y| ≤ |w| * (vu * (5.005 * (|A| * (1 + alpha)) + 11.1)) := by
    rw [show k' * F.cos Y' - w * Real.cos Y = (k' - w) * F.cos Y' + w * (F.cos Y' - Real.cos Y) by ring]
    refine (abs_add_le _ _).trans ?_
    rw [abs_mul, abs_mul]
    have b1 := mul_le_mul hk1 hc2 (abs_nonneg _) (by positivity)
    have b2 := mul_le_mul_of_nonneg_left hc1 hw0
    linarith
  have hkc : |k' * F.cos Y'| ≤ 1.001 * |w| := by
    have b1 : |k'| ≤ 1.0001 * |w| := by
      have := abs_sub_abs_le_abs_sub k' w
      linarith
    rw [abs_mul]
    have := mul_le_mul b1 hc2 (abs_nonneg _) (by positivity)
    linarith
  set m' := F.fl (k' * F.cos Y') with hm'
  have hm2 : |m' - w * Real.cos Y| ≤ |w| * (vu * (5.005 * (|A| * (1 + alpha)) + 12.2)) := by
    have b1 := rel_abs (by norm_num) (rel_fl h.round (k' * F.cos Y'))
    have b2 := abs_sub_le m' (k' * F.cos Y') (w * Real.cos Y)
    have b3 : 1.001 * 1 * vu * |k' * F.cos Y'| ≤ 1.001 * 1 * vu * (1.001 * |w|) := by gcongr
    linarith
  have hm3 : |m'| ≤ 1.01 * |w| := by
    have b1 := rel_abs (by norm_num) (rel_fl h.round (k' * F.cos Y'))
    have b2 := abs_sub_abs_le_abs_sub m' (k' * F.cos Y')
    have b3 : 1.001 * 1 * vu * |k' * F.cos Y'| ≤ 1.001 * 1 * vu * (1.001 * |w|) := by gcongr
    linarith
  have hs3 : |F.sin X'| ≤ 1.01 * (|A| * (1 - alpha)) := by
    have b1 := abs_sub_abs_le_abs_sub (F.sin X') (Real.sin X)
    have b2 : |Real.sin X| ≤ |A| * (1 - alpha) := by rw [← hX]; exact Real.abs_sin_le_abs
    have b3 : 0 ≤ |A| * (1 - alpha) := by positivity
    have b4 : vu * (|A| * (1 - alpha)) ≤ 1 / 10 ^ 15 * (|A| * (1 - alpha)) := by gcongr
    linarith
  set n' := F.fl (F.sin X' + m') with hn'
  have hnum : |n' - (Real.sin X + w * Real.cos Y)| ≤ 17.5 * vu * |A| * (1 + |A|) := by
    have b1 := rel_abs (by norm_num) (rel_fl h.round (F.sin X' + m'))
    have b2 := abs_sub_le n' (F.sin X' + m') (Real.sin X + w * Real.cos Y)
    have b3 : |F.sin X' + m' - (Real.sin X + w * Real.cos Y)| ≤ 13.02 * vu * (|A| * (1 - alpha)) + |w| * (vu * (5.005 * (|A| * (1 + alpha)) + 12.2)) := by
      rw [show F.sin X' + m' - (Real.sin X + w * Real.cos Y) = (F.sin X' - Real.sin X) + (m' - w * Real.cos Y) by ring]
      exact (abs_add_le _ _).trans (add_le_add hs1 hm2)
    have b4 : |F.sin X' + m'| ≤ 1.3 * |A| := by
      have := abs_add_le (F.sin X') m'
      nlinarith
    have b5 : 1.001 * 1 * vu * |F.sin X' + m'| ≤ 1.001 * 1 * vu * (1.3 * |A|) := by gcongr
    have b6 : |w| * (vu * (5.005 * (|A| * (1 + alpha)) + 12.2)) ≤ 1.274 * alpha * |A| * (vu * (5.005 * (|A| * 2) + 12.2)) := by
      gcongr; linarith
    have b7 : 1.274 * alpha * |A| * (vu * (5.005 * (|A| * 2) + 12.2)) = vu * |A| * (alpha * (12.75274 * |A| + 15.5428)) := by ring
    have b8 : 13.02 * vu * (|A| * (1 - alpha)) = vu * |A| * (13.02 * (1 - alpha)) := by ring
    have b9 : 0 ≤ vu * |A| := by positivity
    have b10 : 13.02 * (1 - alpha) + alpha * (12.75274 * |A| + 15.5428) + 1.3013 ≤ 17.5 * (1 + |A|) := by nlinarith
    have b11 := mul_le_mul_of_nonneg_left b10 b9
    linarith
  -- the denominator
  set d' := F.fl (1 - F.fl (w' * w')) with hd'
  have hden : |d' - (1 - w ^ 2)| ≤ 8.04 * vu * S := by
    refine (den_err h (by norm_num) (by norm_num) hrw).trans (le_of_eq ?_)
    rw [hS]; ring
  have hd'S : |d'| ≤ 1.1 * S := by
    have b1 := abs_sub_abs_le_abs_sub d' (1 - w ^ 2)
    have b2 : |1 - w ^ 2| = D := rfl
    nlinarith
  set e' := F.fl (F.fl (F.fl (F.pi * t) * d') / Ts) with he'
  have hre : Rel 4 (A * d') e' := by
    have := rel_fl' h (rel_div (rel_fl' h (rel_mul (rel_fl' h (rel_mul (rel_pi h) (rel_self t))) (rel_self d'))) (rel_self Ts))
    rw [show Real.pi * t * d' / Ts = A * d' by rw [hA]; ring] at this
    exact rel_mono this (by norm_num)
  have hE : |e' - A * (1 - w ^ 2)| ≤ 12.5 * vu * S * |A| := by
    have b1 := rel_abs (by norm_num) hre
    have b2 := abs_sub_le e' (A * d') (A * (1 - w ^ 2))
    have b3 : |A * d' - A * (1 - w ^ 2)| ≤ |A| * (8.04 * vu * S) := by
      rw [← mul_sub, abs_mul]; gcongr
    have b4 : |A * d'| ≤ |A| * (1.1 * S) := by rw [abs_mul]; gcongr
    have b5 : 1.001 * 4 * vu * |A * d'| ≤ 1.001 * 4 * vu * (|A| * (1.1 * S)) := by gcongr
    have b6 : 0 ≤ vu * S * |A| := by positivity
    linarith
  have hAd0 : A * (1 - w ^ 2) ≠ 0 := mul_ne_zero hA0 hd0
  have hED : 0.9 * (|A| * D) ≤ |e'| := by
    have b1 := abs_sub_abs_le_abs_sub (A * (1 - w ^ 2)) e'
    rw [abs_sub_comm (A * (1 - w ^ 2)) e'] at b1
    have b2 : |A * (1 - w ^ 2)| = |A| * D := abs_mul _ _
    have b3 := mul_le_mul_of_nonneg_right hD1 hAp.le
    have b4 : 0 < |A| * D := by positivity
    linarith
  have he'0 : e' ≠ 0 := abs_pos.1 (lt_of_lt_of_le (by positivity) hED)
  set Z := vu * (1 + |A|) * S / D with hZ
  have hZv : vu ≤ Z := by
    rw [hZ, le_div_iff₀ hD0]
    have : vu * S ≤ vu * (1 + |A|) * S := by
      have : 0 ≤ vu * |A| * S := by positivity
      nlinarith
    nlinarith
  set q := (Real.sin X + w * Real.cos Y) / (A * (1 - w ^ 2)) with hq
  have hquot : |n' / e' - q| ≤ 37.2 * Z := by
    refine (quot_err hAd0 he'0 hnum hE hM').trans ?_
    exact rr_arith hAp hv hS1 hD0 hED
  refine ⟨F.fl (n' / e'), ?_, ?_⟩
  · unfold rrcosTapF
    rw [if_neg ht, if_neg hns]
    show divF F (t / Ts) n' e' = _
    unfold divF
    rw [if_neg he'0]
  · refine (rr_final hM' hquot hZv (rel_fl h.round (n' / e'))).trans ?_
    have e : 1 / 2 ^ 46 * (1 + |A|) * S / D = 1 / 2 ^ 46 * ((1 + |A|) * S / D) := by ring
    rw [e, hZ, show 127 * (vu * (1 + |A|) * S / D) = 127 * vu * ((1 + |A|) * S / D) by ring]
    exact mul_le_mul_of_nonneg_right vu_127 (by positivity)

end Verif
