import Verif.Lemmas.FilterFloat
import Mathlib.Analysis.Real.Pi.Irrational
/-
C137: the raised cosine filters in double precision.
-/
namespace Verif

variable {F : FilterFloats}

theorem vu_127 : 127 * vu ≤ 1 / 2 ^ 46 := by
  have := vu_le
  calc 127 * vu ≤ 127 * (1.001 / 2 ^ 53) := by linarith
    _ ≤ _ := by norm_num

theorem rel_pi (h : FilterAccuracy F) : Rel 1 Real.pi F.pi := by
  rw [h.pi]; exact rel_fl h.round _

theorem rel_fl' (h : FilterAccuracy F) {n x y : ℝ} (hr : Rel n x y) : Rel (n + 1) x (F.fl y) := rel_trans hr (rel_fl h.round y)

/-- The computed argument `π t / Ts`. -/
theorem rel_arg (h : FilterAccuracy F) (Ts t : ℝ) : Rel 3 (Real.pi * t / Ts) (F.fl (F.fl (F.pi * t) / Ts)) := by
  have := rel_fl' h (rel_div (rel_fl' h (rel_mul (rel_pi h) (rel_self t))) (rel_self Ts))
  refine rel_mono this (by norm_num)

theorem rel_w (h : FilterAccuracy F) (c alpha Ts t : ℝ) : Rel 3 (c * alpha * t / Ts) (F.fl (F.fl (F.fl (c * alpha) * t) / Ts)) := by
  have := rel_fl' h (rel_div (rel_fl' h (rel_mul (rel_fl h.round (c * alpha)) (rel_self t))) (rel_self Ts))
  refine rel_mono this (by norm_num)

theorem rel_b (h : FilterAccuracy F) (alpha Ts t : ℝ) : Rel 4 (Real.pi * alpha * t / Ts) (F.fl (F.fl (F.fl (F.pi * alpha) * t) / Ts)) := by
  have := rel_fl' h (rel_div (rel_fl' h (rel_mul (rel_fl' h (rel_mul (rel_pi h) (rel_self alpha))) (rel_self t))) (rel_self Ts))
  refine rel_mono this (by norm_num)

/-- Far from the singular points the special case is not taken. -/
theorem not_special (h : FilterAccuracy F) {c alpha Ts t : ℝ} (hT : Ts ≠ 0) (hc : c ≠ 0)
    (hD : 1 / 2 ^ 46 * (1 + (c * alpha * t / Ts) ^ 2) ≤ |1 - (c * alpha * t / Ts) ^ 2|) :
    ¬ (alpha ≠ 0 ∧ (t = F.fl (Ts / F.fl (c * alpha)) ∨ t = F.fl (-Ts / F.fl (c * alpha)))) := by
  rintro ⟨ha, ht⟩
  have hv := vu_pos
  have hvs := vu_small
  have key : ∀ s : ℝ, s ^ 2 = 1 → t = F.fl (s * Ts / F.fl (c * alpha)) → False := by
    intro s hs ht
    have hr := rel_fl' h (rel_div (rel_self (s * Ts)) (rel_fl h.round (c * alpha)))
    rw [← ht] at hr
    obtain ⟨θ, hθ, e⟩ := hr
    have hw : (c * alpha * t / Ts) ^ 2 = Real.exp (2 * θ) := by
      rw [e, show c * alpha * (s * Ts / (c * alpha) * Real.exp θ) / Ts = s * Real.exp θ by field_simp, mul_pow, hs, one_mul, ← Real.exp_nat_mul]
      norm_num
    rw [hw] at hD
    have h1 : |2 * θ| ≤ 4 * vu := by
      rw [abs_mul, abs_of_pos (by norm_num : (0 : ℝ) < 2)]; linarith
    have h2 := exp_sub_one_abs (by norm_num) h1
    rw [abs_sub_comm] at h2
    have h3 := Real.exp_pos (2 * θ)
    have h4 := vu_127
    nlinarith
  rcases ht with ht | ht
  · exact key 1 (by norm_num) (by rw [one_mul]; exact ht)
  · exact key (-1) (by norm_num) (by rw [neg_one_mul]; exact ht)

theorem rcosTap_general {alpha Ts t : ℝ} (hT : Ts ≠ 0) (ht : t ≠ 0) (hw : (2 * alpha * t / Ts) ^ 2 ≠ 1) :
    rcosTap alpha Ts t = Real.sin (Real.pi * t / Ts) / (Real.pi * t / Ts) *
      (Real.cos (Real.pi * (2 * alpha * t / Ts) / 2) / (1 - (2 * alpha * t / Ts) ^ 2)) := by
  unfold rcosTap
  rw [if_neg ht, if_neg, if_neg]
  · unfold rcosGeneral
    rw [sq, show Real.pi * (2 * alpha * t / Ts) / 2 = Real.pi * alpha * t / Ts by ring]
  · rintro ⟨ha, e⟩
    apply hw
    rw [e, show 2 * alpha * (-Ts / (2 * alpha)) / Ts = -1 by field_simp]; norm_num
  · rintro ⟨ha, e⟩
    apply hw
    rw [e, show 2 * alpha * (Ts / (2 * alpha)) / Ts = 1 by field_simp]; norm_num

theorem rcosTapF_general (h : FilterAccuracy F) {alpha Ts t : ℝ} (hT : Ts ≠ 0) (ht : t ≠ 0)
    (hD : 1 / 2 ^ 46 * (1 + (2 * alpha * t / Ts) ^ 2) ≤ |1 - (2 * alpha * t / Ts) ^ 2|) :
    ∃ r : ℝ, rcosTapF F alpha Ts t = some (r : EReal) ∧
      |r - rcosTap alpha Ts t| ≤ 1 / 2 ^ 46 * (1 + (2 * alpha * t / Ts) ^ 2) / |1 - (2 * alpha * t / Ts) ^ 2| := by
  have hv := vu_pos
  have hvs := vu_small
  have hpi := Real.pi_pos
  have hpi4 := Real.pi_lt_d4
  have hns := not_special h hT two_ne_zero hD
  have hrw := rel_w h 2 alpha Ts t
  have hrb := rel_b h alpha Ts t
  have hra := rel_arg h Ts t
  set w := 2 * alpha * t / Ts with hwdef
  set w' := F.fl (F.fl (F.fl (2 * alpha) * t) / Ts) with hw'
  set A := Real.pi * t / Ts with hA
  have hA0 : A ≠ 0 := by rw [hA]; positivity
  set S := 1 + w ^ 2 with hS
  have hS1 : 1 ≤ S := by have := sq_nonneg w; linarith
  set D := |1 - w ^ 2| with hDdef
  have hD1 : 127 * vu * S ≤ D := le_trans (mul_le_mul_of_nonneg_right vu_127 (by linarith)) hD
  have hD0 : 0 < D := lt_of_lt_of_le (by positivity) hD1
  have hDS : D ≤ S := by
    rw [hDdef, abs_le]; constructor <;> · have := sq_nonneg w; linarith
  have hd0 : 1 - w ^ 2 ≠ 0 := abs_pos.1 hD0
  have hw1 : w ^ 2 ≠ 1 := fun e => hd0 (by linarith)
  rw [rcosTap_general hT ht hw1, ← hwdef, ← hA]
  -- the two factors
  have hsinc : |sincF F Ts t - Real.sin A / A| ≤ 15.04 * vu := by
    have := sinc_err h (h.round.double _) hA0 (by norm_num) (by norm_num) hra
    unfold sincF
    refine this.trans (by nlinarith)
  set s' := sincF F Ts t with hs'
  set c' := F.cos (F.fl (F.fl (F.fl (F.pi * alpha) * t) / Ts)) with hc'
  set d' := F.fl (1 - F.fl (w' * w')) with hd'
  have hcos : |c' - Real.cos (Real.pi * w / 2)| ≤ 11.2 * vu * S := by
    have h1 := cos_err h (h.round.double _) (by norm_num) hrb
    rw [show Real.pi * alpha * t / Ts = Real.pi * w / 2 by rw [hwdef]; ring] at h1
    refine h1.trans ?_
    have h2 : |Real.pi * w / 2| ≤ 0.7855 * S := by
      rw [abs_div, abs_mul, abs_of_pos hpi, abs_of_pos (by norm_num : (0 : ℝ) < 2)]
      have h3 : 2 * |w| ≤ S := by
        rw [hS, ← sq_abs]; nlinarith [sq_nonneg (|w| - 1)]
      have := abs_nonneg w
      nlinarith
    nlinarith
  have hden : |d' - (1 - w ^ 2)| ≤ 8.04 * vu * S := by
    refine (den_err h (by norm_num) (by norm_num) hrw).trans (le_of_eq ?_)
    rw [hS]; ring
  have hd'D : 0.93 * D ≤ |d'| := by
    have h1 := abs_sub_abs_le_abs_sub (1 - w ^ 2) d'
    rw [abs_sub_comm (1 - w ^ 2) d'] at h1
    have h2 : |1 - w ^ 2| = D := rfl
    nlinarith
  have hd'0 : d' ≠ 0 := abs_pos.1 (lt_of_lt_of_le (by linarith) hd'D)
  set X := vu * S / D with hX
  have hXv : vu ≤ X := by rw [hX, le_div_iff₀ hD0]; nlinarith
  have hX1 : X ≤ 1 / 127 := by
    rw [hX, div_le_iff₀ hD0]; linarith
  have hM := cos_quot w hw1
  have hM' : |Real.cos (Real.pi * w / 2) / (1 - w ^ 2)| ≤ 1.571 := hM.trans (by linarith)
  set q := Real.cos (Real.pi * w / 2) / (1 - w ^ 2) with hq
  have hquot : |c' / d' - q| ≤ 25.65 * X := by
    refine (quot_err hd0 hd'0 hcos hden hM').trans ?_
    calc (11.2 * vu * S + 1.571 * (8.04 * vu * S)) / |d'| ≤ (11.2 * vu * S + 1.571 * (8.04 * vu * S)) / (0.93 * D) := by gcongr
      _ = (11.2 + 1.571 * 8.04) / 0.93 * X := by rw [hX]; field_simp
      _ ≤ _ := by
        have : 0 ≤ X := by linarith
        gcongr; norm_num
  have hq1 : |c' / d'| ≤ 1.78 := by
    have := abs_sub_abs_le_abs_sub (c' / d') q
    linarith
  set q' := F.fl (c' / d') with hq'
  have hq'e : |q' - q| ≤ 27.5 * X := by
    have h1 := rel_abs (by norm_num) (rel_fl h.round (c' / d'))
    have h2 := abs_sub_le q' (c' / d') q
    have : 1.001 * 1 * vu * |c' / d'| ≤ 1.001 * 1 * vu * 1.78 := by gcongr
    linarith
  have hq'1 : |q'| ≤ 1.8 := by
    have := abs_sub_abs_le_abs_sub q' q
    linarith
  have hs1 := sinc_abs A
  have hs'1 : |s'| ≤ 1.0001 := by
    have := abs_sub_abs_le_abs_sub s' (Real.sin A / A)
    linarith
  refine ⟨F.fl (s' * q'), ?_, ?_⟩
  · unfold rcosTapF
    rw [if_neg ht, if_neg hns]
    show mulF F s' (divF F 1 c' d') = _
    unfold divF
    rw [if_neg hd'0]
    rfl
  · have h1 := rel_abs (by norm_num) (rel_fl h.round (s' * q'))
    have h2 := abs_sub_le (F.fl (s' * q')) (s' * q') (Real.sin A / A * q)
    have h3 : |s' * q' - Real.sin A / A * q| ≤ 15.04 * vu * 1.8 + 1 * (27.5 * X) := by
      rw [show s' * q' - Real.sin A / A * q = (s' - Real.sin A / A) * q' + Real.sin A / A * (q' - q) by ring]
      refine (abs_add_le _ _).trans ?_
      rw [abs_mul, abs_mul]
      exact add_le_add (mul_le_mul hsinc hq'1 (abs_nonneg _) (by positivity)) (mul_le_mul hs1 hq'e (abs_nonneg _) (by norm_num))
    have h4 : |s' * q'| ≤ 1.0001 * 1.8 := by
      rw [abs_mul]; exact mul_le_mul hs'1 hq'1 (abs_nonneg _) (by norm_num)
    have h5 : 1.001 * 1 * vu * |s' * q'| ≤ 1.001 * 1 * vu * (1.0001 * 1.8) := by gcongr
    have h6 : 127 * X ≤ 1 / 2 ^ 46 * S / D := by
      rw [hX, ← mul_div_assoc, ← mul_assoc]
      gcongr
      exact vu_127
    linarith


theorem vu_31 : 31 * vu ≤ 1 / 2 ^ 48 := by
  have := vu_le
  calc 31 * vu ≤ 31 * (1.001 / 2 ^ 53) := by linarith
    _ ≤ _ := by norm_num

/-- The special case of `rcosfilter`. -/
theorem rcosTapF_special (h : FilterAccuracy F) {alpha Ts t s : ℝ} (hT : Ts ≠ 0) (ha : alpha ≠ 0) (hs : s = 1 ∨ s = -1)
    (ht : t = F.fl (s * Ts / F.fl (2 * alpha))) :
    ∃ r : ℝ, rcosTapF F alpha Ts t = some (r : EReal) ∧ |r - rcosTap alpha Ts (s * Ts / (2 * alpha))| ≤ 1 / 2 ^ 48 := by
  have hv := vu_pos
  have hvs := vu_small
  have hpi := Real.pi_pos
  have hpi4 := Real.pi_lt_d4
  have hs0 : s ≠ 0 := by rcases hs with rfl | rfl <;> norm_num
  have hrt : Rel 2 (s * Ts / (2 * alpha)) t := by
    rw [ht]
    exact rel_mono (rel_fl' h (rel_div (rel_self (s * Ts)) (rel_fl h.round (2 * alpha)))) (by norm_num)
  set t0 := s * Ts / (2 * alpha) with ht0
  have ht00 : t0 ≠ 0 := by rw [ht0]; positivity
  have htn : t ≠ 0 := (rel_ne hrt).2 ht00
  have hra : Rel 5 (Real.pi * t0 / Ts) (F.fl (F.fl (F.pi * t) / Ts)) := by
    have := rel_fl' h (rel_div (rel_fl' h (rel_mul (rel_pi h) hrt)) (rel_self Ts))
    exact rel_mono this (by norm_num)
  have hA0 : Real.pi * t0 / Ts ≠ 0 := by positivity
  have hsinc := sinc_err h (h.round.double _) hA0 (by norm_num) (by norm_num) hra
  refine ⟨F.fl (F.fl (F.pi / 4) * sincF F Ts t), ?_, ?_⟩
  · unfold rcosTapF
    rw [if_neg htn, if_pos]
    refine ⟨ha, ?_⟩
    rcases hs with rfl | rfl
    · left; rw [ht, one_mul]
    · right; rw [ht, neg_one_mul]
  · have e : rcosTap alpha Ts t0 = Real.pi / 4 * (Real.sin (Real.pi * t0 / Ts) / (Real.pi * t0 / Ts)) := by
      unfold rcosTap
      rw [if_neg ht00]
      rcases hs with hs | hs
      · rw [if_pos ⟨ha, by rw [ht0, hs, one_mul]⟩]
      · by_cases hc : alpha ≠ 0 ∧ t0 = Ts / (2 * alpha)
        · rw [if_pos hc]
        · rw [if_neg hc, if_pos ⟨ha, by rw [ht0, hs, neg_one_mul]⟩]
    rw [e]
    have e2 : sincF F Ts t = F.fl (F.sin (F.fl (F.fl (F.pi * t) / Ts)) / F.fl (F.fl (F.pi * t) / Ts)) := rfl
    rw [← e2] at hsinc
    set s' := sincF F Ts t
    set z := Real.sin (Real.pi * t0 / Ts) / (Real.pi * t0 / Ts) with hz
    have hz1 : |z| ≤ 1 := sinc_abs _
    have hs1 : |s'| ≤ 1.0001 := by
      have := abs_sub_abs_le_abs_sub s' z
      linarith
    have hr : Rel 3 (Real.pi / 4 * s') (F.fl (F.fl (F.pi / 4) * s')) := by
      have := rel_fl' h (rel_mul (rel_fl' h (rel_div (rel_pi h) (rel_self 4))) (rel_self s'))
      exact rel_mono this (by norm_num)
    have h1 := rel_abs (by norm_num) hr
    have h2 := abs_sub_le (F.fl (F.fl (F.pi / 4) * s')) (Real.pi / 4 * s') (Real.pi / 4 * z)
    have h3 : |Real.pi / 4 * s' - Real.pi / 4 * z| ≤ 0.7855 * (19.06 * vu) := by
      rw [← mul_sub, abs_mul, abs_of_pos (by positivity)]
      exact mul_le_mul (by linarith) (hsinc.trans (by linarith)) (abs_nonneg _) (by norm_num)
    have h4 : |Real.pi / 4 * s'| ≤ 0.7855 * 1.0001 := by
      rw [abs_mul, abs_of_pos (by positivity)]
      exact mul_le_mul (by linarith) hs1 (abs_nonneg _) (by norm_num)
    have h5 : 1.001 * 3 * vu * |Real.pi / 4 * s'| ≤ 1.001 * 3 * vu * (0.7855 * 1.0001) := by gcongr
    have := vu_31
    linarith

theorem half_double (N : ℕ) (hN : N ≤ 2 ^ 53) : IsDouble ((N : ℝ) / 2) := by
  have := isDouble_div (N : ℤ) 1 (by rw [abs_of_nonneg (by positivity)]; exact_mod_cast hN)
  simpa using this

theorem time_err (h : FilterAccuracy F) (N x : ℕ) (Fs : ℝ) (hN : N ≤ 2 ^ 53) :
    |timeF F N Fs x - ((x : ℝ) - N / 2) / Fs| ≤ 1 / 2 ^ 51 * |((x : ℝ) - N / 2) / Fs| := by
  have hr : Rel 3 (((x : ℝ) - N / 2) / Fs) (timeF F N Fs x) := by
    unfold timeF
    rw [fl_exact h.round (half_double N hN)]
    have := rel_fl' h (rel_mul (rel_fl h.round ((x : ℝ) - N / 2)) (rel_fl h.round (1 / Fs)))
    rw [mul_one_div] at this
    exact rel_mono this (by norm_num)
  refine (rel_abs (by norm_num) hr).trans (mul_le_mul_of_nonneg_right ?_ (abs_nonneg _))
  have := vu_le
  calc 1.001 * 3 * vu ≤ 1.001 * 3 * (1.001 / 2 ^ 53) := by gcongr
    _ ≤ _ := by norm_num

/-- C137, `rcosfilter`: the returned times are accurate to four units in the last place; the tap at time zero is exactly one; a tap whose time is not within a relative
distance of about 2^-46 of `±Ts/(2 alpha)` is the exact pulse at the returned time, up to an error of at most 2^-46 times the ratio of `1 + w²` to `|1 - w²|`
(`w = 2 alpha t/Ts`); and a tap whose time is the double the code compares with is within 2^-48 of the pulse at `±Ts/(2 alpha)`. -/
theorem C137_rcos_partial (h : FilterAccuracy F) (N : ℕ) (alpha Ts Fs : ℝ) (hN : N ≤ 2 ^ 53) (hT : 0 < Ts) (hF : 0 < Fs) :
    ∃ (time : List ℝ) (taps : List (Option EReal)), rcosfilterF F N alpha Ts Fs = .ok (time, taps) ∧ time.length = N ∧ taps.length = N ∧
      ∀ x, x < N → ∃ t, time[x]? = some t ∧ |t - ((x : ℝ) - N / 2) / Fs| ≤ 1 / 2 ^ 51 * |((x : ℝ) - N / 2) / Fs| ∧
        (t = 0 → taps[x]? = some (some ((1 : ℝ) : EReal))) ∧
        (1 / 2 ^ 46 * (1 + (2 * alpha * t / Ts) ^ 2) ≤ |1 - (2 * alpha * t / Ts) ^ 2| →
          ∃ r : ℝ, taps[x]? = some (some (r : EReal)) ∧
            |r - rcosTap alpha Ts t| ≤ 1 / 2 ^ 46 * (1 + (2 * alpha * t / Ts) ^ 2) / |1 - (2 * alpha * t / Ts) ^ 2|) ∧
        (∀ s : ℝ, s = 1 ∨ s = -1 → alpha ≠ 0 → t = F.fl (s * Ts / F.fl (2 * alpha)) →
          ∃ r : ℝ, taps[x]? = some (some (r : EReal)) ∧ |r - rcosTap alpha Ts (s * Ts / (2 * alpha))| ≤ 1 / 2 ^ 48) := by
  refine ⟨(List.range N).map (timeF F N Fs), (List.range N).map fun x => rcosTapF F alpha Ts (timeF F N Fs x), ?_, by simp, by simp, ?_⟩
  · unfold rcosfilterF; rw [if_neg hF.ne']
  intro x hx
  have e : ((List.range N).map fun x => rcosTapF F alpha Ts (timeF F N Fs x))[x]? = some (rcosTapF F alpha Ts (timeF F N Fs x)) := by
    simp [List.getElem?_range hx]
  refine ⟨timeF F N Fs x, by simp [List.getElem?_range hx], time_err h N x Fs hN, ?_, ?_, ?_⟩
  · intro h0
    rw [e]; unfold rcosTapF; rw [if_pos h0]
  · intro hD
    rw [e]
    rcases eq_or_ne (timeF F N Fs x) 0 with h0 | h0
    · refine ⟨1, by unfold rcosTapF; rw [if_pos h0], ?_⟩
      unfold rcosTap
      rw [if_pos h0, sub_self, abs_zero]
      positivity
    · obtain ⟨r, hr, hb⟩ := rcosTapF_general h hT.ne' h0 hD
      exact ⟨r, by rw [hr], hb⟩
  · intro s hs ha ht
    obtain ⟨r, hr, hb⟩ := rcosTapF_special h hT.ne' ha hs ht
    exact ⟨r, by rw [e, hr], hb⟩

/-- A library meeting the assumptions: exact functions, rounded to nearest. -/
noncomputable def libm : FilterFloats where
  fl := rnd53
  pi := rnd53 Real.pi
  sin x := rnd53 (Real.sin x)
  cos x := rnd53 (Real.cos x)
  sqrt2 := rnd53 (Real.sqrt 2)

theorem libm_ok : FilterAccuracy libm where
  round := rnd53_nearest
  pi := rfl
  sqrt2 := rfl
  sin a _ := ⟨rnd53_nearest.double _, (fl_err rnd53_nearest _).trans (mul_le_mul_of_nonneg_right (by norm_num) (abs_nonneg _))⟩
  cos a _ := ⟨rnd53_nearest.double _, (fl_err rnd53_nearest _).trans (mul_le_mul_of_nonneg_right (by norm_num) (abs_nonneg _))⟩

theorem double_rat {a : ℝ} (h : IsDouble a) : ∃ q : ℚ, (q : ℝ) = a := by
  obtain ⟨m, e, -, rfl⟩ := h
  exact ⟨m * 2 ^ e, by push_cast; rfl⟩

theorem sin_double_ne {a : ℝ} (h : IsDouble a) (h0 : a ≠ 0) : Real.sin a ≠ 0 := by
  intro hs
  obtain ⟨n, hn⟩ := Real.sin_eq_zero_iff.1 hs
  obtain ⟨q, hq⟩ := double_rat h
  have hn0 : (n : ℝ) ≠ 0 := by
    intro e; rw [e, zero_mul] at hn; exact h0 hn.symm
  refine irrational_pi ⟨q / n, ?_⟩
  push_cast
  rw [hq, ← hn]; field_simp

theorem cos_double_ne {a : ℝ} (h : IsDouble a) : Real.cos a ≠ 0 := by
  intro hs
  obtain ⟨k, hk⟩ := Real.cos_eq_zero_iff.1 hs
  obtain ⟨q, hq⟩ := double_rat h
  have hn0 : (2 * (k : ℝ) + 1) ≠ 0 := by
    have : (2 * k + 1 : ℤ) ≠ 0 := by omega
    exact_mod_cast this
  refine irrational_pi ⟨2 * q / (2 * k + 1), ?_⟩
  push_cast
  rw [hq, hk]; field_simp

theorem lib_ne {x y : ℝ} (h : |y - x| ≤ 1 / 2 ^ 50 * |x|) (hx : x ≠ 0) : y ≠ 0 := by
  rintro rfl
  rw [zero_sub, abs_neg] at h
  have := abs_pos.2 hx
  have : (1 : ℝ) / 2 ^ 50 < 1 := by norm_num
  nlinarith

/-- C137 refuted: `rcosfilter(2*n, 0.65, 1, 13)` returns an infinite tap, at the sample nearest to `Ts/(2 alpha)`, where the exact pulse is at most 2 in magnitude. -/
theorem C137_rcos_refuted (h : FilterAccuracy F) (n : ℕ) (h1 : 11 ≤ n) (h2 : n ≤ 2 ^ 52) :
    ∃ (time : List ℝ) (taps : List (Option EReal)) (t : ℝ), rcosfilterF F (2 * n) (F.fl (65 / 100)) 1 13 = .ok (time, taps) ∧
      time[n + 10]? = some t ∧ (taps[n + 10]? = some (some ⊤) ∨ taps[n + 10]? = some (some ⊥)) ∧ |rcosTap (F.fl (65 / 100)) 1 t| ≤ 2 := by
  have hx : n + 10 < 2 * n := by omega
  have ea : F.fl (65 / 100) = (5854679515581645 : ℕ) / 2 ^ 53 := fl_div h.round (by norm_num) (by norm_num) (by norm_num [abs_lt]) (by norm_num)
  have e2a : F.fl (2 * F.fl (65 / 100)) = (5854679515581645 : ℕ) / 2 ^ 52 := by
    rw [ea]; exact fl_div h.round (by norm_num) (by norm_num) (by norm_num) (by norm_num)
  have ed : F.fl (1 / 13) = (5542891849071380 : ℕ) / 2 ^ 56 := fl_div h.round (by norm_num) (by norm_num) (by norm_num [abs_lt]) (by norm_num)
  have et : timeF F (2 * n) 13 (n + 10) = (6928614811339225 : ℕ) / 2 ^ 53 := by
    unfold timeF
    rw [fl_exact h.round (half_double (2 * n) (by omega)), ed]
    have : ((n + 10 : ℕ) : ℝ) - ((2 * n : ℕ) : ℝ) / 2 = (10 : ℤ) := by push_cast; ring
    rw [this, fl_exact h.round (isDouble_int 10 (by norm_num))]
    exact fl_div h.round (by norm_num) (by norm_num) (by norm_num [abs_lt]) (by norm_num)
  have es : F.fl (1 / F.fl (2 * F.fl (65 / 100))) = (6928614811339224 : ℕ) / 2 ^ 53 := by
    rw [e2a]
    exact fl_div h.round (by norm_num) (by norm_num) (by norm_num [abs_lt]) (by norm_num)
  have hs : F.fl (-1 / F.fl (2 * F.fl (65 / 100))) < 0 := by
    have := rel_fl h.round (-1 / F.fl (2 * F.fl (65 / 100)))
    obtain ⟨θ, -, e⟩ := this
    rw [e, e2a]
    have := Real.exp_pos θ
    have : (-1 : ℝ) / ((5854679515581645 : ℕ) / 2 ^ 52) < 0 := by norm_num
    nlinarith
  have ew : F.fl (F.fl (F.fl (2 * F.fl (65 / 100)) * ((6928614811339225 : ℕ) / 2 ^ 53)) / 1) = 1 := by
    rw [e2a]
    have e : F.fl (((5854679515581645 : ℕ) : ℝ) / 2 ^ 52 * ((6928614811339225 : ℕ) / 2 ^ 53)) = (4503599627370496 : ℕ) / 2 ^ 52 :=
      fl_div h.round (by norm_num) (by norm_num) (by norm_num [abs_lt]) (by right; norm_num)
    rw [e, show ((4503599627370496 : ℕ) : ℝ) / 2 ^ 52 / 1 = ((1 : ℤ) : ℝ) by norm_num, fl_exact h.round (isDouble_int 1 (by norm_num))]
    norm_num
  have edn : F.fl (1 - F.fl ((1 : ℝ) * 1)) = 0 := by
    have a1 : F.fl ((1 : ℝ) * 1) = 1 := by
      have := fl_exact h.round (isDouble_int 1 (by norm_num))
      push_cast at this
      rw [mul_one, this]
    have a2 := fl_exact h.round (isDouble_int 0 (by norm_num))
    push_cast at a2
    rw [a1, sub_self, a2]
  set t : ℝ := (6928614811339225 : ℕ) / 2 ^ 53 with ht
  have ht0 : t ≠ 0 := by rw [ht]; norm_num
  have htp : 0 < t := by rw [ht]; norm_num
  refine ⟨(List.range (2 * n)).map (timeF F (2 * n) 13), (List.range (2 * n)).map fun x => rcosTapF F (F.fl (65 / 100)) 1 (timeF F (2 * n) 13 x), t, ?_, ?_, ?_, ?_⟩
  · unfold rcosfilterF; rw [if_neg (by norm_num)]
  · simp only [List.getElem?_map, List.getElem?_range hx, Option.map_some, et]
  · simp only [List.getElem?_map, List.getElem?_range hx, Option.map_some, et]
    have hns : ¬ (F.fl (65 / 100) ≠ 0 ∧ (t = F.fl (1 / F.fl (2 * F.fl (65 / 100))) ∨ t = F.fl (-1 / F.fl (2 * F.fl (65 / 100))))) := by
      rintro ⟨-, e | e⟩
      · rw [es, ht] at e; norm_num at e
      · linarith
    have hr1 := rel_arg h 1 t
    have hA0 : F.fl (F.fl (F.pi * t) / 1) ≠ 0 := (rel_ne hr1).2 (by have := Real.pi_pos; positivity)
    have hs0 : F.sin (F.fl (F.fl (F.pi * t) / 1)) ≠ 0 :=
      lib_ne (h.sin _ (h.round.double _)).2 (sin_double_ne (h.round.double _) hA0)
    have hsinc : sincF F 1 t ≠ 0 := (rel_ne (rel_fl h.round _)).2 (div_ne_zero hs0 hA0)
    have hc0 : F.cos (F.fl (F.fl (F.fl (F.pi * F.fl (65 / 100)) * t) / 1)) ≠ 0 :=
      lib_ne (h.cos _ (h.round.double _)).2 (cos_double_ne (h.round.double _))
    have hd : divF F 1 (F.cos (F.fl (F.fl (F.fl (F.pi * F.fl (65 / 100)) * t) / 1))) 0 = some ⊤ ∨
        divF F 1 (F.cos (F.fl (F.fl (F.fl (F.pi * F.fl (65 / 100)) * t) / 1))) 0 = some ⊥ := by
      unfold divF
      rw [if_pos rfl, if_neg hc0]
      split_ifs
      · exact Or.inl rfl
      · exact Or.inr rfl
    have hm : ∀ v, v = some ⊤ ∨ v = some ⊥ → mulF F (sincF F 1 t) v = some ⊤ ∨ mulF F (sincF F 1 t) v = some ⊥ := by
      rintro v (rfl | rfl)
      · show (if sincF F 1 t = 0 then none else if 0 < sincF F 1 t then some ⊤ else some ⊥) = some ⊤ ∨ (if sincF F 1 t = 0 then none else if 0 < sincF F 1 t then some ⊤ else some ⊥) = some ⊥
        rw [if_neg hsinc]
        split_ifs
        · exact Or.inl rfl
        · exact Or.inr rfl
      · show (if sincF F 1 t = 0 then none else if 0 < sincF F 1 t then some ⊥ else some ⊤) = some ⊤ ∨ (if sincF F 1 t = 0 then none else if 0 < sincF F 1 t then some ⊥ else some ⊤) = some ⊥
        rw [if_neg hsinc]
        split_ifs
        · exact Or.inr rfl
        · exact Or.inl rfl
    have htap : rcosTapF F (F.fl (65 / 100)) 1 t = mulF F (sincF F 1 t) (divF F 1 (F.cos (F.fl (F.fl (F.fl (F.pi * F.fl (65 / 100)) * t) / 1))) 0) := by
      unfold rcosTapF
      rw [if_neg ht0, if_neg hns]
      dsimp only
      rw [ew, edn]
    rw [htap]
    rcases hm _ hd with e | e
    · left; rw [e]
    · right; rw [e]
  · have hw1 : (2 * F.fl (65 / 100) * t / 1) ^ 2 ≠ 1 := by rw [ea, ht]; norm_num
    rw [rcosTap_general one_ne_zero ht0 hw1, abs_mul]
    have := mul_le_mul (sinc_abs (Real.pi * t / 1)) (cos_quot _ hw1) (abs_nonneg _) zero_le_one
    have := Real.pi_lt_d4
    linarith

end Verif
