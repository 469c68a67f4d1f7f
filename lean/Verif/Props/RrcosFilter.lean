import Verif.Props.RrcosFloat
/-
C137: `rrcosfilter` in double precision.
-/
namespace Verif

variable {F : FilterFloats}

theorem vu_7 : 7 * vu ≤ 1 / 2 ^ 50 := by
  have := vu_le
  calc 7 * vu ≤ 7 * (1.001 / 2 ^ 53) := by linarith
    _ ≤ _ := by norm_num

/-- Error of a rounded product. -/
theorem mul_err (h : FilterAccuracy F) {x y x' y' ex ey mx my : ℝ} (hx : |x' - x| ≤ ex) (hy : |y' - y| ≤ ey) (hmx : |x| ≤ mx) (hmy : |y'| ≤ my) :
    |F.fl (x' * y') - x * y| ≤ (ex * my + mx * ey) + 1.001 * vu * ((mx + ex) * my) := by
  have hv := vu_pos
  have b1 := rel_abs (by norm_num) (rel_fl h.round (x' * y'))
  have b2 := abs_sub_le (F.fl (x' * y')) (x' * y') (x * y)
  have b3 : |x' * y' - x * y| ≤ ex * my + mx * ey := by
    rw [show x' * y' - x * y = (x' - x) * y' + x * (y' - y) by ring]
    refine (abs_add_le _ _).trans ?_
    rw [abs_mul, abs_mul]
    exact add_le_add (mul_le_mul hx hmy (abs_nonneg _) ((abs_nonneg _).trans hx)) (mul_le_mul hmx hy (abs_nonneg _) ((abs_nonneg _).trans hmx))
  have b4 : |x' * y'| ≤ (mx + ex) * my := by
    rw [abs_mul]
    have : |x'| ≤ mx + ex := by
      have := abs_sub_abs_le_abs_sub x' x
      linarith
    exact mul_le_mul this hmy (abs_nonneg _) ((abs_nonneg _).trans this)
  have b5 : 1.001 * vu * |x' * y'| ≤ 1.001 * vu * ((mx + ex) * my) := by gcongr
  linarith

/-- Error of a rounded sum. -/
theorem add_err (h : FilterAccuracy F) {x y x' y' ex ey m : ℝ} (hx : |x' - x| ≤ ex) (hy : |y' - y| ≤ ey) (hm : |x' + y'| ≤ m) :
    |F.fl (x' + y') - (x + y)| ≤ ex + ey + 1.001 * vu * m := by
  have hv := vu_pos
  have b1 := rel_abs (by norm_num) (rel_fl h.round (x' + y'))
  have b2 := abs_sub_le (F.fl (x' + y')) (x' + y') (x + y)
  have b3 : |x' + y' - (x + y)| ≤ ex + ey := by
    rw [show x' + y' - (x + y) = (x' - x) + (y' - y) by ring]
    exact (abs_add_le _ _).trans (add_le_add hx hy)
  have b5 : 1.001 * vu * |x' + y'| ≤ 1.001 * vu * m := by gcongr
  linarith

/-- The tap of `rrcosfilter` at time zero. -/
theorem rrcos_zero (h : FilterAccuracy F) {alpha : ℝ} (h0 : 0 ≤ alpha) (h1 : alpha ≤ 1) :
    |F.fl (F.fl (1 - alpha) + F.fl (F.fl (4 * alpha) / F.pi)) - (1 - alpha + 4 * alpha / Real.pi)| ≤ 1 / 2 ^ 50 := by
  have hv := vu_pos
  have hvs := vu_small
  have hpi := Real.pi_pos
  have hpi4 := Real.pi_gt_d4
  have hp : 4 * alpha / Real.pi ≤ 1.274 * alpha := by rw [div_le_iff₀ hpi]; nlinarith
  have hp0 : 0 ≤ 4 * alpha / Real.pi := by positivity
  have a1 := rel_abs (by norm_num) (rel_fl h.round (1 - alpha))
  rw [abs_of_nonneg (show 0 ≤ 1 - alpha by linarith)] at a1
  have a2 : Rel 3 (4 * alpha / Real.pi) (F.fl (F.fl (4 * alpha) / F.pi)) :=
    rel_mono (rel_fl' h (rel_div (rel_fl h.round (4 * alpha)) (rel_pi h))) (by norm_num)
  have a3 := rel_abs (by norm_num) a2
  rw [abs_of_nonneg hp0] at a3
  have a1' : |F.fl (1 - alpha) - (1 - alpha)| ≤ 1.01 * vu := a1.trans (by nlinarith)
  have a3' : |F.fl (F.fl (4 * alpha) / F.pi) - 4 * alpha / Real.pi| ≤ 3.9 * vu := a3.trans (by nlinarith)
  have hm : |F.fl (1 - alpha) + F.fl (F.fl (4 * alpha) / F.pi)| ≤ 1.3 := by
    obtain ⟨c1, c2⟩ := abs_le.1 a1'
    obtain ⟨c3, c4⟩ := abs_le.1 a3'
    rw [abs_le]; constructor <;> linarith
  have := add_err h a1' a3' hm
  have := vu_7
  linarith

theorem rrcosSpecial_eq (alpha Ts s : ℝ) (hT : Ts ≠ 0) (ha : alpha ≠ 0) (hs : s = 1 ∨ s = -1) :
    rrcosTap alpha Ts (s * Ts / (4 * alpha)) = rrcosSpecial alpha := by
  unfold rrcosTap
  have h0 : s * Ts / (4 * alpha) ≠ 0 := by
    have : s ≠ 0 := by rcases hs with rfl | rfl <;> norm_num
    positivity
  rw [if_neg h0]
  rcases hs with rfl | rfl
  · rw [if_pos ⟨ha, by rw [one_mul]⟩]
  · by_cases hc : alpha ≠ 0 ∧ -1 * Ts / (4 * alpha) = Ts / (4 * alpha)
    · rw [if_pos hc]
    · rw [if_neg hc, if_pos ⟨ha, by rw [neg_one_mul]⟩]

set_option maxHeartbeats 600000 in
/-- The special-cased value of `rrcosfilter`. -/
theorem rrcosSpecialF_err (h : FilterAccuracy F) {alpha : ℝ} (h0 : 0 < alpha) (h1 : alpha ≤ 1) :
    |rrcosSpecialF F alpha - rrcosSpecial alpha| ≤ 1 / 2 ^ 48 := by
  have hv := vu_pos
  have hvs := vu_small
  have hpi := Real.pi_pos
  have hpi4 := Real.pi_gt_d4
  have hpi4' := Real.pi_lt_d4
  have hs2 : (1.414 : ℝ) < Real.sqrt 2 := Real.lt_sqrt_of_sq_lt (by norm_num)
  have hpr : Rel 2 (2 / Real.pi) (F.fl (2 / F.pi)) := rel_mono (rel_fl' h (rel_div (rel_self 2) (rel_pi h))) (by norm_num)
  have hp : 2 / Real.pi ≤ 0.637 := by rw [div_le_iff₀ hpi]; linarith
  have hp1 : 0.636 ≤ 2 / Real.pi := by rw [le_div_iff₀ hpi]; linarith
  have hp2 : |F.fl (2 / F.pi) - 2 / Real.pi| ≤ 1.28 * vu := by
    refine (rel_abs (by norm_num) hpr).trans ?_
    rw [abs_of_pos (by positivity)]; nlinarith
  have hra : Rel 3 (Real.pi / (4 * alpha)) (F.fl (F.pi / F.fl (4 * alpha))) :=
    rel_mono (rel_fl' h (rel_div (rel_pi h) (rel_fl h.round (4 * alpha)))) (by norm_num)
  have hr0 : Rel 2 (alpha / Real.sqrt 2) (F.fl (alpha / F.sqrt2)) := by
    have : Rel 1 (Real.sqrt 2) F.sqrt2 := by rw [h.sqrt2]; exact rel_fl h.round _
    exact rel_mono (rel_fl' h (rel_div (rel_self alpha) this)) (by norm_num)
  unfold rrcosSpecialF rrcosSpecial
  dsimp only
  set p' := F.fl (2 / F.pi)
  set p := 2 / Real.pi
  set a := Real.pi / (4 * alpha) with ha
  set a' := F.fl (F.pi / F.fl (4 * alpha)) with ha'
  have hap : 0 < a := by rw [ha]; positivity
  obtain ⟨c1, c2⟩ := abs_le.1 hp2
  have k1 : |F.fl (1 + p') - (1 + p)| ≤ 3 * vu := by
    have := add_err h (x := 1) (x' := 1) (ex := 0) (by simp) hp2 (m := 1.64) (by rw [abs_le]; constructor <;> linarith)
    linarith
  have k2 : |F.fl (1 - p') - (1 - p)| ≤ 1.7 * vu := by
    have hn : |-p' - -p| ≤ 1.28 * vu := by rw [abs_le]; constructor <;> linarith
    have := add_err h (x := 1) (x' := 1) (ex := 0) (by simp) hn (m := 0.37) (by rw [abs_le]; constructor <;> linarith)
    rw [← sub_eq_add_neg, ← sub_eq_add_neg] at this
    linarith
  have hsn : |F.sin a' - Real.sin a| ≤ 3.003 * vu * a + 8 * vu := by
    have b1 := sin_err h (h.round.double _) (by norm_num) hra
    rw [abs_of_pos hap] at b1
    have b2 : 8 * vu * |Real.sin a'| ≤ 8 * vu * 1 := mul_le_mul_of_nonneg_left (Real.abs_sin_le_one _) (by linarith)
    linarith
  have hcs : |F.cos a' - Real.cos a| ≤ 3.003 * vu * a + 8 * vu := by
    have b1 := cos_err h (h.round.double _) (by norm_num) hra
    rw [abs_of_pos hap] at b1
    linarith
  have hs1 : |F.sin a'| ≤ 1.0001 := by
    have a1 := acc_sin h (h.round.double (F.pi / F.fl (4 * alpha)))
    change |F.sin a' - Real.sin a'| ≤ 8 * vu * |Real.sin a'| at a1
    have a2 := Real.abs_sin_le_one a'
    have a3 := abs_sub_abs_le_abs_sub (F.sin a') (Real.sin a')
    nlinarith
  have hc1 : |F.cos a'| ≤ 1.0001 := by
    have a1 := acc_cos h (h.round.double (F.pi / F.fl (4 * alpha)))
    change |F.cos a' - Real.cos a'| ≤ 8 * vu * |Real.cos a'| at a1
    have a2 := Real.abs_cos_le_one a'
    have a3 := abs_sub_abs_le_abs_sub (F.cos a') (Real.cos a')
    nlinarith
  have hva : 0 ≤ vu * a := by positivity
  have hvv : vu * vu ≤ 1 / 10 ^ 15 * vu := mul_le_mul_of_nonneg_right hvs hv.le
  have m1 : |F.fl (F.fl (1 + p') * F.sin a') - (1 + p) * Real.sin a| ≤ 17.9 * vu + 4.93 * (vu * a) := by
    have := mul_err h k1 hsn (mx := 1.637) (by rw [abs_of_pos (by linarith)]; linarith) hs1
    linarith
  have m2 : |F.fl (F.fl (1 - p') * F.cos a') - (1 - p) * Real.cos a| ≤ 5.1 * vu + 1.1 * (vu * a) := by
    have := mul_err h k2 hcs (mx := 0.364) (by rw [abs_of_pos (by linarith)]; linarith) hc1
    linarith
  have g1 : |F.fl (F.fl (1 + p') * F.sin a')| ≤ 1.64 := by
    have b1 := rel_abs (by norm_num) (rel_fl h.round (F.fl (1 + p') * F.sin a'))
    have b2 := abs_sub_abs_le_abs_sub (F.fl (F.fl (1 + p') * F.sin a')) (F.fl (1 + p') * F.sin a')
    have b3 : |F.fl (1 + p') * F.sin a'| ≤ 1.638 * 1.0001 := by
      rw [abs_mul]
      refine mul_le_mul ?_ hs1 (abs_nonneg _) (by norm_num)
      obtain ⟨c3, c4⟩ := abs_le.1 k1
      rw [abs_le]; constructor <;> linarith
    have b4 : vu * |F.fl (1 + p') * F.sin a'| ≤ 1 / 10 ^ 15 * |F.fl (1 + p') * F.sin a'| := mul_le_mul_of_nonneg_right hvs (abs_nonneg _)
    linarith
  have g2 : |F.fl (F.fl (1 - p') * F.cos a')| ≤ 0.37 := by
    have b1 := rel_abs (by norm_num) (rel_fl h.round (F.fl (1 - p') * F.cos a'))
    have b2 := abs_sub_abs_le_abs_sub (F.fl (F.fl (1 - p') * F.cos a')) (F.fl (1 - p') * F.cos a')
    have b3 : |F.fl (1 - p') * F.cos a'| ≤ 0.365 * 1.0001 := by
      rw [abs_mul]
      refine mul_le_mul ?_ hc1 (abs_nonneg _) (by norm_num)
      obtain ⟨c3, c4⟩ := abs_le.1 k2
      rw [abs_le]; constructor <;> linarith
    have b4 : vu * |F.fl (1 - p') * F.cos a'| ≤ 1 / 10 ^ 15 * |F.fl (1 - p') * F.cos a'| := mul_le_mul_of_nonneg_right hvs (abs_nonneg _)
    linarith
  have hsum := add_err h m1 m2 ((abs_add_le _ _).trans (add_le_add g1 g2))
  set z' := F.fl (F.fl (F.fl (1 + p') * F.sin a') + F.fl (F.fl (1 - p') * F.cos a'))
  set z := (1 + p) * Real.sin a + (1 - p) * Real.cos a
  have hz' : |z' - z| ≤ 25.1 * vu + 6.03 * (vu * a) := by linarith
  have hz1 : |z| ≤ 2.001 := by
    refine (abs_add_le _ _).trans ?_
    rw [abs_mul, abs_mul, abs_of_pos (show 0 < 1 + p by linarith), abs_of_pos (show 0 < 1 - p by linarith)]
    have b1 := mul_le_mul_of_nonneg_left (Real.abs_sin_le_one a) (show 0 ≤ 1 + p by linarith)
    have b2 := mul_le_mul_of_nonneg_left (Real.abs_cos_le_one a) (show 0 ≤ 1 - p by linarith)
    linarith
  have hk : alpha / Real.sqrt 2 ≤ 0.7073 * alpha := by
    rw [div_le_iff₀ (by positivity)]; nlinarith
  have hkp : 0 < alpha / Real.sqrt 2 := by positivity
  have hr3 : Rel 3 (alpha / Real.sqrt 2 * z') (F.fl (F.fl (alpha / F.sqrt2) * z')) :=
    rel_mono (rel_fl' h (rel_mul hr0 (rel_self z'))) (by norm_num)
  have b1 := rel_abs (by norm_num) hr3
  have b2 := abs_sub_le (F.fl (F.fl (alpha / F.sqrt2) * z')) (alpha / Real.sqrt 2 * z') (alpha / Real.sqrt 2 * z)
  have hav : alpha * (vu * a) = vu * (Real.pi / 4) := by rw [ha]; field_simp
  have b3 : |alpha / Real.sqrt 2 * z' - alpha / Real.sqrt 2 * z| ≤ 0.7073 * alpha * (25.1 * vu + 6.03 * (vu * a)) := by
    rw [← mul_sub, abs_mul, abs_of_pos hkp]
    exact mul_le_mul hk hz' (abs_nonneg _) (by positivity)
  have b3' : 0.7073 * alpha * (25.1 * vu + 6.03 * (vu * a)) ≤ 21.2 * vu := by
    have e : 0.7073 * alpha * (25.1 * vu + 6.03 * (vu * a)) = 0.7073 * (25.1 * (vu * alpha) + 6.03 * (alpha * (vu * a))) := by ring
    rw [e, hav]
    have b6 : vu * alpha ≤ vu * 1 := mul_le_mul_of_nonneg_left h1 hv.le
    have b7 : vu * (Real.pi / 4) ≤ vu * 0.7855 := mul_le_mul_of_nonneg_left (by linarith) hv.le
    linarith
  have b4 : |alpha / Real.sqrt 2 * z'| ≤ 1.5 := by
    have c3 : |alpha / Real.sqrt 2 * z| ≤ 0.7073 * 2.001 := by
      rw [abs_mul, abs_of_pos hkp]
      exact mul_le_mul (by linarith) hz1 (abs_nonneg _) (by norm_num)
    have := abs_sub_abs_le_abs_sub (alpha / Real.sqrt 2 * z') (alpha / Real.sqrt 2 * z)
    linarith
  have b5 : 1.001 * 3 * vu * |alpha / Real.sqrt 2 * z'| ≤ 1.001 * 3 * vu * 1.5 := by gcongr
  have := vu_31
  linarith

/-- C137, `rrcosfilter`, for a roll-off between 0 and 1: the returned times are accurate to four units in the last place; the tap at time zero is accurate to 2^-50; a tap
whose time is not within a relative distance of about 2^-46 of `±Ts/(4 alpha)` is the exact pulse at the returned time, up to an error of at most 2^-46 times
`(1 + |π t/Ts|) (1 + w²) / |1 - w²|` (`w = 4 alpha t/Ts`); and a tap whose time is the double the code compares with is within 2^-48 of the pulse at `±Ts/(4 alpha)`. -/
theorem C137_rrcos_partial (h : FilterAccuracy F) (N : ℕ) (alpha Ts Fs : ℝ) (hN : N ≤ 2 ^ 53) (h0 : 0 ≤ alpha) (h1 : alpha ≤ 1) (hT : 0 < Ts) (hF : 0 < Fs) :
    ∃ (time : List ℝ) (taps : List (Option EReal)), rrcosfilterF F N alpha Ts Fs = .ok (time, taps) ∧ time.length = N ∧ taps.length = N ∧
      ∀ x, x < N → ∃ t, time[x]? = some t ∧ |t - ((x : ℝ) - N / 2) / Fs| ≤ 1 / 2 ^ 51 * |((x : ℝ) - N / 2) / Fs| ∧
        (t = 0 → ∃ r : ℝ, taps[x]? = some (some (r : EReal)) ∧ |r - rrcosTap alpha Ts 0| ≤ 1 / 2 ^ 50) ∧
        (1 / 2 ^ 46 * (1 + (4 * alpha * t / Ts) ^ 2) ≤ |1 - (4 * alpha * t / Ts) ^ 2| →
          ∃ r : ℝ, taps[x]? = some (some (r : EReal)) ∧ |r - rrcosTap alpha Ts t| ≤
            1 / 2 ^ 46 * (1 + |Real.pi * t / Ts|) * (1 + (4 * alpha * t / Ts) ^ 2) / |1 - (4 * alpha * t / Ts) ^ 2|) ∧
        (∀ s : ℝ, s = 1 ∨ s = -1 → alpha ≠ 0 → t = F.fl (s * Ts / F.fl (4 * alpha)) →
          ∃ r : ℝ, taps[x]? = some (some (r : EReal)) ∧ |r - rrcosTap alpha Ts (s * Ts / (4 * alpha))| ≤ 1 / 2 ^ 48) := by
  refine ⟨(List.range N).map (timeF F N Fs), (List.range N).map fun x => rrcosTapF F alpha Ts (timeF F N Fs x), ?_, by simp, by simp, ?_⟩
  · unfold rrcosfilterF; rw [if_neg hF.ne']
  intro x hx
  have e : ((List.range N).map fun x => rrcosTapF F alpha Ts (timeF F N Fs x))[x]? = some (rrcosTapF F alpha Ts (timeF F N Fs x)) := by
    simp [List.getElem?_range hx]
  have hz : timeF F N Fs x = 0 → ∃ r : ℝ, rrcosTapF F alpha Ts (timeF F N Fs x) = some (r : EReal) ∧ |r - rrcosTap alpha Ts 0| ≤ 1 / 2 ^ 50 := by
    intro hz
    refine ⟨F.fl (F.fl (1 - alpha) + F.fl (F.fl (4 * alpha) / F.pi)), by unfold rrcosTapF; rw [if_pos hz], ?_⟩
    have : rrcosTap alpha Ts 0 = 1 - alpha + 4 * alpha / Real.pi := by unfold rrcosTap; rw [if_pos rfl]
    rw [this]
    exact rrcos_zero h h0 h1
  refine ⟨timeF F N Fs x, by simp [List.getElem?_range hx], time_err h N x Fs hN, ?_, ?_, ?_⟩
  · intro h0
    obtain ⟨r, hr, hb⟩ := hz h0
    exact ⟨r, by rw [e, hr], hb⟩
  · intro hD
    rw [e]
    rcases eq_or_ne (timeF F N Fs x) 0 with ht0 | ht0
    · obtain ⟨r, hr, hb⟩ := hz ht0
      refine ⟨r, by rw [hr], ?_⟩
      rw [ht0]
      refine hb.trans ?_
      norm_num
    · obtain ⟨r, hr, hb⟩ := rrcosTapF_general h h0 h1 hT ht0 hD
      exact ⟨r, by rw [hr], hb⟩
  · intro s hs ha ht
    have ha0 : 0 < alpha := lt_of_le_of_ne h0 (Ne.symm ha)
    refine ⟨rrcosSpecialF F alpha, ?_, ?_⟩
    · rw [e]
      have htn : timeF F N Fs x ≠ 0 := by
        rw [ht]
        refine (rel_ne (rel_fl h.round _)).2 (div_ne_zero ?_ ((rel_ne (rel_fl h.round _)).2 (by positivity)))
        rcases hs with rfl | rfl
        · rw [one_mul]; exact hT.ne'
        · rw [neg_one_mul]; exact neg_ne_zero.2 hT.ne'
      unfold rrcosTapF
      rw [if_neg htn, if_pos]
      refine ⟨ha, ?_⟩
      rcases hs with rfl | rfl
      · left; rw [ht, one_mul]
      · right; rw [ht, neg_one_mul]
    · rw [rrcosSpecial_eq alpha Ts s hT.ne' ha hs]
      exact rrcosSpecialF_err h ha0 h1

end Verif
