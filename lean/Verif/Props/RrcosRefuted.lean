import Verif.Props.RrcosFilter
/-
C137: a root raised cosine filter with a wrong tap.
-/
namespace Verif

variable {F : FilterFloats}

theorem sin_small {x : ℝ} (h0 : 0 < x) (h1 : x ≤ 1 / 10 ^ 10) : x * (1 - 1 / 10 ^ 10) ≤ Real.sin x ∧ Real.sin x ≤ x := by
  refine ⟨?_, Real.sin_le h0.le⟩
  have u2 : x - x ^ 3 / 6 < Real.sin x := Real.sin_gt_sub_cube h0
  have h2 : x * x ≤ 1 / 10 ^ 10 * 1 := mul_le_mul h1 (by linarith) h0.le (by norm_num)
  have h3 : x * x * x ≤ 1 / 10 ^ 10 * x := mul_le_mul_of_nonneg_right (by linarith) h0.le
  have e : x ^ 3 = x * x * x := by ring
  rw [e] at u2
  linarith

theorem near_num {r2 g sa ca r3 : ℝ} (h1 : 1.414 < r2) (h2 : r2 < 1.4143) (h3 : 1.732 < r3) (h4 : r3 < 1.7321) (s1 : -(1 / 10 ^ 9) ≤ sa - 1 / 2) (s2 : sa - 1 / 2 ≤ 1 / 10 ^ 9)
    (c1 : -(1 / 10 ^ 9) ≤ ca - -(r3 / 2)) (c2 : ca - -(r3 / 2) ≤ 1 / 10 ^ 9) (hg : g = r2 * (sa + ca)) : -0.5179 ≤ g ∧ g ≤ -0.517 := by
  have l1 : -0.36606 ≤ sa + ca := by linarith
  have l2 : sa + ca ≤ -0.3659 := by linarith
  rw [hg]
  constructor <;> nlinarith

theorem near_quot {g sx c e A : ℝ} (he : 0 < e) (he1 : e < 1 / 10 ^ 10) (g1 : -0.5179 ≤ g) (g2 : g ≤ -0.517) (v1 : 0.785 * e ≤ sx) (v2 : sx ≤ 0.7855 * e)
    (d1 : -1.0001 ≤ c) (d2 : c ≤ -0.9649) (hA : 2.6 < A) (hA' : A < 2.62) :
    0.1 < (g * sx - e * c) / (A * (1 - (1 - e) ^ 2)) ∧ (g * sx - e * c) / (A * (1 - (1 - e) ^ 2)) < 0.12 := by
  have hden : A * (1 - (1 - e) ^ 2) = A * (2 - e) * e := by ring
  have hdp : 0 < A * (2 - e) := mul_pos (by linarith) (by linarith)
  have hn1 : 0.55 * e ≤ g * sx - e * c := by
    have l1 : g * sx ≥ -0.5179 * sx := mul_le_mul_of_nonneg_right g1 (by nlinarith)
    have l2 : e * c ≤ e * -0.9649 := mul_le_mul_of_nonneg_left d2 he.le
    linarith
  have hn2 : g * sx - e * c ≤ 0.6 * e := by
    have l1 : g * sx ≤ -0.517 * sx := mul_le_mul_of_nonneg_right g2 (by nlinarith)
    have l2 : e * -1.0001 ≤ e * c := mul_le_mul_of_nonneg_left d1 he.le
    linarith
  have hd1 : A * (2 - e) ≤ 5.24 := by nlinarith
  have hd2 : 5.19 ≤ A * (2 - e) := by nlinarith
  rw [hden]
  constructor
  · rw [lt_div_iff₀ (mul_pos hdp he)]
    have := mul_le_mul_of_nonneg_right hd1 he.le
    linarith
  · rw [div_lt_iff₀ (mul_pos hdp he)]
    have := mul_le_mul_of_nonneg_right hd2 he.le
    linarith

/-- The root raised cosine pulse near its singular point. -/
theorem rrcos_near (α t ε : ℝ) (hw : 4 * α * t = 1 - ε) (hε : 0 < ε) (hε1 : ε < 1 / 10 ^ 10) (ht : |t - 5 / 6| < 1 / 10 ^ 10) (hα : |α - 3 / 10| < 1 / 10 ^ 10) :
    0.1 < rrcosTap α 1 t ∧ rrcosTap α 1 t < 0.12 := by
  have hpi := Real.pi_pos
  have hpg := Real.pi_gt_d4
  have hpl := Real.pi_lt_d4
  obtain ⟨t1, t2⟩ := abs_lt.1 ht
  obtain ⟨a1, a2⟩ := abs_lt.1 hα
  have ht0 : t ≠ 0 := by intro e; rw [e] at t1; norm_num at t1
  have e1 : 4 * α * t / 1 = 1 - ε := by rw [div_one, hw]
  have hw1 : (4 * α * t / 1) ^ 2 ≠ 1 := by rw [e1]; intro e; nlinarith
  rw [rrcosTap_general one_ne_zero ht0 hw1, e1]
  set A := Real.pi * t with hA
  set B := Real.pi / 4 * (1 - ε) with hB
  have e2 : Real.pi * t * (1 - α) / 1 = A - B := by rw [hA, hB, ← hw]; ring
  have e3 : Real.pi * t * (1 + α) / 1 = A + B := by rw [hA, hB, ← hw]; ring
  have e4 : Real.pi * t / 1 = A := by rw [hA, div_one]
  rw [e2, e3, e4]
  have hq : Real.sin (Real.pi / 4 - B) = Real.sin (Real.pi * ε / 4) := by rw [hB]; congr 1; ring
  have hs2 : Real.sqrt 2 * Real.sqrt 2 = 2 := Real.mul_self_sqrt (by norm_num)
  have hnum : Real.sin (A - B) + (1 - ε) * Real.cos (A + B) =
      Real.sqrt 2 * (Real.sin A + Real.cos A) * Real.sin (Real.pi * ε / 4) - ε * Real.cos (A + B) := by
    rw [← hq, Real.sin_sub (Real.pi / 4), Real.sin_pi_div_four, Real.cos_pi_div_four, Real.sin_sub, Real.cos_add]
    have : Real.sqrt 2 * (Real.sin A + Real.cos A) * (Real.sqrt 2 / 2 * Real.cos B - Real.sqrt 2 / 2 * Real.sin B) =
        (Real.sqrt 2 * Real.sqrt 2) / 2 * ((Real.sin A + Real.cos A) * (Real.cos B - Real.sin B)) := by ring
    rw [this, hs2]; ring
  rw [hnum]
  -- the numbers
  have hA1 : |A - 5 * Real.pi / 6| ≤ 1 / 10 ^ 9 := by
    rw [hA, show Real.pi * t - 5 * Real.pi / 6 = Real.pi * (t - 5 / 6) by ring, abs_mul, abs_of_pos hpi]
    have := mul_le_mul hpl.le ht.le (abs_nonneg _) (by norm_num)
    refine this.trans (by norm_num)
  have hsA : |Real.sin A - 1 / 2| ≤ 1 / 10 ^ 9 := by
    have : Real.sin (5 * Real.pi / 6) = 1 / 2 := by
      rw [show 5 * Real.pi / 6 = Real.pi - Real.pi / 6 by ring, Real.sin_pi_sub, Real.sin_pi_div_six]
    rw [← this]; exact (Real.abs_sin_sub_sin_le _ _).trans hA1
  have hcA : |Real.cos A - -(Real.sqrt 3 / 2)| ≤ 1 / 10 ^ 9 := by
    have : Real.cos (5 * Real.pi / 6) = -(Real.sqrt 3 / 2) := by
      rw [show 5 * Real.pi / 6 = Real.pi - Real.pi / 6 by ring, Real.cos_pi_sub, Real.cos_pi_div_six]
    rw [← this]; exact (Real.abs_cos_sub_cos_le _ _).trans hA1
  have hAB : |A + B - (Real.pi / 12 + Real.pi)| ≤ 1 / 10 ^ 8 := by
    have : A + B - (Real.pi / 12 + Real.pi) = (A - 5 * Real.pi / 6) - Real.pi / 4 * ε := by rw [hB]; ring
    rw [this]
    refine (abs_sub _ _).trans ?_
    rw [abs_of_pos (show 0 < Real.pi / 4 * ε by positivity)]
    have : Real.pi / 4 * ε ≤ 1 * (1 / 10 ^ 10) := mul_le_mul (by linarith) hε1.le hε.le (by norm_num)
    linarith
  have hcAB : |Real.cos (A + B) - -Real.cos (Real.pi / 12)| ≤ 1 / 10 ^ 8 := by
    rw [← Real.cos_add_pi]; exact (Real.abs_cos_sub_cos_le _ _).trans hAB
  have hc12 : 0.965 ≤ Real.cos (Real.pi / 12) := by
    have := Real.one_sub_sq_div_two_le_cos (x := Real.pi / 12)
    nlinarith
  have hc12' := Real.cos_le_one (Real.pi / 12)
  have r2 : (1.414 : ℝ) < Real.sqrt 2 := Real.lt_sqrt_of_sq_lt (by norm_num)
  have r2' : Real.sqrt 2 < 1.4143 := by rw [Real.sqrt_lt' (by norm_num)]; norm_num
  have r3 : (1.732 : ℝ) < Real.sqrt 3 := Real.lt_sqrt_of_sq_lt (by norm_num)
  have r3' : Real.sqrt 3 < 1.7321 := by rw [Real.sqrt_lt' (by norm_num)]; norm_num
  obtain ⟨s1, s2⟩ := abs_le.1 hsA
  obtain ⟨c1, c2⟩ := abs_le.1 hcA
  obtain ⟨d1, d2⟩ := abs_le.1 hcAB
  obtain ⟨b1, b2⟩ := abs_le.1 hA1
  set x := Real.pi * ε / 4 with hx
  have hx0 : 0 < x := by rw [hx]; positivity
  have hxle : x ≤ 1 / 10 ^ 10 := by rw [hx]; nlinarith only [hpl, hpi, hε, hε1]
  obtain ⟨u1, u2⟩ := sin_small hx0 hxle
  have hxe : x = Real.pi / 4 * ε := by rw [hx]; ring
  have v1 : 0.785 * ε ≤ Real.sin x := by
    have : 0.7853 * ε ≤ x := by rw [hxe]; exact mul_le_mul_of_nonneg_right (by linarith) hε.le
    linarith
  have v2 : Real.sin x ≤ 0.7855 * ε := by
    have : x ≤ 0.7855 * ε := by rw [hxe]; exact mul_le_mul_of_nonneg_right (by linarith) hε.le
    linarith
  obtain ⟨g1, g2⟩ := near_num r2 r2' r3 r3' s1 s2 c1 c2 rfl
  exact near_quot hε hε1 g1 g2 v1 v2 (by linarith) (by linarith) (by linarith) (by linarith)

/-- A double of magnitude above 1/2 is a multiple of 2^-53. -/
theorem double_multiple {z : ℝ} (h : IsDouble z) (hz : 1 / 2 < |z|) : ∃ k : ℤ, z = k / 2 ^ 53 := by
  rcases double_cases h (-53) with ⟨k, e⟩ | e
  · exact ⟨k, by rw [e, zpow_neg, div_eq_mul_inv]; norm_cast⟩
  · exfalso
    have h2 : (2 : ℝ) ^ 52 * (2 : ℝ) ^ (-53 : ℤ) = 1 / 2 := by norm_num
    rw [h2] at e
    linarith


theorem cos_pi_12 : 0.965 ≤ Real.cos (Real.pi / 12) := by
  have h1 := Real.one_sub_sq_div_two_le_cos (x := Real.pi / 12)
  have h2 := Real.pi_lt_d4
  have h3 := Real.pi_pos
  nlinarith

/-- A computed multiple of 1/(2P), for P near 2.618, is not near 0.11. -/
theorem far_from {j : ℤ} {P r h : ℝ} (hP1 : 2.61 < P) (hP2 : P < 2.62) (hr : Rel 1 ((j : ℝ) / (2 * P)) r) (h1 : 0.1 < h) (h2 : h < 0.12) : 0.07 ≤ |r - h| := by
  have hv := vu_small
  have hvp := vu_pos
  obtain ⟨θ, hθ, rfl⟩ := hr
  have he := exp_sub_one_abs (by norm_num) hθ
  obtain ⟨e1, e2⟩ := abs_le.1 he
  have hP0 : 0 < 2 * P := by linarith
  rcases lt_trichotomy j 0 with hj | hj | hj
  · have : (j : ℝ) / (2 * P) < 0 := div_neg_of_neg_of_pos (by exact_mod_cast hj) hP0
    have : (j : ℝ) / (2 * P) * Real.exp θ < 0 := mul_neg_of_neg_of_pos this (Real.exp_pos _)
    rw [abs_sub_comm]
    exact le_trans (by linarith) (le_abs_self _)
  · subst hj
    simp only [Int.cast_zero, zero_div, zero_mul]
    rw [abs_sub_comm, sub_zero]
    exact le_trans (by linarith) (le_abs_self _)
  · have hj1 : (1 : ℝ) ≤ j := by exact_mod_cast hj
    have a1 : 0.1908 ≤ (j : ℝ) / (2 * P) := by
      rw [le_div_iff₀ hP0]; linarith
    have a2 : 0.1908 * 0.999 ≤ (j : ℝ) / (2 * P) * Real.exp θ := mul_le_mul a1 (by linarith) (by norm_num) (by linarith)
    exact le_trans (by linarith) (le_abs_self _)

/-- C137 refuted: in `rrcosfilter(2*n, 0.3, 1, 12)` the sample nearest to `Ts/(4 alpha)` misses the special case, and the tap is wrong by more than half of its value:
the exact pulse there is between 0.1 and 0.12, and the returned tap (about 0.19, or another multiple of it) is off by at least 0.07. -/
theorem C137_rrcos_refuted (h : FilterAccuracy F) (n : ℕ) (h1 : 11 ≤ n) (h2 : n ≤ 2 ^ 52) :
    ∃ (time : List ℝ) (taps : List (Option EReal)) (t r : ℝ), rrcosfilterF F (2 * n) (F.fl (3 / 10)) 1 12 = .ok (time, taps) ∧
      time[n + 10]? = some t ∧ taps[n + 10]? = some (some (r : EReal)) ∧
      0.1 < rrcosTap (F.fl (3 / 10)) 1 t ∧ rrcosTap (F.fl (3 / 10)) 1 t < 0.12 ∧ 0.07 ≤ |r - rrcosTap (F.fl (3 / 10)) 1 t| := by
  have hx : n + 10 < 2 * n := by omega
  have hv := vu_pos
  have hvs := vu_small
  have hpi := Real.pi_pos
  have hpg := Real.pi_gt_d4
  have hpl := Real.pi_lt_d4
  have ea : F.fl (3 / 10) = (5404319552844595 : ℕ) / 2 ^ 54 := fl_div h.round (by norm_num) (by norm_num) (by norm_num [abs_lt]) (by norm_num)
  have e4a : F.fl (4 * F.fl (3 / 10)) = (5404319552844595 : ℕ) / 2 ^ 52 := by
    rw [ea]; exact fl_div h.round (by norm_num) (by norm_num) (by norm_num) (by norm_num)
  have ed : F.fl (1 / 12) = (6004799503160661 : ℕ) / 2 ^ 56 := fl_div h.round (by norm_num) (by norm_num) (by norm_num [abs_lt]) (by norm_num)
  have et : timeF F (2 * n) 12 (n + 10) = (7505999378950826 : ℕ) / 2 ^ 53 := by
    unfold timeF
    rw [fl_exact h.round (half_double (2 * n) (by omega)), ed]
    have : ((n + 10 : ℕ) : ℝ) - ((2 * n : ℕ) : ℝ) / 2 = (10 : ℤ) := by push_cast; ring
    rw [this, fl_exact h.round (isDouble_int 10 (by norm_num))]
    exact fl_div h.round (by norm_num) (by norm_num) (by norm_num [abs_lt]) (by norm_num)
  have es : F.fl (1 / F.fl (4 * F.fl (3 / 10))) = (7505999378950827 : ℕ) / 2 ^ 53 := by
    rw [e4a]
    exact fl_div h.round (by norm_num) (by norm_num) (by norm_num [abs_lt]) (by norm_num)
  have hs : F.fl (-1 / F.fl (4 * F.fl (3 / 10))) < 0 := by
    obtain ⟨θ, -, e⟩ := rel_fl h.round (-1 / F.fl (4 * F.fl (3 / 10)))
    rw [e, e4a]
    exact mul_neg_of_neg_of_pos (by norm_num) (Real.exp_pos θ)
  set t : ℝ := (7505999378950826 : ℕ) / 2 ^ 53 with ht
  have htd : IsDouble t := isDouble_div 7505999378950826 53 (by norm_num)
  have ew : F.fl (F.fl (F.fl (4 * F.fl (3 / 10)) * t) / 1) = (9007199254740991 : ℕ) / 2 ^ 53 := by
    rw [e4a, ht]
    have e : F.fl (((5404319552844595 : ℕ) : ℝ) / 2 ^ 52 * ((7505999378950826 : ℕ) / 2 ^ 53)) = (9007199254740991 : ℕ) / 2 ^ 53 :=
      fl_div h.round (by norm_num) (by norm_num) (by norm_num [abs_lt]) (by norm_num)
    rw [e, div_one]
    exact fl_exact h.round (isDouble_div 9007199254740991 53 (by norm_num))
  have ew2 : F.fl ((((9007199254740991 : ℕ) : ℝ) / 2 ^ 53) * (((9007199254740991 : ℕ) : ℝ) / 2 ^ 53)) = (9007199254740990 : ℕ) / 2 ^ 53 :=
    fl_div h.round (by norm_num) (by norm_num) (by norm_num [abs_lt]) (by norm_num)
  have edn : F.fl (1 - ((9007199254740990 : ℕ) : ℝ) / 2 ^ 53) = 1 / 2 ^ 52 := by
    have : (1 : ℝ) - ((9007199254740990 : ℕ) : ℝ) / 2 ^ 53 = ((1 : ℤ) : ℝ) / 2 ^ 52 := by norm_num
    rw [this, fl_exact h.round (isDouble_div 1 52 (by norm_num))]
    norm_num
  have ht0 : t ≠ 0 := by rw [ht]; norm_num
  have htp : 0 < t := by rw [ht]; norm_num
  have htb : |t - 5 / 6| < 1 / 10 ^ 10 := by rw [ht]; norm_num [abs_lt]
  set α := F.fl (3 / 10) with hα
  have hαb : |α - 3 / 10| < 1 / 10 ^ 10 := by rw [ea]; norm_num [abs_lt]
  have hwe : 4 * α * t = 1 - (1 - 4 * α * t) := by ring
  have hnear := rrcos_near α t (1 - 4 * α * t) hwe (by rw [ea, ht]; norm_num) (by rw [ea, ht]; norm_num) htb hαb
  obtain ⟨t1, t2⟩ := abs_lt.1 htb
  obtain ⟨α1, α2⟩ := abs_lt.1 hαb
  have hc12 := cos_pi_12
  -- the sine term
  have hX := rel_x h (1 - α) 1 t
  have hY := rel_x h (1 + α) 1 t
  set X' := F.fl (F.fl (F.fl (F.pi * t) * F.fl (1 - α)) / 1) with hX'
  set Y' := F.fl (F.fl (F.fl (F.pi * t) * F.fl (1 + α)) / 1) with hY'
  have hXv : |Real.pi * t * (1 - α) / 1 - (Real.pi / 12 + Real.pi / 2)| ≤ 1 / 10 ^ 8 := by
    rw [show Real.pi * t * (1 - α) / 1 - (Real.pi / 12 + Real.pi / 2) = Real.pi * (t * (1 - α) - 7 / 12) by ring, abs_mul, abs_of_pos hpi]
    have : |t * (1 - α) - 7 / 12| ≤ 1 / 10 ^ 9 := by rw [ea, ht]; norm_num [abs_le]
    have := mul_le_mul hpl.le this (abs_nonneg _) (by norm_num)
    refine this.trans (by norm_num)
  have hYv : |Real.pi * t * (1 + α) / 1 - (Real.pi / 12 + Real.pi)| ≤ 1 / 10 ^ 8 := by
    rw [show Real.pi * t * (1 + α) / 1 - (Real.pi / 12 + Real.pi) = Real.pi * (t * (1 + α) - 13 / 12) by ring, abs_mul, abs_of_pos hpi]
    have : |t * (1 + α) - 13 / 12| ≤ 1 / 10 ^ 9 := by rw [ea, ht]; norm_num [abs_le]
    have := mul_le_mul hpl.le this (abs_nonneg _) (by norm_num)
    refine this.trans (by norm_num)
  have hsX : 0.96 ≤ F.sin X' ∧ F.sin X' ≤ 1.0001 := by
    have b1 := sin_err h (h.round.double _) (by norm_num) hX
    change |F.sin X' - _| ≤ _ + 8 * vu * |Real.sin X'| at b1
    have b2 : |Real.pi * t * (1 - α) / 1| ≤ 10 := by
      obtain ⟨c1, c2⟩ := abs_le.1 hXv
      rw [abs_le]; constructor <;> linarith
    have b3 := Real.abs_sin_le_one X'
    have b4 := (Real.abs_sin_sub_sin_le (Real.pi * t * (1 - α) / 1) (Real.pi / 12 + Real.pi / 2)).trans hXv
    rw [Real.sin_add_pi_div_two] at b4
    have b5 := Real.cos_le_one (Real.pi / 12)
    have b6 : 1.001 * 5 * vu * |Real.pi * t * (1 - α) / 1| ≤ 1.001 * 5 * vu * 10 := mul_le_mul_of_nonneg_left b2 (by linarith)
    have b7 : 8 * vu * |Real.sin X'| ≤ 8 * vu * 1 := mul_le_mul_of_nonneg_left b3 (by linarith)
    obtain ⟨c1, c2⟩ := abs_le.1 b1
    obtain ⟨c3, c4⟩ := abs_le.1 b4
    constructor <;> linarith
  have hcY : F.cos Y' ≤ -0.96 ∧ -1.0001 ≤ F.cos Y' := by
    have b1 := cos_err h (h.round.double _) (by norm_num) hY
    change |F.cos Y' - _| ≤ _ at b1
    have b2 : |Real.pi * t * (1 + α) / 1| ≤ 10 := by
      obtain ⟨c1, c2⟩ := abs_le.1 hYv
      rw [abs_le]; constructor <;> linarith
    have b4 := (Real.abs_cos_sub_cos_le (Real.pi * t * (1 + α) / 1) (Real.pi / 12 + Real.pi)).trans hYv
    rw [Real.cos_add_pi] at b4
    have b5 := Real.cos_le_one (Real.pi / 12)
    have b6 : 1.001 * 5 * vu * |Real.pi * t * (1 + α) / 1| ≤ 1.001 * 5 * vu * 10 := mul_le_mul_of_nonneg_left b2 (by linarith)
    obtain ⟨c1, c2⟩ := abs_le.1 b1
    obtain ⟨c3, c4⟩ := abs_le.1 b4
    constructor <;> linarith
  have hk := rel_abs (by norm_num) (rel_k h α 1 t)
  set k' := F.fl (F.fl (4 * α) * F.fl (t / 1)) with hk'
  have hk1 : 0.99 ≤ k' ∧ k' ≤ 1.01 := by
    have b1 : 4 * α * t / 1 ≤ 1 := by rw [ea, ht]; norm_num
    have b2 : 0.9999 ≤ 4 * α * t / 1 := by rw [ea, ht]; norm_num
    rw [abs_of_pos (show 0 < 4 * α * t / 1 by linarith)] at hk
    have b3 : 1.001 * 3 * vu * (4 * α * t / 1) ≤ 1.001 * 3 * vu * 1 := mul_le_mul_of_nonneg_left b1 (by linarith)
    obtain ⟨c1, c2⟩ := abs_le.1 hk
    constructor <;> linarith
  set m' := F.fl (k' * F.cos Y') with hm'
  have hm1 : m' ≤ -0.94 ∧ -1.02 ≤ m' := by
    have b1 := rel_abs (by norm_num) (rel_fl h.round (k' * F.cos Y'))
    have b2 : k' * F.cos Y' ≤ -0.95 := by nlinarith only [hk1.1, hcY.1]
    have b3 : -1.011 ≤ k' * F.cos Y' := by nlinarith only [hk1.1, hk1.2, hcY.1, hcY.2]
    have b4 : |k' * F.cos Y'| ≤ 2 := by rw [abs_le]; constructor <;> linarith
    have b5 : 1.001 * 1 * vu * |k' * F.cos Y'| ≤ 1.001 * 1 * vu * 2 := mul_le_mul_of_nonneg_left b4 (by linarith)
    obtain ⟨c1, c2⟩ := abs_le.1 b1
    constructor <;> linarith
  obtain ⟨k1, hk1'⟩ := double_multiple (h.sin X' (h.round.double _)).1 (by rw [abs_of_pos (by linarith [hsX.1])]; linarith [hsX.1])
  obtain ⟨k2, hk2'⟩ := double_multiple (h.round.double (k' * F.cos Y')) (by change 1 / 2 < |m'|; rw [abs_of_neg (by linarith [hm1.1])]; linarith [hm1.1])
  change m' = _ at hk2'
  have hsum : F.fl (F.sin X' + m') = ((k1 + k2 : ℤ) : ℝ) / 2 ^ 53 := by
    have e : F.sin X' + m' = ((k1 + k2 : ℤ) : ℝ) / 2 ^ 53 := by rw [hk1', hk2']; push_cast; ring
    rw [e]
    refine fl_exact h.round (isDouble_div _ 53 ?_)
    have b1 : |((k1 + k2 : ℤ) : ℝ) / 2 ^ 53| ≤ 1 := by
      rw [← e, abs_le]
      constructor <;> linarith [hsX.1, hsX.2, hm1.1, hm1.2]
    rw [abs_div, abs_of_pos (by positivity : (0 : ℝ) < 2 ^ 53), div_le_one (by positivity)] at b1
    exact_mod_cast b1
  -- the denominator
  have hP : Rel 2 (Real.pi * t) (F.fl (F.pi * t)) := rel_mono (rel_fl' h (rel_mul (rel_pi h) (rel_self t))) (by norm_num)
  have hPd : IsDouble (F.fl (F.pi * t)) := h.round.double _
  set P := F.fl (F.pi * t) with hPdef
  have hPb : 2.61 < P ∧ P < 2.62 := by
    have b1 := rel_abs (by norm_num) hP
    have b2 : Real.pi * t ≤ 2.619 := by nlinarith only [hpl, hpi, t1, t2, htp]
    have b3 : 2.617 ≤ Real.pi * t := by nlinarith only [hpg, hpi, t1, t2, htp]
    rw [abs_of_pos (mul_pos hpi htp)] at b1
    have b4 : 1.001 * 2 * vu * (Real.pi * t) ≤ 1.001 * 2 * vu * 3 := mul_le_mul_of_nonneg_left (b2.trans (by norm_num)) (by linarith)
    obtain ⟨c1, c2⟩ := abs_le.1 b1
    clear_value t
    generalize Real.pi * t = z at b1 b2 b3 b4 c1 c2
    constructor <;> linarith
  have hPs : F.fl (F.fl (P * (1 / 2 ^ 52)) / 1) = P / 2 ^ 52 := by
    have hd : IsDouble (P / 2 ^ 52) := by
      obtain ⟨m, e, hm, hPe⟩ := hPd
      refine ⟨m, e - 52, hm, ?_⟩
      rw [hPe, zpow_sub₀ (by norm_num : (2 : ℝ) ≠ 0), mul_div_assoc]
      norm_cast
    rw [mul_one_div, fl_exact h.round hd, div_one, fl_exact h.round hd]
  refine ⟨(List.range (2 * n)).map (timeF F (2 * n) 12), (List.range (2 * n)).map fun x => rrcosTapF F α 1 (timeF F (2 * n) 12 x), t,
    F.fl (((k1 + k2 : ℤ) : ℝ) / 2 ^ 53 / (P / 2 ^ 52)), ?_, ?_, ?_, hnear.1, hnear.2, ?_⟩
  · unfold rrcosfilterF; rw [if_neg (by norm_num)]
  · simp only [List.getElem?_map, List.getElem?_range hx, Option.map_some, et]
  · simp only [List.getElem?_map, List.getElem?_range hx, Option.map_some, et]
    have hns : ¬ (α ≠ 0 ∧ (t = F.fl (1 / F.fl (4 * α)) ∨ t = F.fl (-1 / F.fl (4 * α)))) := by
      rintro ⟨-, e | e⟩
      · rw [es, ht] at e; norm_num at e
      · linarith
    have hP0 : P / 2 ^ 52 ≠ 0 := by
      have : 0 < P := by linarith [hPb.1]
      positivity
    unfold rrcosTapF
    rw [if_neg ht0, if_neg hns]
    dsimp only
    rw [ew, ew2, edn, ← hPdef, hPs, ← hX', ← hY', ← hk', ← hm', hsum]
    unfold divF
    rw [if_neg hP0]
  · refine far_from hPb.1 hPb.2 (j := k1 + k2) ?_ hnear.1 hnear.2
    have hP0 : P ≠ 0 := by linarith [hPb.1]
    have e : ((k1 + k2 : ℤ) : ℝ) / 2 ^ 53 / (P / 2 ^ 52) = ((k1 + k2 : ℤ) : ℝ) / (2 * P) := by
      rw [div_div_div_eq, show (2 : ℝ) ^ 53 * P = 2 ^ 52 * (2 * P) by ring, mul_comm _ ((2 : ℝ) ^ 52), mul_div_mul_left _ _ (by positivity)]
    rw [← e]
    exact rel_fl h.round _

end Verif
