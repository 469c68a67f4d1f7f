import Verif.Props.RrcosRefuted
/-
Instances of C137.
-/
namespace Verif

theorem libm_time : timeF libm 8 2 6 = 1 := by
  have r := rnd53_nearest
  have d2 : rnd53 ((8 : ℕ) / 2 : ℝ) = 4 := by
    have := fl_exact r (isDouble_int 4 (by norm_num)); push_cast at this; rw [← this]; congr 1; norm_num
  have d3 : rnd53 (((6 : ℕ) : ℝ) - 4) = 2 := by
    have := fl_exact r (isDouble_int 2 (by norm_num)); push_cast at this; rw [← this]; congr 1; norm_num
  have d4 : rnd53 (1 / 2 : ℝ) = 1 / 2 := by
    have := fl_exact r (isDouble_div 1 1 (by norm_num)); push_cast at this; rw [pow_one] at this; exact this
  have d5 : rnd53 (2 * (1 / 2) : ℝ) = 1 := by
    have := fl_exact r (isDouble_int 1 (by norm_num)); push_cast at this; rw [show (2 * (1 / 2) : ℝ) = 1 by norm_num, this]
  unfold timeF
  show rnd53 (rnd53 (((6 : ℕ) : ℝ) - rnd53 ((8 : ℕ) / 2 : ℝ)) * rnd53 (1 / 2 : ℝ)) = 1
  rw [d2, d3, d4, d5]

/-- `rcosfilter(8, 0.25, 1, 2)`: the tap at time 1 is the exact pulse up to 2^-44. -/
example : ∃ (time : List ℝ) (taps : List (Option EReal)) (r : ℝ), rcosfilterF libm 8 (1 / 4) 1 2 = .ok (time, taps) ∧
    taps[6]? = some (some (r : EReal)) ∧ |r - rcosTap (1 / 4) 1 1| ≤ 1 / 2 ^ 44 := by
  obtain ⟨time, taps, h, -, -, hx⟩ := C137_rcos_partial libm_ok 8 (1 / 4) 1 2 (by norm_num) (by norm_num) (by norm_num)
  obtain ⟨t, ht, -, -, hb, -⟩ := hx 6 (by norm_num)
  have e : t = 1 := by
    have h' := h
    unfold rcosfilterF at h'
    rw [if_neg (by norm_num)] at h'
    obtain ⟨h1, -⟩ := Prod.mk.inj (Except.ok.inj h')
    rw [← h1, List.getElem?_map, List.getElem?_range (by norm_num), Option.map_some, libm_time] at ht
    exact (Option.some.inj ht).symm
  rw [e] at hb
  obtain ⟨r, hr, hr2⟩ := hb (by norm_num [abs_of_pos])
  refine ⟨time, taps, r, h, hr, hr2.trans ?_⟩
  norm_num [abs_of_pos]

/-- `rcosfilter(8, 0.5, 1, 2)`: time 1 is the singular point, and the special case is taken. -/
example : ∃ (time : List ℝ) (taps : List (Option EReal)) (r : ℝ), rcosfilterF libm 8 (1 / 2) 1 2 = .ok (time, taps) ∧
    taps[6]? = some (some (r : EReal)) ∧ |r - rcosTap (1 / 2) 1 1| ≤ 1 / 2 ^ 48 := by
  obtain ⟨time, taps, h, -, -, hx⟩ := C137_rcos_partial libm_ok 8 (1 / 2) 1 2 (by norm_num) (by norm_num) (by norm_num)
  obtain ⟨t, ht, -, -, -, hs⟩ := hx 6 (by norm_num)
  have e : t = 1 := by
    have h' := h
    unfold rcosfilterF at h'
    rw [if_neg (by norm_num)] at h'
    obtain ⟨h1, -⟩ := Prod.mk.inj (Except.ok.inj h')
    rw [← h1, List.getElem?_map, List.getElem?_range (by norm_num), Option.map_some, libm_time] at ht
    exact (Option.some.inj ht).symm
  have d1 : libm.fl 1 = 1 := by
    have := fl_exact rnd53_nearest (isDouble_int 1 (by norm_num)); push_cast at this; exact this
  obtain ⟨r, hr, hr2⟩ := hs 1 (Or.inl rfl) (by norm_num) (by
    rw [e, show (2 * (1 / 2) : ℝ) = 1 by norm_num, d1, one_mul, div_one, d1])
  refine ⟨time, taps, r, h, hr, ?_⟩
  have e2 : (1 * 1 / (2 * (1 / 2)) : ℝ) = 1 := by norm_num
  rwa [e2] at hr2

/-- `rrcosfilter(8, 0.125, 1, 2)`: the tap at time 1 is the exact pulse up to 2^-42. -/
example : ∃ (time : List ℝ) (taps : List (Option EReal)) (r : ℝ), rrcosfilterF libm 8 (1 / 8) 1 2 = .ok (time, taps) ∧
    taps[6]? = some (some (r : EReal)) ∧ |r - rrcosTap (1 / 8) 1 1| ≤ 1 / 2 ^ 42 := by
  obtain ⟨time, taps, h, -, -, hx⟩ := C137_rrcos_partial libm_ok 8 (1 / 8) 1 2 (by norm_num) (by norm_num) (by norm_num) (by norm_num) (by norm_num)
  obtain ⟨t, ht, -, -, hb, -⟩ := hx 6 (by norm_num)
  have e : t = 1 := by
    have h' := h
    unfold rrcosfilterF at h'
    rw [if_neg (by norm_num)] at h'
    obtain ⟨h1, -⟩ := Prod.mk.inj (Except.ok.inj h')
    rw [← h1, List.getElem?_map, List.getElem?_range (by norm_num), Option.map_some, libm_time] at ht
    exact (Option.some.inj ht).symm
  rw [e] at hb
  obtain ⟨r, hr, hr2⟩ := hb (by norm_num [abs_of_pos])
  refine ⟨time, taps, r, h, hr, hr2.trans ?_⟩
  have h3 : |Real.pi * 1 / 1| ≤ 4 := by
    rw [mul_one, div_one, abs_of_pos Real.pi_pos]; linarith [Real.pi_lt_d4]
  have h4 : |1 - (4 * (1 / 8) * 1 / 1 : ℝ) ^ 2| = 3 / 4 := by norm_num [abs_of_pos]
  rw [h4]
  have h5 : (1 / 2 ^ 46 * (1 + |Real.pi * 1 / 1|) * (1 + (4 * (1 / 8) * 1 / 1) ^ 2) / (3 / 4) : ℝ) ≤ 1 / 2 ^ 46 * (1 + 4) * (1 + (4 * (1 / 8) * 1 / 1) ^ 2) / (3 / 4) := by
    gcongr
  refine h5.trans ?_
  norm_num

/-- The infinite tap of `rcosfilter(100, 0.65, 1, 13)`. -/
example := C137_rcos_refuted libm_ok 50 (by norm_num) (by norm_num)

/-- The wrong tap of `rrcosfilter(100, 0.3, 1, 12)`. -/
example := C137_rrcos_refuted libm_ok 50 (by norm_num) (by norm_num)

end Verif
