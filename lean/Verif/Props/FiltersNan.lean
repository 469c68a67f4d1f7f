import Verif.Model.FiltersNan
import Verif.Props.Filters
/-
C146: when the taps of the pulse shaping filters are finite.
-/
namespace Verif
open FVal

/-- A finite value. -/
def FVal.IsFinite (v : FVal) : Prop := ∃ x : ℝ, v = fin x

theorem div_fin {x y : ℝ} (h : y ≠ 0) : FVal.div (fin x) (fin y) = fin (x / y) := by simp only [FVal.div, if_neg h]

/-- A denominator of the raised cosines vanishes at the two special times only. -/
theorem special_denominator {a Ts t k : ℝ} (hT : Ts ≠ 0) (hk : 0 < k) (h1 : ¬(a ≠ 0 ∧ t = Ts / (k * a))) (h2 : ¬(a ≠ 0 ∧ t = -Ts / (k * a))) :
    1 + -((k * a * t) / Ts * ((k * a * t) / Ts)) ≠ 0 := by
  intro h0
  have h3 : ((k * a * t) / Ts) ^ 2 = 1 := by linarith [sq ((k * a * t) / Ts)]
  have ha : a ≠ 0 := by
    rintro rfl
    simp at h3
  have h5 : ((k * a * t) / Ts - 1) * ((k * a * t) / Ts + 1) = 0 := by linarith [show ((k * a * t) / Ts - 1) * ((k * a * t) / Ts + 1) = ((k * a * t) / Ts) ^ 2 - 1 by ring]
  rcases (mul_eq_zero.1 h5).imp sub_eq_zero.1 eq_neg_of_add_eq_zero_left with h4 | h4
  · exact h1 ⟨ha, by rw [div_eq_one_iff_eq hT] at h4; field_simp; linarith⟩
  · exact h2 ⟨ha, by rw [div_eq_iff hT] at h4; field_simp; linarith⟩

theorem rcosTapN_finite {alpha Ts : ℝ} (hT : Ts ≠ 0) (t : ℝ) : rcosTapN alpha Ts t = fin (rcosTap alpha Ts t) := by
  unfold rcosTapN rcosTap
  split
  · rfl
  · rename_i h0
    have hd : Real.pi * t / Ts ≠ 0 := by
      have := Real.pi_pos.ne'
      positivity
    have hs : rcosSpecialN Ts t = fin ((Real.pi / 4) * (Real.sin (Real.pi * t / Ts) / (Real.pi * t / Ts))) := by
      unfold rcosSpecialN
      rw [div_fin hT]
      simp only [FVal.sin]
      rw [div_fin hd]
      simp only [FVal.mul]
    split
    · exact hs
    · rename_i h1
      split
      · exact hs
      · rename_i h2
        have h3 := special_denominator hT (by norm_num : (0 : ℝ) < 2) h1 h2
        unfold rcosGeneralN rcosGeneral
        rw [div_fin hT, div_fin hT, div_fin hT]
        simp only [FVal.sin, FVal.cos, FVal.mul, FVal.neg, FVal.add]
        rw [div_fin hd, div_fin h3]
        simp only [FVal.mul]
        rw [← sub_eq_add_neg]

theorem rrcosTapN_finite {alpha Ts : ℝ} (hT : Ts ≠ 0) (t : ℝ) : rrcosTapN alpha Ts t = fin (rrcosTap alpha Ts t) := by
  unfold rrcosTapN rrcosTap
  split
  · rfl
  · rename_i h0
    split
    · rfl
    · rename_i h1
      split
      · rfl
      · rename_i h2
        have h3 := special_denominator hT (by norm_num : (0 : ℝ) < 4) h1 h2
        have hd : Real.pi * t * (1 + -((4 * alpha * t) / Ts * ((4 * alpha * t) / Ts))) / Ts ≠ 0 :=
          div_ne_zero (mul_ne_zero (mul_ne_zero Real.pi_pos.ne' h0) h3) hT
        unfold rrcosGeneralN rrcosGeneral
        rw [div_fin hT, div_fin hT, div_fin hT, div_fin hT]
        simp only [FVal.sin, FVal.cos, FVal.mul, FVal.neg, FVal.add]
        rw [div_fin hT, div_fin hd, ← sub_eq_add_neg]

/-- `np.sin` and `np.cos` of a quotient by zero. -/
theorem sin_div_zero (x : ℝ) : FVal.sin (FVal.div (fin x) (fin 0)) = nan := by
  simp only [FVal.div, if_true]
  split <;> rfl

theorem rcosTapN_zero (alpha : ℝ) {t : ℝ} (ht : t ≠ 0) : rcosTapN alpha 0 t = nan := by
  unfold rcosTapN rcosSpecialN rcosGeneralN
  rw [if_neg ht, sin_div_zero]
  simp only [FVal.div, FVal.mul]
  split_ifs <;> rfl

theorem rrcosTapN_zero (alpha : ℝ) {t : ℝ} (ht : t ≠ 0) : rrcosTapN alpha 0 t = nan := by
  unfold rrcosTapN rrcosGeneralN
  rw [if_neg ht, if_neg (by rintro ⟨-, h⟩; simp at h; exact ht h), if_neg (by rintro ⟨-, h⟩; simp at h; exact ht h), sin_div_zero]
  simp only [FVal.add, FVal.div]

theorem filterTime_eq_zero {N : Nat} {Fs : ℝ} (hF : Fs ≠ 0) (x : Nat) : filterTime N Fs x = 0 ↔ 2 * x = N := by
  unfold filterTime
  rw [mul_eq_zero, or_iff_left (one_div_ne_zero hF), sub_eq_zero, eq_div_iff (by norm_num)]
  constructor
  · intro h; have : ((x * 2 : ℕ) : ℝ) = (N : ℝ) := by push_cast; exact h
    have := Nat.cast_injective this; omega
  · intro h; rw [← h]; push_cast; ring

/-- C146, `rcosfilter`: for every non-zero symbol period (negative ones too) all taps are finite and given by the formulas of the exact model; for `Ts = 0` the tap at
time 0, if there is one, is 1 and all the others are nan. -/
theorem C146_rcos (N : Nat) (alpha Ts : ℝ) {Fs : ℝ} (hF : Fs ≠ 0) :
    ∃ time taps, rcosfilterN N alpha Ts Fs = .ok (time, taps) ∧ taps.length = N ∧
      (Ts ≠ 0 → ∃ h, rcosfilter N alpha Ts Fs = .ok (time, h) ∧ taps = h.map fin) ∧
      (Ts = 0 → ∀ x, x < N → taps[x]? = some (if 2 * x = N then fin 1 else nan)) := by
  refine ⟨_, _, by rw [rcosfilterN, if_neg hF], by simp, fun hT => ⟨_, by rw [rcosfilter, if_neg hF], ?_⟩, fun hT x hx => ?_⟩
  · rw [List.map_map]
    exact List.map_congr_left fun x _ => rcosTapN_finite hT _
  · rw [List.getElem?_map, List.getElem?_range hx, hT]
    simp only [Option.map_some, ← filterTime_eq_zero hF]
    split
    · rename_i h; rw [h]; simp [rcosTapN]
    · rename_i h; rw [rcosTapN_zero alpha h]

/-- C146, `rrcosfilter`. -/
theorem C146_rrcos (N : Nat) (alpha Ts : ℝ) {Fs : ℝ} (hF : Fs ≠ 0) :
    ∃ time taps, rrcosfilterN N alpha Ts Fs = .ok (time, taps) ∧ taps.length = N ∧
      (Ts ≠ 0 → ∃ h, rrcosfilter N alpha Ts Fs = .ok (time, h) ∧ taps = h.map fin) ∧
      (Ts = 0 → ∀ x, x < N → taps[x]? = some (if 2 * x = N then fin (1 - alpha + 4 * alpha / Real.pi) else nan)) := by
  refine ⟨_, _, by rw [rrcosfilterN, if_neg hF], by simp, fun hT => ⟨_, by rw [rrcosfilter, if_neg hF], ?_⟩, fun hT x hx => ?_⟩
  · rw [List.map_map]
    exact List.map_congr_left fun x _ => rrcosTapN_finite hT _
  · rw [List.getElem?_map, List.getElem?_range hx, hT]
    simp only [Option.map_some, ← filterTime_eq_zero hF]
    split
    · rename_i h; rw [h]; simp [rrcosTapN]
    · rename_i h; rw [rrcosTapN_zero alpha h]

/-- C146, `gaussianfilter`: all taps are finite when `alpha` is not zero (whatever its sign), and all are nan when it is. -/
theorem C146_gauss (N : Nat) (alpha Ts : ℝ) {Fs : ℝ} (hF : Fs ≠ 0) :
    ∃ time taps, gaussianfilterN N alpha Ts Fs = .ok (time, taps) ∧ taps.length = N ∧
      (alpha ≠ 0 → ∃ h, gaussianfilter N alpha Ts Fs = .ok (time, h) ∧ taps = h.map fin) ∧ (alpha = 0 → taps = List.replicate N nan) := by
  refine ⟨_, _, by rw [gaussianfilterN, if_neg hF], by simp, fun ha => ⟨_, by rw [gaussianfilter, if_neg hF, if_neg ha], ?_⟩, fun ha => ?_⟩
  · rw [List.map_map]
    refine List.map_congr_left fun x _ => ?_
    unfold gaussTapN
    rw [div_fin ha, div_fin ha]
    simp only [FVal.mul, FVal.neg, FVal.exp, Function.comp]
  · rw [List.eq_replicate_iff]
    refine ⟨by simp, fun v hv => ?_⟩
    obtain ⟨x, -, rfl⟩ := List.mem_map.1 hv
    rw [ha]
    have hpi : Real.sqrt Real.pi ≠ 0 := (Real.sqrt_pos.2 Real.pi_pos).ne'
    unfold gaussTapN
    by_cases ht : Real.pi * filterTime N Fs x = 0
    · simp only [FVal.div, if_true, if_pos ht, if_neg hpi, FVal.mul, FVal.neg, FVal.exp]
    · simp only [FVal.div, if_true, if_neg ht, if_neg hpi, FVal.mul, FVal.neg, bne_self_eq_false, Bool.not_false, FVal.exp]

/-- C146: all taps of a raised cosine or root raised cosine are finite exactly when the symbol period is not zero (or there is no tap at all). -/
theorem C146_finite (N : Nat) (alpha Ts : ℝ) {Fs : ℝ} (hF : Fs ≠ 0) :
    ∃ time taps taps', rcosfilterN N alpha Ts Fs = .ok (time, taps) ∧ rrcosfilterN N alpha Ts Fs = .ok (time, taps') ∧
      ((∀ v ∈ taps, v.IsFinite) ↔ Ts ≠ 0 ∨ N = 0) ∧ ((∀ v ∈ taps', v.IsFinite) ↔ Ts ≠ 0 ∨ N = 0) := by
  have key : ∀ {taps : List FVal} {c : FVal} {h : List ℝ}, taps.length = N → (Ts ≠ 0 → taps = h.map fin) → (Ts = 0 → ∀ x, x < N → taps[x]? = some (if 2 * x = N then c else nan)) →
      ((∀ v ∈ taps, v.IsFinite) ↔ Ts ≠ 0 ∨ N = 0) := by
    intro taps c h hl h1 h2
    constructor
    · intro hf
      by_contra hc
      push Not at hc
      have h3 := h2 hc.1 0 (by omega)
      rw [if_neg (by omega)] at h3
      obtain ⟨x, hx⟩ := hf nan (List.mem_of_getElem? h3)
      cases hx
    · rintro (hT | hN) v hv
      · rw [h1 hT] at hv
        obtain ⟨x, -, rfl⟩ := List.mem_map.1 hv
        exact ⟨x, rfl⟩
      · rw [List.length_eq_zero_iff.1 (hl.trans hN)] at hv
        cases hv
  refine ⟨_, _, _, by rw [rcosfilterN, if_neg hF], by rw [rrcosfilterN, if_neg hF], ?_, ?_⟩
  · obtain ⟨time, taps, e, a, b, d⟩ := C146_rcos N alpha Ts hF
    rw [rcosfilterN, if_neg hF] at e
    obtain ⟨-, e⟩ := Prod.mk.inj (Except.ok.inj e)
    rw [e]
    refine key (h := (List.range N).map (fun x => rcosTap alpha Ts (filterTime N Fs x))) a (fun hT => ?_) d
    obtain ⟨h, e1, e2⟩ := b hT
    rw [rcosfilter, if_neg hF] at e1
    rw [e2, ← (Prod.mk.inj (Except.ok.inj e1)).2]
  · obtain ⟨time, taps, e, a, b, d⟩ := C146_rrcos N alpha Ts hF
    rw [rrcosfilterN, if_neg hF] at e
    obtain ⟨-, e⟩ := Prod.mk.inj (Except.ok.inj e)
    rw [e]
    refine key (h := (List.range N).map (fun x => rrcosTap alpha Ts (filterTime N Fs x))) a (fun hT => ?_) d
    obtain ⟨h, e1, e2⟩ := b hT
    rw [rrcosfilter, if_neg hF] at e1
    rw [e2, ← (Prod.mk.inj (Except.ok.inj e1)).2]

/-- C146: the sign of the symbol period does not matter, and for `rcosfilter` neither does the sign of the roll-off. -/
theorem C146_signs (N : Nat) (alpha Ts Fs : ℝ) :
    rcosfilter N alpha (-Ts) Fs = rcosfilter N alpha Ts Fs ∧ rcosfilter N (-alpha) Ts Fs = rcosfilter N alpha Ts Fs ∧ rrcosfilter N alpha (-Ts) Fs = rrcosfilter N alpha Ts Fs := by
  have g1 : ∀ t, rcosGeneral alpha (-Ts) t = rcosGeneral alpha Ts t := by
    intro t
    unfold rcosGeneral
    simp only [div_neg, Real.sin_neg, Real.cos_neg, neg_mul_neg, neg_div_neg_eq, neg_div, neg_neg]
  have g2 : ∀ t, rcosGeneral (-alpha) Ts t = rcosGeneral alpha Ts t := by
    intro t
    unfold rcosGeneral
    rw [show Real.pi * -alpha * t / Ts = -(Real.pi * alpha * t / Ts) by ring, show 2 * -alpha * t / Ts = -(2 * alpha * t / Ts) by ring, Real.cos_neg, neg_mul_neg]
  have g3 : ∀ t, rrcosGeneral alpha (-Ts) t = rrcosGeneral alpha Ts t := by
    intro t
    unfold rrcosGeneral
    simp only [div_neg, Real.sin_neg, Real.cos_neg, neg_mul_neg]
    ring
  have hs : ∀ t Ts' : ℝ, Real.sin (Real.pi * t / -Ts') / (Real.pi * t / -Ts') = Real.sin (Real.pi * t / Ts') / (Real.pi * t / Ts') := by
    intro t Ts'
    rw [div_neg, Real.sin_neg, neg_div_neg_eq]
  refine ⟨?_, ?_, ?_⟩
  · unfold rcosfilter
    congr 3
    refine List.map_congr_left fun x _ => ?_
    unfold rcosTap
    rw [g1, hs, neg_neg]
    split_ifs <;> rfl
  · unfold rcosfilter
    congr 3
    refine List.map_congr_left fun x _ => ?_
    unfold rcosTap
    rw [g2, show 2 * -alpha = -(2 * alpha) by ring, div_neg, neg_div_neg_eq, ← neg_div]
    simp only [ne_eq, neg_eq_zero]
    split_ifs <;> rfl
  · unfold rrcosfilter
    congr 3
    refine List.map_congr_left fun x _ => ?_
    unfold rrcosTap
    rw [g3, neg_neg]
    split_ifs <;> rfl

/-! ### Instances -/

/-- `rcosfilter(4, 0.5, 0, 8)`: one finite tap, three nan. -/
example : ∃ time, rcosfilterN 4 (1 / 2) 0 8 = .ok (time, [nan, nan, fin 1, nan]) := by
  obtain ⟨time, taps, e, hl, -, h⟩ := C146_rcos 4 (1 / 2) 0 (Fs := 8) (by norm_num)
  refine ⟨time, ?_⟩
  rw [e]
  congr 2
  refine List.ext_getElem? fun i => ?_
  rcases Nat.lt_or_ge i 4 with hi | hi
  · rw [h rfl i hi]
    match i, hi with | 0, _ => rfl | 1, _ => rfl | 2, _ => rfl | 3, _ => rfl
  · rw [List.getElem?_eq_none (by omega), List.getElem?_eq_none (by simpa using hi)]

/-- A negative period and a zero period in one statement: `rrcosfilter(8, 0.25, -1, 4)` is finite, `rrcosfilter(8, 0.25, 0, 4)` is not. -/
example : (∃ time taps, rrcosfilterN 8 (1 / 4) (-1) 4 = .ok (time, taps) ∧ ∀ v ∈ taps, v.IsFinite) ∧
    ∃ time taps, rrcosfilterN 8 (1 / 4) 0 4 = .ok (time, taps) ∧ ¬ ∀ v ∈ taps, v.IsFinite := by
  constructor
  · obtain ⟨time, taps, taps', -, e, -, h⟩ := C146_finite 8 (1 / 4) (-1) (Fs := 4) (by norm_num)
    exact ⟨time, taps', e, h.2 (Or.inl (by norm_num))⟩
  · obtain ⟨time, taps, taps', -, e, -, h⟩ := C146_finite 8 (1 / 4) 0 (Fs := 4) (by norm_num)
    exact ⟨time, taps', e, fun hf => by have := h.1 hf; simp at this⟩

/-- `gaussianfilter(3, 0, 1, 1)` contains no number. -/
example : ∃ time, gaussianfilterN 3 0 1 1 = .ok (time, [nan, nan, nan]) := by
  obtain ⟨time, taps, e, -, -, h⟩ := C146_gauss 3 0 1 (Fs := 1) (by norm_num)
  exact ⟨time, by rw [e, h rfl]; rfl⟩

end Verif
