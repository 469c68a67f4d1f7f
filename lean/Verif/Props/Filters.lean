import Verif.Model.Filters
import Mathlib.Analysis.SpecialFunctions.Trigonometric.Deriv
import Mathlib.Analysis.Calculus.Deriv.Slope
import Mathlib.Analysis.Calculus.Deriv.Mul
import Mathlib.Analysis.Calculus.Deriv.Add
import Mathlib.Analysis.Calculus.Deriv.Comp
import Mathlib.Analysis.SpecialFunctions.Trigonometric.Bounds
import Mathlib.Tactic.Ring
import Mathlib.Tactic.FieldSimp
import Mathlib.Tactic.Linarith
import Mathlib.Tactic.Positivity
/-
Property theorems for commpy/filters.py: C18–C20.
-/
namespace Verif

open Filter Topology

theorem filterTime_reflect (N : Nat) (Fs : ℝ) (x : Nat) (hx : x ≤ N) :
    filterTime N Fs (N - x) = -filterTime N Fs x := by
  unfold filterTime
  rw [Nat.cast_sub hx]; ring

theorem rcosfilter_ok (N : Nat) (alpha Ts Fs : ℝ) (h : Fs ≠ 0) :
    rcosfilter N alpha Ts Fs = .ok ((List.range N).map (filterTime N Fs), (List.range N).map (fun x => rcosTap alpha Ts (filterTime N Fs x))) := by
  simp [rcosfilter, h]

theorem rcosTap_even (alpha Ts t : ℝ) : rcosTap alpha Ts (-t) = rcosTap alpha Ts t := by
  have hs : Real.sin (Real.pi * -t / Ts) / (Real.pi * -t / Ts) = Real.sin (Real.pi * t / Ts) / (Real.pi * t / Ts) := by
    rw [show Real.pi * -t / Ts = -(Real.pi * t / Ts) by ring, Real.sin_neg, neg_div_neg_eq]
  have hg : rcosGeneral alpha Ts (-t) = rcosGeneral alpha Ts t := by
    unfold rcosGeneral
    rw [hs, show Real.pi * alpha * -t / Ts = -(Real.pi * alpha * t / Ts) by ring, Real.cos_neg]
    congr 2; ring
  unfold rcosTap
  rw [hs, hg]
  have e1 : (-t = Ts / (2 * alpha)) ↔ (t = -Ts / (2 * alpha)) := by
    rw [neg_div]; constructor <;> intro h <;> linarith
  have e2 : (-t = -Ts / (2 * alpha)) ↔ (t = Ts / (2 * alpha)) := by
    rw [neg_div]; constructor <;> intro h <;> linarith
  simp only [e1, e2, neg_eq_zero]
  split_ifs <;> rfl

theorem rcosTap_nyquist (alpha Ts : ℝ) (hT : Ts ≠ 0) (k : Int) (hk : k ≠ 0) : rcosTap alpha Ts (k * Ts) = 0 := by
  have hs : Real.sin (Real.pi * (k * Ts) / Ts) = 0 := by
    rw [show Real.pi * (k * Ts) / Ts = k * Real.pi by field_simp]
    exact Real.sin_int_mul_pi k
  have h0 : (k : ℝ) * Ts ≠ 0 := mul_ne_zero (by exact_mod_cast hk) hT
  unfold rcosTap rcosGeneral
  rw [if_neg h0, hs]
  simp

/-- Limit of a quotient of two functions vanishing at `a` with derivatives. -/
theorem tendsto_div_of_deriv {f g : ℝ → ℝ} {a f' g' : ℝ} (hf : HasDerivAt f f' a) (hg : HasDerivAt g g' a)
    (f0 : f a = 0) (g0 : g a = 0) (hg' : g' ≠ 0) : Tendsto (fun t => f t / g t) (𝓝[≠] a) (𝓝 (f' / g')) := by
  have h1 := hf.tendsto_slope
  have h2 := hg.tendsto_slope
  have h3 := h1.div h2 hg'
  refine h3.congr' ?_
  filter_upwards [self_mem_nhdsWithin] with t ht
  have hta : t - a ≠ 0 := sub_ne_zero.2 ht
  simp only [Pi.div_apply, slope_def_field, f0, g0, sub_zero]
  by_cases hgt : g t = 0
  · simp [hgt]
  · field_simp

theorem rcos_limit (alpha Ts : ℝ) (ha : alpha ≠ 0) (hT : Ts ≠ 0) :
    Tendsto (rcosGeneral alpha Ts) (𝓝[≠] (Ts / (2 * alpha)))
      (𝓝 ((Real.pi / 4) * (Real.sin (Real.pi * (Ts / (2 * alpha)) / Ts) / (Real.pi * (Ts / (2 * alpha)) / Ts)))) := by
  set a := Ts / (2 * alpha) with hadef
  have hpi := Real.pi_ne_zero
  have ha0 : a ≠ 0 := div_ne_zero hT (mul_ne_zero two_ne_zero ha)
  rw [mul_comm]
  unfold rcosGeneral
  refine Tendsto.mul ?_ ?_
  · apply Tendsto.mono_left _ nhdsWithin_le_nhds
    apply ContinuousAt.tendsto (f := fun t => Real.sin (Real.pi * t / Ts) / (Real.pi * t / Ts))
    apply ContinuousAt.div
    · fun_prop
    · fun_prop
    · exact div_ne_zero (mul_ne_zero hpi ha0) hT
  · have hf : HasDerivAt (fun t => Real.cos (Real.pi * alpha * t / Ts)) (-Real.sin (Real.pi * alpha * a / Ts) * (Real.pi * alpha / Ts)) a := by
      have h1 : HasDerivAt (fun t : ℝ => Real.pi * alpha * t / Ts) (Real.pi * alpha / Ts) a := by
        have := ((hasDerivAt_id a).const_mul (Real.pi * alpha)).div_const Ts
        simpa using this
      exact h1.cos
    have hg : HasDerivAt (fun t => 1 - (((2 * alpha * t) / Ts) * ((2 * alpha * t) / Ts)))
        (-((2 * alpha / Ts) * (2 * alpha * a / Ts) + (2 * alpha * a / Ts) * (2 * alpha / Ts))) a := by
      have h1 : HasDerivAt (fun t : ℝ => 2 * alpha * t / Ts) (2 * alpha / Ts) a := by
        have := ((hasDerivAt_id a).const_mul (2 * alpha)).div_const Ts
        simpa using this
      have := (h1.mul h1).const_sub 1
      exact this
    have hv : 2 * alpha * a / Ts = 1 := by rw [hadef]; field_simp
    have hw : Real.pi * alpha * a / Ts = Real.pi / 2 := by rw [hadef]; field_simp
    have := tendsto_div_of_deriv hf hg (by rw [hw, Real.cos_pi_div_two]) (by rw [hv]; ring)
      (by rw [hv]; intro hc; apply div_ne_zero (mul_ne_zero two_ne_zero ha) hT; linarith)
    convert this using 2
    rw [hw, hv, Real.sin_pi_div_two]
    field_simp
    ring

/-- C18. Raised cosine: N time indices and N taps (tap x at time `(x - N/2)/Fs`), 1 at t = 0, 0 at the other multiples of
`Ts`, even in t. -/
theorem C18_rcos (N : Nat) (alpha Ts Fs : ℝ) (hT : 0 < Ts) (hF : 0 < Fs) :
    ∃ time h, rcosfilter N alpha Ts Fs = .ok (time, h) ∧ time.length = N ∧ h.length = N ∧
      (∀ x, x < N → time[x]? = some (((x : ℝ) - N / 2) / Fs)) ∧
      (∀ x, x < N → time[x]? = some 0 → h[x]? = some 1) ∧
      (∀ x, x < N → ∀ k : Int, k ≠ 0 → time[x]? = some (k * Ts) → h[x]? = some 0) ∧
      (∀ x y, x < N → y < N → time[y]? = (time[x]?).map (-·) → h[y]? = h[x]?) := by
  refine ⟨_, _, rcosfilter_ok N alpha Ts Fs hF.ne', by simp, by simp, ?_, ?_, ?_, ?_⟩
  · intro x hx
    simp only [List.getElem?_map, List.getElem?_range hx, Option.map_some, filterTime]
    congr 1; ring
  · intro x hx ht
    simp only [List.getElem?_map, List.getElem?_range hx, Option.map_some, Option.some.injEq] at ht ⊢
    rw [ht]; simp [rcosTap]
  · intro x hx k hk ht
    simp only [List.getElem?_map, List.getElem?_range hx, Option.map_some, Option.some.injEq] at ht ⊢
    rw [ht]; exact rcosTap_nyquist alpha Ts hT.ne' k hk
  · intro x y hx hy ht
    simp only [List.getElem?_map, List.getElem?_range hx, List.getElem?_range hy, Option.map_some, Option.some.injEq] at ht ⊢
    rw [ht]; exact rcosTap_even _ _ _

/-- C18, the special-cased value at `|t| = Ts/(2 alpha)` is the limit of the general formula there, and everywhere
else the general formula is used without division by zero. -/
theorem C18_rcos_continuous (alpha Ts : ℝ) (ha : 0 < alpha) (hT : 0 < Ts) :
    Tendsto (rcosGeneral alpha Ts) (𝓝[≠] (Ts / (2 * alpha))) (𝓝 (rcosTap alpha Ts (Ts / (2 * alpha)))) ∧
    Tendsto (rcosGeneral alpha Ts) (𝓝[≠] (-(Ts / (2 * alpha)))) (𝓝 (rcosTap alpha Ts (-(Ts / (2 * alpha))))) ∧
    (∀ t, t ≠ 0 → |t| ≠ Ts / (2 * alpha) → rcosTap alpha Ts t = rcosGeneral alpha Ts t ∧
      Real.pi * t / Ts ≠ 0 ∧ 1 - (2 * alpha * t / Ts) * (2 * alpha * t / Ts) ≠ 0) ∧
    Tendsto (rcosGeneral alpha Ts) (𝓝[≠] 0) (𝓝 (rcosTap alpha Ts 0)) := by
  have ha0 : Ts / (2 * alpha) ≠ 0 := by positivity
  have h1 : rcosTap alpha Ts (Ts / (2 * alpha)) = (Real.pi / 4) * (Real.sin (Real.pi * (Ts / (2 * alpha)) / Ts) / (Real.pi * (Ts / (2 * alpha)) / Ts)) := by
    unfold rcosTap; rw [if_neg ha0, if_pos ⟨ha.ne', rfl⟩]
  have hl := rcos_limit alpha Ts ha.ne' hT.ne'
  rw [← h1] at hl
  have heven : ∀ t, rcosGeneral alpha Ts (-t) = rcosGeneral alpha Ts t := by
    intro t
    unfold rcosGeneral
    rw [show Real.pi * -t / Ts = -(Real.pi * t / Ts) by ring, Real.sin_neg, neg_div_neg_eq,
      show Real.pi * alpha * -t / Ts = -(Real.pi * alpha * t / Ts) by ring, Real.cos_neg]
    congr 2; ring
  refine ⟨hl, ?_, ?_, ?_⟩
  · rw [rcosTap_even]
    have hneg : Tendsto (fun t : ℝ => -t) (𝓝[≠] (-(Ts / (2 * alpha)))) (𝓝[≠] (Ts / (2 * alpha))) := by
      apply tendsto_nhdsWithin_iff.2
      constructor
      · have := (continuous_neg.tendsto (-(Ts / (2 * alpha)))).mono_left (nhdsWithin_le_nhds (s := {-(Ts / (2 * alpha))}ᶜ))
        simpa using this
      · filter_upwards [self_mem_nhdsWithin] with t ht
        intro hc
        apply ht
        simp only [Set.mem_singleton_iff] at hc ⊢
        linarith
    refine (hl.comp hneg).congr ?_
    intro t; exact heven t
  · intro t ht hat
    have e1 : t ≠ Ts / (2 * alpha) := by
      intro hc; apply hat; rw [hc, abs_of_pos (by positivity)]
    have e2 : t ≠ -Ts / (2 * alpha) := by
      intro hc; apply hat; rw [hc, neg_div, abs_neg, abs_of_pos (by positivity)]
    refine ⟨?_, ?_, ?_⟩
    · unfold rcosTap; rw [if_neg ht, if_neg (by tauto), if_neg (by tauto)]
    · exact div_ne_zero (mul_ne_zero Real.pi_ne_zero ht) hT.ne'
    · intro hc
      have h2 : (2 * alpha * t / Ts - 1) * (2 * alpha * t / Ts + 1) = 0 := by linarith
      rcases mul_eq_zero.1 h2 with h3 | h3
      · apply e1; field_simp at h3 ⊢; linarith
      · apply e2; field_simp at h3 ⊢; linarith
  · have h0 : rcosTap alpha Ts 0 = 1 * (1 / 1) := by simp [rcosTap]
    rw [h0]
    unfold rcosGeneral
    refine Tendsto.mul ?_ ?_
    · have hf : HasDerivAt (fun t => Real.sin (Real.pi * t / Ts)) (Real.cos (Real.pi * 0 / Ts) * (Real.pi / Ts)) 0 := by
        have h1 : HasDerivAt (fun t : ℝ => Real.pi * t / Ts) (Real.pi / Ts) 0 := by
          have := ((hasDerivAt_id (0 : ℝ)).const_mul Real.pi).div_const Ts
          simpa using this
        exact h1.sin
      have hg : HasDerivAt (fun t : ℝ => Real.pi * t / Ts) (Real.pi / Ts) 0 := by
        have := ((hasDerivAt_id (0 : ℝ)).const_mul Real.pi).div_const Ts
        simpa using this
      have hne : Real.pi / Ts ≠ 0 := div_ne_zero Real.pi_ne_zero hT.ne'
      have := tendsto_div_of_deriv hf hg (by simp) (by simp) hne
      convert this using 2
      simp [hne]
    · apply Tendsto.mono_left _ nhdsWithin_le_nhds
      have : ContinuousAt (fun t => Real.cos (Real.pi * alpha * t / Ts) / (1 - 2 * alpha * t / Ts * (2 * alpha * t / Ts))) 0 := by
        apply ContinuousAt.div
        · fun_prop
        · fun_prop
        · simp
      have h2 := this.tendsto
      simpa using h2

example : (0 : ℝ) < 1 / 4 ∧ (0 : ℝ) < 1 / 1000 := by norm_num

theorem rrcosGeneral_even (alpha Ts t : ℝ) : rrcosGeneral alpha Ts (-t) = rrcosGeneral alpha Ts t := by
  unfold rrcosGeneral
  rw [show Real.pi * -t * (1 - alpha) / Ts = -(Real.pi * t * (1 - alpha) / Ts) by ring, Real.sin_neg,
    show Real.pi * -t * (1 + alpha) / Ts = -(Real.pi * t * (1 + alpha) / Ts) by ring, Real.cos_neg,
    ← neg_div_neg_eq]
  congr 1 <;> ring

theorem rrcosTap_even (alpha Ts t : ℝ) : rrcosTap alpha Ts (-t) = rrcosTap alpha Ts t := by
  unfold rrcosTap
  rw [rrcosGeneral_even]
  have e1 : (-t = Ts / (4 * alpha)) ↔ (t = -Ts / (4 * alpha)) := by
    rw [neg_div]; constructor <;> intro h <;> linarith
  have e2 : (-t = -Ts / (4 * alpha)) ↔ (t = Ts / (4 * alpha)) := by
    rw [neg_div]; constructor <;> intro h <;> linarith
  simp only [e1, e2, neg_eq_zero]
  split_ifs <;> rfl

theorem rrcos_num_deriv (alpha Ts a : ℝ) : HasDerivAt
    (fun t => Real.sin (Real.pi * t * (1 - alpha) / Ts) + 4 * alpha * (t / Ts) * Real.cos (Real.pi * t * (1 + alpha) / Ts))
    (Real.cos (Real.pi * a * (1 - alpha) / Ts) * (Real.pi * (1 - alpha) / Ts) +
      (4 * alpha * (1 / Ts) * Real.cos (Real.pi * a * (1 + alpha) / Ts) +
        4 * alpha * (a / Ts) * (-Real.sin (Real.pi * a * (1 + alpha) / Ts) * (Real.pi * (1 + alpha) / Ts)))) a := by
  have h1 : HasDerivAt (fun t : ℝ => Real.pi * t * (1 - alpha) / Ts) (Real.pi * (1 - alpha) / Ts) a := by
    have := (((hasDerivAt_id a).const_mul Real.pi).mul_const (1 - alpha)).div_const Ts
    simpa using this
  have h2 : HasDerivAt (fun t : ℝ => Real.pi * t * (1 + alpha) / Ts) (Real.pi * (1 + alpha) / Ts) a := by
    have := (((hasDerivAt_id a).const_mul Real.pi).mul_const (1 + alpha)).div_const Ts
    simpa using this
  have h3 : HasDerivAt (fun t : ℝ => 4 * alpha * (t / Ts)) (4 * alpha * (1 / Ts)) a := by
    have := ((hasDerivAt_id a).div_const Ts).const_mul (4 * alpha)
    simpa using this
  exact h1.sin.add (h3.mul h2.cos)

theorem rrcos_den_deriv (alpha Ts a : ℝ) : HasDerivAt
    (fun t => Real.pi * t * (1 - (4 * alpha * t / Ts) * (4 * alpha * t / Ts)) / Ts)
    ((Real.pi * (1 - (4 * alpha * a / Ts) * (4 * alpha * a / Ts)) +
      Real.pi * a * (-((4 * alpha / Ts) * (4 * alpha * a / Ts) + (4 * alpha * a / Ts) * (4 * alpha / Ts)))) / Ts) a := by
  have h1 : HasDerivAt (fun t : ℝ => Real.pi * t) Real.pi a := by
    have := (hasDerivAt_id a).const_mul Real.pi
    simpa using this
  have h2 : HasDerivAt (fun t : ℝ => 4 * alpha * t / Ts) (4 * alpha / Ts) a := by
    have := ((hasDerivAt_id a).const_mul (4 * alpha)).div_const Ts
    simpa using this
  exact (h1.mul ((h2.mul h2).const_sub 1)).div_const Ts

theorem rrcos_limit_zero (alpha Ts : ℝ) (hT : Ts ≠ 0) :
    Tendsto (rrcosGeneral alpha Ts) (𝓝[≠] 0) (𝓝 (1 - alpha + 4 * alpha / Real.pi)) := by
  have hpi := Real.pi_ne_zero
  have := tendsto_div_of_deriv (rrcos_num_deriv alpha Ts 0) (rrcos_den_deriv alpha Ts 0) (by simp) (by simp)
    (by simp [hpi, hT])
  rw [show 1 - alpha + 4 * alpha / Real.pi = _ from ?_]
  · exact this
  · simp
    field_simp

theorem rrcos_limit_special (alpha Ts : ℝ) (ha : alpha ≠ 0) (hT : Ts ≠ 0) :
    Tendsto (rrcosGeneral alpha Ts) (𝓝[≠] (Ts / (4 * alpha))) (𝓝 (rrcosSpecial alpha)) := by
  have hpi := Real.pi_ne_zero
  set a := Ts / (4 * alpha) with hadef
  have hv : 4 * alpha * a / Ts = 1 := by rw [hadef]; field_simp
  have hv2 : 4 * alpha * (a / Ts) = 1 := by rw [← hv]; ring
  set θ := Real.pi / (4 * alpha) with hθ
  have hA : Real.pi * a * (1 - alpha) / Ts = θ - Real.pi / 4 := by rw [hadef, hθ]; field_simp
  have hB : Real.pi * a * (1 + alpha) / Ts = θ + Real.pi / 4 := by rw [hadef, hθ]; field_simp
  have hs2 : Real.sqrt 2 ≠ 0 := by positivity
  have hss : Real.sqrt 2 * Real.sqrt 2 = 2 := Real.mul_self_sqrt (by norm_num)
  have e1 : Real.sin (θ - Real.pi / 4) = (Real.sin θ - Real.cos θ) * (Real.sqrt 2 / 2) := by
    rw [Real.sin_sub, Real.cos_pi_div_four, Real.sin_pi_div_four]; ring
  have e2 : Real.cos (θ - Real.pi / 4) = (Real.cos θ + Real.sin θ) * (Real.sqrt 2 / 2) := by
    rw [Real.cos_sub, Real.cos_pi_div_four, Real.sin_pi_div_four]; ring
  have e3 : Real.sin (θ + Real.pi / 4) = (Real.sin θ + Real.cos θ) * (Real.sqrt 2 / 2) := by
    rw [Real.sin_add, Real.cos_pi_div_four, Real.sin_pi_div_four]; ring
  have e4 : Real.cos (θ + Real.pi / 4) = (Real.cos θ - Real.sin θ) * (Real.sqrt 2 / 2) := by
    rw [Real.cos_add, Real.cos_pi_div_four, Real.sin_pi_div_four]; ring
  have hden : (Real.pi * (1 - (4 * alpha * a / Ts) * (4 * alpha * a / Ts)) +
      Real.pi * a * (-((4 * alpha / Ts) * (4 * alpha * a / Ts) + (4 * alpha * a / Ts) * (4 * alpha / Ts)))) / Ts
      = -(2 * Real.pi / Ts) := by
    rw [hv, hadef]; field_simp; ring
  have := tendsto_div_of_deriv (rrcos_num_deriv alpha Ts a) (rrcos_den_deriv alpha Ts a)
    (by simp only [hA, hB, hv2, e1, e4]; ring) (by simp only [hv]; ring) (by
      rw [hden]; exact neg_ne_zero.2 (div_ne_zero (mul_ne_zero two_ne_zero hpi) hT))
  rw [show rrcosSpecial alpha = _ from ?_]
  · exact this
  rw [hden, hA, hB, hv2, e2, e3, e4, rrcosSpecial, ← hθ]
  have hi : alpha / Real.sqrt 2 = alpha * Real.sqrt 2 / 2 := by
    rw [div_eq_div_iff hs2 two_ne_zero, mul_assoc, hss]
  rw [hi]
  field_simp
  ring

theorem rrcosfilter_ok (N : Nat) (alpha Ts Fs : ℝ) (h : Fs ≠ 0) :
    rrcosfilter N alpha Ts Fs = .ok ((List.range N).map (filterTime N Fs), (List.range N).map (fun x => rrcosTap alpha Ts (filterTime N Fs x))) := by
  simp [rrcosfilter, h]

/-- C19. Root raised cosine: same grid, even in t, tap x is the pulse `rrcosTap` at its time. -/
theorem C19_rrcos (N : Nat) (alpha Ts Fs : ℝ) (hF : 0 < Fs) :
    ∃ time h, rrcosfilter N alpha Ts Fs = .ok (time, h) ∧ time.length = N ∧ h.length = N ∧
      (∀ x, x < N → time[x]? = some (((x : ℝ) - N / 2) / Fs) ∧ h[x]? = (time[x]?).map (rrcosTap alpha Ts)) ∧
      (∀ x y, x < N → y < N → time[y]? = (time[x]?).map (-·) → h[y]? = h[x]?) := by
  refine ⟨_, _, rrcosfilter_ok N alpha Ts Fs hF.ne', by simp, by simp, ?_, ?_⟩
  · intro x hx
    simp only [List.getElem?_map, List.getElem?_range hx, Option.map_some, filterTime, and_true]
    congr 1; ring
  · intro x y hx hy ht
    simp only [List.getElem?_map, List.getElem?_range hx, List.getElem?_range hy, Option.map_some, Option.some.injEq] at ht ⊢
    rw [ht]; exact rrcosTap_even _ _ _

/-- C19, the special-cased values at t = 0 and |t| = Ts/(4 alpha) are the limits of the general formula, which is what
is returned at every other time (where it involves no division by zero). -/
theorem C19_rrcos_continuous (alpha Ts : ℝ) (ha : 0 < alpha) (hT : 0 < Ts) :
    Tendsto (rrcosGeneral alpha Ts) (𝓝[≠] 0) (𝓝 (rrcosTap alpha Ts 0)) ∧
    Tendsto (rrcosGeneral alpha Ts) (𝓝[≠] (Ts / (4 * alpha))) (𝓝 (rrcosTap alpha Ts (Ts / (4 * alpha)))) ∧
    Tendsto (rrcosGeneral alpha Ts) (𝓝[≠] (-(Ts / (4 * alpha)))) (𝓝 (rrcosTap alpha Ts (-(Ts / (4 * alpha))))) ∧
    (∀ t, t ≠ 0 → |t| ≠ Ts / (4 * alpha) → rrcosTap alpha Ts t = rrcosGeneral alpha Ts t ∧
      Real.pi * t * (1 - (4 * alpha * t / Ts) * (4 * alpha * t / Ts)) / Ts ≠ 0) := by
  have ha0 : Ts / (4 * alpha) ≠ 0 := by positivity
  have h1 : rrcosTap alpha Ts (Ts / (4 * alpha)) = rrcosSpecial alpha := by
    unfold rrcosTap; rw [if_neg ha0, if_pos ⟨ha.ne', rfl⟩]
  have hl := rrcos_limit_special alpha Ts ha.ne' hT.ne'
  rw [← h1] at hl
  refine ⟨?_, hl, ?_, ?_⟩
  · have := rrcos_limit_zero alpha Ts hT.ne'
    simpa [rrcosTap] using this
  · rw [rrcosTap_even]
    have hneg : Tendsto (fun t : ℝ => -t) (𝓝[≠] (-(Ts / (4 * alpha)))) (𝓝[≠] (Ts / (4 * alpha))) := by
      apply tendsto_nhdsWithin_iff.2
      constructor
      · have := (continuous_neg.tendsto (-(Ts / (4 * alpha)))).mono_left (nhdsWithin_le_nhds (s := {-(Ts / (4 * alpha))}ᶜ))
        simpa using this
      · filter_upwards [self_mem_nhdsWithin] with t ht
        intro hc
        apply ht
        simp only [Set.mem_singleton_iff] at hc ⊢
        linarith
    refine (hl.comp hneg).congr ?_
    intro t; exact rrcosGeneral_even _ _ _
  · intro t ht hat
    have e1 : t ≠ Ts / (4 * alpha) := by
      intro hc; apply hat; rw [hc, abs_of_pos (by positivity)]
    have e2 : t ≠ -Ts / (4 * alpha) := by
      intro hc; apply hat; rw [hc, neg_div, abs_neg, abs_of_pos (by positivity)]
    refine ⟨?_, ?_⟩
    · unfold rrcosTap; rw [if_neg ht, if_neg (by tauto), if_neg (by tauto)]
    · refine div_ne_zero (mul_ne_zero (mul_ne_zero Real.pi_ne_zero ht) ?_) hT.ne'
      intro hc
      have h2 : (4 * alpha * t / Ts - 1) * (4 * alpha * t / Ts + 1) = 0 := by linarith
      rcases mul_eq_zero.1 h2 with h3 | h3
      · apply e1; field_simp at h3 ⊢; linarith
      · apply e2; field_simp at h3 ⊢; linarith

/-- C20. Gaussian taps are positive, even in t, maximal at t = 0 (and strictly smaller away from it); rectangular taps
are 1; all four filters return the same strictly increasing time grid. -/
theorem C20_gauss_rect (N : Nat) (alpha Ts Fs : ℝ) (ha : 0 < alpha) (hF : 0 < Fs) :
    ∃ time hg hr hc hrr, gaussianfilter N alpha Ts Fs = .ok (time, hg) ∧ rectfilter N Ts Fs = .ok (time, hr) ∧
      rcosfilter N alpha Ts Fs = .ok (time, hc) ∧ rrcosfilter N alpha Ts Fs = .ok (time, hrr) ∧
      time.length = N ∧ hg.length = N ∧ hr.length = N ∧
      (∀ x y (h1 : x < time.length) (h2 : y < time.length), x < y → time[x] < time[y]) ∧
      (∀ x ∈ hg, 0 < x) ∧
      (∀ x y, x < N → y < N → time[y]? = (time[x]?).map (-·) → hg[y]? = hg[x]?) ∧
      (∀ x y (h1 : x < time.length) (h2 : y < hg.length) (h3 : x < hg.length) (h4 : y < time.length),
        time[x] = 0 → hg[y] ≤ hg[x] ∧ (time[y] ≠ 0 → hg[y] < hg[x])) ∧
      (∀ x ∈ hr, x = 1) := by
  refine ⟨(List.range N).map (filterTime N Fs), (List.range N).map (fun x => (Real.sqrt Real.pi / alpha) *
      Real.exp (-((Real.pi * filterTime N Fs x / alpha) * (Real.pi * filterTime N Fs x / alpha)))), List.replicate N 1, _, _, by simp [gaussianfilter, hF.ne', ha.ne'], by simp [rectfilter, hF.ne'],
    rcosfilter_ok N alpha Ts Fs hF.ne', rrcosfilter_ok N alpha Ts Fs hF.ne', by simp, by simp, by simp, ?_, ?_, ?_, ?_, ?_⟩
  · intro x y h1 h2 hxy
    simp only [List.getElem_map, List.getElem_range, filterTime]
    have : (x : ℝ) < y := by exact_mod_cast hxy
    apply mul_lt_mul_of_pos_right _ (by positivity)
    linarith
  · intro v hv
    obtain ⟨x, _, rfl⟩ := List.mem_map.1 hv
    have := Real.pi_pos
    positivity
  · intro x y hx hy ht
    simp only [List.getElem?_map, List.getElem?_range hx, List.getElem?_range hy, Option.map_some, Option.some.injEq] at ht ⊢
    rw [ht]
    congr 2; ring
  · intro x y h1 h2 h3 h4 ht
    simp only [List.getElem_map, List.getElem_range] at ht ⊢
    rw [ht]
    have hpi := Real.pi_pos
    have hc : 0 < Real.sqrt Real.pi / alpha := by positivity
    constructor
    · apply mul_le_mul_of_nonneg_left _ hc.le
      apply Real.exp_le_exp.2
      have := mul_self_nonneg (Real.pi * filterTime N Fs y / alpha)
      simp only [mul_zero, zero_div, neg_zero]; linarith
    · intro hy
      apply mul_lt_mul_of_pos_left _ hc
      apply Real.exp_lt_exp.2
      have : Real.pi * filterTime N Fs y / alpha ≠ 0 := div_ne_zero (mul_ne_zero hpi.ne' hy) ha.ne'
      have := mul_self_pos.2 this
      simp only [mul_zero, zero_div, neg_zero]; linarith
  · intro x hx
    exact List.eq_of_mem_replicate hx

end Verif
