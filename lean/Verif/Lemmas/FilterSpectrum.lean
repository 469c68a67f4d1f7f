import Verif.Spec.Filters
import Verif.Props.Filters
import Mathlib.MeasureTheory.Integral.IntervalIntegral.FundThmCalculus
import Mathlib.MeasureTheory.Integral.IntegralEqImproper
import Mathlib.Analysis.SpecialFunctions.Integrals.Basic
import Mathlib.MeasureTheory.Measure.Lebesgue.Integral
/-
Lemmas for C105: the Fourier integrals of the raised-cosine and root raised-cosine spectra.
-/
namespace Verif

open MeasureTheory Set Filter Topology

theorem integral_cos_flat (q b : ℝ) (hq : q ≠ 0) : ∫ f in (0:ℝ)..b, Real.cos (q * f) = Real.sin (q * b) / q := by
  rw [intervalIntegral.integral_comp_mul_left _ hq]
  simp [integral_cos, div_eq_inv_mul]

theorem integral_cos_mid (q a b : ℝ) (hq : q ≠ 0) :
    ∫ f in a..b, Real.cos (q * f) = (Real.sin (q * b) - Real.sin (q * a)) / q := by
  rw [intervalIntegral.integral_comp_mul_left _ hq]
  simp [integral_cos, div_eq_inv_mul]

theorem integral_cos_cos (p q a b : ℝ) (h1 : p + q ≠ 0) (h2 : p - q ≠ 0) :
    ∫ f in a..b, Real.cos (p * (f - a)) * Real.cos (q * f) =
      ((Real.sin (p * (b - a) + q * b) - Real.sin (q * a)) / (p + q) +
       (Real.sin (p * (b - a) - q * b) + Real.sin (q * a)) / (p - q)) / 2 := by
  have hd : ∀ f ∈ uIcc a b, HasDerivAt (fun f => (Real.sin (p * (f - a) + q * f) / (p + q) +
      Real.sin (p * (f - a) - q * f) / (p - q)) / 2) (Real.cos (p * (f - a)) * Real.cos (q * f)) f := by
    intro f _
    have e1 : HasDerivAt (fun f => p * (f - a) + q * f) (p + q) f := by
      have := ((((hasDerivAt_id' f).sub_const a).const_mul p).fun_add ((hasDerivAt_id' f).const_mul q))
      rwa [mul_one, mul_one] at this
    have e2 : HasDerivAt (fun f => p * (f - a) - q * f) (p - q) f := by
      have := ((((hasDerivAt_id' f).sub_const a).const_mul p).fun_sub ((hasDerivAt_id' f).const_mul q))
      rwa [mul_one, mul_one] at this
    have := (((e1.sin).div_const (p + q)).fun_add ((e2.sin).div_const (p - q))).div_const 2
    refine this.congr_deriv ?_
    rw [Real.cos_add, Real.cos_sub]
    field_simp
    ring
  rw [intervalIntegral.integral_eq_sub_of_hasDerivAt hd (by
    apply Continuous.intervalIntegrable; fun_prop)]
  simp only [sub_self, mul_zero, zero_add, zero_sub, Real.sin_neg]
  field_simp
  ring

/-- The half-line part of a spectrum: flat to `a`, shape `w` from `a` to `b`, zero beyond. -/
theorem integral_even_spectrum (a b t T : ℝ) (ha : 0 ≤ a) (hab : a ≤ b) (H w : ℝ → ℝ) (hw : Continuous w)
    (hH : ∀ f, H f = if |f| ≤ a then T else if |f| ≤ b then w |f| else 0) :
    ∫ f, H f * Real.cos (2 * Real.pi * f * t) =
      2 * (T * (∫ f in (0:ℝ)..a, Real.cos (2 * Real.pi * t * f)) +
        ∫ f in a..b, w f * Real.cos (2 * Real.pi * t * f)) := by
  have e1 : ∀ f, H f * Real.cos (2 * Real.pi * f * t) =
      (fun x => (if x ≤ a then T else if x ≤ b then w x else 0) * Real.cos (2 * Real.pi * t * x)) |f| := by
    intro f
    simp only
    rw [hH]
    congr 1
    rcases abs_cases f with ⟨h, _⟩ | ⟨h, _⟩
    · rw [h]; congr 1; ring
    · rw [h, ← Real.cos_neg]; congr 1; ring
  rw [integral_congr_ae (ae_of_all _ e1), integral_comp_abs
    (f := fun x => (if x ≤ a then T else if x ≤ b then w x else 0) * Real.cos (2 * Real.pi * t * x))]
  congr 1
  have e2 : Ioi (0:ℝ) = Ioc 0 a ∪ (Ioc a b ∪ Ioi b) := by
    rw [Ioc_union_Ioi_eq_Ioi hab, Ioc_union_Ioi_eq_Ioi ha]
  have f1 : EqOn (fun x => (if x ≤ a then T else if x ≤ b then w x else 0) * Real.cos (2 * Real.pi * t * x))
      (fun x => T * Real.cos (2 * Real.pi * t * x)) (Ioc 0 a) := by
    intro x hx; simp only; rw [if_pos hx.2]
  have f2 : EqOn (fun x => (if x ≤ a then T else if x ≤ b then w x else 0) * Real.cos (2 * Real.pi * t * x))
      (fun x => w x * Real.cos (2 * Real.pi * t * x)) (Ioc a b) := by
    intro x hx; simp only; rw [if_neg (not_le.2 hx.1), if_pos hx.2]
  have f3 : EqOn (fun x => (if x ≤ a then T else if x ≤ b then w x else 0) * Real.cos (2 * Real.pi * t * x))
      (fun x => 0) (Ioi b) := by
    intro x hx
    have hx' : b < x := hx
    simp only; rw [if_neg (not_le.2 (lt_of_le_of_lt hab hx')), if_neg (not_le.2 hx'), zero_mul]
  have i1 : IntegrableOn (fun x => (if x ≤ a then T else if x ≤ b then w x else 0) * Real.cos (2 * Real.pi * t * x))
      (Ioc 0 a) := by
    rw [integrableOn_congr_fun f1 measurableSet_Ioc]
    exact (Continuous.integrableOn_Ioc (by fun_prop))
  have i2 : IntegrableOn (fun x => (if x ≤ a then T else if x ≤ b then w x else 0) * Real.cos (2 * Real.pi * t * x))
      (Ioc a b) := by
    rw [integrableOn_congr_fun f2 measurableSet_Ioc]
    exact (Continuous.integrableOn_Ioc (by fun_prop))
  have i3 : IntegrableOn (fun x => (if x ≤ a then T else if x ≤ b then w x else 0) * Real.cos (2 * Real.pi * t * x))
      (Ioi b) := by
    rw [integrableOn_congr_fun f3 measurableSet_Ioi]
    exact integrableOn_zero
  have d1 : Disjoint (Ioc 0 a) (Ioc a b ∪ Ioi b) := by
    rw [Ioc_union_Ioi_eq_Ioi hab]
    exact Set.disjoint_left.2 (fun x hx hx' => not_lt.2 hx.2 hx')
  have d2 : Disjoint (Ioc a b) (Ioi b) := Set.disjoint_left.2 (fun x hx hx' => not_lt.2 hx.2 hx')
  rw [e2, setIntegral_union d1 (measurableSet_Ioc.union measurableSet_Ioi) i1 (i2.union i3),
    setIntegral_union d2 measurableSet_Ioi i2 i3, setIntegral_congr_fun measurableSet_Ioc f1,
    setIntegral_congr_fun measurableSet_Ioc f2, setIntegral_congr_fun measurableSet_Ioi f3,
    integral_zero, add_zero, intervalIntegral.integral_of_le ha, intervalIntegral.integral_of_le hab,
    integral_const_mul]

/-- The Fourier integral is continuous in `t`. -/
theorem continuous_even_integral (a b T : ℝ) (w : ℝ → ℝ) (hw : Continuous w) :
    Continuous (fun t => 2 * (T * (∫ f in (0:ℝ)..a, Real.cos (2 * Real.pi * t * f)) +
        ∫ f in a..b, w f * Real.cos (2 * Real.pi * t * f))) := by
  refine continuous_const.mul ((continuous_const.mul ?_).add ?_)
  · apply intervalIntegral.continuous_parametric_intervalIntegral_of_continuous'
    exact Real.continuous_cos.comp (by fun_prop)
  · apply intervalIntegral.continuous_parametric_intervalIntegral_of_continuous'
    exact (hw.comp continuous_snd).mul (Real.continuous_cos.comp (by fun_prop))

/-- Closed form of the raised-cosine Fourier integral at a generic time. -/
theorem rc_closed (α T t : ℝ) (hα : 0 < α) (hT : 0 < T) (ht : t ≠ 0) (hs : |t| ≠ T / (2 * α)) :
    2 * (T * (∫ f in (0:ℝ)..((1 - α) / (2 * T)), Real.cos (2 * Real.pi * t * f)) +
        ∫ f in ((1 - α) / (2 * T))..((1 + α) / (2 * T)),
          T / 2 * (1 + Real.cos (Real.pi * T / α * (f - (1 - α) / (2 * T)))) * Real.cos (2 * Real.pi * t * f)) =
      rcosGeneral α T t := by
  have hπ := Real.pi_pos
  set a := (1 - α) / (2 * T) with ha
  set b := (1 + α) / (2 * T) with hb
  have hq : 2 * Real.pi * t ≠ 0 := by positivity
  have hs1 : t ≠ T / (2 * α) := by
    intro h; apply hs; rw [h, abs_of_pos (by positivity)]
  have hs2 : t ≠ -(T / (2 * α)) := by
    intro h; apply hs; rw [h, abs_neg, abs_of_pos (by positivity)]
  have h1' : T + 2 * α * t ≠ 0 := by
    intro h; apply hs2; field_simp; linarith
  have h2' : T - 2 * α * t ≠ 0 := by
    intro h; apply hs1; field_simp; linarith
  have k1 : Real.pi * T / α + 2 * Real.pi * t = Real.pi / α * (T + 2 * α * t) := by field_simp
  have k2 : Real.pi * T / α - 2 * Real.pi * t = Real.pi / α * (T - 2 * α * t) := by field_simp
  have h1 : Real.pi * T / α + 2 * Real.pi * t ≠ 0 := by
    rw [k1]; exact mul_ne_zero (by positivity) h1'
  have h2 : Real.pi * T / α - 2 * Real.pi * t ≠ 0 := by
    rw [k2]; exact mul_ne_zero (by positivity) h2'
  have e : ∀ f, T / 2 * (1 + Real.cos (Real.pi * T / α * (f - a))) * Real.cos (2 * Real.pi * t * f) =
      T / 2 * Real.cos (2 * Real.pi * t * f) +
        T / 2 * (Real.cos (Real.pi * T / α * (f - a)) * Real.cos (2 * Real.pi * t * f)) := by
    intro f; ring
  rw [intervalIntegral.integral_congr (fun f _ => e f), intervalIntegral.integral_add
    (Continuous.intervalIntegrable (by fun_prop) _ _) (Continuous.intervalIntegrable (by fun_prop) _ _),
    intervalIntegral.integral_const_mul, intervalIntegral.integral_const_mul, integral_cos_cos _ _ _ _ h1 h2,
    integral_cos_flat _ _ hq, integral_cos_mid _ _ _ hq]
  have e1 : Real.pi * T / α * (b - a) = Real.pi := by rw [ha, hb]; field_simp; ring
  have e2 : Real.sin (2 * Real.pi * t * b) + Real.sin (2 * Real.pi * t * a) =
      2 * Real.sin (Real.pi * t / T) * Real.cos (Real.pi * α * t / T) := by
    rw [show 2 * Real.pi * t * b = Real.pi * t / T + Real.pi * α * t / T by rw [hb]; field_simp,
      show 2 * Real.pi * t * a = Real.pi * t / T - Real.pi * α * t / T by rw [ha]; field_simp,
      Real.sin_add, Real.sin_sub]
    ring
  rw [e1, add_comm Real.pi, Real.sin_add_pi, Real.sin_pi_sub]
  have e3 : Real.sin (2 * Real.pi * t * b) = 2 * Real.sin (Real.pi * t / T) * Real.cos (Real.pi * α * t / T) -
      Real.sin (2 * Real.pi * t * a) := by linarith
  rw [e3]
  unfold rcosGeneral
  generalize Real.sin (2 * Real.pi * t * a) = A
  generalize Real.sin (Real.pi * t / T) = S
  generalize Real.cos (Real.pi * α * t / T) = C
  have k3 : 1 - (2 * α * t / T) * (2 * α * t / T) = (T + 2 * α * t) * (T - 2 * α * t) / T ^ 2 := by
    field_simp; ring
  rw [k1, k2, k3]
  clear k1 k2 k3 h1 h2
  generalize hP : T + 2 * α * t = P at *
  generalize hQ : T - 2 * α * t = Q at *
  field_simp
  rw [← hP, ← hQ]
  ring

/-- Closed form of the root-raised-cosine Fourier integral at a generic time. -/
theorem rrc_closed (α T t : ℝ) (hα : 0 < α) (hT : 0 < T) (ht : t ≠ 0) (hs : |t| ≠ T / (4 * α)) :
    2 * (T * (∫ f in (0:ℝ)..((1 - α) / (2 * T)), Real.cos (2 * Real.pi * t * f)) +
        ∫ f in ((1 - α) / (2 * T))..((1 + α) / (2 * T)),
          T * Real.cos (Real.pi * T / (2 * α) * (f - (1 - α) / (2 * T))) * Real.cos (2 * Real.pi * t * f)) =
      rrcosGeneral α T t := by
  have hπ := Real.pi_pos
  set a := (1 - α) / (2 * T) with ha
  set b := (1 + α) / (2 * T) with hb
  have hq : 2 * Real.pi * t ≠ 0 := by positivity
  have hs1 : t ≠ T / (4 * α) := by
    intro h; apply hs; rw [h, abs_of_pos (by positivity)]
  have hs2 : t ≠ -(T / (4 * α)) := by
    intro h; apply hs; rw [h, abs_neg, abs_of_pos (by positivity)]
  have h1' : T + 4 * α * t ≠ 0 := by
    intro h; apply hs2; field_simp; linarith
  have h2' : T - 4 * α * t ≠ 0 := by
    intro h; apply hs1; field_simp; linarith
  have k1 : Real.pi * T / (2 * α) + 2 * Real.pi * t = Real.pi / (2 * α) * (T + 4 * α * t) := by field_simp; ring
  have k2 : Real.pi * T / (2 * α) - 2 * Real.pi * t = Real.pi / (2 * α) * (T - 4 * α * t) := by field_simp; ring
  have h1 : Real.pi * T / (2 * α) + 2 * Real.pi * t ≠ 0 := by
    rw [k1]; exact mul_ne_zero (by positivity) h1'
  have h2 : Real.pi * T / (2 * α) - 2 * Real.pi * t ≠ 0 := by
    rw [k2]; exact mul_ne_zero (by positivity) h2'
  have e : ∀ f, T * Real.cos (Real.pi * T / (2 * α) * (f - a)) * Real.cos (2 * Real.pi * t * f) =
        T * (Real.cos (Real.pi * T / (2 * α) * (f - a)) * Real.cos (2 * Real.pi * t * f)) := by
    intro f; ring
  rw [intervalIntegral.integral_congr (fun f _ => e f),
    intervalIntegral.integral_const_mul, integral_cos_cos _ _ _ _ h1 h2, integral_cos_flat _ _ hq]
  have e1 : Real.pi * T / (2 * α) * (b - a) = Real.pi / 2 := by rw [ha, hb]; field_simp; ring
  rw [e1, add_comm (Real.pi / 2), Real.sin_add_pi_div_two, Real.sin_pi_div_two_sub]
  rw [show 2 * Real.pi * t * b = Real.pi * t * (1 + α) / T by rw [hb]; field_simp,
      show 2 * Real.pi * t * a = Real.pi * t * (1 - α) / T by rw [ha]; field_simp]
  unfold rrcosGeneral
  generalize Real.sin (Real.pi * t * (1 - α) / T) = S
  generalize Real.cos (Real.pi * t * (1 + α) / T) = C
  have k3 : 1 - (4 * α * t / T) * (4 * α * t / T) = (T + 4 * α * t) * (T - 4 * α * t) / T ^ 2 := by
    field_simp; ring
  rw [k1, k2, k3]
  clear k1 k2 k3 h1 h2
  generalize hP : T + 4 * α * t = P at *
  generalize hQ : T - 4 * α * t = Q at *
  field_simp
  rw [← hP, ← hQ]
  ring

end Verif

namespace Verif

open MeasureTheory Set Filter Topology

theorem eventually_ne_punctured (t0 y : ℝ) : ∀ᶠ x in 𝓝[≠] t0, x ≠ y := by
  by_cases h : t0 = y
  · subst h; exact self_mem_nhdsWithin
  · exact (eventually_ne_nhds h).filter_mono nhdsWithin_le_nhds

/-- Extending an identity with the limit values of one side. -/
theorem eq_of_punctured {F G : ℝ → ℝ} {t0 v c : ℝ} (hF : Continuous F)
    (hG : Tendsto G (𝓝[≠] t0) (𝓝 v)) (h : ∀ t, t ≠ 0 → |t| ≠ c → F t = G t) : F t0 = v := by
  have h1 : Tendsto F (𝓝[≠] t0) (𝓝 (F t0)) := (hF.tendsto t0).mono_left nhdsWithin_le_nhds
  refine tendsto_nhds_unique (h1.congr' ?_) hG
  filter_upwards [eventually_ne_punctured t0 0, eventually_ne_punctured t0 c, eventually_ne_punctured t0 (-c)]
    with t ht h2 h3
  refine h t ht (fun hc => ?_)
  rcases abs_cases t with ⟨e, _⟩ | ⟨e, _⟩
  · exact h2 (by linarith)
  · exact h3 (by linarith)

/-- The raised-cosine tap is the Fourier integral of the raised-cosine spectrum. -/
theorem rcos_fourier (α T t : ℝ) (h0 : 0 ≤ α) (h1 : α ≤ 1) (hT : 0 < T) :
    rcosTap α T t = ∫ f, rcSpectrum α T f * Real.cos (2 * Real.pi * f * t) := by
  have hab : (1 - α) / (2 * T) ≤ (1 + α) / (2 * T) := by gcongr; linarith
  have hw : Continuous (fun x => T / 2 * (1 + Real.cos (Real.pi * T / α * (x - (1 - α) / (2 * T))))) := by fun_prop
  have ha : 0 ≤ (1 - α) / (2 * T) := div_nonneg (by linarith) (by linarith)
  rw [integral_even_spectrum ((1 - α) / (2 * T)) ((1 + α) / (2 * T)) t T ha hab
    (rcSpectrum α T) _ hw (fun f => by unfold rcSpectrum; rfl)]
  rcases h0.eq_or_lt with rfl | hα
  · simp only [sub_zero, add_zero, intervalIntegral.integral_same]
    by_cases ht : t = 0
    · subst ht
      simp [rcosTap]
      field_simp
    · rw [integral_cos_flat _ _ (by have := Real.pi_pos; positivity)]
      unfold rcosTap
      rw [if_neg ht, if_neg (by simp), if_neg (by simp)]
      unfold rcosGeneral
      have hπ := Real.pi_pos
      rw [show 2 * Real.pi * t * (1 / (2 * T)) = Real.pi * t / T by field_simp]
      simp
      field_simp
  · have hc := continuous_even_integral ((1 - α) / (2 * T)) ((1 + α) / (2 * T)) T _ hw
    obtain ⟨c1, c2, c3, c4⟩ := C18_rcos_continuous α T hα hT
    have hgen : ∀ s, s ≠ 0 → |s| ≠ T / (2 * α) → _ = rcosGeneral α T s := fun s hs hs' =>
      rc_closed α T s hα hT hs hs'
    by_cases ht : t = 0
    · subst ht
      exact (eq_of_punctured hc c4 hgen).symm
    · by_cases hs : |t| = T / (2 * α)
      · rcases abs_cases t with ⟨e, _⟩ | ⟨e, _⟩
        · have : t = T / (2 * α) := by linarith
          subst this
          exact (eq_of_punctured hc c1 hgen).symm
        · have : t = -(T / (2 * α)) := by linarith
          subst this
          exact (eq_of_punctured hc c2 hgen).symm
      · rw [(c3 t ht hs).1]
        exact (hgen t ht hs).symm

theorem rrcSpectrum_eq (α T f : ℝ) (h0 : 0 ≤ α) (hT : 0 < T) :
    rrcSpectrum α T f = if |f| ≤ (1 - α) / (2 * T) then T else if |f| ≤ (1 + α) / (2 * T) then
      T * Real.cos (Real.pi * T / (2 * α) * (|f| - (1 - α) / (2 * T))) else 0 := by
  unfold rrcSpectrum rcSpectrum
  by_cases h1 : |f| ≤ (1 - α) / (2 * T)
  · rw [if_pos h1, if_pos h1, Real.sqrt_mul_self hT.le]
  · rw [if_neg h1, if_neg h1]
    by_cases h2 : |f| ≤ (1 + α) / (2 * T)
    · rw [if_pos h2, if_pos h2]
      have hα : 0 < α := by
        rcases h0.eq_or_lt with rfl | h
        · simp at h1 h2; linarith
        · exact h
      have e : T * (T / 2 * (1 + Real.cos (Real.pi * T / α * (|f| - (1 - α) / (2 * T))))) =
          (T * Real.cos (Real.pi * T / (2 * α) * (|f| - (1 - α) / (2 * T)))) ^ 2 := by
        rw [show Real.pi * T / α * (|f| - (1 - α) / (2 * T)) = 2 * (Real.pi * T / (2 * α) * (|f| - (1 - α) / (2 * T))) by
          field_simp, Real.cos_two_mul]
        ring
      rw [e, Real.sqrt_sq]
      refine mul_nonneg hT.le (Real.cos_nonneg_of_neg_pi_div_two_le_of_le ?_ ?_)
      · have : 0 ≤ Real.pi * T / (2 * α) * (|f| - (1 - α) / (2 * T)) :=
          mul_nonneg (by have := Real.pi_pos; positivity) (by linarith)
        linarith [Real.pi_pos]
      · have h3 : Real.pi * T / (2 * α) * (|f| - (1 - α) / (2 * T)) ≤
            Real.pi * T / (2 * α) * ((1 + α) / (2 * T) - (1 - α) / (2 * T)) := by
          have := Real.pi_pos
          gcongr
        have h4 : Real.pi * T / (2 * α) * ((1 + α) / (2 * T) - (1 - α) / (2 * T)) = Real.pi / 2 := by
          field_simp; ring
        linarith
    · rw [if_neg h2, if_neg h2, mul_zero, Real.sqrt_zero]

/-- The root-raised-cosine tap is the Fourier integral of the root-raised-cosine spectrum. -/
theorem rrcos_fourier (α T t : ℝ) (h0 : 0 ≤ α) (h1 : α ≤ 1) (hT : 0 < T) :
    rrcosTap α T t = ∫ f, rrcSpectrum α T f * Real.cos (2 * Real.pi * f * t) := by
  have hab : (1 - α) / (2 * T) ≤ (1 + α) / (2 * T) := by gcongr; linarith
  have hw : Continuous (fun x => T * Real.cos (Real.pi * T / (2 * α) * (x - (1 - α) / (2 * T)))) := by fun_prop
  have ha : 0 ≤ (1 - α) / (2 * T) := div_nonneg (by linarith) (by linarith)
  rw [integral_even_spectrum ((1 - α) / (2 * T)) ((1 + α) / (2 * T)) t T ha hab
    (rrcSpectrum α T) _ hw (fun f => rrcSpectrum_eq α T f h0 hT)]
  rcases h0.eq_or_lt with rfl | hα
  · simp only [sub_zero, add_zero, intervalIntegral.integral_same]
    by_cases ht : t = 0
    · subst ht
      simp [rrcosTap]
      field_simp
    · rw [integral_cos_flat _ _ (by have := Real.pi_pos; positivity)]
      unfold rrcosTap
      rw [if_neg ht, if_neg (by simp), if_neg (by simp)]
      unfold rrcosGeneral
      have hπ := Real.pi_pos
      rw [show 2 * Real.pi * t * (1 / (2 * T)) = Real.pi * t / T by field_simp]
      simp
      field_simp
  · have hc := continuous_even_integral ((1 - α) / (2 * T)) ((1 + α) / (2 * T)) T _ hw
    obtain ⟨c1, c2, c3, c4⟩ := C19_rrcos_continuous α T hα hT
    have hgen : ∀ s, s ≠ 0 → |s| ≠ T / (4 * α) → _ = rrcosGeneral α T s := fun s hs hs' =>
      rrc_closed α T s hα hT hs hs'
    by_cases ht : t = 0
    · subst ht
      exact (eq_of_punctured hc c1 hgen).symm
    · by_cases hs : |t| = T / (4 * α)
      · rcases abs_cases t with ⟨e, _⟩ | ⟨e, _⟩
        · have : t = T / (4 * α) := by linarith
          subst this
          exact (eq_of_punctured hc c2 hgen).symm
        · have : t = -(T / (4 * α)) := by linarith
          subst this
          exact (eq_of_punctured hc c3 hgen).symm
      · rw [(c4 t ht hs).1]
        exact (hgen t ht hs).symm

end Verif
