import Verif.Lemmas.FilterSpectrum
import Mathlib.Analysis.Fourier.Inversion
import Mathlib.Analysis.SpecialFunctions.ImproperIntegrals
import Mathlib.Analysis.Real.Pi.Bounds
/-
Lemmas for C105: Fourier inversion for the two pulses and the cascade of two root raised-cosine filters.
-/
namespace Verif

open MeasureTheory Set Filter Topology FourierTransform

/-- Fourier transform of a real even function. -/
theorem fourier_even (G : ℝ → ℝ) (hG : Integrable G) (hev : ∀ x, G (-x) = G x) (s : ℝ) :
    𝓕 (fun f => (G f : ℂ)) s = ((∫ f, G f * Real.cos (2 * Real.pi * f * s) : ℝ) : ℂ) := by
  have hGc : Integrable (fun f => (G f : ℂ)) := hG.ofReal
  have hint : ∀ c : ℝ, Integrable (fun v : ℝ => Complex.exp (((c * v : ℝ) : ℂ) * Complex.I) • (G v : ℂ)) := by
    intro c
    have := hGc.bdd_mul (c := 1) (f := fun v : ℝ => Complex.exp (((c * v : ℝ) : ℂ) * Complex.I))
      (Continuous.aestronglyMeasurable (by fun_prop))
      (ae_of_all _ (fun v => (Complex.norm_exp_ofReal_mul_I _).le))
    exact this
  have e1 : 𝓕 (fun f => (G f : ℂ)) s = ∫ v : ℝ, Complex.exp ((((-(2 * Real.pi * s)) * v : ℝ) : ℂ) * Complex.I) • (G v : ℂ) := by
    rw [Real.fourier_real_eq_integral_exp_smul]
    congr 1; ext v; congr 4; ring
  have e2 : 𝓕 (fun f => (G f : ℂ)) s = ∫ v : ℝ, Complex.exp (((2 * Real.pi * s * v : ℝ) : ℂ) * Complex.I) • (G v : ℂ) := by
    rw [e1, ← integral_neg_eq_self]
    congr 1; ext v; rw [hev]; congr 4; ring
  have e3 : (2 : ℂ) * 𝓕 (fun f => (G f : ℂ)) s = 2 * ((∫ f, G f * Real.cos (2 * Real.pi * f * s) : ℝ) : ℂ) := by
    rw [two_mul]
    conv_lhs => enter [1]; rw [e1]
    rw [e2, ← integral_add (hint _) (hint _), ← integral_complex_ofReal, ← integral_const_mul]
    congr 1; ext v
    rw [smul_eq_mul, smul_eq_mul, ← add_mul]
    have : Complex.exp ((((-(2 * Real.pi * s)) * v : ℝ) : ℂ) * Complex.I) + Complex.exp (((2 * Real.pi * s * v : ℝ) : ℂ) * Complex.I)
        = 2 * ((Real.cos (2 * Real.pi * v * s) : ℝ) : ℂ) := by
      rw [Complex.ofReal_cos, Complex.two_cos, add_comm]
      congr 2
      · push_cast; ring
      · push_cast; ring
    rw [this]; push_cast; ring
  exact mul_left_cancel₀ two_ne_zero e3

theorem rcSpectrum_neg (α T f : ℝ) : rcSpectrum α T (-f) = rcSpectrum α T f := by
  unfold rcSpectrum; rw [abs_neg]

theorem rrcSpectrum_neg (α T f : ℝ) : rrcSpectrum α T (-f) = rrcSpectrum α T f := by
  unfold rrcSpectrum; rw [rcSpectrum_neg]

theorem rcSpectrum_nonneg (α T f : ℝ) (hT : 0 < T) : 0 ≤ rcSpectrum α T f := by
  unfold rcSpectrum
  split
  · exact hT.le
  · split
    · exact mul_nonneg (by linarith) (by linarith [Real.neg_one_le_cos (Real.pi * T / α * (|f| - (1 - α) / (2 * T)))])
    · exact le_rfl

theorem rrcSpectrum_sq (α T f : ℝ) (hT : 0 < T) : rrcSpectrum α T f * rrcSpectrum α T f = T * rcSpectrum α T f := by
  unfold rrcSpectrum
  exact Real.mul_self_sqrt (mul_nonneg hT.le (rcSpectrum_nonneg α T f hT))

theorem rcSpectrum_of_sq (α T f : ℝ) (hT : 0 < T) : rcSpectrum α T f = (rrcSpectrum α T f) ^ 2 / T := by
  rw [pow_two, rrcSpectrum_sq α T f hT]; field_simp

theorem rrcSpectrum_continuous (α T : ℝ) (h0 : 0 < α) (hT : 0 < T) : Continuous (rrcSpectrum α T) := by
  have e : rrcSpectrum α T = fun f => if |f| ≤ (1 - α) / (2 * T) then T else if |f| ≤ (1 + α) / (2 * T) then
      T * Real.cos (Real.pi * T / (2 * α) * (|f| - (1 - α) / (2 * T))) else 0 := by
    funext f; exact rrcSpectrum_eq α T f h0.le hT
  rw [e]
  have hab : (1 - α) / (2 * T) ≤ (1 + α) / (2 * T) := by gcongr; linarith
  refine Continuous.if_le continuous_const (Continuous.if_le (by fun_prop) continuous_const (by fun_prop) continuous_const ?_)
    (by fun_prop) continuous_const ?_
  · intro x hx
    rw [hx]
    have : Real.pi * T / (2 * α) * ((1 + α) / (2 * T) - (1 - α) / (2 * T)) = Real.pi / 2 := by field_simp; ring
    rw [this, Real.cos_pi_div_two, mul_zero]
  · intro x hx
    rw [hx, if_pos hab]; simp

theorem rrcSpectrum_zero_of (α T f : ℝ) (h0 : 0 ≤ α) (hT : 0 < T) (hf : (1 + α) / (2 * T) < |f|) : rrcSpectrum α T f = 0 := by
  have hab : (1 - α) / (2 * T) ≤ (1 + α) / (2 * T) := by gcongr; linarith
  rw [rrcSpectrum_eq α T f h0 hT, if_neg (by linarith), if_neg (by linarith)]

theorem rrcSpectrum_compact (α T : ℝ) (h0 : 0 ≤ α) (hT : 0 < T) : HasCompactSupport (rrcSpectrum α T) := by
  refine HasCompactSupport.intro (isCompact_Icc (a := -((1 + α) / (2 * T))) (b := (1 + α) / (2 * T))) ?_
  intro x hx
  refine rrcSpectrum_zero_of α T x h0 hT ?_
  by_contra hc
  exact hx (abs_le.1 (not_lt.1 hc))

theorem rrcSpectrum_integrable (α T : ℝ) (h0 : 0 < α) (hT : 0 < T) : Integrable (rrcSpectrum α T) :=
  (rrcSpectrum_continuous α T h0 hT).integrable_of_hasCompactSupport (rrcSpectrum_compact α T h0.le hT)

theorem rcSpectrum_continuous (α T : ℝ) (h0 : 0 < α) (hT : 0 < T) : Continuous (rcSpectrum α T) := by
  have : rcSpectrum α T = fun f => (rrcSpectrum α T f) ^ 2 / T := funext (fun f => rcSpectrum_of_sq α T f hT)
  rw [this]
  exact ((rrcSpectrum_continuous α T h0 hT).pow 2).div_const _

theorem rcSpectrum_integrable (α T : ℝ) (h0 : 0 < α) (hT : 0 < T) : Integrable (rcSpectrum α T) := by
  refine (rcSpectrum_continuous α T h0 hT).integrable_of_hasCompactSupport ?_
  refine (rrcSpectrum_compact α T h0.le hT).mono (fun f hf h => hf ?_)
  rw [rcSpectrum_of_sq α T f hT, h]; simp

/-- A continuous function bounded by `C/t²` far away is integrable. -/
theorem integrable_of_inv_sq (F : ℝ → ℝ) (hF : Continuous F) (c C : ℝ) (hc : 0 < c)
    (h : ∀ t, c ≤ |t| → |F t| ≤ C / t ^ 2) : Integrable F := by
  obtain ⟨B, hB⟩ := (isCompact_Icc (a := -c) (b := c)).exists_bound_of_continuousOn hF.continuousOn
  have hB0 : 0 ≤ B := (norm_nonneg _).trans (hB 0 ⟨by linarith, hc.le⟩)
  have hC0 : 0 ≤ C := by
    have h1 := (abs_nonneg _).trans (h c (by rw [abs_of_pos hc]))
    by_contra hneg
    exact absurd h1 (not_le.2 (div_neg_of_neg_of_pos (not_le.1 hneg) (by positivity)))
  refine (integrable_inv_one_add_sq.const_mul (B * (1 + c ^ 2) + C * (1 + 1 / c ^ 2))).mono' hF.aestronglyMeasurable
    (ae_of_all _ (fun t => ?_))
  rw [Real.norm_eq_abs, ← div_eq_mul_inv, le_div_iff₀ (by positivity)]
  by_cases ht : c ≤ |t|
  · have h1 := h t ht
    have ht0 : 0 < t ^ 2 := by
      have : t ≠ 0 := fun h0 => by rw [h0, abs_zero] at ht; linarith
      positivity
    have hct : c ^ 2 ≤ t ^ 2 := by rw [← sq_abs t]; gcongr
    have h2 : (1 + t ^ 2) / t ^ 2 ≤ 1 + 1 / c ^ 2 := by
      rw [add_div, div_self ht0.ne', add_comm]
      gcongr
    calc |F t| * (1 + t ^ 2) ≤ C / t ^ 2 * (1 + t ^ 2) := by gcongr
      _ = C * ((1 + t ^ 2) / t ^ 2) := by ring
      _ ≤ C * (1 + 1 / c ^ 2) := by gcongr
      _ ≤ _ := by have : 0 ≤ B * (1 + c ^ 2) := by positivity
                  linarith
  · have h1 := hB t (abs_le.1 (not_le.1 ht).le)
    rw [Real.norm_eq_abs] at h1
    have hct : t ^ 2 ≤ c ^ 2 := by
      rw [← sq_abs t]; have := (not_le.1 ht).le; gcongr
    calc |F t| * (1 + t ^ 2) ≤ B * (1 + c ^ 2) := by gcongr
      _ ≤ _ := by have : 0 ≤ C * (1 + 1 / c ^ 2) := by positivity
                  linarith

theorem rrcosTap_continuous (α T : ℝ) (h0 : 0 ≤ α) (h1 : α ≤ 1) (hT : 0 < T) : Continuous (rrcosTap α T) := by
  have hab : (1 - α) / (2 * T) ≤ (1 + α) / (2 * T) := by gcongr; linarith
  have hw : Continuous (fun x => T * Real.cos (Real.pi * T / (2 * α) * (x - (1 - α) / (2 * T)))) := by fun_prop
  have ha : 0 ≤ (1 - α) / (2 * T) := div_nonneg (by linarith) (by linarith)
  have e : rrcosTap α T = _ := funext (fun t => (rrcos_fourier α T t h0 h1 hT).trans
    (integral_even_spectrum ((1 - α) / (2 * T)) ((1 + α) / (2 * T)) t T ha hab
      (rrcSpectrum α T) _ hw (fun f => rrcSpectrum_eq α T f h0 hT)))
  rw [e]
  exact continuous_even_integral _ _ _ _ hw

theorem rcosTap_continuous (α T : ℝ) (h0 : 0 ≤ α) (h1 : α ≤ 1) (hT : 0 < T) : Continuous (rcosTap α T) := by
  have hab : (1 - α) / (2 * T) ≤ (1 + α) / (2 * T) := by gcongr; linarith
  have hw : Continuous (fun x => T / 2 * (1 + Real.cos (Real.pi * T / α * (x - (1 - α) / (2 * T))))) := by fun_prop
  have ha : 0 ≤ (1 - α) / (2 * T) := div_nonneg (by linarith) (by linarith)
  have e : rcosTap α T = _ := funext (fun t => (rcos_fourier α T t h0 h1 hT).trans
    (integral_even_spectrum ((1 - α) / (2 * T)) ((1 + α) / (2 * T)) t T ha hab
      (rcSpectrum α T) _ hw (fun f => by unfold rcSpectrum; rfl)))
  rw [e]
  exact continuous_even_integral _ _ _ _ hw

theorem three_sq_le_abs (y : ℝ) (hy : 1 ≤ y) : 3 * y ^ 2 ≤ |1 - 4 * y ^ 2| := by
  rw [abs_of_nonpos (by nlinarith)]; nlinarith

theorem rrcosTap_decay (α T t : ℝ) (h0 : 0 < α) (hT : 0 < T) (ht : T / (2 * α) ≤ |t|) :
    |rrcosTap α T t| ≤ T ^ 2 / (2 * Real.pi * α) / t ^ 2 := by
  have hπ := Real.pi_pos
  have hc : 0 < T / (2 * α) := by positivity
  have ht0 : t ≠ 0 := fun h => by rw [h, abs_zero] at ht; linarith
  have hta : 0 < |t| := abs_pos.2 ht0
  have hx : 1 ≤ 2 * α * |t| / T := by
    rw [le_div_iff₀ hT]; rw [div_le_iff₀ (by positivity)] at ht; linarith
  have hne : |t| ≠ T / (4 * α) := by
    intro h
    rw [h, show 2 * α * (T / (4 * α)) / T = 1 / 2 by field_simp; norm_num] at hx
    norm_num at hx
  obtain ⟨_, _, _, c4⟩ := C19_rrcos_continuous α T h0 hT
  rw [(c4 t ht0 hne).1]
  unfold rrcosGeneral
  rw [abs_div]
  have hden : 12 * Real.pi * α ^ 2 * |t| ^ 3 / T ^ 3 ≤
      |Real.pi * t * (1 - (4 * α * t / T) * (4 * α * t / T)) / T| := by
    rw [abs_div, abs_mul, abs_mul, abs_of_pos hπ, abs_of_pos hT]
    have e : 1 - (4 * α * t / T) * (4 * α * t / T) = 1 - 4 * (2 * α * |t| / T) ^ 2 := by
      rw [show 4 * (2 * α * |t| / T) ^ 2 = 4 * (2 * α / T) ^ 2 * |t| ^ 2 by ring, sq_abs]; ring
    rw [e]
    have h3 := three_sq_le_abs _ hx
    calc 12 * Real.pi * α ^ 2 * |t| ^ 3 / T ^ 3 = Real.pi * |t| * (3 * (2 * α * |t| / T) ^ 2) / T := by
          field_simp; ring
      _ ≤ _ := by gcongr
  have hnum : |Real.sin (Real.pi * t * (1 - α) / T) + 4 * α * (t / T) * Real.cos (Real.pi * t * (1 + α) / T)| ≤
      6 * α * |t| / T := by
    refine (abs_add_le _ _).trans ?_
    have n1 := Real.abs_sin_le_one (Real.pi * t * (1 - α) / T)
    have n2 := Real.abs_cos_le_one (Real.pi * t * (1 + α) / T)
    rw [abs_mul, abs_mul, abs_div, abs_of_pos hT, abs_of_pos (show 0 < 4 * α by positivity)]
    have n3 : 4 * α * (|t| / T) * |Real.cos (Real.pi * t * (1 + α) / T)| ≤ 4 * α * (|t| / T) * 1 := by gcongr
    have n4 : 6 * α * |t| / T = 2 * α * |t| / T + 4 * α * (|t| / T) * 1 := by ring
    linarith
  calc _ ≤ (6 * α * |t| / T) / (12 * Real.pi * α ^ 2 * |t| ^ 3 / T ^ 3) :=
        div_le_div₀ (by positivity) hnum (by positivity) hden
    _ = T ^ 2 / (2 * Real.pi * α) / |t| ^ 2 := by field_simp; norm_num
    _ = _ := by rw [sq_abs]

theorem rcosTap_decay (α T t : ℝ) (h0 : 0 < α) (hT : 0 < T) (ht : T / α ≤ |t|) :
    |rcosTap α T t| ≤ T ^ 2 / (3 * Real.pi * α) / t ^ 2 := by
  have hπ := Real.pi_pos
  have hc : 0 < T / α := by positivity
  have ht0 : t ≠ 0 := fun h => by rw [h, abs_zero] at ht; linarith
  have hta : 0 < |t| := abs_pos.2 ht0
  have hx : 1 ≤ α * |t| / T := by
    rw [le_div_iff₀ hT]; rw [div_le_iff₀ (by positivity)] at ht; linarith
  have hne : |t| ≠ T / (2 * α) := by
    intro h
    rw [h, show α * (T / (2 * α)) / T = 1 / 2 by field_simp] at hx
    norm_num at hx
  obtain ⟨_, _, c3, _⟩ := C18_rcos_continuous α T h0 hT
  rw [(c3 t ht0 hne).1]
  unfold rcosGeneral
  rw [abs_mul, abs_div, abs_div (Real.cos _)]
  have hden : 3 * (α * |t| / T) ^ 2 ≤ |1 - (2 * α * t / T) * (2 * α * t / T)| := by
    have e : 1 - (2 * α * t / T) * (2 * α * t / T) = 1 - 4 * (α * |t| / T) ^ 2 := by
      rw [show 4 * (α * |t| / T) ^ 2 = 4 * (α / T) ^ 2 * |t| ^ 2 by ring, sq_abs]; ring
    rw [e]
    exact three_sq_le_abs _ hx
  have hden2 : |Real.pi * t / T| = Real.pi * |t| / T := by
    rw [abs_div, abs_mul, abs_of_pos hπ, abs_of_pos hT]
  rw [hden2]
  calc _ ≤ 1 / (Real.pi * |t| / T) * (1 / (3 * (α * |t| / T) ^ 2)) := by
        gcongr
        · exact Real.abs_sin_le_one _
        · exact Real.abs_cos_le_one _
    _ ≤ 1 / (Real.pi * |t| / T) * (1 / (3 * (α * |t| / T) ^ 2)) * (α * |t| / T) :=
        le_mul_of_one_le_right (by positivity) hx
    _ = T ^ 2 / (3 * Real.pi * α) / |t| ^ 2 := by field_simp
    _ = _ := by rw [sq_abs]

theorem rrcosTap_integrable (α T : ℝ) (h0 : 0 < α) (h1 : α ≤ 1) (hT : 0 < T) : Integrable (rrcosTap α T) :=
  integrable_of_inv_sq _ (rrcosTap_continuous α T h0.le h1 hT) (T / (2 * α)) _ (by positivity)
    (fun t ht => rrcosTap_decay α T t h0 hT ht)

theorem rcosTap_integrable (α T : ℝ) (h0 : 0 < α) (h1 : α ≤ 1) (hT : 0 < T) : Integrable (rcosTap α T) :=
  integrable_of_inv_sq _ (rcosTap_continuous α T h0.le h1 hT) (T / α) _ (by positivity)
    (fun t ht => rcosTap_decay α T t h0 hT ht)

/-- Inversion: if the even pulse `g` is the Fourier integral of the even continuous spectrum `G`, then `G` is the
Fourier integral of `g`. -/
theorem fourier_pulse (G g : ℝ → ℝ) (hG : Integrable G) (hGc : Continuous G) (hev : ∀ x, G (-x) = G x)
    (hg : ∀ t, g t = ∫ f, G f * Real.cos (2 * Real.pi * f * t)) (hgi : Integrable g) (v : ℝ) :
    𝓕 (fun f => (g f : ℂ)) v = (G v : ℂ) ∧ ∫ t, g t * Real.cos (2 * Real.pi * t * v) = G v := by
  have hgev : ∀ t, g (-t) = g t := by
    intro t
    rw [hg, hg]
    congr 1; ext f; congr 1
    rw [← Real.cos_neg]; congr 1; ring
  have e1 : 𝓕 (fun f => (G f : ℂ)) = fun t => (g t : ℂ) := by
    funext t
    rw [fourier_even G hG hev, hg]
  have h := (show Continuous (fun f => (G f : ℂ)) from by fun_prop).fourierInv_fourier_eq hG.ofReal
    (by rw [e1]; exact hgi.ofReal)
  rw [e1] at h
  have h2 := congrFun h (-v)
  rw [Real.fourierInv_eq_fourier_neg, neg_neg, hev] at h2
  refine ⟨h2, ?_⟩
  rw [fourier_even g hgi hgev] at h2
  exact_mod_cast h2

/-- The cascade of two root raised-cosine pulses is `T` times the raised-cosine pulse (positive roll-off). -/
theorem rrcos_cascade_pos (α T t : ℝ) (h0 : 0 < α) (h1 : α ≤ 1) (hT : 0 < T) :
    ∫ s, rrcosTap α T s * rrcosTap α T (t - s) = T * rcosTap α T t := by
  have hGi := rrcSpectrum_integrable α T h0 hT
  have hgi := rrcosTap_integrable α T h0 h1 hT
  have hF := fun v => (fourier_pulse (rrcSpectrum α T) (rrcosTap α T) hGi (rrcSpectrum_continuous α T h0 hT)
    (rrcSpectrum_neg α T) (fun t => rrcos_fourier α T t h0.le h1 hT) hgi v).1
  have e1 : 𝓕 (fun f => (rrcSpectrum α T f : ℂ)) = fun t => (rrcosTap α T t : ℂ) := by
    funext s
    rw [fourier_even _ hGi (rrcSpectrum_neg α T), rrcos_fourier α T s h0.le h1 hT]
  have hshift : Integrable (fun s => ((rrcosTap α T (t - s) : ℝ) : ℂ)) := (hgi.comp_sub_left t).ofReal
  have e2 : ∀ x, 𝓕 (fun s => ((rrcosTap α T (t - s) : ℝ) : ℂ)) x =
      Complex.exp (((-2 * Real.pi * x * t : ℝ) : ℂ) * Complex.I) * (rrcSpectrum α T x : ℂ) := by
    intro x
    rw [← rrcSpectrum_neg, ← hF (-x), Real.fourier_real_eq_integral_exp_smul, Real.fourier_real_eq_integral_exp_smul,
      ← integral_sub_left_eq_self _ volume t, ← integral_const_mul]
    congr 1; ext s
    rw [sub_sub_cancel, smul_eq_mul, smul_eq_mul, ← mul_assoc, ← Complex.exp_add]
    congr 2
    push_cast; ring
  have key := VectorFourier.integral_fourierIntegral_smul_eq_flip (e := Real.fourierChar) (L := innerₗ ℝ)
    (μ := volume) (ν := volume) (f := fun f => (rrcSpectrum α T f : ℂ))
    (g := fun s => ((rrcosTap α T (t - s) : ℝ) : ℂ)) Real.continuous_fourierChar
    (by exact continuous_inner) hGi.ofReal hshift
  have hl : ∫ ξ, (VectorFourier.fourierIntegral Real.fourierChar volume (innerₗ ℝ) (fun f => (rrcSpectrum α T f : ℂ)) ξ) •
      ((rrcosTap α T (t - ξ) : ℝ) : ℂ) = ((∫ s, rrcosTap α T s * rrcosTap α T (t - s) : ℝ) : ℂ) := by
    rw [← integral_complex_ofReal]
    congr 1; ext s
    have := congrFun e1 s
    rw [show VectorFourier.fourierIntegral Real.fourierChar volume (innerₗ ℝ) (fun f => (rrcSpectrum α T f : ℂ)) s =
      (rrcosTap α T s : ℂ) from this]
    push_cast; rfl
  have hr : ∫ x, (rrcSpectrum α T x : ℂ) • (VectorFourier.fourierIntegral Real.fourierChar volume (innerₗ ℝ).flip
      (fun s => ((rrcosTap α T (t - s) : ℝ) : ℂ)) x) = ((T * rcosTap α T t : ℝ) : ℂ) := by
    rw [show (innerₗ ℝ).flip = innerₗ ℝ from flip_innerₗ ℝ]
    have hrc := fourier_even (rcSpectrum α T) (rcSpectrum_integrable α T h0 hT) (rcSpectrum_neg α T) t
    rw [← rcos_fourier α T t h0.le h1 hT, Real.fourier_real_eq_integral_exp_smul] at hrc
    rw [Complex.ofReal_mul, ← hrc, ← integral_const_mul]
    congr 1; ext x
    rw [show VectorFourier.fourierIntegral Real.fourierChar volume (innerₗ ℝ)
      (fun s => ((rrcosTap α T (t - s) : ℝ) : ℂ)) x = _ from e2 x, smul_eq_mul, smul_eq_mul]
    have := rrcSpectrum_sq α T x hT
    have hc : (rrcSpectrum α T x : ℂ) * (rrcSpectrum α T x : ℂ) = T * rcSpectrum α T x := by exact_mod_cast this
    linear_combination Complex.exp (((-2 * Real.pi * x * t : ℝ) : ℂ) * Complex.I) * hc
  rw [hl, hr] at key
  exact_mod_cast key

theorem rrcosTap_le_two (α T s : ℝ) (h0 : 0 < α) (h1 : α ≤ 1) (hT : 0 < T) : |rrcosTap α T s| ≤ 2 := by
  have hGi := rrcSpectrum_integrable α T h0 hT
  have e0 := rrcos_fourier α T 0 h0.le h1 hT
  have hπ := Real.pi_gt_three
  have hb : rrcosTap α T 0 ≤ 2 := by
    unfold rrcosTap
    rw [if_pos rfl]
    have : 4 * α / Real.pi ≤ 4 * α / 3 := by gcongr
    linarith
  refine le_trans ?_ hb
  rw [e0, rrcos_fourier α T s h0.le h1 hT, ← Real.norm_eq_abs]
  refine (norm_integral_le_integral_norm _).trans (integral_mono ?_ ?_ (fun f => ?_))
  · refine Integrable.norm ?_
    have := hGi.mul_bdd (c := 1) (f := rrcSpectrum α T) (g := fun f => Real.cos (2 * Real.pi * f * s))
      (Continuous.aestronglyMeasurable (by fun_prop)) (ae_of_all _ (fun v => Real.abs_cos_le_one _))
    exact this
  · simpa using hGi
  · have hnn : 0 ≤ rrcSpectrum α T f := Real.sqrt_nonneg _
    simp only [mul_zero, Real.cos_zero, mul_one, norm_mul, Real.norm_eq_abs, abs_of_nonneg hnn]
    exact mul_le_of_le_one_right hnn (Real.abs_cos_le_one _)

theorem rrcosTap_le_inv (α T s : ℝ) (h0 : 0 < α) (h1 : α ≤ 1) (hT : 0 < T) (hs : s ≠ 0) :
    |rrcosTap α T s| ≤ T / (Real.pi * |s|) := by
  have hπ := Real.pi_pos
  have hab : (1 - α) / (2 * T) ≤ (1 + α) / (2 * T) := by gcongr; linarith
  have hw : Continuous (fun x => T * Real.cos (Real.pi * T / (2 * α) * (x - (1 - α) / (2 * T)))) := by fun_prop
  have ha : 0 ≤ (1 - α) / (2 * T) := div_nonneg (by linarith) (by linarith)
  have hq : 2 * Real.pi * s ≠ 0 := by positivity
  rw [rrcos_fourier α T s h0.le h1 hT, integral_even_spectrum ((1 - α) / (2 * T)) ((1 + α) / (2 * T)) s T ha hab
    (rrcSpectrum α T) _ hw (fun f => rrcSpectrum_eq α T f h0.le hT), integral_cos_flat _ _ hq]
  have e1 : Real.pi * T / (2 * α) * ((1 + α) / (2 * T) - (1 - α) / (2 * T)) = Real.pi / 2 := by field_simp; ring
  generalize hpd : Real.pi * T / (2 * α) = p at *
  have hp : 0 < p := by rw [← hpd]; positivity
  set a := (1 - α) / (2 * T)
  set b := (1 + α) / (2 * T)
  set q := 2 * Real.pi * s with hqd
  have hparts : q * (∫ f in a..b, T * Real.cos (p * (f - a)) * Real.cos (q * f)) -
      (∫ f in a..b, T * p * Real.sin (p * (f - a)) * Real.sin (q * f)) = -(T * Real.sin (q * a)) := by
    rw [← intervalIntegral.integral_const_mul, ← intervalIntegral.integral_sub
      (Continuous.intervalIntegrable (by fun_prop) _ _) (Continuous.intervalIntegrable (by fun_prop) _ _)]
    have hd : ∀ f ∈ uIcc a b, HasDerivAt (fun f => T * Real.cos (p * (f - a)) * Real.sin (q * f))
        (q * (T * Real.cos (p * (f - a)) * Real.cos (q * f)) - T * p * Real.sin (p * (f - a)) * Real.sin (q * f)) f := by
      intro f _
      have d1 : HasDerivAt (fun f => p * (f - a)) p f := by
        have := ((hasDerivAt_id' f).sub_const a).const_mul p
        rwa [mul_one] at this
      have d2 : HasDerivAt (fun f => q * f) q f := by
        have := (hasDerivAt_id' f).const_mul q
        rwa [mul_one] at this
      refine (((d1.cos).const_mul T).fun_mul d2.sin).congr_deriv ?_
      ring
    rw [intervalIntegral.integral_eq_sub_of_hasDerivAt hd (Continuous.intervalIntegrable (by fun_prop) _ _), e1]
    simp
  have hJ : |∫ f in a..b, T * p * Real.sin (p * (f - a)) * Real.sin (q * f)| ≤ T := by
    rw [← Real.norm_eq_abs]
    refine (intervalIntegral.norm_integral_le_of_norm_le (g := fun f => T * p * Real.sin (p * (f - a))) hab
      (ae_of_all _ (fun f hf => ?_)) (Continuous.intervalIntegrable (by fun_prop) _ _)).trans ?_
    · have hsin : 0 ≤ Real.sin (p * (f - a)) := by
        refine Real.sin_nonneg_of_nonneg_of_le_pi (mul_nonneg hp.le (by linarith [hf.1])) ?_
        have : p * (f - a) ≤ p * (b - a) := by have := hf.2; gcongr
        linarith
      rw [norm_mul, Real.norm_of_nonneg (by positivity)]
      exact mul_le_of_le_one_right (by positivity) (Real.abs_sin_le_one _)
    · have hd : ∀ f ∈ uIcc a b, HasDerivAt (fun f => -(T * Real.cos (p * (f - a))))
          (T * p * Real.sin (p * (f - a))) f := by
        intro f _
        have d1 : HasDerivAt (fun f => p * (f - a)) p f := by
          have := ((hasDerivAt_id' f).sub_const a).const_mul p
          rwa [mul_one] at this
        refine ((d1.cos).const_mul T).fun_neg.congr_deriv ?_
        ring
      rw [intervalIntegral.integral_eq_sub_of_hasDerivAt hd (Continuous.intervalIntegrable (by fun_prop) _ _), e1]
      simp
  have e2 : 2 * (T * (Real.sin (q * a) / q) + ∫ f in a..b, T * Real.cos (p * (f - a)) * Real.cos (q * f)) =
      2 / q * (∫ f in a..b, T * p * Real.sin (p * (f - a)) * Real.sin (q * f)) := by
    have : (∫ f in a..b, T * p * Real.sin (p * (f - a)) * Real.sin (q * f)) =
      q * (∫ f in a..b, T * Real.cos (p * (f - a)) * Real.cos (q * f)) + T * Real.sin (q * a) := by linarith
    rw [this]; field_simp; ring
  rw [e2, abs_mul]
  calc |2 / q| * _ ≤ |2 / q| * T := by gcongr
    _ = T / (Real.pi * |s|) := by
      rw [hqd, abs_div, abs_mul, abs_mul, abs_of_pos hπ, abs_two]; field_simp

theorem rrcosTap_le_both (α T s : ℝ) (h0 : 0 < α) (h1 : α ≤ 1) (hT : 0 < T) :
    |rrcosTap α T s| ≤ (2 + T / Real.pi) / (1 + |s|) := by
  have hπ := Real.pi_pos
  rw [le_div_iff₀ (by positivity), mul_add, mul_one]
  refine add_le_add (rrcosTap_le_two α T s h0 h1 hT) ?_
  by_cases hs : s = 0
  · rw [hs, abs_zero, mul_zero]; positivity
  · have hp : 0 < |s| := abs_pos.2 hs
    calc _ ≤ T / (Real.pi * |s|) * |s| := by gcongr; exact rrcosTap_le_inv α T s h0 h1 hT hs
      _ = _ := by field_simp

theorem rrcos_limit_alpha (T s : ℝ) (hT : 0 < T) :
    Tendsto (fun n : ℕ => rrcosTap (1 / ((n : ℝ) + 1)) T s) atTop (𝓝 (rrcosTap 0 T s)) := by
  have hα : Tendsto (fun n : ℕ => 1 / ((n : ℝ) + 1)) atTop (𝓝 0) := tendsto_one_div_add_atTop_nhds_zero_nat
  by_cases hs : s = 0
  · subst hs
    unfold rrcosTap
    simp only [if_true]
    have : Continuous (fun α : ℝ => 1 - α + 4 * α / Real.pi) := by fun_prop
    exact (this.tendsto 0).comp hα
  · have e0 : rrcosTap 0 T s = rrcosGeneral 0 T s := by
      unfold rrcosTap
      rw [if_neg hs, if_neg (by simp), if_neg (by simp)]
    rw [e0]
    have hc : ContinuousAt (fun α => rrcosGeneral α T s) 0 := by
      unfold rrcosGeneral
      refine ContinuousAt.div (by fun_prop) (by fun_prop) ?_
      have := Real.pi_pos
      simp; exact ⟨hs, hT.ne'⟩
    refine (hc.tendsto.comp hα).congr' ?_
    have hsmall : ∀ᶠ n : ℕ in atTop, 1 / ((n : ℝ) + 1) < T / (4 * |s|) :=
      hα.eventually (gt_mem_nhds (by have := abs_pos.2 hs; positivity))
    filter_upwards [hsmall] with n hn
    simp only [Function.comp]
    set α := 1 / ((n : ℝ) + 1)
    have hα0 : 0 < α := by positivity
    have hlt : |s| < T / (4 * α) := by
      have hsp := abs_pos.2 hs
      rw [lt_div_iff₀ (by positivity)] at hn ⊢
      linarith
    obtain ⟨_, _, _, c4⟩ := C19_rrcos_continuous α T hα0 hT
    exact ((c4 s hs hlt.ne).1).symm

theorem rcos_limit_alpha (T s : ℝ) (hT : 0 < T) :
    Tendsto (fun n : ℕ => rcosTap (1 / ((n : ℝ) + 1)) T s) atTop (𝓝 (rcosTap 0 T s)) := by
  have hα : Tendsto (fun n : ℕ => 1 / ((n : ℝ) + 1)) atTop (𝓝 0) := tendsto_one_div_add_atTop_nhds_zero_nat
  by_cases hs : s = 0
  · subst hs
    unfold rcosTap
    simp
  · have e0 : rcosTap 0 T s = rcosGeneral 0 T s := by
      unfold rcosTap
      rw [if_neg hs, if_neg (by simp), if_neg (by simp)]
    rw [e0]
    have hc : ContinuousAt (fun α => rcosGeneral α T s) 0 := by
      unfold rcosGeneral
      refine continuousAt_const.mul (ContinuousAt.div (by fun_prop) (by fun_prop) ?_)
      simp
    refine (hc.tendsto.comp hα).congr' ?_
    have hsmall : ∀ᶠ n : ℕ in atTop, 1 / ((n : ℝ) + 1) < T / (2 * |s|) :=
      hα.eventually (gt_mem_nhds (by have := abs_pos.2 hs; positivity))
    filter_upwards [hsmall] with n hn
    simp only [Function.comp]
    set α := 1 / ((n : ℝ) + 1)
    have hα0 : 0 < α := by positivity
    have hlt : |s| < T / (2 * α) := by
      have hsp := abs_pos.2 hs
      rw [lt_div_iff₀ (by positivity)] at hn ⊢
      linarith
    obtain ⟨_, _, c3, _⟩ := C18_rcos_continuous α T hα0 hT
    exact ((c3 s hs hlt.ne).1).symm

/-- The cascade of two root raised-cosine pulses is `T` times the raised-cosine pulse, for every roll-off in [0, 1]. -/
theorem rrcos_cascade (α T t : ℝ) (h0 : 0 ≤ α) (h1 : α ≤ 1) (hT : 0 < T) :
    ∫ s, rrcosTap α T s * rrcosTap α T (t - s) = T * rcosTap α T t := by
  rcases h0.eq_or_lt with rfl | hα
  swap
  · exact rrcos_cascade_pos α T t hα h1 hT
  have hπ := Real.pi_pos
  set K := 2 + T / Real.pi with hK
  have hK0 : 0 < K := by positivity
  have hD : ∀ s : ℝ, (K / (1 + |s|)) ^ 2 ≤ K ^ 2 * (1 + s ^ 2)⁻¹ := by
    intro s
    rw [div_pow, div_eq_mul_inv]
    gcongr
    rw [← sq_abs s]
    nlinarith [abs_nonneg s]
  have hbound : Integrable (fun s : ℝ => (K ^ 2 * (1 + s ^ 2)⁻¹ + K ^ 2 * (1 + (t - s) ^ 2)⁻¹) / 2) := by
    have i1 : Integrable (fun s : ℝ => K ^ 2 * (1 + s ^ 2)⁻¹) := integrable_inv_one_add_sq.const_mul _
    exact (i1.add (i1.comp_sub_left t)).div_const 2
  have hlim := tendsto_integral_of_dominated_convergence (μ := volume)
    (F := fun (n : ℕ) s => rrcosTap (1 / ((n : ℝ) + 1)) T s * rrcosTap (1 / ((n : ℝ) + 1)) T (t - s))
    (f := fun s => rrcosTap 0 T s * rrcosTap 0 T (t - s))
    (fun s : ℝ => (K ^ 2 * (1 + s ^ 2)⁻¹ + K ^ 2 * (1 + (t - s) ^ 2)⁻¹) / 2)
    (by
      intro n
      have hc := rrcosTap_continuous (1 / ((n : ℝ) + 1)) T (by positivity)
        (by rw [div_le_one (by positivity)]; linarith [Nat.cast_nonneg (α := ℝ) n]) hT
      exact (hc.mul (hc.comp (continuous_const.sub continuous_id))).aestronglyMeasurable)
    hbound
    (by
      intro n
      refine ae_of_all _ (fun s => ?_)
      have p0 : 0 < 1 / ((n : ℝ) + 1) := by positivity
      have p1 : 1 / ((n : ℝ) + 1) ≤ 1 := by
        rw [div_le_one (by positivity)]; linarith [Nat.cast_nonneg (α := ℝ) n]
      have b1 := rrcosTap_le_both _ T s p0 p1 hT
      have b2 := rrcosTap_le_both _ T (t - s) p0 p1 hT
      rw [norm_mul, Real.norm_eq_abs, Real.norm_eq_abs]
      have b3 : |rrcosTap (1 / ((n : ℝ) + 1)) T s| * |rrcosTap (1 / ((n : ℝ) + 1)) T (t - s)| ≤
          K / (1 + |s|) * (K / (1 + |t - s|)) := by gcongr
      have b4 := hD s
      have b5 := hD (t - s)
      nlinarith [sq_nonneg (K / (1 + |s|) - K / (1 + |t - s|))])
    (ae_of_all _ (fun s => (rrcos_limit_alpha T s hT).mul (rrcos_limit_alpha T (t - s) hT)))
  have hl2 : Tendsto (fun n : ℕ => T * rcosTap (1 / ((n : ℝ) + 1)) T t) atTop (𝓝 (T * rcosTap 0 T t)) :=
    (rcos_limit_alpha T t hT).const_mul T
  refine tendsto_nhds_unique hlim (hl2.congr (fun n => ?_))
  exact (rrcos_cascade_pos _ T t (by positivity)
    (by rw [div_le_one (by positivity)]; linarith [Nat.cast_nonneg (α := ℝ) n]) hT).symm

end Verif
