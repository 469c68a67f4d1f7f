import Verif.Lemmas.FilterMatched
import Mathlib.Analysis.SpecialFunctions.Gaussian.FourierTransform
/-
Property theorems for commpy/filters.py in the frequency domain: C105.
The specification (`rcSpectrum`, `rrcSpectrum`) is in Spec/Filters and does not mention the taps.
-/
namespace Verif

open MeasureTheory FourierTransform

/-- C105, raised cosine: tap `x` is the value at its time of the pulse whose spectrum is the raised-cosine spectrum. -/
theorem C105_rcos_spectrum (N : Nat) (α Ts Fs : ℝ) (h0 : 0 ≤ α) (h1 : α ≤ 1) (hT : 0 < Ts) (hF : 0 < Fs) :
    ∃ time h, rcosfilter N α Ts Fs = .ok (time, h) ∧ h.length = N ∧
      ∀ x, x < N → h[x]? = some (∫ f, rcSpectrum α Ts f * Real.cos (2 * Real.pi * f * (((x : ℝ) - N / 2) / Fs))) := by
  refine ⟨_, _, rcosfilter_ok N α Ts Fs hF.ne', by simp, ?_⟩
  intro x hx
  simp only [List.getElem?_map, List.getElem?_range hx, Option.map_some]
  rw [rcos_fourier α Ts _ h0 h1 hT, show filterTime N Fs x = ((x : ℝ) - N / 2) / Fs by unfold filterTime; ring]

/-- C105, root raised cosine: the same with the square-root spectrum. -/
theorem C105_rrcos_spectrum (N : Nat) (α Ts Fs : ℝ) (h0 : 0 ≤ α) (h1 : α ≤ 1) (hT : 0 < Ts) (hF : 0 < Fs) :
    ∃ time h, rrcosfilter N α Ts Fs = .ok (time, h) ∧ h.length = N ∧
      ∀ x, x < N → h[x]? = some (∫ f, rrcSpectrum α Ts f * Real.cos (2 * Real.pi * f * (((x : ℝ) - N / 2) / Fs))) := by
  refine ⟨_, _, rrcosfilter_ok N α Ts Fs hF.ne', by simp, ?_⟩
  intro x hx
  simp only [List.getElem?_map, List.getElem?_range hx, Option.map_some]
  rw [rrcos_fourier α Ts _ h0 h1 hT, show filterTime N Fs x = ((x : ℝ) - N / 2) / Fs by unfold filterTime; ring]

/-- C105, band limitation: for a positive roll-off the Fourier transform of the pulse sampled by `rcosfilter` is the
raised-cosine spectrum and that of the pulse sampled by `rrcosfilter` its (scaled) square root; both vanish beyond
`(1+α)/2Ts`.  (`rcosTap α Ts t`, `rrcosTap α Ts t` are the values the two functions return for a sample at time `t`: C18, C19.) -/
theorem C105_band (α Ts : ℝ) (h0 : 0 < α) (h1 : α ≤ 1) (hT : 0 < Ts) (f : ℝ) :
    (∫ t, rcosTap α Ts t * Real.cos (2 * Real.pi * t * f)) = rcSpectrum α Ts f ∧
    (∫ t, rrcosTap α Ts t * Real.cos (2 * Real.pi * t * f)) = rrcSpectrum α Ts f ∧
    Integrable (rcosTap α Ts) ∧ Integrable (rrcosTap α Ts) ∧
    ((1 + α) / (2 * Ts) < |f| → rcSpectrum α Ts f = 0 ∧ rrcSpectrum α Ts f = 0) := by
  refine ⟨?_, ?_, rcosTap_integrable α Ts h0 h1 hT, rrcosTap_integrable α Ts h0 h1 hT, ?_⟩
  · exact (fourier_pulse _ _ (rcSpectrum_integrable α Ts h0 hT) (rcSpectrum_continuous α Ts h0 hT)
      (rcSpectrum_neg α Ts) (fun t => rcos_fourier α Ts t h0.le h1 hT) (rcosTap_integrable α Ts h0 h1 hT) f).2
  · exact (fourier_pulse _ _ (rrcSpectrum_integrable α Ts h0 hT) (rrcSpectrum_continuous α Ts h0 hT)
      (rrcSpectrum_neg α Ts) (fun t => rrcos_fourier α Ts t h0.le h1 hT) (rrcosTap_integrable α Ts h0 h1 hT) f).2
  · intro hf
    have h := rrcSpectrum_zero_of α Ts f h0.le hT hf
    refine ⟨?_, h⟩
    rw [rcSpectrum_of_sq α Ts f hT, h]; simp

/-- C105, matched filters: let `p` be the root raised-cosine pulse.  `rrcosfilter` returns samples of `p`, and the
convolution of `p` with itself, sampled on the same grid, is `Ts` times what `rcosfilter` returns. -/
theorem C105_matched (N : Nat) (α Ts Fs : ℝ) (h0 : 0 ≤ α) (h1 : α ≤ 1) (hT : 0 < Ts) (hF : 0 < Fs) :
    ∃ p : ℝ → ℝ, ∃ time h hrc, rrcosfilter N α Ts Fs = .ok (time, h) ∧ rcosfilter N α Ts Fs = .ok (time, hrc) ∧
      (∀ t, p t = ∫ f, rrcSpectrum α Ts f * Real.cos (2 * Real.pi * f * t)) ∧ h = time.map p ∧
      hrc.map (Ts * ·) = time.map (fun t => ∫ s, p s * p (t - s)) := by
  refine ⟨rrcosTap α Ts, _, _, _, rrcosfilter_ok N α Ts Fs hF.ne', rcosfilter_ok N α Ts Fs hF.ne',
    fun t => rrcos_fourier α Ts t h0 h1 hT, ?_, ?_⟩
  · rw [List.map_map]; rfl
  · rw [List.map_map, List.map_map]
    apply List.map_congr_left
    intro x _
    simp only [Function.comp]
    rw [rrcos_cascade α Ts _ h0 h1 hT]

/-- C105, no inter-symbol interference: the root raised-cosine pulse is orthogonal to its shifts by multiples of the
symbol period, and its energy is `Ts`. -/
theorem C105_orthogonal (α Ts : ℝ) (h0 : 0 ≤ α) (h1 : α ≤ 1) (hT : 0 < Ts) (k : Int) :
    ∫ s, rrcosTap α Ts s * rrcosTap α Ts (s - k * Ts) = if k = 0 then Ts else 0 := by
  have e : ∀ s, rrcosTap α Ts s * rrcosTap α Ts (s - k * Ts) = rrcosTap α Ts s * rrcosTap α Ts (k * Ts - s) := by
    intro s
    rw [← rrcosTap_even α Ts (k * Ts - s), neg_sub]
  simp_rw [e]
  rw [rrcos_cascade α Ts _ h0 h1 hT]
  by_cases hk : k = 0
  · subst hk; simp [rcosTap]
  · rw [if_neg hk]
    rw [rcosTap_nyquist α Ts hT.ne' k hk, mul_zero]

/-- C105, Gaussian: tap `x` is the value at its time of the pulse with spectrum `exp(-α² f²)`. -/
theorem C105_gauss_spectrum (N : Nat) (α Ts Fs : ℝ) (ha : 0 < α) (hF : 0 < Fs) :
    ∃ time h, gaussianfilter N α Ts Fs = .ok (time, h) ∧ h.length = N ∧
      ∀ x, x < N → h[x]? = some (∫ f, Real.exp (-(α ^ 2 * f ^ 2)) * Real.cos (2 * Real.pi * f * (((x : ℝ) - N / 2) / Fs))) := by
  refine ⟨_, _, by simp only [gaussianfilter, if_neg hF.ne', if_neg ha.ne']; rfl, by simp, ?_⟩
  intro x hx
  simp only [List.getElem?_map, List.getElem?_range hx, Option.map_some]
  rw [← show filterTime N Fs x = ((x : ℝ) - N / 2) / Fs by unfold filterTime; ring]
  generalize filterTime N Fs x = t
  congr 1
  have hπ := Real.pi_pos
  have hb : 0 < α ^ 2 / Real.pi := by positivity
  have hi : Integrable (fun f : ℝ => Real.exp (-(α ^ 2 * f ^ 2))) := by
    have := integrable_exp_neg_mul_sq (show 0 < α ^ 2 by positivity)
    simpa using this
  have h1 := fourier_even (fun f => Real.exp (-(α ^ 2 * f ^ 2))) hi (fun f => by simp) t
  have h2 := congrFun (fourier_gaussian_pi (b := ((α ^ 2 / Real.pi : ℝ) : ℂ)) (by rw [Complex.ofReal_re]; exact hb)) t
  have e : (fun f : ℝ => ((Real.exp (-(α ^ 2 * f ^ 2)) : ℝ) : ℂ)) =
      fun f : ℝ => Complex.exp (-Real.pi * ((α ^ 2 / Real.pi : ℝ) : ℂ) * f ^ 2) := by
    funext f
    rw [Complex.ofReal_exp]
    congr 1
    have hπc : (Real.pi : ℂ) ≠ 0 := by exact_mod_cast hπ.ne'
    push_cast
    field_simp
  rw [e, h2] at h1
  have hs : ((α ^ 2 / Real.pi : ℝ) : ℂ) ^ (1 / 2 : ℂ) = ((α / Real.sqrt Real.pi : ℝ) : ℂ) := by
    rw [show (1 / 2 : ℂ) = ((1 / 2 : ℝ) : ℂ) by push_cast; rfl, ← Complex.ofReal_cpow hb.le, ← Real.sqrt_eq_rpow,
      Real.sqrt_div (by positivity), Real.sqrt_sq ha.le]
  rw [hs] at h1
  have h3 : (1 : ℂ) / ((α / Real.sqrt Real.pi : ℝ) : ℂ) *
      Complex.exp (-Real.pi / ((α ^ 2 / Real.pi : ℝ) : ℂ) * t ^ 2) =
      ((Real.sqrt Real.pi / α * Real.exp (-((Real.pi * t / α) * (Real.pi * t / α))) : ℝ) : ℂ) := by
    push_cast
    congr 1
    · field_simp
    · congr 1
      have hπc : (Real.pi : ℂ) ≠ 0 := by exact_mod_cast hπ.ne'
      have hac : (α : ℂ) ≠ 0 := by exact_mod_cast ha.ne'
      field_simp
  rw [h3] at h1
  exact_mod_cast h1

/-- The hypotheses are met by the usual choice of roll-off 0.35, and the spectrum is not constant. -/
example : (0 : ℝ) ≤ 0.35 ∧ (0.35 : ℝ) ≤ 1 ∧ rcSpectrum 0.35 1 0 = 1 ∧ rcSpectrum 0.35 1 0.5 = 1 / 2 ∧
    rcSpectrum 0.35 1 1 = 0 := by
  refine ⟨by norm_num, by norm_num, ?_, ?_, ?_⟩
  · unfold rcSpectrum; rw [if_pos (by norm_num)]
  · unfold rcSpectrum
    rw [if_neg (by norm_num), if_pos (by norm_num [abs_of_pos])]
    rw [show Real.pi * 1 / 0.35 * (|(0.5:ℝ)| - (1 - 0.35) / (2 * 1)) = Real.pi / 2 by
      rw [abs_of_pos (by norm_num)]; ring, Real.cos_pi_div_two]
    norm_num
  · unfold rcSpectrum; rw [if_neg (by norm_num), if_neg (by norm_num)]

end Verif
