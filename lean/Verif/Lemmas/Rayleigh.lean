import Verif.Lemmas.GaussLinear
import Mathlib.Analysis.SpecialFunctions.PolarCoord
import Mathlib.Analysis.SpecialFunctions.Integrals.Basic
/-
Sums of squares of normal variables in pairs.
-/
namespace Verif
open MeasureTheory ProbabilityTheory

/-- The radius of a pair of normal variables of variance `V`. -/
theorem radius_lintegral {V : ℝ} (hV : 0 < V) {f : ℝ → ENNReal} (hf : Measurable f) :
    ∫⁻ p, f (p.1 ^ 2 + p.2 ^ 2) ∂((gaussianReal 0 V.toNNReal).prod (gaussianReal 0 V.toNNReal)) =
      ∫⁻ r in Set.Ioi (0 : ℝ), ENNReal.ofReal (r / V * Real.exp (-(r ^ 2 / (2 * V)))) * f (r ^ 2) := by
  have hv : V.toNNReal ≠ 0 := by rw [ne_eq, Real.toNNReal_eq_zero]; linarith
  rw [gaussianReal_of_var_ne_zero 0 hv, prod_withDensity (measurable_gaussianPDF _ _) (measurable_gaussianPDF _ _),
    lintegral_withDensity_eq_lintegral_mul _ (by fun_prop) (by fun_prop), ← Measure.volume_eq_prod, ← lintegral_comp_polarCoord_symm]
  have e : ∀ p : ℝ × ℝ, 0 < p.1 → ENNReal.ofReal p.1 • ((fun z : ℝ × ℝ => gaussianPDF 0 V.toNNReal z.1 * gaussianPDF 0 V.toNNReal z.2) * fun p : ℝ × ℝ => f (p.1 ^ 2 + p.2 ^ 2)) (polarCoord.symm p) =
      ENNReal.ofReal (1 / (2 * Real.pi)) * (ENNReal.ofReal (p.1 / V * Real.exp (-(p.1 ^ 2 / (2 * V)))) * f (p.1 ^ 2)) := by
    rintro ⟨r, θ⟩ hr
    dsimp only at hr
    simp only [polarCoord_symm_apply, Pi.mul_apply, smul_eq_mul]
    have h1 : (r * Real.cos θ) ^ 2 + (r * Real.sin θ) ^ 2 = r ^ 2 := by
      have := Real.sin_sq_add_cos_sq θ
      linear_combination r ^ 2 * this
    rw [h1, ← mul_assoc, ← mul_assoc (ENNReal.ofReal (1 / (2 * Real.pi)))]
    congr 1
    unfold gaussianPDF
    rw [← ENNReal.ofReal_mul (gaussianPDFReal_nonneg _ _ _), ← ENNReal.ofReal_mul hr.le, ← ENNReal.ofReal_mul (by positivity)]
    congr 1
    unfold gaussianPDFReal
    rw [Real.coe_toNNReal _ hV.le]
    have h2 : Real.exp (-(r * Real.cos θ - 0) ^ 2 / (2 * V)) * Real.exp (-(r * Real.sin θ - 0) ^ 2 / (2 * V)) = Real.exp (-(r ^ 2 / (2 * V))) := by
      rw [← Real.exp_add, ← h1]
      congr 1
      ring
    have h3 : Real.sqrt (2 * Real.pi * V) * Real.sqrt (2 * Real.pi * V) = 2 * Real.pi * V := Real.mul_self_sqrt (by positivity)
    have h4 : (Real.sqrt (2 * Real.pi * V))⁻¹ * (Real.sqrt (2 * Real.pi * V))⁻¹ = 1 / (2 * Real.pi * V) := by rw [← mul_inv, h3, one_div]
    calc r * ((Real.sqrt (2 * Real.pi * V))⁻¹ * Real.exp (-(r * Real.cos θ - 0) ^ 2 / (2 * V)) * ((Real.sqrt (2 * Real.pi * V))⁻¹ * Real.exp (-(r * Real.sin θ - 0) ^ 2 / (2 * V))))
        = r * (((Real.sqrt (2 * Real.pi * V))⁻¹ * (Real.sqrt (2 * Real.pi * V))⁻¹) * (Real.exp (-(r * Real.cos θ - 0) ^ 2 / (2 * V)) * Real.exp (-(r * Real.sin θ - 0) ^ 2 / (2 * V)))) := by ring
      _ = _ := by rw [h2, h4]; field_simp
  have hT : MeasurableSet polarCoord.target := polarCoord.open_target.measurableSet
  rw [setLIntegral_congr_fun hT (fun p hp => e p (by rw [polarCoord_target] at hp; exact hp.1))]
  rw [polarCoord_target, Measure.volume_eq_prod, ← Measure.prod_restrict, lintegral_prod _ (by fun_prop)]
  dsimp only
  simp only [lintegral_const, Measure.restrict_apply_univ, Real.volume_Ioo]
  rw [lintegral_mul_const _ (by fun_prop), lintegral_const_mul _ (by fun_prop), mul_comm, ← mul_assoc, ← ENNReal.ofReal_mul (by have := Real.pi_pos; linarith)]
  have : (Real.pi - -Real.pi) * (1 / (2 * Real.pi)) = 1 := by have := Real.pi_pos; field_simp; ring
  rw [this, ENNReal.ofReal_one, one_mul]

/-- Distribution function of a sum of `L` squared moduli. -/
noncomputable def erlang (V : ℝ) (L : ℕ) (t : ℝ) : ℝ := 1 - Real.exp (-(t / (2 * V))) * ∑ k ∈ Finset.range L, (t / (2 * V)) ^ k / k.factorial

theorem erlang_step {V : ℝ} (hV : 0 < V) (L : ℕ) {t : ℝ} (ht : 0 < t) :
    ∫ r in (0 : ℝ)..Real.sqrt t, r / V * Real.exp (-(r ^ 2 / (2 * V))) * erlang V L (t - r ^ 2) = erlang V (L + 1) t := by
  let F : ℝ → ℝ := fun r => -Real.exp (-(r ^ 2 / (2 * V))) + Real.exp (-(t / (2 * V))) * ∑ k ∈ Finset.range L, ((t - r ^ 2) / (2 * V)) ^ (k + 1) / (k + 1).factorial
  have hF : ∀ r, HasDerivAt F (r / V * Real.exp (-(r ^ 2 / (2 * V))) * erlang V L (t - r ^ 2)) r := by
    intro r
    have h1 : HasDerivAt (fun r : ℝ => r ^ 2) (2 * r) r := by simpa using hasDerivAt_pow 2 r
    have h2 : HasDerivAt (fun r : ℝ => -(r ^ 2 / (2 * V))) (-(2 * r / (2 * V))) r := (h1.div_const _).neg
    have h3 : HasDerivAt (fun r : ℝ => (t - r ^ 2) / (2 * V)) (-(2 * r) / (2 * V)) r := (h1.const_sub t).div_const _
    have h4 : HasDerivAt (fun r : ℝ => ∑ k ∈ Finset.range L, ((t - r ^ 2) / (2 * V)) ^ (k + 1) / (k + 1).factorial)
        (∑ k ∈ Finset.range L, ((k + 1 : ℕ) : ℝ) * ((t - r ^ 2) / (2 * V)) ^ k * (-(2 * r) / (2 * V)) / (k + 1).factorial) r := by
      refine HasDerivAt.fun_sum fun k _ => ?_
      have := (h3.pow (k + 1)).div_const ((k + 1).factorial : ℝ)
      simpa using this
    have h5 := (h2.exp.neg).add (h4.const_mul (Real.exp (-(t / (2 * V)))))
    refine h5.congr_deriv ?_
    have h6 : ∑ k ∈ Finset.range L, ((k + 1 : ℕ) : ℝ) * ((t - r ^ 2) / (2 * V)) ^ k * (-(2 * r) / (2 * V)) / (k + 1).factorial =
        -(r / V) * ∑ k ∈ Finset.range L, ((t - r ^ 2) / (2 * V)) ^ k / k.factorial := by
      rw [Finset.mul_sum]
      refine Finset.sum_congr rfl fun k _ => ?_
      rw [Nat.factorial_succ]
      have : ((k + 1 : ℕ) : ℝ) ≠ 0 := by positivity
      have hk : (k.factorial : ℝ) ≠ 0 := by positivity
      push_cast at this ⊢
      field_simp
    rw [h6]
    unfold erlang
    have h7 : Real.exp (-(r ^ 2 / (2 * V))) * Real.exp (-((t - r ^ 2) / (2 * V))) = Real.exp (-(t / (2 * V))) := by
      rw [← Real.exp_add]
      congr 1
      field_simp
      ring
    rw [← h7]
    field_simp
    ring
  rw [intervalIntegral.integral_eq_sub_of_hasDerivAt (fun r _ => hF r) ?_]
  · simp only [F]
    rw [Real.sq_sqrt ht.le]
    unfold erlang
    rw [Finset.sum_range_succ']
    simp
    ring
  · apply Continuous.intervalIntegrable
    unfold erlang
    fun_prop

end Verif
