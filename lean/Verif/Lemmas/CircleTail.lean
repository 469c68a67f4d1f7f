import Verif.Lemmas.Rayleigh
import Verif.Spec.Random
import Mathlib.MeasureTheory.Integral.IntegralEqImproper
/-
The probability that a pair of independent normal variables lies outside a disk.
-/
namespace Verif
open MeasureTheory ProbabilityTheory Filter Topology

theorem radius_tail {a : ℝ} (ha : 0 ≤ a) :
    ∫⁻ r in Set.Ioi a, ENNReal.ofReal (r / 1 * Real.exp (-(r ^ 2 / (2 * 1)))) = ENNReal.ofReal (Real.exp (-(a ^ 2 / 2))) := by
  have hd : ∀ x ∈ Set.Ici a, HasDerivAt (fun r : ℝ => -Real.exp (-(r ^ 2 / 2))) (x / 1 * Real.exp (-(x ^ 2 / (2 * 1)))) x := by
    intro x _
    have h1 : HasDerivAt (fun r : ℝ => -(r ^ 2 / 2)) (-((2 : ℕ) * x ^ (2 - 1) / 2)) x := ((hasDerivAt_pow 2 x).div_const 2).neg
    have h2 : HasDerivAt (fun r : ℝ => -Real.exp (-(r ^ 2 / 2))) (-(Real.exp (-(x ^ 2 / 2)) * (-((2 : ℕ) * x ^ (2 - 1) / 2)))) x := h1.exp.neg
    have e : -(Real.exp (-(x ^ 2 / 2)) * (-((2 : ℕ) * x ^ (2 - 1) / 2))) = x / 1 * Real.exp (-(x ^ 2 / (2 * 1))) := by
      norm_num
      ring
    rw [e] at h2
    exact h2
  have hpos : ∀ x ∈ Set.Ioi a, 0 ≤ x / 1 * Real.exp (-(x ^ 2 / (2 * 1))) := by
    intro x hx
    have : 0 ≤ x := ha.trans (le_of_lt hx)
    positivity
  have ht : Tendsto (fun r : ℝ => -Real.exp (-(r ^ 2 / 2))) atTop (𝓝 0) := by
    rw [← neg_zero]
    apply Tendsto.neg
    apply Real.tendsto_exp_neg_atTop_nhds_zero.comp
    apply Tendsto.atTop_div_const (by norm_num)
    exact tendsto_pow_atTop (by norm_num)
  have hi := integrableOn_Ioi_deriv_of_nonneg' hd hpos ht
  have hv := integral_Ioi_of_hasDerivAt_of_nonneg' hd hpos ht
  rw [← ofReal_integral_eq_lintegral_ofReal hi ((ae_restrict_mem measurableSet_Ioi).mono hpos), hv]
  congr 1
  ring

/-- Two independent standard normal variables: the probability of leaving the disk of radius `r`. -/
theorem circle_tail {Ω : Type*} [MeasurableSpace Ω] {P : Measure Ω} {X Y : Ω → ℝ} (hX : HasLaw X (gaussianReal 0 1) P) (hY : HasLaw Y (gaussianReal 0 1) P)
    (hi : IndepFun X Y P) {r : ℝ} (hr : 0 ≤ r) : P {ω | r ^ 2 < X ω ^ 2 + Y ω ^ 2} = ENNReal.ofReal (Real.exp (-(r ^ 2 / 2))) := by
  have hP : IsProbabilityMeasure P := by
    have h1 : P.map X = gaussianReal 0 1 := hX.map_eq
    have : IsProbabilityMeasure (P.map X) := by rw [h1]; infer_instance
    exact Measure.isProbabilityMeasure_of_map (f := X)
  have hm : AEMeasurable (fun ω => (X ω, Y ω)) P := hX.aemeasurable.prodMk hY.aemeasurable
  have hlaw : P.map (fun ω => (X ω, Y ω)) = (gaussianReal 0 (1 : ℝ).toNNReal).prod (gaussianReal 0 (1 : ℝ).toNNReal) := by
    rw [(indepFun_iff_map_prod_eq_prod_map_map hX.aemeasurable hY.aemeasurable).1 hi, hX.map_eq, hY.map_eq, Real.toNNReal_one]
  have hA : MeasurableSet {p : ℝ × ℝ | r ^ 2 < p.1 ^ 2 + p.2 ^ 2} := measurableSet_lt (by fun_prop) (by fun_prop)
  have hB : MeasurableSet {t : ℝ | r ^ 2 < t} := measurableSet_Ioi
  have e1 : P {ω | r ^ 2 < X ω ^ 2 + Y ω ^ 2} = ∫⁻ p, Set.indicator {t : ℝ | r ^ 2 < t} 1 (p.1 ^ 2 + p.2 ^ 2) ∂((gaussianReal 0 (1 : ℝ).toNNReal).prod (gaussianReal 0 (1 : ℝ).toNNReal)) := by
    have : (fun p : ℝ × ℝ => Set.indicator {t : ℝ | r ^ 2 < t} (1 : ℝ → ENNReal) (p.1 ^ 2 + p.2 ^ 2)) = Set.indicator {p : ℝ × ℝ | r ^ 2 < p.1 ^ 2 + p.2 ^ 2} 1 := by
      funext p
      simp [Set.indicator_apply]
    rw [this, lintegral_indicator_one hA, ← hlaw, Measure.map_apply_of_aemeasurable hm hA]
    rfl
  rw [e1, radius_lintegral (by norm_num) (measurable_one.indicator hB), ← radius_tail hr]
  have e2 : ∀ x ∈ Set.Ioi (0 : ℝ), ENNReal.ofReal (x / 1 * Real.exp (-(x ^ 2 / (2 * 1)))) * Set.indicator {t : ℝ | r ^ 2 < t} (1 : ℝ → ENNReal) (x ^ 2) =
      Set.indicator (Set.Ioi r) (fun x => ENNReal.ofReal (x / 1 * Real.exp (-(x ^ 2 / (2 * 1))))) x := by
    intro x hx
    have hx : 0 < x := hx
    have : r ^ 2 < x ^ 2 ↔ r < x := by rw [sq_lt_sq, abs_of_nonneg hr, abs_of_pos hx]
    simp only [Set.indicator_apply, Set.mem_ofPred_eq, Set.mem_Ioi, this]
    split_ifs <;> simp
  rw [setLIntegral_congr_fun measurableSet_Ioi e2, setLIntegral_indicator measurableSet_Ioi]
  congr 2
  ext x
  simp only [Set.mem_inter_iff, Set.mem_Ioi]
  exact ⟨fun h => h.1, fun h => ⟨h, lt_of_le_of_lt hr h⟩⟩

end Verif
