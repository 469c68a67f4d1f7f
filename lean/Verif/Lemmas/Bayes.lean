import Verif.Spec.ModemError
import Mathlib.Probability.Independence.Integration
import Mathlib.MeasureTheory.Measure.WithDensity
/-
Bayes decisions between finitely many measures with densities; shifted Gaussian measures.
-/
namespace Verif
open MeasureTheory ProbabilityTheory Finset
open scoped ENNReal NNReal

/-- Of all decision functions the one that picks the class of largest total density is right most often. -/
theorem bayes {Y ι κ : Type*} [MeasurableSpace Y] {ρ : Measure Y} (S : Finset ι) [DecidableEq κ] (P : ι → Measure Y) (f : ι → Y → ℝ≥0∞) (hf : ∀ i ∈ S, Measurable (f i))
    (hP : ∀ i ∈ S, P i = ρ.withDensity (f i)) (cls : ι → κ) (d g : Y → κ) (hd : ∀ k, MeasurableSet (d ⁻¹' {k})) (hg : ∀ k, MeasurableSet (g ⁻¹' {k}))
    (hopt : ∀ y k, ∑ i ∈ S with cls i = k, f i y ≤ ∑ i ∈ S with cls i = d y, f i y) : ∑ i ∈ S, P i {y | g y = cls i} ≤ ∑ i ∈ S, P i {y | d y = cls i} := by
  have key : ∀ e : Y → κ, (∀ k, MeasurableSet (e ⁻¹' {k})) → ∑ i ∈ S, P i {y | e y = cls i} = ∫⁻ y, ∑ i ∈ S with cls i = e y, f i y ∂ρ := by
    intro e he
    have h1 : ∀ i ∈ S, P i {y | e y = cls i} = ∫⁻ y, Set.indicator {y | e y = cls i} (f i) y ∂ρ := by
      intro i hi
      have hm : MeasurableSet {y | e y = cls i} := he (cls i)
      rw [hP i hi, withDensity_apply _ hm, lintegral_indicator hm]
    rw [sum_congr rfl h1, ← lintegral_finset_sum]
    · refine lintegral_congr fun y => ?_
      rw [sum_filter]
      refine sum_congr rfl fun i _ => ?_
      by_cases h : e y = cls i
      · rw [Set.indicator_of_mem (by exact h), if_pos h.symm]
      · rw [Set.indicator_of_notMem (by exact h), if_neg (Ne.symm h)]
    · exact fun i hi => (hf i hi).indicator (he (cls i))
  rw [key d hd, key g hg]
  exact lintegral_mono fun y => hopt y _

/-- The same for the probabilities of errors. -/
theorem bayes_error {Y ι κ : Type*} [MeasurableSpace Y] {ρ : Measure Y} (S : Finset ι) [DecidableEq κ] (P : ι → Measure Y) [∀ i, IsProbabilityMeasure (P i)] (f : ι → Y → ℝ≥0∞)
    (hf : ∀ i ∈ S, Measurable (f i)) (hP : ∀ i ∈ S, P i = ρ.withDensity (f i)) (cls : ι → κ) (d g : Y → κ) (hd : ∀ k, MeasurableSet (d ⁻¹' {k})) (hg : ∀ k, MeasurableSet (g ⁻¹' {k}))
    (hopt : ∀ y k, ∑ i ∈ S with cls i = k, f i y ≤ ∑ i ∈ S with cls i = d y, f i y) : ∑ i ∈ S, (P i).real {y | d y ≠ cls i} ≤ ∑ i ∈ S, (P i).real {y | g y ≠ cls i} := by
  have h := bayes S P f hf hP cls d g hd hg hopt
  have hc : ∀ e : Y → κ, (∀ k, MeasurableSet (e ⁻¹' {k})) → ∀ i, (P i).real {y | e y ≠ cls i} = 1 - (P i).real {y | e y = cls i} := by
    intro e he i
    have hm : MeasurableSet {y | e y = cls i} := he (cls i)
    rw [← probReal_compl_eq_one_sub hm]
    rfl
  rw [sum_congr rfl fun i _ => hc d hd i, sum_congr rfl fun i _ => hc g hg i, sum_sub_distrib, sum_sub_distrib]
  refine sub_le_sub_left ?_ _
  have e : ∀ e : Y → κ, ∑ i ∈ S, (P i).real {y | e y = cls i} = (∑ i ∈ S, P i {y | e y = cls i}).toReal := fun e => by
    rw [ENNReal.toReal_sum fun i _ => measure_ne_top _ _]
    rfl
  rw [e, e]
  exact ENNReal.toReal_mono (ENNReal.sum_ne_top.2 fun i _ => measure_ne_top _ _) h

/-! ### Shifted Gaussian measures -/

theorem gauss_shift (b : ℝ) : (gaussianReal 0 1).map (fun x => x + b) = (gaussianReal 0 1).withDensity fun x => ENNReal.ofReal (Real.exp (b * x - b ^ 2 / 2)) := by
  rw [gaussianReal_map_add_const, gaussianReal_of_var_ne_zero _ (by norm_num), gaussianReal_of_var_ne_zero _ (by norm_num), ← withDensity_mul _ (measurable_gaussianPDF _ _) (by fun_prop)]
  congr 1
  funext x
  rw [Pi.mul_apply, gaussianPDF_def, gaussianPDF_def]
  dsimp only
  rw [← ENNReal.ofReal_mul (gaussianPDFReal_nonneg _ _ _)]
  congr 1
  unfold gaussianPDFReal
  rw [mul_assoc (√(2 * Real.pi * ((1 : ℝ≥0) : ℝ)))⁻¹, ← Real.exp_add]
  congr 2
  push_cast
  ring

/-- How much likelier `m` is with the shift `b` than without. -/
noncomputable def shiftRatio (b m : ℝ × ℝ) : ℝ := Real.exp (b.1 * m.1 - b.1 ^ 2 / 2 + (b.2 * m.2 - b.2 ^ 2 / 2))

theorem shiftRatio_measurable (b : ℝ × ℝ) : Measurable (shiftRatio b) := by
  unfold shiftRatio
  fun_prop

theorem noise2_shift (b : ℝ × ℝ) : noise2.map (fun n => n + b) = noise2.withDensity fun m => ENNReal.ofReal (shiftRatio b m) := by
  have h1 : noise2.map (fun n => n + b) = ((gaussianReal 0 1).map fun x => x + b.1).prod ((gaussianReal 0 1).map fun x => x + b.2) := by
    rw [Measure.map_prod_map _ _ (by fun_prop) (by fun_prop)]
    rfl
  rw [h1, gauss_shift, gauss_shift, prod_withDensity (by fun_prop) (by fun_prop)]
  show noise2.withDensity _ = _
  congr 1
  funext m
  rw [← ENNReal.ofReal_mul (Real.exp_pos _).le, ← Real.exp_add]
  rfl

/-- `shiftRatio` in terms of distances. -/
theorem shiftRatio_dist (b m : ℝ × ℝ) : shiftRatio b m = Real.exp ((m.1 ^ 2 + m.2 ^ 2) / 2) * Real.exp (-((m.1 - b.1) ^ 2 + (m.2 - b.2) ^ 2) / 2) := by
  unfold shiftRatio
  rw [← Real.exp_add]
  congr 1
  ring

/-! ### Products -/

theorem pi_withDensity {I : Type*} [Fintype I] {X : I → Type*} [∀ i, MeasurableSpace (X i)] (μ : ∀ i, Measure (X i)) [∀ i, IsProbabilityMeasure (μ i)] (f : ∀ i, X i → ℝ≥0∞)
    (hf : ∀ i, Measurable (f i)) [∀ i, SigmaFinite ((μ i).withDensity (f i))] :
    Measure.pi (fun i => (μ i).withDensity (f i)) = (Measure.pi μ).withDensity fun x => ∏ i, f i (x i) := by
  refine Measure.pi_eq fun s hs => ?_
  rw [withDensity_apply _ (MeasurableSet.univ_pi hs), ← lintegral_indicator (MeasurableSet.univ_pi hs)]
  have hind : ∀ x : ∀ i, X i, Set.indicator (Set.univ.pi s) (fun x => ∏ i, f i (x i)) x = ∏ i ∈ Finset.univ, (s i).indicator (f i) (x i) := by
    intro x
    by_cases h : x ∈ Set.univ.pi s
    · rw [Set.indicator_of_mem h]
      exact prod_congr rfl fun i _ => by rw [Set.indicator_of_mem (h i trivial)]
    · rw [Set.indicator_of_notMem h]
      simp only [Set.mem_pi, Set.mem_univ, forall_true_left, not_forall] at h
      obtain ⟨i, hi⟩ := h
      exact (prod_eq_zero (mem_univ i) (by rw [Set.indicator_of_notMem hi])).symm
  simp only [hind]
  have hI : iIndepFun (fun i (x : ∀ i, X i) => (s i).indicator (f i) (x i)) (Measure.pi μ) :=
    iIndepFun_pi fun i => ((hf i).indicator (hs i)).aemeasurable
  rw [lintegral_prod_eq_prod_lintegral_of_indepFun _ _ hI fun i => ((hf i).indicator (hs i)).comp (measurable_pi_apply i)]
  refine prod_congr rfl fun i _ => ?_
  rw [withDensity_apply _ (hs i), ← lintegral_indicator (hs i)]
  exact (measurePreserving_eval μ i).lintegral_comp ((hf i).indicator (hs i))

end Verif
