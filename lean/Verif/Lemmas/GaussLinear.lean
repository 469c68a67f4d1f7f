import Verif.Props.ViterbiNoise
import Mathlib.Probability.Distributions.Gaussian.HasGaussianLaw.Independence
import Mathlib.Probability.Moments.Covariance
import Mathlib.Analysis.SpecialFunctions.Gaussian.GaussianIntegral
/-
Linear combinations of independent standard normal variables; tails of the normal distribution.
-/
namespace Verif
open MeasureTheory ProbabilityTheory

section
variable {Ω : Type*} [MeasurableSpace Ω] {P : Measure Ω}

theorem law_gaussian {X : Ω → ℝ} {v : NNReal} (h : HasLaw X (gaussianReal 0 v) P) : HasGaussianLaw X P := h.hasGaussianLaw

/-- A weighted sum of normal draws at distinct places. -/
theorem normal_combo {ι : Type*} [Fintype ι] {z : Ω → ℕ → ℝ} (hz : NormalDraws P z) (hind : iIndepFun (fun i ω => z ω i) P) {e : ι → ℕ}
    (he : Function.Injective e) (g : ι → ℝ) : HasLaw (fun ω => ∑ i, g i * z ω (e i)) (gaussianReal 0 (∑ i, g i ^ 2).toNNReal) P := by
  classical
  have h := normal_sum hz hind (Function.extend e g 0) (Finset.univ.map ⟨e, he⟩)
  simp only [Finset.sum_map, Function.Embedding.coeFn_mk, he.extend_apply] at h
  exact h

theorem draw_memLp {z : Ω → ℕ → ℝ} (hz : NormalDraws P z) (i : ℕ) : MemLp (fun ω => z ω i) 2 P := (law_gaussian (hz i)).memLp_two

theorem draws_cov {z : Ω → ℕ → ℝ} (hz : NormalDraws P z) (hind : iIndepFun (fun i ω => z ω i) P) (i j : ℕ) :
    cov[fun ω => z ω i, fun ω => z ω j; P] = if i = j then 1 else 0 := by
  by_cases h : i = j
  · subst h
    rw [if_pos rfl, covariance_self (hz i).aemeasurable]
    have := (hz i).variance_eq
    rw [this]
    simp
  · rw [if_neg h]
    exact (hind.indepFun h).covariance_eq_zero (draw_memLp hz i) (draw_memLp hz j)

/-- Orthogonal combinations of the same norm are independent normal variables. -/
theorem orthogonal_combos {ι κ : Type*} [Fintype ι] [DecidableEq ι] [Fintype κ] {z : Ω → ℕ → ℝ} (hz : NormalDraws P z)
    (hind : iIndepFun (fun i ω => z ω i) P) {e : κ → ℕ} (he : Function.Injective e) (A : ι → κ → ℝ) {V : ℝ}
    (hA : ∀ i j, ∑ k, A i k * A j k = if i = j then V else 0) :
    iIndepFun (fun i ω => ∑ k, A i k * z ω (e k)) P ∧ ∀ i, HasLaw (fun ω => ∑ k, A i k * z ω (e k)) (gaussianReal 0 V.toNNReal) P := by
  classical
  have hP := hind.isProbabilityMeasure
  refine ⟨?_, fun i => ?_⟩
  · have hzk : iIndepFun (fun k ω => z ω (e k)) P := hind.precomp he
    have hg : HasGaussianLaw (fun ω k => z ω (e k)) P := hzk.hasGaussianLaw fun k => law_gaussian (hz (e k))
    have hl : HasGaussianLaw (fun ω i => ∑ k, A i k * z ω (e k)) P := by
      have := hg.map_fun (ContinuousLinearMap.pi fun i => ∑ k, A i k • ContinuousLinearMap.proj (R := ℝ) (φ := fun _ : κ => ℝ) k)
      have e2 : (fun ω i => ∑ k, A i k * z ω (e k)) =
          fun ω => (ContinuousLinearMap.pi fun i => ∑ k, A i k • ContinuousLinearMap.proj (R := ℝ) (φ := fun _ : κ => ℝ) k) fun k => z ω (e k) := by
        ext ω i
        simp
      rw [e2]
      exact this
    refine hl.iIndepFun_of_covariance_eq_zero fun i j hij => ?_
    rw [covariance_fun_sum_fun_sum (fun k => (draw_memLp hz (e k)).const_mul _) (fun k => (draw_memLp hz (e k)).const_mul _)]
    have := hA i j
    rw [if_neg hij] at this
    rw [← this]
    refine Finset.sum_congr rfl fun k _ => ?_
    rw [Finset.sum_eq_single k]
    · rw [covariance_const_mul_left, covariance_const_mul_right, draws_cov hz hind, if_pos rfl]; ring
    · intro l _ hlk
      rw [covariance_const_mul_left, covariance_const_mul_right, draws_cov hz hind, if_neg (fun h => hlk (he h).symm)]; ring
    · intro h; exact absurd (Finset.mem_univ k) h
  · have := normal_combo hz hind he (A i)
    have hV := hA i i
    rw [if_pos rfl] at hV
    rw [← hV]
    simpa only [sq] using this

end

/-- Tail of a centred normal variable. -/
theorem gauss_tail {V : ℝ} (hV : 0 < V) (t : ℝ) : (gaussianReal 0 V.toNNReal).real (Set.Ici t) = qFunction (t / Real.sqrt V) := by
  have hs := Real.sqrt_pos.2 hV
  have h1 := gaussianReal_const_mul (X := (id : ℝ → ℝ)) (P := gaussianReal 0 1) (μ := 0) (v := 1) ⟨aemeasurable_id, Measure.map_id⟩ (Real.sqrt V)
  have e : gaussianReal (Real.sqrt V * 0) (NNReal.mk (Real.sqrt V ^ 2) (sq_nonneg _) * 1) = gaussianReal 0 V.toNNReal := by
    rw [mul_zero]
    congr 1
    ext
    simp only [mul_one]
    show Real.sqrt V ^ 2 = _
    rw [Real.sq_sqrt hV.le, Real.coe_toNNReal _ hV.le]
  rw [e] at h1
  rw [← h1.map_eq, map_measureReal_apply (by fun_prop) measurableSet_Ici, ← q_ici]
  congr 1
  ext x
  simp only [Set.mem_preimage, Set.mem_Ici, id]
  rw [div_le_iff₀ hs, mul_comm]

/-- `E exp(-s X²)` for a centred normal variable of variance `V`. -/
theorem exp_sq_mean {V s : ℝ} (hV : 0 < V) (hs : 0 ≤ s) : ∫ x, Real.exp (-s * x ^ 2) ∂(gaussianReal 0 V.toNNReal) = (Real.sqrt (1 + 2 * s * V))⁻¹ := by
  have hv : V.toNNReal ≠ 0 := by rw [ne_eq, Real.toNNReal_eq_zero]; linarith
  rw [integral_gaussianReal_eq_integral_smul hv]
  have hb : 0 < s + 1 / (2 * V) := by positivity
  have e : ∀ x : ℝ, gaussianPDFReal 0 V.toNNReal x • Real.exp (-s * x ^ 2) = (Real.sqrt (2 * Real.pi * V))⁻¹ * Real.exp (-(s + 1 / (2 * V)) * x ^ 2) := by
    intro x
    rw [gaussianPDFReal, Real.coe_toNNReal _ hV.le, smul_eq_mul, mul_assoc, ← Real.exp_add]
    congr 2
    rw [sub_zero]
    field_simp
    ring
  simp only [e]
  rw [integral_const_mul, integral_gaussian]
  rw [← Real.sqrt_inv, ← Real.sqrt_inv, ← Real.sqrt_mul (by positivity)]
  congr 1
  have := Real.pi_pos
  field_simp
  ring

/-- `Q(x) ≤ exp(-x²/2) / 2`. -/
theorem q_half {x : ℝ} (hx : 0 ≤ x) : qFunction x ≤ Real.exp (-(x ^ 2 / 2)) / 2 := by
  have h0 : (gaussianReal 0 1).real (Set.Ioi 0) = 1 / 2 := by
    have h1 : (gaussianReal 0 1).real (Set.Iio 0) = (gaussianReal 0 1).real (Set.Ioi 0) := by
      have := gaussianReal_map_neg (μ := 0) (v := 1)
      rw [neg_zero] at this
      conv_lhs => rw [← this]
      rw [map_measureReal_apply measurable_neg measurableSet_Iio]
      congr 1
      ext t
      simp
    have h2 := measureReal_compl (μ := gaussianReal 0 1) (measurableSet_Ioi (a := (0 : ℝ)))
    rw [Set.compl_Ioi, measureReal_congr Iio_ae_eq_Iic.symm, h1, probReal_univ] at h2
    linarith
  have hshift : qFunction x = (gaussianReal (-x) 1).real (Set.Ioi 0) := by
    have := gaussianReal_map_add_const (μ := 0) (v := 1) (-x)
    rw [zero_add] at this
    rw [← this, map_measureReal_apply (by fun_prop) measurableSet_Ioi]
    unfold qFunction
    congr 1
    ext t
    simp
  have hle : (gaussianReal (-x) 1) (Set.Ioi 0) ≤ ENNReal.ofReal (Real.exp (-(x ^ 2 / 2))) * (gaussianReal 0 1) (Set.Ioi 0) := by
    rw [gaussianReal_apply _ one_ne_zero, gaussianReal_apply _ one_ne_zero, ← lintegral_const_mul _ (measurable_gaussianPDF _ _)]
    refine setLIntegral_mono (by fun_prop) fun t ht => ?_
    rw [gaussianPDF, gaussianPDF, ← ENNReal.ofReal_mul (Real.exp_pos _).le]
    refine ENNReal.ofReal_le_ofReal ?_
    rw [gaussianPDFReal, gaussianPDFReal]
    have ht' : (0 : ℝ) < t := ht
    rw [mul_left_comm, ← Real.exp_add]
    refine mul_le_mul_of_nonneg_left (Real.exp_le_exp.2 ?_) (by positivity)
    simp only [NNReal.coe_one]
    nlinarith
  rw [hshift]
  have := ENNReal.toReal_mono (by finiteness) hle
  rw [ENNReal.toReal_mul, ENNReal.toReal_ofReal (Real.exp_pos _).le] at this
  refine this.trans (le_of_eq ?_)
  show _ * (gaussianReal 0 1).real (Set.Ioi 0) = _
  rw [h0]; ring

end Verif
