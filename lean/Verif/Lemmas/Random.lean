import Verif.Spec.Random
namespace Verif
open MeasureTheory ProbabilityTheory

variable {Ω : Type*} [MeasurableSpace Ω] {P : Measure Ω}

theorem normal_memLp {X : Ω → ℝ} (h : HasLaw X (gaussianReal 0 1) P) : MemLp X 2 P := by
  have h1 : MemLp id 2 (P.map X) := by rw [h.map_eq]; exact memLp_id_gaussianReal 2
  exact (memLp_map_measure_iff h1.aestronglyMeasurable h.aemeasurable).1 h1

theorem normal_mean {X : Ω → ℝ} (h : HasLaw X (gaussianReal 0 1) P) : ∫ ω, X ω ∂P = 0 := by
  rw [h.integral_eq]; exact integral_id_gaussianReal

theorem normal_sq {X : Ω → ℝ} (h : HasLaw X (gaussianReal 0 1) P) : ∫ ω, X ω ^ 2 ∂P = 1 := by
  have hp := h.isProbabilityMeasure
  have h1 := variance_eq_sub (normal_memLp h)
  rw [h.variance_eq, variance_id_gaussianReal, normal_mean h] at h1
  simpa using h1.symm

theorem normal_integrable {X : Ω → ℝ} (h : HasLaw X (gaussianReal 0 1) P) : Integrable X P := by
  have hp := h.isProbabilityMeasure
  exact (normal_memLp h).integrable (by norm_num)

theorem normal_integrable_sq {X : Ω → ℝ} (h : HasLaw X (gaussianReal 0 1) P) : Integrable (fun ω => X ω ^ 2) P :=
  (normal_memLp h).integrable_sq

/-- `E[(a + bX)² + (c + dY)²]` for standard normal `X`, `Y`. -/
theorem normal_affine_sq {X Y : Ω → ℝ} (hX : HasLaw X (gaussianReal 0 1) P) (hY : HasLaw Y (gaussianReal 0 1) P) (a b c d : ℝ) :
    ∫ ω, ((a + b * X ω) ^ 2 + (c + d * Y ω) ^ 2) ∂P = a ^ 2 + b ^ 2 + c ^ 2 + d ^ 2 := by
  have hp := hX.isProbabilityMeasure
  have e : (fun ω => (a + b * X ω) ^ 2 + (c + d * Y ω) ^ 2) =
      fun ω => (a ^ 2 + c ^ 2) + (2 * a * b) * X ω + b ^ 2 * X ω ^ 2 + ((2 * c * d) * Y ω + d ^ 2 * Y ω ^ 2) := by
    funext ω; ring
  rw [e]
  have i1 := (normal_integrable hX).const_mul (2 * a * b)
  have i2 := (normal_integrable_sq hX).const_mul (b ^ 2)
  have i3 := (normal_integrable hY).const_mul (2 * c * d)
  have i4 := (normal_integrable_sq hY).const_mul (d ^ 2)
  have i0 : Integrable (fun _ : Ω => a ^ 2 + c ^ 2) P := integrable_const _
  have i01 : Integrable (fun ω => (a ^ 2 + c ^ 2) + (2 * a * b) * X ω) P := i0.add i1
  have i012 : Integrable (fun ω => (a ^ 2 + c ^ 2) + (2 * a * b) * X ω + b ^ 2 * X ω ^ 2) P := i01.add i2
  have i34 : Integrable (fun ω => (2 * c * d) * Y ω + d ^ 2 * Y ω ^ 2) P := i3.add i4
  rw [integral_add i012 i34, integral_add i01 i2, integral_add i0 i1, integral_add i3 i4]
  simp only [integral_const_mul, normal_mean hX, normal_mean hY, normal_sq hX, normal_sq hY, integral_const]
  simp
  ring

theorem normal_affine_sq_real {X : Ω → ℝ} (hX : HasLaw X (gaussianReal 0 1) P) (a b : ℝ) :
    ∫ ω, (a + b * X ω) ^ 2 ∂P = a ^ 2 + b ^ 2 := by
  have := normal_affine_sq hX hX a b 0 0
  simpa using this

end Verif

namespace Verif
open MeasureTheory ProbabilityTheory

variable {Ω : Type*} [MeasurableSpace Ω] {P : Measure Ω}

theorem draws_prod_integrable {z : Ω → ℕ → ℝ} (hz : NormalDraws P z) (i j : ℕ) : Integrable (fun ω => z ω i * z ω j) P :=
  (normal_memLp (hz i)).integrable_mul (normal_memLp (hz j))

theorem draws_prod {z : Ω → ℕ → ℝ} (hz : IndepNormalDraws P z) (i j : ℕ) :
    ∫ ω, z ω i * z ω j ∂P = if i = j then 1 else 0 := by
  by_cases h : i = j
  · subst h
    rw [if_pos rfl, ← normal_sq (hz.1 i)]
    congr 1; funext ω; ring
  · rw [if_neg h]
    have := (hz.2 i j h).integral_fun_mul_eq_mul_integral (normal_integrable (hz.1 i)).aestronglyMeasurable
      (normal_integrable (hz.1 j)).aestronglyMeasurable
    rw [this, normal_mean (hz.1 i), zero_mul]

theorem draws_cprod {z : Ω → ℕ → ℝ} (hz : IndepNormalDraws P z) (i j : ℕ) :
    ∫ ω, ((z ω i : ℂ) * (z ω j : ℂ)) ∂P = if i = j then 1 else 0 := by
  have : ∀ ω, ((z ω i : ℂ) * (z ω j : ℂ)) = ((z ω i * z ω j : ℝ) : ℂ) := fun ω => by push_cast; rfl
  simp only [this]
  rw [integral_complex_ofReal, draws_prod hz]
  split <;> simp

/-- Covariance of two linear combinations of distinct draws. -/
theorem draws_linear_cov {z : Ω → ℕ → ℝ} (hz : IndepNormalDraws P z) {S : Type*} [Fintype S] [DecidableEq S] (f : S → ℕ)
    (hf : Function.Injective f) (α β : S → ℂ) :
    ∫ ω, ((∑ s, α s * (z ω (f s) : ℂ)) * (starRingEnd ℂ) (∑ s, β s * (z ω (f s) : ℂ))) ∂P =
      ∑ s, α s * (starRingEnd ℂ) (β s) := by
  have e : ∀ ω, (∑ s, α s * (z ω (f s) : ℂ)) * (starRingEnd ℂ) (∑ s, β s * (z ω (f s) : ℂ)) =
      ∑ s, ∑ r, (α s * (starRingEnd ℂ) (β r)) * ((z ω (f s) : ℂ) * (z ω (f r) : ℂ)) := by
    intro ω
    rw [map_sum, Finset.sum_mul_sum]
    apply Finset.sum_congr rfl; intro s _
    apply Finset.sum_congr rfl; intro r _
    rw [map_mul, Complex.conj_ofReal]; ring
  simp only [e]
  have hi : ∀ s r, Integrable (fun ω => (α s * (starRingEnd ℂ) (β r)) * ((z ω (f s) : ℂ) * (z ω (f r) : ℂ))) P := by
    intro s r
    apply Integrable.const_mul
    have := (draws_prod_integrable hz.1 (f s) (f r)).ofReal (𝕜 := ℂ)
    refine this.congr (Filter.Eventually.of_forall fun ω => ?_)
    simp
  rw [integral_finsetSum _ (fun s _ => integrable_finsetSum _ (fun r _ => hi s r))]
  apply Finset.sum_congr rfl; intro s _
  rw [integral_finsetSum _ (fun r _ => hi s r)]
  simp only [integral_const_mul, draws_cprod hz, hf.eq_iff]
  simp

theorem draws_linear_mean {z : Ω → ℕ → ℝ} (hz : NormalDraws P z) {S : Type*} [Fintype S] (f : S → ℕ) (α : S → ℂ) :
    ∫ ω, (∑ s, α s * (z ω (f s) : ℂ)) ∂P = 0 := by
  rw [integral_finsetSum]
  · apply Finset.sum_eq_zero; intro s _
    rw [integral_const_mul, integral_complex_ofReal, normal_mean (hz _)]; simp
  · intro s _
    exact ((normal_integrable (hz (f s))).ofReal (𝕜 := ℂ)).const_mul _

theorem draws_linear_integrable {z : Ω → ℕ → ℝ} (hz : NormalDraws P z) {S : Type*} [Fintype S] (f : S → ℕ) (α : S → ℂ) :
    Integrable (fun ω => ∑ s, α s * (z ω (f s) : ℂ)) P :=
  integrable_finsetSum _ fun s _ => ((normal_integrable (hz (f s))).ofReal (𝕜 := ℂ)).const_mul _

end Verif
