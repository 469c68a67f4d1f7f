import Verif.Lemmas.GaussLinear
import Verif.Props.MimoNoise
import Verif.Model.Channels
/-
Pairwise error probability of vectors received over a complex MIMO channel.
-/
namespace Verif
open MeasureTheory ProbabilityTheory

section
variable {Ω : Type*} [MeasurableSpace Ω] {P : Measure Ω}

/-- Conditioning on one of two independent variables. -/
theorem cond_prob [IsFiniteMeasure P] {α β : Type*} [MeasurableSpace α] [MeasurableSpace β] {W : Ω → α} {N : Ω → β} (hW : AEMeasurable W P) (hN : AEMeasurable N P)
    (h : IndepFun W N P) {A : Set (α × β)} (hA : MeasurableSet A) : P {ω | (W ω, N ω) ∈ A} = ∫⁻ ω, P {ω' | (W ω, N ω') ∈ A} ∂P := by
  have hprod := (indepFun_iff_map_prod_eq_prod_map_map hW hN).1 h
  have e : P {ω | (W ω, N ω) ∈ A} = P.map (fun ω => (W ω, N ω)) A := by
    rw [Measure.map_apply_of_aemeasurable (hW.prodMk hN) hA]; rfl
  rw [e, hprod, Measure.prod_apply hA, lintegral_map' (measurable_measure_prodMk_left hA).aemeasurable hW]
  refine lintegral_congr fun ω => ?_
  rw [Measure.map_apply_of_aemeasurable hN (measurable_prodMk_left hA)]
  rfl

/-- The noise of vector `a`, channels.py:365 through `noiseSample`. -/
noncomputable def vecNoise (std : ℝ) (nv nr a : Nat) (z : Nat → ℝ) (i : Fin nr) : ℂ := noiseSample true std (nv * nr) z (a * nr + i.val)

theorem noise_index {nv nr a : Nat} (ha : a < nv) : Function.Injective (fun p : Fin nr × Bool => if p.2 then nv * nr + (a * nr + p.1.val) else a * nr + p.1.val) := by
  have hb : ∀ i : Fin nr, a * nr + i.val < nv * nr := fun i => by
    have := Nat.mul_le_mul_right nr (show a + 1 ≤ nv from ha)
    have := i.isLt
    rw [Nat.add_mul, one_mul] at *
    omega
  rintro ⟨i, b⟩ ⟨j, b'⟩ h
  have hi := hb i
  have hj := hb j
  cases b <;> cases b' <;> simp at h ⊢ <;> (try exact Fin.ext (by omega)) <;> omega

/-- Probability that the noise brings the received vector nearer to a point at distance `δ`. -/
theorem noise_pair {z : Ω → ℕ → ℝ} (hz : NormalDraws P z) (hind : iIndepFun (fun i ω => z ω i) P) {std : ℝ} (hs : 0 < std) {nv nr a : Nat} (ha : a < nv)
    {δ : Fin nr → ℂ} (hδ : δ ≠ 0) :
    P.real {ω | ∑ i, ‖δ i + vecNoise std nv nr a (z ω) i‖ ^ 2 ≤ ∑ i, ‖vecNoise std nv nr a (z ω) i‖ ^ 2} = qFunction (Real.sqrt (∑ i, ‖δ i‖ ^ 2) / std) ∧
    P.real {ω | ∑ i, ‖δ i + vecNoise std nv nr a (z ω) i‖ ^ 2 < ∑ i, ‖vecNoise std nv nr a (z ω) i‖ ^ 2} = qFunction (Real.sqrt (∑ i, ‖δ i‖ ^ 2) / std) := by
  have hP := hind.isProbabilityMeasure
  set D := ∑ i, ‖δ i‖ ^ 2 with hD
  have hD0 : 0 < D := by
    obtain ⟨i, hi⟩ := Function.ne_iff.1 hδ
    exact Finset.sum_pos' (fun _ _ => sq_nonneg _) ⟨i, Finset.mem_univ _, by have := norm_pos_iff.2 hi; positivity⟩
  let g : Fin nr × Bool → ℝ := fun p => if p.2 then -(std / 2) * (δ p.1).im else -(std / 2) * (δ p.1).re
  have hlaw := normal_combo hz hind (noise_index ha) g
  have hV : ∑ p, g p ^ 2 = (std / 2) ^ 2 * D := by
    rw [Fintype.sum_prod_type, hD, Finset.mul_sum]
    refine Finset.sum_congr rfl fun i _ => ?_
    rw [Fintype.sum_bool, ← Complex.normSq_eq_norm_sq, Complex.normSq_apply]
    simp only [g, if_true, Bool.false_eq_true, if_false]
    ring
  rw [hV] at hlaw
  have hVpos : 0 < (std / 2) ^ 2 * D := by positivity
  have key : ∀ ω, ∑ i, ‖vecNoise std nv nr a (z ω) i‖ ^ 2 - ∑ i, ‖δ i + vecNoise std nv nr a (z ω) i‖ ^ 2 =
      2 * ((∑ p : Fin nr × Bool, g p * z ω (if p.2 then nv * nr + (a * nr + p.1.val) else a * nr + p.1.val)) - D / 2) := by
    intro ω
    rw [Fintype.sum_prod_type, ← Finset.sum_sub_distrib, hD, mul_sub, Finset.mul_sum, show ∀ y : ℝ, 2 * (y / 2) = y from fun y => by ring, ← Finset.sum_sub_distrib]
    refine Finset.sum_congr rfl fun i _ => ?_
    rw [Fintype.sum_bool, ← Complex.normSq_eq_norm_sq, ← Complex.normSq_eq_norm_sq, ← Complex.normSq_eq_norm_sq, Complex.normSq_apply, Complex.normSq_apply, Complex.normSq_apply]
    simp only [g, if_true, Bool.false_eq_true, if_false, vecNoise, noiseSample]
    simp
    ring
  have harg : D / 2 / Real.sqrt ((std / 2) ^ 2 * D) = Real.sqrt D / std := by
    rw [Real.sqrt_mul (sq_nonneg _), Real.sqrt_sq (by positivity)]
    have := Real.sqrt_pos.2 hD0
    have h2 := Real.mul_self_sqrt hD0.le
    field_simp
    nlinarith
  constructor
  · rw [← harg, ← gauss_tail hVpos, ← hlaw.map_eq, map_measureReal_apply_of_aemeasurable hlaw.aemeasurable measurableSet_Ici]
    congr 1
    ext ω
    simp only [Set.mem_setOf_eq, Set.mem_preimage, Set.mem_Ici]
    have := key ω
    constructor <;> intro h <;> linarith
  · rw [← harg, ← gauss_tail hVpos]
    have hv : ((std / 2) ^ 2 * D).toNNReal ≠ 0 := by rw [ne_eq, Real.toNNReal_eq_zero]; linarith
    have := nullSingletonClass_gaussianReal (μ := 0) hv
    rw [← measureReal_congr Ioi_ae_eq_Ici, ← hlaw.map_eq, map_measureReal_apply_of_aemeasurable hlaw.aemeasurable measurableSet_Ioi]
    congr 1
    ext ω
    simp only [Set.mem_setOf_eq, Set.mem_preimage, Set.mem_Ioi]
    have := key ω
    constructor <;> intro h <;> linarith

end

end Verif
