import Verif.Lemmas.MimoPair
/-
Pairwise error probability over a complex MIMO channel with random gains.
-/
namespace Verif
open MeasureTheory ProbabilityTheory

theorem q_antitone' : Antitone qFunction := fun _ _ h => measureReal_mono (Set.Ioi_subset_Ioi h)

section
variable {Ω : Type*} [MeasurableSpace Ω] {P : Measure Ω}

/-- The gain matrix of vector `a` as a function of the draws, channels.py:368-379. -/
noncomputable def vecGain {nr nt : Nat} (Sr : Matrix (Fin nr) (Fin nr) ℂ) (St : Matrix (Fin nt) (Fin nt) ℂ) (mean : Matrix (Fin nr) (Fin nt) ℂ) (nv a : Nat) (z : Nat → ℝ) :
    Matrix (Fin nr) (Fin nt) ℂ := corrGain Sr St mean (rawGain true nv nr nt (fun i => z (2 * (nv * nr) + i)) a)

/-- The difference between two received vectors. -/
noncomputable def vecShift {nr nt : Nat} (Sr : Matrix (Fin nr) (Fin nr) ℂ) (St : Matrix (Fin nt) (Fin nt) ℂ) (mean : Matrix (Fin nr) (Fin nt) ℂ) (nv a : Nat) (d : Fin nt → ℂ)
    (z : Nat → ℝ) (i : Fin nr) : ℂ := ∑ k, vecGain Sr St mean nv a z i k * d k

variable {nr nt : Nat} (Sr : Matrix (Fin nr) (Fin nr) ℂ) (St : Matrix (Fin nt) (Fin nt) ℂ) (mean : Matrix (Fin nr) (Fin nt) ℂ) (nv a : Nat) (d : Fin nt → ℂ)

theorem vecShift_measurable : Measurable (vecShift Sr St mean nv a d) := by
  unfold vecShift vecGain corrGain rawGain
  simp only [if_true]
  fun_prop

theorem vecNoise_measurable (std : ℝ) : Measurable (vecNoise std nv nr a) := by
  unfold vecNoise noiseSample
  simp only [if_true]
  fun_prop

variable {z : Ω → ℕ → ℝ}

theorem draws_aemeasurable (hz : NormalDraws P z) : AEMeasurable z P := aemeasurable_pi_iff.2 fun i => (hz i).aemeasurable

theorem shift_noise_indep (hz : NormalDraws P z) (hind : iIndepFun (fun i ω => z ω i) P) (std : ℝ) (ha : a < nv) :
    IndepFun (fun ω => vecShift Sr St mean nv a d (z ω)) (fun ω => vecNoise std nv nr a (z ω)) P := by
  classical
  set S := Finset.range (2 * (nv * nr)) with hS
  set T := Finset.Ico (2 * (nv * nr)) (2 * (nv * nr) + 2 * (nv * nr * nt)) with hT
  have hd : Disjoint T S := by
    rw [Finset.disjoint_left]
    intro i hi hi'
    have := Finset.mem_Ico.1 hi
    have := Finset.mem_range.1 hi'
    omega
  have h := hind.indepFun_finset₀ T S hd (fun i => (hz i).aemeasurable)
  let ext (U : Finset ℕ) (t : U → ℝ) : ℕ → ℝ := fun i => if h : i ∈ U then t ⟨i, h⟩ else 0
  have hext : ∀ U, Measurable (ext U) := by
    intro U
    refine measurable_pi_lambda _ fun i => ?_
    by_cases hi : i ∈ U
    · simp only [ext, hi, dite_true]; fun_prop
    · simp only [ext, hi, dite_false]; fun_prop
  have h2 := h.comp ((vecShift_measurable Sr St mean nv a d).comp (hext T)) ((vecNoise_measurable (nr := nr) nv a std).comp (hext S))
  have hb : ∀ i : Fin nr, a * nr + i.val < nv * nr := fun i => by
    have := Nat.mul_le_mul_right nr (show a + 1 ≤ nv from ha)
    have := i.isLt
    rw [Nat.add_mul, one_mul] at *
    omega
  have e1 : (fun ω => vecShift Sr St mean nv a d (z ω)) = ((vecShift Sr St mean nv a d ∘ ext T) ∘ fun ω (i : T) => z ω i) := by
    funext ω
    simp only [Function.comp]
    have hG : vecGain Sr St mean nv a (z ω) = vecGain Sr St mean nv a (ext T fun i => z ω i) := by
      unfold vecGain
      congr 1
      funext j k
      have hj := hb j
      have hjk : (a * nr + j.val) * nt + k.val < nv * nr * nt := by
        have h1 := Nat.mul_le_mul_right nt (show a * nr + j.val + 1 ≤ nv * nr from hj)
        have h3 := k.isLt
        rw [Nat.succ_mul] at h1
        exact lt_of_lt_of_le (Nat.add_lt_add_left h3 _) h1
      have hm1 : 2 * (nv * nr) + ((a * nr + j.val) * nt + k.val) ∈ T := by rw [hT, Finset.mem_Ico]; omega
      have hm2 : 2 * (nv * nr) + (nv * nr * nt + ((a * nr + j.val) * nt + k.val)) ∈ T := by rw [hT, Finset.mem_Ico]; omega
      simp only [rawGain, if_true, ext, hm1, hm2, dite_true]
    unfold vecShift
    rw [hG]
  have e2 : (fun ω => vecNoise std nv nr a (z ω)) = ((vecNoise std nv nr a ∘ ext S) ∘ fun ω (i : S) => z ω i) := by
    funext ω i
    have hi := hb i
    have hm1 : a * nr + i.val ∈ S := by rw [hS, Finset.mem_range]; omega
    have hm2 : nv * nr + (a * nr + i.val) ∈ S := by rw [hS, Finset.mem_range]; omega
    simp only [Function.comp, vecNoise, noiseSample, if_true, ext, hm1, hm2, dite_true]
  rw [e1, e2]
  exact h2

/-- Probability that noise of standard deviation `std / 2` per component makes a wrong vector whose noise-free image is at distance `δ` at least as near as the right one. -/
noncomputable def pairError {nr : Nat} (std : ℝ) (δ : Fin nr → ℂ) : ℝ :=
  open Classical in if δ = 0 then 1 else qFunction (Real.sqrt (∑ i, ‖δ i‖ ^ 2) / std)

theorem pairError_measurable (std : ℝ) : Measurable (pairError (nr := nr) std) := by
  classical
  unfold pairError
  refine Measurable.ite (measurableSet_singleton _) measurable_const ?_
  exact q_antitone'.measurable.comp (by fun_prop)

theorem q_unit (x : ℝ) : 0 ≤ qFunction x ∧ qFunction x ≤ 1 := ⟨measureReal_nonneg, measureReal_le_one⟩

theorem pairError_unit (std : ℝ) (δ : Fin nr → ℂ) : 0 ≤ pairError std δ ∧ pairError std δ ≤ 1 := by
  unfold pairError
  split
  · norm_num
  · exact q_unit _

/-- Averaged over the gains. -/
theorem pair_random (hz : NormalDraws P z) (hind : iIndepFun (fun i ω => z ω i) P) {std : ℝ} (hs : 0 < std) (ha : a < nv) :
    P.real {ω | ∑ i, ‖vecShift Sr St mean nv a d (z ω) i + vecNoise std nv nr a (z ω) i‖ ^ 2 ≤ ∑ i, ‖vecNoise std nv nr a (z ω) i‖ ^ 2} =
      ∫ ω, pairError std (vecShift Sr St mean nv a d (z ω)) ∂P := by
  have hP := hind.isProbabilityMeasure
  have hzm := draws_aemeasurable hz
  have hW : AEMeasurable (fun ω => vecShift Sr St mean nv a d (z ω)) P := (vecShift_measurable Sr St mean nv a d).comp_aemeasurable hzm
  have hN : AEMeasurable (fun ω => vecNoise std nv nr a (z ω)) P := (vecNoise_measurable (nr := nr) nv a std).comp_aemeasurable hzm
  have hA : MeasurableSet {p : (Fin nr → ℂ) × (Fin nr → ℂ) | ∑ i, ‖p.1 i + p.2 i‖ ^ 2 ≤ ∑ i, ‖p.2 i‖ ^ 2} := measurableSet_le (by fun_prop) (by fun_prop)
  have h := cond_prob hW hN (shift_noise_indep Sr St mean nv a d hz hind std ha) hA
  rw [integral_eq_lintegral_of_nonneg_ae (Filter.Eventually.of_forall fun ω => (pairError_unit std _).1)
    (((pairError_measurable std).comp_aemeasurable hW).aestronglyMeasurable)]
  unfold Measure.real
  congr 1
  refine h.trans (lintegral_congr fun ω => ?_)
  simp only [Set.mem_ofPred_eq]
  by_cases h0 : vecShift Sr St mean nv a d (z ω) = 0
  · simp [pairError, h0]
  · have e : pairError std (vecShift Sr St mean nv a d (z ω)) = qFunction (Real.sqrt (∑ i, ‖vecShift Sr St mean nv a d (z ω) i‖ ^ 2) / std) := by
      rw [pairError, if_neg h0]
    rw [e, ← (noise_pair hz hind hs ha h0).1, ofReal_measureReal]

theorem pair_random_strict (hz : NormalDraws P z) (hind : iIndepFun (fun i ω => z ω i) P) {std : ℝ} (hs : 0 < std) (ha : a < nv)
    (hne : ∀ᵐ ω ∂P, vecShift Sr St mean nv a d (z ω) ≠ 0) :
    P.real {ω | ∑ i, ‖vecShift Sr St mean nv a d (z ω) i + vecNoise std nv nr a (z ω) i‖ ^ 2 < ∑ i, ‖vecNoise std nv nr a (z ω) i‖ ^ 2} =
      ∫ ω, qFunction (Real.sqrt (∑ i, ‖vecShift Sr St mean nv a d (z ω) i‖ ^ 2) / std) ∂P := by
  have hP := hind.isProbabilityMeasure
  have hzm := draws_aemeasurable hz
  have hW : AEMeasurable (fun ω => vecShift Sr St mean nv a d (z ω)) P := (vecShift_measurable Sr St mean nv a d).comp_aemeasurable hzm
  have hN : AEMeasurable (fun ω => vecNoise std nv nr a (z ω)) P := (vecNoise_measurable (nr := nr) nv a std).comp_aemeasurable hzm
  have hA : MeasurableSet {p : (Fin nr → ℂ) × (Fin nr → ℂ) | ∑ i, ‖p.1 i + p.2 i‖ ^ 2 < ∑ i, ‖p.2 i‖ ^ 2} := measurableSet_lt (by fun_prop) (by fun_prop)
  have h := cond_prob hW hN (shift_noise_indep Sr St mean nv a d hz hind std ha) hA
  have hq : Measurable fun δ : Fin nr → ℂ => qFunction (Real.sqrt (∑ i, ‖δ i‖ ^ 2) / std) := q_antitone'.measurable.comp (by fun_prop)
  rw [integral_eq_lintegral_of_nonneg_ae (Filter.Eventually.of_forall fun ω => (q_unit _).1) ((hq.comp_aemeasurable hW).aestronglyMeasurable)]
  unfold Measure.real
  congr 1
  refine h.trans (lintegral_congr_ae ?_)
  filter_upwards [hne] with ω h0
  rw [← (noise_pair hz hind hs ha h0).2, ofReal_measureReal]

theorem pair_random_le (hz : NormalDraws P z) (hind : iIndepFun (fun i ω => z ω i) P) {std : ℝ} (hs : 0 < std) (ha : a < nv)
    (hne : ∀ᵐ ω ∂P, vecShift Sr St mean nv a d (z ω) ≠ 0) :
    P.real {ω | ∑ i, ‖vecShift Sr St mean nv a d (z ω) i + vecNoise std nv nr a (z ω) i‖ ^ 2 ≤ ∑ i, ‖vecNoise std nv nr a (z ω) i‖ ^ 2} =
      ∫ ω, qFunction (Real.sqrt (∑ i, ‖vecShift Sr St mean nv a d (z ω) i‖ ^ 2) / std) ∂P := by
  rw [pair_random Sr St mean nv a d hz hind hs ha]
  refine integral_congr_ae ?_
  filter_upwards [hne] with ω h0
  rw [pairError, if_neg h0]

end

end Verif
