import Verif.Lemmas.Bayes
import Verif.Props.Turbo
import Verif.Props.TurboEncode
import Verif.Lemmas.TurboSign
/-
C145: no decoder makes fewer bit errors than `map_decode`.
-/
namespace Verif
open MeasureTheory ProbabilityTheory Finset
open scoped ENNReal NNReal

/-- Law of the values received for the two code bits of every step, when the encoder (started in state 0) is given the bits `us` and the code bits are sent as
`±1` with Gaussian noise of variance `v`, independent for all values. -/
noncomputable def mapRxLaw (t : Trellis) (v : NNReal) {L : Nat} (us : Fin L → Fin 2) : Measure (Fin L → ℝ × ℝ) :=
  Measure.pi fun i => (gaussianReal (bpskAmp (codeBit t us i 0)) v).prod (gaussianReal (bpskAmp (codeBit t us i 1)) v)

/-- Probability of the bits `us` when bit `i` has the log-likelihood ratio `lam i` and the bits are independent. -/
noncomputable def priorProb {L : Nat} (lam : Fin L → ℝ) (us : Fin L → Fin 2) : ℝ := ∏ i, llrProb (lam i) (us i)

instance (t : Trellis) (v : NNReal) {L : Nat} (us : Fin L → Fin 2) : IsProbabilityMeasure (mapRxLaw t v us) := by unfold mapRxLaw; infer_instance

/-- Density of a Gaussian law with respect to the one of mean 0. -/
noncomputable def pdfRatio (v : NNReal) (a y : ℝ) : ℝ := gaussianPDFReal a v y / gaussianPDFReal 0 v y

theorem gauss_ratio {v : NNReal} (hv : 0 < v) (a : ℝ) : gaussianReal a v = (gaussianReal 0 v).withDensity fun y => ENNReal.ofReal (pdfRatio v a y) := by
  rw [gaussianReal_of_var_ne_zero _ hv.ne', gaussianReal_of_var_ne_zero _ hv.ne', ← withDensity_mul _ (measurable_gaussianPDF _ _) (by unfold pdfRatio; fun_prop)]
  congr 1
  funext y
  rw [Pi.mul_apply, gaussianPDF_def, gaussianPDF_def]
  dsimp only
  rw [← ENNReal.ofReal_mul (gaussianPDFReal_nonneg _ _ _)]
  congr 1
  have := gaussianPDFReal_pos 0 v y hv.ne'
  unfold pdfRatio
  field_simp

theorem pdfRatio_nonneg (v : NNReal) (a y : ℝ) : 0 ≤ pdfRatio v a y := div_nonneg (gaussianPDFReal_nonneg _ _ _) (gaussianPDFReal_nonneg _ _ _)

/-- Density of the received values with respect to the noise alone. -/
noncomputable def mapRatio (t : Trellis) (v : NNReal) {L : Nat} (us : Fin L → Fin 2) (y : Fin L → ℝ × ℝ) : ℝ :=
  ∏ i, (pdfRatio v (bpskAmp (codeBit t us i 0)) (y i).1 * pdfRatio v (bpskAmp (codeBit t us i 1)) (y i).2)

theorem mapRatio_nonneg (t : Trellis) (v : NNReal) {L : Nat} (us : Fin L → Fin 2) (y : Fin L → ℝ × ℝ) : 0 ≤ mapRatio t v us y :=
  prod_nonneg fun _ _ => mul_nonneg (pdfRatio_nonneg _ _ _) (pdfRatio_nonneg _ _ _)

theorem mapRatio_measurable (t : Trellis) (v : NNReal) {L : Nat} (us : Fin L → Fin 2) : Measurable (mapRatio t v us) := by
  unfold mapRatio pdfRatio
  refine Finset.measurable_prod _ fun i _ => ?_
  have hi : Measurable fun y : Fin L → ℝ × ℝ => y i := measurable_pi_apply i
  fun_prop

theorem mapRxLaw_density (t : Trellis) {v : NNReal} (hv : 0 < v) {L : Nat} (us : Fin L → Fin 2) :
    mapRxLaw t v us = (Measure.pi fun _ : Fin L => (gaussianReal 0 v).prod (gaussianReal 0 v)).withDensity fun y => ENNReal.ofReal (mapRatio t v us y) := by
  have h1 : ∀ i : Fin L, (gaussianReal (bpskAmp (codeBit t us i 0)) v).prod (gaussianReal (bpskAmp (codeBit t us i 1)) v) =
      ((gaussianReal 0 v).prod (gaussianReal 0 v)).withDensity fun y : ℝ × ℝ =>
        ENNReal.ofReal (pdfRatio v (bpskAmp (codeBit t us i 0)) y.1 * pdfRatio v (bpskAmp (codeBit t us i 1)) y.2) := by
    intro i
    conv_lhs => rw [gauss_ratio hv (bpskAmp (codeBit t us i 0)), gauss_ratio hv (bpskAmp (codeBit t us i 1))]
    rw [prod_withDensity (by unfold pdfRatio; fun_prop) (by unfold pdfRatio; fun_prop)]
    congr 1
    funext y
    rw [ENNReal.ofReal_mul (pdfRatio_nonneg _ _ _)]
  have hsig : ∀ i : Fin L, SigmaFinite (((gaussianReal 0 v).prod (gaussianReal 0 v)).withDensity fun y : ℝ × ℝ =>
      ENNReal.ofReal (pdfRatio v (bpskAmp (codeBit t us i 0)) y.1 * pdfRatio v (bpskAmp (codeBit t us i 1)) y.2)) := fun i => by rw [← h1]; infer_instance
  unfold mapRxLaw
  simp only [h1]
  rw [pi_withDensity (fun _ : Fin L => (gaussianReal 0 v).prod (gaussianReal 0 v)) (fun i y => ENNReal.ofReal (pdfRatio v (bpskAmp (codeBit t us i 0)) y.1 * pdfRatio v (bpskAmp (codeBit t us i 1)) y.2))
    fun i => by unfold pdfRatio; fun_prop]
  congr 1
  funext y
  rw [mapRatio, ENNReal.ofReal_prod_of_nonneg fun i _ => mul_nonneg (pdfRatio_nonneg _ _ _) (pdfRatio_nonneg _ _ _)]

theorem llrProb_pos (l : ℝ) (b : Fin 2) : 0 < llrProb l b := by
  unfold llrProb
  split <;> positivity

theorem priorProb_pos {L : Nat} (lam : Fin L → ℝ) (us : Fin L → Fin 2) : 0 < priorProb lam us := prod_pos fun _ _ => llrProb_pos _ _

/-- The probabilities of the inputs add up to one. -/
theorem priorProb_sum {L : Nat} (lam : Fin L → ℝ) : ∑ us, priorProb lam us = 1 := by
  unfold priorProb
  have h := Finset.prod_univ_sum (fun _ : Fin L => (Finset.univ : Finset (Fin 2))) fun i b => llrProb (lam i) b
  rw [Fintype.piFinset_univ] at h
  rw [← h]
  refine prod_eq_one fun i _ => ?_
  have : (0 : ℝ) < 1 + Real.exp (lam i) := by positivity
  simp [Fin.sum_univ_two, llrProb]
  field_simp

/-- Weighted Bayes decisions. -/
theorem bayes_weighted {Y ι κ : Type*} [MeasurableSpace Y] {ρ : Measure Y} [Fintype ι] [DecidableEq κ] (w : ι → ℝ) (hw : ∀ i, 0 ≤ w i) (P : ι → Measure Y) [∀ i, IsProbabilityMeasure (P i)]
    (f : ι → Y → ℝ) (hf0 : ∀ i y, 0 ≤ f i y) (hf : ∀ i, Measurable (f i)) (hP : ∀ i, P i = ρ.withDensity fun y => ENNReal.ofReal (f i y)) (cls : ι → κ) (d g : Y → κ)
    (hd : ∀ k, MeasurableSet (d ⁻¹' {k})) (hg : ∀ k, MeasurableSet (g ⁻¹' {k}))
    (hopt : ∀ y k, ∑ i with cls i = k, w i * f i y ≤ ∑ i with cls i = d y, w i * f i y) :
    ∑ i, w i * (P i).real {y | d y ≠ cls i} ≤ ∑ i, w i * (P i).real {y | g y ≠ cls i} := by
  have h := bayes (ρ := ρ) Finset.univ (fun i => ENNReal.ofReal (w i) • P i) (fun i y => ENNReal.ofReal (w i * f i y)) (fun i _ => by have := hf i; fun_prop)
    (fun i _ => by
      rw [hP i, ← withDensity_smul _ (by have := hf i; fun_prop)]
      congr 1
      funext y
      rw [Pi.smul_apply, smul_eq_mul, ENNReal.ofReal_mul (hw i)]) cls d g hd hg (fun y k => by
      rw [← ENNReal.ofReal_sum_of_nonneg fun i _ => mul_nonneg (hw i) (hf0 i y), ← ENNReal.ofReal_sum_of_nonneg fun i _ => mul_nonneg (hw i) (hf0 i y)]
      exact ENNReal.ofReal_le_ofReal (hopt y k))
  have hr : ∀ e : Y → κ, (∑ i, (ENNReal.ofReal (w i) • P i) {y | e y = cls i}) = ENNReal.ofReal (∑ i, w i * (P i).real {y | e y = cls i}) := by
    intro e
    rw [ENNReal.ofReal_sum_of_nonneg fun i _ => mul_nonneg (hw i) measureReal_nonneg]
    refine sum_congr rfl fun i _ => ?_
    rw [ENNReal.ofReal_mul (hw i), Measure.smul_apply, smul_eq_mul, ofReal_measureReal]
  rw [hr, hr, ENNReal.ofReal_le_ofReal_iff (sum_nonneg fun i _ => mul_nonneg (hw i) measureReal_nonneg)] at h
  have hc : ∀ e : Y → κ, (∀ k, MeasurableSet (e ⁻¹' {k})) → ∀ i, (P i).real {y | e y ≠ cls i} = 1 - (P i).real {y | e y = cls i} := by
    intro e he i
    have hm : MeasurableSet {y | e y = cls i} := he (cls i)
    rw [← probReal_compl_eq_one_sub hm]
    rfl
  simp only [hc d hd, hc g hg, mul_sub, sum_sub_distrib]
  exact sub_le_sub_left h _

theorem bitDensity_ofFn (t : Trellis) {v : NNReal} (hv : 0 < v) {L : Nat} (y : Fin L → ℝ × ℝ) (lam : Fin L → ℝ) (i : Fin L) (b : Fin 2) :
    bitDensity t v L (fun i => (List.ofFn fun i => (y i).1).getD i 0) (fun i => (List.ofFn fun i => (y i).2).getD i 0) (fun i => (List.ofFn lam).getD i 0) i b =
      (∏ j, (gaussianPDFReal 0 v (y j).1 * gaussianPDFReal 0 v (y j).2)) * ∑ us : Fin L → Fin 2 with us i = b, priorProb lam us * mapRatio t v us y := by
  unfold bitDensity
  rw [mul_sum]
  refine sum_congr rfl fun us _ => ?_
  unfold jointDensity priorProb mapRatio
  rw [← prod_mul_distrib, ← prod_mul_distrib]
  refine prod_congr rfl fun j _ => ?_
  have p1 := (gaussianPDFReal_pos 0 v (y j).1 hv.ne').ne'
  have p2 := (gaussianPDFReal_pos 0 v (y j).2 hv.ne').ne'
  simp only [List.getD_eq_getElem?_getD, List.getElem?_ofFn, j.2, dif_pos, Option.getD_some, Fin.eta]
  unfold pdfRatio
  field_simp

/-- C145: no decoder of the received values has a lower probability of deciding input bit `i` wrongly than `map_decode` with the right noise variance and the right
a priori log-likelihood ratios. -/
theorem C145_map {t : Trellis} (h : t.WF) (hk : t.k = 1) (hn : 2 ≤ t.n) {v : NNReal} (hv : 0 < v) {L : Nat} (lam : Fin L → ℝ) (i : Fin L) {g : (Fin L → ℝ × ℝ) → Fin 2} (hg : Measurable g) :
    ∑ us, priorProb lam us * (mapRxLaw t v us).real {y | ¬ ∃ llr bits, mapDecode t v (List.ofFn fun j => (y j).1) (List.ofFn fun j => (y j).2) (List.ofFn lam) "decode" = .ok (llr, bits) ∧
        bits[(i : Nat)]? = some ((us i : Fin 2) : Nat)} ≤
      ∑ us, priorProb lam us * (mapRxLaw t v us).real {y | g y ≠ us i} := by
  set S : Fin 2 → (Fin L → ℝ × ℝ) → ℝ := fun b y => ∑ us : Fin L → Fin 2 with us i = b, priorProb lam us * mapRatio t v us y with hS
  have hSm : ∀ b, Measurable (S b) := fun b => Finset.measurable_sum _ fun us _ => (mapRatio_measurable t v us).const_mul _
  have hset : MeasurableSet {y | S 0 y < S 1 y} := measurableSet_lt (hSm 0) (hSm 1)
  classical
  set d : (Fin L → ℝ × ℝ) → Fin 2 := fun y => if S 0 y < S 1 y then 1 else 0 with hd
  have hdm : Measurable d := Measurable.ite hset measurable_const measurable_const
  have hapi : ∀ (us : Fin L → Fin 2) y, (∃ llr bits, mapDecode t v (List.ofFn fun j => (y j).1) (List.ofFn fun j => (y j).2) (List.ofFn lam) "decode" = .ok (llr, bits) ∧
        bits[(i : Nat)]? = some ((us i : Fin 2) : Nat)) ↔ d y = us i := by
    intro us y
    obtain ⟨llr, bits, h1, -, -, h2⟩ := C52_decisions h hk hn v hv (L := L) (ys := List.ofFn fun j => (y j).1) (yp := List.ofFn fun j => (y j).2) (lint := List.ofFn lam)
      (by simp) (by simp) (by simp) "decode"
    obtain ⟨h3, h4⟩ := h2 rfl i
    rw [bitDensity_ofFn t hv, bitDensity_ofFn t hv, mul_lt_mul_iff_right₀ (prod_pos fun j _ => mul_pos (gaussianPDFReal_pos 0 v (y j).1 hv.ne') (gaussianPDFReal_pos 0 v (y j).2 hv.ne'))] at h4
    change _ ↔ S 0 y < S 1 y at h4
    have h5 : bits[(i : Nat)]? = some ((d y : Fin 2) : Nat) := by
      simp only [hd]
      by_cases hlt : S 0 y < S 1 y
      · rw [if_pos hlt]; exact h4.2 hlt
      · rw [if_neg hlt]
        rcases h3 with h3 | h3
        · exact h3
        · exact absurd (h4.1 h3) hlt
    constructor
    · rintro ⟨llr', bits', e1, e2⟩
      rw [h1] at e1
      obtain ⟨rfl, rfl⟩ := Prod.mk.inj (Except.ok.inj e1)
      rw [h5] at e2
      exact Fin.ext (Option.some.inj e2)
    · intro e
      exact ⟨llr, bits, h1, by rw [h5, e]⟩
  have key := bayes_weighted (ρ := Measure.pi fun _ : Fin L => (gaussianReal 0 v).prod (gaussianReal 0 v)) (priorProb lam) (fun us => (priorProb_pos lam us).le) (mapRxLaw t v)
    (mapRatio t v) (mapRatio_nonneg t v) (mapRatio_measurable t v) (fun us => mapRxLaw_density t hv us) (fun us => us i) d g (fun k => hdm (measurableSet_singleton k))
    (fun k => hg (measurableSet_singleton k)) ?_
  · simp only [hapi]
    exact key
  · intro y k
    change S k y ≤ S (d y) y
    simp only [hd]
    by_cases hlt : S 0 y < S 1 y
    · rw [if_pos hlt]
      fin_cases k
      · exact hlt.le
      · exact le_rfl
    · rw [if_neg hlt]
      fin_cases k
      · exact le_rfl
      · exact not_lt.1 hlt

/-- C145: the expected number of wrong bits in the block, likewise. -/
theorem C145_map_block {t : Trellis} (h : t.WF) (hk : t.k = 1) (hn : 2 ≤ t.n) {v : NNReal} (hv : 0 < v) {L : Nat} (lam : Fin L → ℝ) {g : (Fin L → ℝ × ℝ) → Fin L → Fin 2} (hg : Measurable g) :
    ∑ us, priorProb lam us * ∑ i : Fin L, (mapRxLaw t v us).real {y | ¬ ∃ llr bits, mapDecode t v (List.ofFn fun j => (y j).1) (List.ofFn fun j => (y j).2) (List.ofFn lam) "decode" = .ok (llr, bits) ∧
        bits[(i : Nat)]? = some ((us i : Fin 2) : Nat)} ≤
      ∑ us, priorProb lam us * ∑ i : Fin L, (mapRxLaw t v us).real {y | g y i ≠ us i} := by
  simp only [mul_sum]
  rw [sum_comm, sum_comm (s := Finset.univ) (t := Finset.univ) (f := fun us i => priorProb lam us * (mapRxLaw t v us).real {y | g y i ≠ us i})]
  exact sum_le_sum fun i _ => C145_map h hk hn hv lam i (measurable_pi_iff.1 hg i)

theorem mapRxLaw_first (t : Trellis) (v : NNReal) {L : Nat} (us : Fin L → Fin 2) (i : Fin L) {A : Set ℝ} (hA : MeasurableSet A) :
    (mapRxLaw t v us).real {y | (y i).1 ∈ A} = (gaussianReal (bpskAmp (codeBit t us i 0)) v).real A := by
  have h1 : (mapRxLaw t v us).map (fun y => (y i).1) = gaussianReal (bpskAmp (codeBit t us i 0)) v := by
    have e : (fun y : Fin L → ℝ × ℝ => (y i).1) = Prod.fst ∘ Function.eval i := rfl
    rw [e, ← Measure.map_map measurable_fst (measurable_pi_apply i), mapRxLaw, (measurePreserving_eval _ i).map_eq, Measure.map_fst_prod, measure_univ, one_smul]
  have hm : Measurable fun y : Fin L → ℝ × ℝ => (y i).1 := by
    have hi : Measurable fun y : Fin L → ℝ × ℝ => y i := measurable_pi_apply i
    fun_prop
  rw [← h1, map_measureReal_apply hm hA]
  rfl

/-- C145: with a systematic encoder the code never hurts: every bit is wrong with at most the probability `Q(1/σ)` of an uncoded antipodal bit at the same noise variance. -/
theorem C145_uncoded {t : Trellis} (h : t.WF) (hk : t.k = 1) (hn : 2 ≤ t.n) (hs : t.Systematic) {v : NNReal} (hv : 0 < v) {L : Nat} (lam : Fin L → ℝ) (i : Fin L) :
    ∑ us, priorProb lam us * (mapRxLaw t v us).real {y | ¬ ∃ llr bits, mapDecode t v (List.ofFn fun j => (y j).1) (List.ofFn fun j => (y j).2) (List.ofFn lam) "decode" = .ok (llr, bits) ∧
        bits[(i : Nat)]? = some ((us i : Fin 2) : Nat)} ≤ (gaussianReal 0 v).real (Set.Ici 1) := by
  classical
  have hg : Measurable fun y : Fin L → ℝ × ℝ => if 0 < (y i).1 then (1 : Fin 2) else 0 := by
    have hm : Measurable fun y : Fin L → ℝ × ℝ => (y i).1 := by
      have hi : Measurable fun y : Fin L → ℝ × ℝ => y i := measurable_pi_apply i
      fun_prop
    exact Measurable.ite (measurableSet_lt measurable_const hm) measurable_const measurable_const
  refine (C145_map h hk hn hv lam i hg).trans ?_
  have hX : ∑ us, priorProb lam us * (gaussianReal 0 v).real (Set.Ici 1) = (gaussianReal 0 v).real (Set.Ici 1) := by rw [← sum_mul, priorProb_sum, one_mul]
  rw [← hX]
  refine sum_le_sum fun us _ => mul_le_mul_of_nonneg_left ?_ (priorProb_pos lam us).le
  have hb := codeBit_systematic h hk hs us i
  have hcase : us i = 0 ∨ us i = 1 := by have := (us i).2; rcases hu : us i with ⟨x, hx⟩; interval_cases x <;> simp
  rcases hcase with hu | hu
  · have e : {y : Fin L → ℝ × ℝ | (if 0 < (y i).1 then (1 : Fin 2) else 0) ≠ us i} = {y | (y i).1 ∈ Set.Ioi (0 : ℝ)} := by
      ext y
      simp only [Set.mem_ofPred_eq, Set.mem_Ioi, hu]
      split <;> simp_all
    rw [e, mapRxLaw_first t v us i measurableSet_Ioi, hb, hu]
    have e2 : gaussianReal (bpskAmp ((0 : Fin 2) : Nat)) v = (gaussianReal 0 v).map fun x => x + (-1) := by
      rw [gaussianReal_map_add_const]
      simp [bpskAmp]
    rw [e2, map_measureReal_apply (by fun_prop) measurableSet_Ioi]
    refine measureReal_mono ?_
    intro x hx
    simp only [Set.mem_preimage, Set.mem_Ioi, Set.mem_Ici] at hx ⊢
    linarith
  · have e : {y : Fin L → ℝ × ℝ | (if 0 < (y i).1 then (1 : Fin 2) else 0) ≠ us i} = {y | (y i).1 ∈ Set.Iic (0 : ℝ)} := by
      ext y
      simp only [Set.mem_ofPred_eq, Set.mem_Iic, hu]
      split <;> simp_all
    rw [e, mapRxLaw_first t v us i measurableSet_Iic, hb, hu]
    have e2 : gaussianReal (bpskAmp ((1 : Fin 2) : Nat)) v = (gaussianReal 0 v).map fun x => 1 - x := by
      rw [gaussianReal_map_const_sub]
      simp [bpskAmp]
      norm_num
    rw [e2, map_measureReal_apply (by fun_prop) measurableSet_Iic]
    refine measureReal_mono ?_
    intro x hx
    simp only [Set.mem_preimage, Set.mem_Iic, Set.mem_Ici] at hx ⊢
    linarith

/-- The probability of one bit. -/
theorem priorProb_bit {L : Nat} (lam : Fin L → ℝ) (i : Fin L) (b : Fin 2) : ∑ us : Fin L → Fin 2, (if us i = b then priorProb lam us else 0) = llrProb (lam i) b := by
  classical
  have h := Finset.prod_univ_sum (fun _ : Fin L => (Finset.univ : Finset (Fin 2))) fun j u => if j = i ∧ u ≠ b then 0 else llrProb (lam j) u
  rw [Fintype.piFinset_univ] at h
  have hone : ∀ l : ℝ, llrProb l 0 + llrProb l 1 = 1 := by
    intro l
    have : (0 : ℝ) < 1 + Real.exp l := by positivity
    simp [llrProb]
    field_simp
  have h1 : ∀ us : Fin L → Fin 2, (if us i = b then priorProb lam us else 0) = ∏ j, (if j = i ∧ us j ≠ b then 0 else llrProb (lam j) (us j)) := by
    intro us
    split
    · rename_i hb
      exact prod_congr rfl fun j _ => by rw [if_neg (fun hh => hh.2 (by rw [hh.1]; exact hb))]
    · rename_i hb
      exact (prod_eq_zero (mem_univ i) (by rw [if_pos ⟨rfl, hb⟩])).symm
  rw [sum_congr rfl fun us _ => h1 us, ← h, prod_eq_single i]
  · have hc : b = 0 ∨ b = 1 := by have := b.2; rcases b with ⟨x, hx⟩; interval_cases x <;> simp
    rcases hc with rfl | rfl <;> simp [Fin.sum_univ_two]
  · intro j _ hj
    simp [hj, Fin.sum_univ_two, hone]
  · intro hn; exact absurd (mem_univ i) hn

/-- C145: what is received never makes a decision worse than the a priori knowledge alone: bit `i` is wrong with at most the probability of its less likely value. -/
theorem C145_prior {t : Trellis} (h : t.WF) (hk : t.k = 1) (hn : 2 ≤ t.n) {v : NNReal} (hv : 0 < v) {L : Nat} (lam : Fin L → ℝ) (i : Fin L) :
    ∑ us, priorProb lam us * (mapRxLaw t v us).real {y | ¬ ∃ llr bits, mapDecode t v (List.ofFn fun j => (y j).1) (List.ofFn fun j => (y j).2) (List.ofFn lam) "decode" = .ok (llr, bits) ∧
        bits[(i : Nat)]? = some ((us i : Fin 2) : Nat)} ≤ min (llrProb (lam i) 0) (llrProb (lam i) 1) := by
  have key : ∀ b b' : Fin 2, b ≠ b' → ∑ us, priorProb lam us * (mapRxLaw t v us).real {_y | b ≠ us i} = llrProb (lam i) b' := by
    intro b b' hne
    rw [← priorProb_bit lam i b']
    refine sum_congr rfl fun us _ => ?_
    have hc : us i = b ∨ us i = b' := by
      have := (us i).2; have := b.2; have := b'.2
      have : (b : Nat) ≠ b' := fun e => hne (Fin.ext e)
      rcases Nat.lt_or_ge 0 ((us i : Fin 2) : Nat) with h0 | h0
      · rcases Nat.lt_or_ge 0 (b : Nat) with h1 | h1
        · exact Or.inl (Fin.ext (by omega))
        · exact Or.inr (Fin.ext (by omega))
      · rcases Nat.lt_or_ge 0 (b : Nat) with h1 | h1
        · exact Or.inr (Fin.ext (by omega))
        · exact Or.inl (Fin.ext (by omega))
    rcases hc with hc | hc
    · rw [if_neg (by rw [hc]; exact hne), hc]; simp
    · rw [if_pos hc, hc]; simp [hne, measureReal_def]
  refine le_min ?_ ?_
  · rw [← key 1 0 (by decide)]
    exact C145_map h hk hn hv lam i (g := fun _ => 1) measurable_const
  · rw [← key 0 1 (by decide)]
    exact C145_map h hk hn hv lam i (g := fun _ => 0) measurable_const

/-! ### Instances -/

/-- The recursive systematic encoder with feedback 5 and generator 7, blocks of 100 bits, noise variance 1/2, equally likely bits. -/
example : ∑ us, priorProb (fun _ : Fin 100 => 0) us * (mapRxLaw turboTrellis (1 / 2) us).real {y | ¬ ∃ llr bits,
      mapDecode turboTrellis ((1 / 2 : NNReal) : ℝ) (List.ofFn fun j => (y j).1) (List.ofFn fun j => (y j).2) (List.ofFn fun _ : Fin 100 => (0 : ℝ)) "decode" = .ok (llr, bits) ∧
        bits[99]? = some ((us 99 : Fin 2) : Nat)} ≤ (gaussianReal 0 (1 / 2)).real (Set.Ici 1) :=
  C145_uncoded turboTrellis_WF (by decide) (by decide) turboTrellis_systematic (by norm_num) (fun _ : Fin 100 => 0) 99

/-- A competitor that looks at the neighbouring parity bits too. -/
example (a : ℝ) : ∑ us, priorProb (fun _ : Fin 3 => a) us * ∑ i : Fin 3, (mapRxLaw turboTrellis 2 us).real {y | ¬ ∃ llr bits,
      mapDecode turboTrellis ((2 : NNReal) : ℝ) (List.ofFn fun j => (y j).1) (List.ofFn fun j => (y j).2) (List.ofFn fun _ : Fin 3 => a) "decode" = .ok (llr, bits) ∧
        bits[(i : Nat)]? = some ((us i : Fin 2) : Nat)} ≤
    ∑ us, priorProb (fun _ : Fin 3 => a) us * ∑ i : Fin 3, (mapRxLaw turboTrellis 2 us).real {y | (if 0 < (y i).1 * 2 + a + (y 0).2 * (y 1).2 then (1 : Fin 2) else 0) ≠ us i} := by
  refine C145_map_block (g := fun y i => if 0 < (y i).1 * 2 + a + (y 0).2 * (y 1).2 then (1 : Fin 2) else 0) turboTrellis_WF (by decide) (by decide) (by norm_num) _
    (measurable_pi_iff.2 fun i => Measurable.ite (measurableSet_lt measurable_const ?_) measurable_const measurable_const)
  have h0 : ∀ k : Fin 3, Measurable fun y : Fin 3 → ℝ × ℝ => y k := fun k => measurable_pi_apply k
  fun_prop

end Verif
