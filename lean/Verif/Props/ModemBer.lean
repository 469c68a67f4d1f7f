import Verif.Props.MonteCarloAwgn
/-
C125: values and bounds of the bit error probability.
-/
namespace Verif
open MeasureTheory ProbabilityTheory Finset Filter Topology

instance : NullSingletonClass (gaussianReal 0 1) := nullSingletonClass_gaussianReal (by norm_num)
instance : IsProbabilityMeasure noise2 := by unfold noise2; infer_instance

/-- The component of the noise in a given direction is a standard normal variable. -/
theorem noise2_direction {u v : ℝ} (h : u ^ 2 + v ^ 2 = 1) : HasLaw (fun n : ℝ × ℝ => u * n.1 + v * n.2) (gaussianReal 0 1) noise2 := by
  have h1 : HasLaw (fun n : ℝ × ℝ => n.1) (gaussianReal 0 1) noise2 := ⟨measurable_fst.aemeasurable, by unfold noise2; exact Measure.map_fst_prod.trans (by simp)⟩
  have h2 : HasLaw (fun n : ℝ × ℝ => n.2) (gaussianReal 0 1) noise2 := ⟨measurable_snd.aemeasurable, by unfold noise2; exact Measure.map_snd_prod.trans (by simp)⟩
  have g1 := gaussianReal_const_mul h1 u
  have g2 := gaussianReal_const_mul h2 v
  have hi : IndepFun (fun n : ℝ × ℝ => u * n.1) (fun n : ℝ × ℝ => v * n.2) noise2 :=
    indepFun_prod (μ := gaussianReal 0 1) (ν := gaussianReal 0 1) (X := fun x => u * x) (Y := fun x => v * x) (by fun_prop) (by fun_prop)
  refine ⟨by fun_prop, ?_⟩
  have := gaussianReal_add_gaussianReal_of_indepFun hi g1.map_eq g2.map_eq
  have e : ((fun n : ℝ × ℝ => u * n.1) + fun n : ℝ × ℝ => v * n.2) = fun n : ℝ × ℝ => u * n.1 + v * n.2 := rfl
  rw [e] at this
  rw [this]
  congr 1
  · ring
  · ext
    simp
    exact h

theorem q_ici (x : ℝ) : (gaussianReal 0 1).real (Set.Ici x) = qFunction x := by
  unfold qFunction Measure.real
  rw [measure_congr Ioi_ae_eq_Ici]

/-- Probability that the noise moves the symbol `c` at least as near to `c + w` (pairwise error probability). -/
theorem pairwise_error {σ : ℝ} (hσ : 0 < σ) {w : ℂ} (hw : w ≠ 0) (c : ℂ) :
    noise2.real {n | ‖(c + σ * (n.1 + Complex.I * n.2)) - (c + w)‖ ≤ ‖(c + σ * (n.1 + Complex.I * n.2)) - c‖} = qFunction (‖w‖ / (2 * σ)) ∧
    noise2.real {n | ‖(c + σ * (n.1 + Complex.I * n.2)) - (c + w)‖ < ‖(c + σ * (n.1 + Complex.I * n.2)) - c‖} = qFunction (‖w‖ / (2 * σ)) := by
  have hr : 0 < ‖w‖ := norm_pos_iff.2 hw
  set r := ‖w‖ with hrd
  have hsq : r ^ 2 = w.re ^ 2 + w.im ^ 2 := by
    rw [hrd, ← Complex.normSq_eq_norm_sq, Complex.normSq_apply]; ring
  have hlaw := noise2_direction (u := w.re / r) (v := w.im / r) (by
    rw [div_pow, div_pow, ← add_div, ← hsq]; field_simp)
  have key : ∀ n : ℝ × ℝ, ‖(c + σ * (n.1 + Complex.I * n.2)) - c‖ ^ 2 - ‖(c + σ * (n.1 + Complex.I * n.2)) - (c + w)‖ ^ 2 =
      2 * σ * r * ((w.re / r * n.1 + w.im / r * n.2) - r / (2 * σ)) := by
    intro n
    rw [← Complex.normSq_eq_norm_sq, ← Complex.normSq_eq_norm_sq, Complex.normSq_apply, Complex.normSq_apply]
    simp
    field_simp
    rw [hsq]
    ring
  have hpos : 0 < 2 * σ * r := by positivity
  constructor
  · rw [← q_ici, ← hlaw.map_eq, map_measureReal_apply (by fun_prop) measurableSet_Ici]
    congr 1
    ext n
    simp only [Set.mem_ofPred_eq, Set.mem_preimage, Set.mem_Ici]
    rw [← abs_norm, ← abs_norm (_ - c), ← sq_le_sq, ← sub_nonneg, key, mul_nonneg_iff_of_pos_left hpos, sub_nonneg]
  · unfold qFunction
    rw [← hlaw.map_eq, map_measureReal_apply (by fun_prop) measurableSet_Ioi]
    congr 1
    ext n
    simp only [Set.mem_ofPred_eq, Set.mem_preimage, Set.mem_Ioi]
    rw [← abs_norm, ← abs_norm (_ - c), ← sq_lt_sq, ← sub_pos, key, mul_pos_iff_of_pos_left hpos, sub_pos]

theorem symWrong_integrable {cst : List ℂ} (hne : cst ≠ []) (k : Nat) (σ : ℝ) (l : Nat) : Integrable (symWrong cst k σ l) noise2 :=
  Integrable.of_bound (symWrong_measurable hne k σ l).aestronglyMeasurable k (Eventually.of_forall fun n => by
    obtain ⟨a, b⟩ := symWrong_bound cst k σ l n
    rw [Real.norm_of_nonneg a]
    exact b)

theorem labelDiff_self (k a : Nat) : labelDiff k a a = 0 := by simp [labelDiff]

theorem labelDiff_pos {k a b : Nat} (ha : a < 2 ^ k) (hb : b < 2 ^ k) (hne : a ≠ b) : 1 ≤ labelDiff k a b := by
  unfold labelDiff
  rw [Nat.one_le_iff_ne_zero, Ne, card_eq_zero, filter_eq_empty_iff]
  intro h
  apply hne
  apply Nat.eq_of_testBit_eq
  intro i
  by_cases hi : i < k
  · have := h (mem_range.2 hi)
    simpa using this
  · have hp : 2 ^ k ≤ 2 ^ i := Nat.pow_le_pow_right (by norm_num) (by omega)
    rw [Nat.testBit_lt_two_pow (by omega), Nat.testBit_lt_two_pow (by omega)]

theorem pair_measurable (cst : List ℂ) (σ : ℝ) (l m : Nat) : MeasurableSet {n : ℝ × ℝ | ‖(cst.getD l 0 + σ * (n.1 + Complex.I * n.2)) - cst.getD m 0‖ ≤ ‖(cst.getD l 0 + σ * (n.1 + Complex.I * n.2)) - cst.getD l 0‖} :=
  measurableSet_le (by fun_prop) (by fun_prop)

theorem getD_inj {cst : List ℂ} (hnd : cst.Nodup) {l m : Nat} (hl : l < cst.length) (hm : m < cst.length) (hne : l ≠ m) : cst.getD m 0 - cst.getD l 0 ≠ 0 := by
  rw [List.getD_eq_getElem _ _ hl, List.getD_eq_getElem _ _ hm, sub_ne_zero]
  intro e
  exact hne ((List.Nodup.getElem_inj_iff hnd).1 e).symm

/-- C125, union bound: the bit error probability is at most the mean over the labels of the sum over the other labels of their Hamming distance times the
pairwise error probability `Q (d / (2 σ))`. -/
theorem C125_union {cst : List ℂ} {k : Nat} (hlen : cst.length = 2 ^ k) (hnd : cst.Nodup) {σ : ℝ} (hσ : 0 < σ) :
    bitErrorProb cst k σ ≤ (∑ l ∈ range (2 ^ k), ∑ m ∈ (range (2 ^ k)).erase l, labelDiff k l m * qFunction (‖cst.getD m 0 - cst.getD l 0‖ / (2 * σ))) / (2 ^ k * k) := by
  have hne : cst ≠ [] := by
    rintro rfl
    have := Nat.two_pow_pos k
    simp at hlen
    omega
  unfold bitErrorProb
  refine div_le_div_of_nonneg_right (sum_le_sum fun l hl => ?_) (by positivity)
  rw [mem_range] at hl
  set A : Nat → Set (ℝ × ℝ) := fun m => {n : ℝ × ℝ | ‖(cst.getD l 0 + σ * (n.1 + Complex.I * n.2)) - cst.getD m 0‖ ≤ ‖(cst.getD l 0 + σ * (n.1 + Complex.I * n.2)) - cst.getD l 0‖} with hA
  have hAm : ∀ m, MeasurableSet (A m) := fun m => pair_measurable cst σ l m
  have hP : ∀ m ∈ (range (2 ^ k)).erase l, noise2.real (A m) = qFunction (‖cst.getD m 0 - cst.getD l 0‖ / (2 * σ)) := by
    intro m hm
    rw [mem_erase, mem_range] at hm
    have := (pairwise_error hσ (getD_inj hnd (by omega) (by omega) (Ne.symm hm.1)) (cst.getD l 0)).1
    rw [← this, hA]
    congr 1
    ext n
    rw [Set.mem_ofPred_eq, Set.mem_ofPred_eq, add_sub_cancel]
  have hi : ∀ m, Integrable (fun n => (labelDiff k l m : ℝ) * (A m).indicator 1 n) noise2 := fun m => ((integrable_const (1 : ℝ)).indicator (hAm m)).const_mul _
  have e : ∑ m ∈ (range (2 ^ k)).erase l, (labelDiff k l m : ℝ) * qFunction (‖cst.getD m 0 - cst.getD l 0‖ / (2 * σ)) =
      ∫ n, ∑ m ∈ (range (2 ^ k)).erase l, (labelDiff k l m : ℝ) * (A m).indicator 1 n ∂noise2 := by
    rw [integral_finsetSum _ fun m _ => hi m]
    apply sum_congr rfl
    intro m hm
    rw [integral_const_mul, integral_indicator_one (hAm m), hP m hm]
  rw [e]
  refine integral_mono (symWrong_integrable hne k σ l) (integrable_finsetSum _ fun m _ => hi m) fun n => ?_
  show symWrong cst k σ l n ≤ _
  unfold symWrong
  set y := cst.getD l 0 + σ * (n.1 + Complex.I * n.2) with hy
  obtain ⟨h1, h2⟩ := nearestLabel_mem hne y
  set m := nearestLabel cst y with hm
  have hnn : ∀ m' ∈ (range (2 ^ k)).erase l, 0 ≤ (labelDiff k l m' : ℝ) * (A m').indicator 1 n := fun m' _ => mul_nonneg (by positivity) (Set.indicator_nonneg (fun _ _ => zero_le_one) _)
  by_cases hml : m = l
  · rw [hml, labelDiff_self]
    simpa using sum_nonneg hnn
  · have hmem : m ∈ (range (2 ^ k)).erase l := mem_erase.2 ⟨hml, mem_range.2 (by omega)⟩
    refine le_trans ?_ (single_le_sum hnn hmem)
    have hin : n ∈ A m := h2 _ (by rw [List.getD_eq_getElem _ _ (by omega)]; exact List.getElem_mem _)
    rw [Set.indicator_of_mem hin]
    simp

/-- C125, lower bound: for every choice of a neighbour `f l ≠ l` of every label, the mean over the labels of `Q (d / (2 σ))`, divided by the number of bits of
a symbol. -/
theorem C125_lower {cst : List ℂ} {k : Nat} (hlen : cst.length = 2 ^ k) (hnd : cst.Nodup) {σ : ℝ} (hσ : 0 < σ) (f : Nat → Nat) (hf : ∀ l < 2 ^ k, f l < 2 ^ k ∧ f l ≠ l) :
    (∑ l ∈ range (2 ^ k), qFunction (‖cst.getD (f l) 0 - cst.getD l 0‖ / (2 * σ))) / (2 ^ k * k) ≤ bitErrorProb cst k σ := by
  have hne : cst ≠ [] := by
    rintro rfl
    have := Nat.two_pow_pos k
    simp at hlen
    omega
  unfold bitErrorProb
  refine div_le_div_of_nonneg_right (sum_le_sum fun l hl => ?_) (by positivity)
  rw [mem_range] at hl
  obtain ⟨f1, f2⟩ := hf l hl
  rw [← (pairwise_error hσ (getD_inj hnd (show l < cst.length by omega) (show f l < cst.length by omega) (Ne.symm f2)) (cst.getD l 0)).2, add_sub_cancel]
  have hm : MeasurableSet {n : ℝ × ℝ | ‖(cst.getD l 0 + σ * (n.1 + Complex.I * n.2)) - cst.getD (f l) 0‖ < ‖(cst.getD l 0 + σ * (n.1 + Complex.I * n.2)) - cst.getD l 0‖} :=
    measurableSet_lt (by fun_prop) (by fun_prop)
  rw [← integral_indicator_one hm]
  refine integral_mono ((integrable_const (1 : ℝ)).indicator hm) (symWrong_integrable hne k σ l) fun n => ?_
  obtain ⟨h1, h2⟩ := nearestLabel_mem hne (cst.getD l 0 + σ * (n.1 + Complex.I * n.2))
  by_cases hn : n ∈ {n : ℝ × ℝ | ‖(cst.getD l 0 + σ * (n.1 + Complex.I * n.2)) - cst.getD (f l) 0‖ < ‖(cst.getD l 0 + σ * (n.1 + Complex.I * n.2)) - cst.getD l 0‖}
  · rw [Set.indicator_of_mem hn]
    have hml : l ≠ nearestLabel cst (cst.getD l 0 + σ * (n.1 + Complex.I * n.2)) := by
      intro e
      have := h2 (cst.getD (f l) 0) (by rw [List.getD_eq_getElem _ _ (by omega)]; exact List.getElem_mem _)
      rw [← e] at this
      exact absurd hn (not_lt.2 this)
    have := labelDiff_pos hl (by omega) hml
    show (1 : ℝ) ≤ _
    exact_mod_cast this
  · rw [Set.indicator_of_notMem hn]
    exact (symWrong_bound cst k σ l n).1

/-- Every event that contains the symbol errors bounds the bit error probability. -/
theorem ber_le_event {cst : List ℂ} {k : Nat} (hlen : cst.length = 2 ^ k) (hk : 0 < k) {σ p : ℝ} (E : Nat → Set (ℝ × ℝ)) (hE : ∀ l < 2 ^ k, MeasurableSet (E l) ∧ noise2.real (E l) ≤ p)
    (h : ∀ l < 2 ^ k, ∀ n : ℝ × ℝ, nearestLabel cst (cst.getD l 0 + σ * (n.1 + Complex.I * n.2)) ≠ l → n ∈ E l) : bitErrorProb cst k σ ≤ p := by
  have hne : cst ≠ [] := by
    rintro rfl
    have := Nat.two_pow_pos k
    simp at hlen
    omega
  have hl : ∀ l ∈ range (2 ^ k), ∫ n, symWrong cst k σ l n ∂noise2 ≤ k * p := by
    intro l hl
    rw [mem_range] at hl
    have : ∫ n, symWrong cst k σ l n ∂noise2 ≤ ∫ n, (k : ℝ) * (E l).indicator 1 n ∂noise2 := by
      refine integral_mono (symWrong_integrable hne k σ l) (((integrable_const (1 : ℝ)).indicator (hE l hl).1).const_mul _) fun n => ?_
      by_cases hn : nearestLabel cst (cst.getD l 0 + σ * (n.1 + Complex.I * n.2)) = l
      · have : symWrong cst k σ l n = 0 := by unfold symWrong; rw [hn, labelDiff_self]; simp
        rw [this]
        exact mul_nonneg (by positivity) (Set.indicator_nonneg (fun _ _ => zero_le_one) _)
      · dsimp only
        rw [Set.indicator_of_mem (h l hl n hn)]
        simpa using (symWrong_bound cst k σ l n).2
    refine this.trans ?_
    rw [integral_const_mul, integral_indicator_one (hE l hl).1]
    exact mul_le_mul_of_nonneg_left (hE l hl).2 (by positivity)
  unfold bitErrorProb
  have hk' : (0 : ℝ) < k := by exact_mod_cast hk
  rw [div_le_iff₀ (by positivity)]
  refine (sum_le_sum hl).trans ?_
  rw [sum_const, card_range, nsmul_eq_mul]
  push_cast
  apply le_of_eq
  ring

end Verif
