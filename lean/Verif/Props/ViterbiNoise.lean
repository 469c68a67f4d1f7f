import Verif.Props.ViterbiUnion
import Verif.Props.ModemBerPsk
import Verif.Props.BscCoding
/-
C126: pairwise error probabilities of code sequences over Gaussian noise and over the binary symmetric channel.
-/
namespace Verif
open MeasureTheory ProbabilityTheory Finset

section
variable {Ω : Type*} [MeasurableSpace Ω] {μ : Measure Ω}

/-- Independent losses whose exponential moment at some `s ≥ 0` is at most `x`. -/
theorem pairwise_chernoff {loss : Ω → Nat → ℝ} (hind : iIndepFun (fun p ω => loss ω p) μ) (hm : ∀ p, AEMeasurable (fun ω => loss ω p) μ) {s x : ℝ} (hs : 0 ≤ s)
    (hpos : ∀ p, 0 < mgf (fun ω => loss ω p) μ s) (hle : ∀ p, mgf (fun ω => loss ω p) μ s ≤ x) : PairwiseBound μ loss (fun d => x ^ d) := by
  intro D _
  have := hind.isProbabilityMeasure
  have hsum := hind.mgf_sum₀ (t := s) hm D
  have hp : 0 < mgf (∑ i ∈ D, fun ω => loss ω i) μ s := by rw [hsum]; exact prod_pos fun i _ => hpos i
  have h1 := measure_ge_le_exp_mul_mgf (μ := μ) (X := ∑ i ∈ D, fun ω => loss ω i) 0 hs (mgf_pos_iff.1 hp)
  rw [hsum, mul_zero, Real.exp_zero, one_mul] at h1
  have h2 : ∏ i ∈ D, mgf (fun ω => loss ω i) μ s ≤ ∏ _i ∈ D, x := prod_le_prod (fun i _ => (hpos i).le) (fun i _ => hle i)
  rw [prod_const] at h2
  refine le_trans (le_of_eq ?_) (h1.trans h2)
  congr 1
  ext ω
  simp [Finset.sum_apply]

/-! ### Gaussian noise -/

/-- A weighted sum of independent standard normal variables. -/
theorem normal_sum {z : Ω → ℕ → ℝ} (hz : NormalDraws μ z) (hind : iIndepFun (fun i ω => z ω i) μ) (g : ℕ → ℝ) (D : Finset ℕ) :
    HasLaw (fun ω => ∑ p ∈ D, g p * z ω p) (gaussianReal 0 (∑ p ∈ D, g p ^ 2).toNNReal) μ := by
  classical
  have := hind.isProbabilityMeasure
  induction D using Finset.induction_on with
  | empty =>
    simp only [sum_empty, Real.toNNReal_zero, gaussianReal_zero_var]
    exact ⟨aemeasurable_const, by rw [Measure.map_const]; simp⟩
  | insert p D hp ih =>
    have h1 := gaussianReal_const_mul (hz p) (g p)
    have hind' : iIndepFun (fun i ω => g i * z ω i) μ := hind.comp (fun i x => g i * x) (fun i => by fun_prop)
    have hi := hind'.indepFun_finsetSum_of_notMem₀ (fun i => (hz i).aemeasurable.const_mul _) hp
    have e : (∑ j ∈ D, fun ω => g j * z ω j) = fun ω => ∑ j ∈ D, g j * z ω j := by ext ω; simp [Finset.sum_apply]
    rw [e] at hi
    refine ⟨?_, ?_⟩
    · have := h1.aemeasurable.add ih.aemeasurable
      simp only [sum_insert hp]
      exact this
    · have := gaussianReal_add_gaussianReal_of_indepFun hi.symm h1.map_eq ih.map_eq
      simp only [sum_insert hp]
      have e2 : ((fun ω => g p * z ω p) + fun ω => ∑ j ∈ D, g j * z ω j) = fun ω => g p * z ω p + ∑ j ∈ D, g j * z ω j := rfl
      rw [e2] at this
      rw [this]
      congr 1
      · ring
      · rw [Real.toNNReal_add (sq_nonneg _) (sum_nonneg fun _ _ => sq_nonneg _), mul_one]
        congr 1
        ext
        rw [Real.coe_toNNReal _ (sq_nonneg _)]
        rfl

/-- Losses `-4 - 4 g_p z_p` with coefficients of at most `σ`. -/
theorem pairwise_gauss {z : Ω → ℕ → ℝ} (hz : NormalDraws μ z) (hind : iIndepFun (fun i ω => z ω i) μ) {σ : ℝ} (hσ : 0 < σ) {g : ℕ → ℝ} (hg : ∀ p, g p ^ 2 ≤ σ ^ 2)
    {loss : Ω → Nat → ℝ} (hl : ∀ ω p, loss ω p = -4 - 4 * (g p * z ω p)) : PairwiseBound μ loss (fun d => qFunction (Real.sqrt d / σ)) := by
  intro D hD
  have := hind.isProbabilityMeasure
  have hcard : 0 < (D.card : ℝ) := by exact_mod_cast card_pos.2 hD
  have hlaw := normal_sum hz hind (fun p => -g p) D
  set V : NNReal := (∑ p ∈ D, (-g p) ^ 2).toNNReal with hV
  have hset : {ω | 0 ≤ ∑ p ∈ D, loss ω p} = (fun ω => ∑ p ∈ D, -g p * z ω p) ⁻¹' Set.Ici (D.card : ℝ) := by
    ext ω
    simp only [Set.mem_ofPred_eq, Set.mem_preimage, Set.mem_Ici]
    have : ∑ p ∈ D, loss ω p = -4 * (D.card : ℝ) + 4 * ∑ p ∈ D, -g p * z ω p := by
      rw [sum_congr rfl (fun p _ => hl ω p), sum_sub_distrib, sum_const, nsmul_eq_mul, mul_sum, sub_eq_add_neg, ← sum_neg_distrib]
      congr 1
      · ring
      · apply sum_congr rfl; intro p _; ring
    rw [this]
    constructor <;> intro h <;> linarith
  have hVle : (V : ℝ) ≤ D.card * σ ^ 2 := by
    rw [hV, Real.coe_toNNReal _ (sum_nonneg fun _ _ => sq_nonneg _)]
    refine le_trans (sum_le_sum fun p _ => (show (-g p) ^ 2 ≤ σ ^ 2 by rw [neg_sq]; exact hg p)) ?_
    rw [sum_const, nsmul_eq_mul]
  have hmap : μ.real ((fun ω => ∑ p ∈ D, -g p * z ω p) ⁻¹' Set.Ici (D.card : ℝ)) = (gaussianReal 0 V).real (Set.Ici (D.card : ℝ)) := by
    unfold Measure.real
    rw [← hlaw.map_eq, Measure.map_apply_of_aemeasurable hlaw.aemeasurable measurableSet_Ici]
  rw [hset, hmap]
  by_cases hV0 : V = 0
  · rw [hV0, gaussianReal_zero_var]
    have : (Measure.dirac (0 : ℝ)).real (Set.Ici (D.card : ℝ)) = 0 := by
      unfold Measure.real
      rw [Measure.dirac_apply' _ measurableSet_Ici, Set.indicator_of_notMem (show (0 : ℝ) ∉ Set.Ici (D.card : ℝ) from fun h => absurd (Set.mem_Ici.1 h) (not_le.2 hcard))]
      simp
    rw [this]
    exact measureReal_nonneg
  · have hVpos : 0 < (V : ℝ) := by exact_mod_cast pos_iff_ne_zero.2 hV0
    have hs := Real.sqrt_pos.2 hVpos
    have hstd : HasLaw (fun x : ℝ => (Real.sqrt V)⁻¹ * x) (gaussianReal 0 1) (gaussianReal 0 V) := by
      have := gaussianReal_const_mul (X := (id : ℝ → ℝ)) (P := gaussianReal 0 V) (μ := 0) (v := V) ⟨aemeasurable_id, Measure.map_id⟩ (Real.sqrt V)⁻¹
      have e : gaussianReal ((Real.sqrt V)⁻¹ * 0) (NNReal.mk ((Real.sqrt V)⁻¹ ^ 2) (sq_nonneg _) * V) = gaussianReal 0 1 := by
        rw [mul_zero]
        congr 1
        ext
        simp only [NNReal.coe_one, NNReal.coe_mul]
        show (Real.sqrt V)⁻¹ ^ 2 * (V : ℝ) = 1
        rw [inv_pow, Real.sq_sqrt hVpos.le, inv_mul_cancel₀ hVpos.ne']
      rw [← e]
      exact this
    have hle : Real.sqrt D.card / σ ≤ D.card / Real.sqrt V := by
      rw [div_le_div_iff₀ hσ hs]
      have : Real.sqrt V ≤ Real.sqrt D.card * σ := by
        rw [← Real.sqrt_sq hσ.le, ← Real.sqrt_mul hcard.le]
        exact Real.sqrt_le_sqrt hVle
      calc Real.sqrt D.card * Real.sqrt V ≤ Real.sqrt D.card * (Real.sqrt D.card * σ) := mul_le_mul_of_nonneg_left this (Real.sqrt_nonneg _)
        _ = D.card * σ := by rw [← mul_assoc, Real.mul_self_sqrt hcard.le]
    have hmono : (gaussianReal 0 1).real (Set.Ici ((D.card : ℝ) / Real.sqrt V)) ≤ qFunction (Real.sqrt D.card / σ) := by
      rw [← q_ici]
      exact measureReal_mono (Set.Ici_subset_Ici.2 hle)
    refine le_trans (le_of_eq ?_) hmono
    rw [← hstd.map_eq, map_measureReal_apply (by fun_prop) measurableSet_Ici]
    congr 1
    ext x
    simp only [Set.mem_preimage, Set.mem_Ici]
    rw [div_le_iff₀ hs, inv_mul_eq_div, div_mul_cancel₀ _ hs.ne']

/-- What the receiver sees of the bits `c`, sent as `2 c - 1` over real Gaussian noise of standard deviation `σ`. -/
noncomputable def noisyBits (c : List Nat) (σ : ℝ) (z : ℕ → ℝ) : List ℝ :=
  (List.range c.length).map fun p => 2 * (c.getD p 0 : ℝ) - 1 + σ * z p

theorem getD_pad {β : Type} (l : List β) (m p : Nat) (d : β) : (l ++ List.replicate m d).getD p d = l.getD p d := by
  rw [List.getD_eq_getElem?_getD, List.getD_eq_getElem?_getD, List.getElem?_append]
  split
  · rfl
  · rename_i h
    rw [List.getElem?_eq_none (l := l) (by omega), List.getElem?_replicate]
    split <;> rfl

theorem unq_loss {t : Trellis} {c : List Nat} (hc : ∀ x ∈ c, x < 2) (σ : ℝ) (z : ℕ → ℝ) (m p : Nat) :
    metricLoss (fun x (b : Nat) => (x - (2 * (b : ℝ) - 1)) ^ 2) (-1) (paddedRx t (-1) (noisyBits c σ z)) (c ++ List.replicate m 0) p =
      -4 - 4 * ((if p < c.length then (2 * (c.getD p 0 : ℝ) - 1) * σ else 0) * z p) := by
  unfold metricLoss paddedRx
  rw [getD_pad, getD_pad]
  by_cases hp : p < c.length
  · rw [if_pos hp]
    have e : (noisyBits c σ z).getD p (-1) = 2 * (c.getD p 0 : ℝ) - 1 + σ * z p := by
      unfold noisyBits
      rw [List.getD_eq_getElem _ _ (by simpa using hp)]
      simp
    rw [e]
    have hb : c.getD p 0 < 2 := hc _ (by rw [List.getD_eq_getElem _ _ hp]; exact List.getElem_mem _)
    have : c.getD p 0 = 0 ∨ c.getD p 0 = 1 := by omega
    rcases this with h | h <;> rw [h] <;> push_cast <;> ring
  · rw [if_neg hp]
    have e : (noisyBits c σ z).getD p (-1) = -1 := by
      rw [List.getD_eq_getElem?_getD, List.getElem?_eq_none (by unfold noisyBits; simp; omega)]; rfl
    have e2 : c.getD p 0 = 0 := by rw [List.getD_eq_getElem?_getD, List.getElem?_eq_none (by omega)]; rfl
    rw [e, e2]
    norm_num

/-- Unquantized decisions over Gaussian noise. -/
theorem pairwise_unq {t : Trellis} {z : Ω → ℕ → ℝ} (hz : NormalDraws μ z) (hind : iIndepFun (fun i ω => z ω i) μ) {σ : ℝ} (hσ : 0 < σ) {c : List Nat} (hc : ∀ x ∈ c, x < 2) (m : Nat) :
    PairwiseBound μ (fun ω => metricLoss (fun x (b : Nat) => (x - (2 * (b : ℝ) - 1)) ^ 2) (-1) (paddedRx t (-1) (noisyBits c σ (z ω))) (c ++ List.replicate m 0))
      (fun d => qFunction (Real.sqrt d / σ)) := by
  refine pairwise_gauss hz hind hσ (g := fun p => if p < c.length then (2 * (c.getD p 0 : ℝ) - 1) * σ else 0) ?_ (fun ω p => unq_loss hc σ (z ω) m p)
  intro p
  by_cases hp : p < c.length
  · simp only [if_pos hp]
    have hb : c.getD p 0 < 2 := hc _ (by rw [List.getD_eq_getElem _ _ hp]; exact List.getElem_mem _)
    have : c.getD p 0 = 0 ∨ c.getD p 0 = 1 := by omega
    rcases this with h | h <;> rw [h] <;> push_cast <;> apply le_of_eq <;> ring
  · simp only [if_neg hp]
    nlinarith [sq_nonneg σ]

/-! ### The binary symmetric channel -/

theorem bscBits_getD {c : List Nat} (hc : ∀ x ∈ c, x < 2) (p : ℝ) (u : Nat → ℝ) {i : Nat} (hi : i < c.length) :
    (bscBits c p u).getD i 0 = if u i ≤ p then 1 - c.getD i 0 else c.getD i 0 := by
  have hbits : ∀ x ∈ ([c.map Int.ofNat] : IntHeap).getD 0 [], x = 0 ∨ x = 1 := by
    intro x hx
    obtain ⟨y, hy, rfl⟩ := List.mem_map.1 (show x ∈ c.map Int.ofNat from hx)
    have := hc y hy
    have : y = 0 ∨ y = 1 := by omega
    rcases this with rfl | rfl
    · left; rfl
    · right; rfl
  obtain ⟨h1, h2, h3, -⟩ := C74_bsc [c.map Int.ofNat] 0 (by simp) hbits p u
  have e0 : ([c.map Int.ofNat] : IntHeap).getD 0 [] = c.map Int.ofNat := rfl
  rw [e0, List.length_map] at h3
  have h4 := h3 i hi
  have h5 : (c.map Int.ofNat).getD i 0 = (c.getD i 0 : ℤ) := by
    rw [List.getD_eq_getElem _ _ (by simpa using hi), List.getElem_map, List.getD_eq_getElem _ _ hi]; rfl
  rw [h5] at h4
  have h6 : (bscBits c p u).getD i 0 = (((bsc [c.map Int.ofNat] 0 p u).1.getD ([c.map Int.ofNat] : IntHeap).length []).getD i 0).toNat := by
    have e7 : ∀ l : List ℤ, (l.map Int.toNat).getD i 0 = (l.getD i 0).toNat := by
      intro l
      rw [List.getD_eq_getElem?_getD, List.getD_eq_getElem?_getD, List.getElem?_map]
      cases l[i]? <;> rfl
    unfold bscBits
    dsimp only
    rw [h1, e7]
  rw [h6, h4]
  have := hc (c.getD i 0) (by rw [List.getD_eq_getElem _ _ hi]; exact List.getElem_mem _)
  split <;> omega

theorem hard_loss {t : Trellis} {c : List Nat} (hc : ∀ x ∈ c, x < 2) (p : ℝ) (u : ℕ → ℝ) (m i : Nat) :
    metricLoss (fun x (b : Nat) => Nat.castAddMonoidHom ℝ (if x = b then 0 else 1)) 0 (paddedRx t 0 (bscBits c p u)) (c ++ List.replicate m 0) i =
      if i < c.length ∧ u i ≤ p then 1 else -1 := by
  unfold metricLoss paddedRx
  rw [getD_pad, getD_pad]
  by_cases hi : i < c.length
  · rw [bscBits_getD hc p u hi]
    have hb : c.getD i 0 < 2 := hc _ (by rw [List.getD_eq_getElem _ _ hi]; exact List.getElem_mem _)
    have : c.getD i 0 = 0 ∨ c.getD i 0 = 1 := by omega
    by_cases hu : u i ≤ p
    · rw [if_pos hu, if_pos ⟨hi, hu⟩]
      rcases this with h | h <;> rw [h] <;> simp
    · rw [if_neg hu, if_neg (fun h => hu h.2)]
      rcases this with h | h <;> rw [h] <;> simp
  · rw [if_neg (fun h => hi h.1)]
    have e : (bscBits c p u).getD i 0 = 0 := by
      rw [List.getD_eq_getElem?_getD, List.getElem?_eq_none (by rw [(bsc_bits hc p u).1]; omega)]; rfl
    have e2 : c.getD i 0 = 0 := by rw [List.getD_eq_getElem?_getD, List.getElem?_eq_none (by omega)]; rfl
    rw [e, e2]
    simp

/-- Hard decisions over the binary symmetric channel (the Bhattacharyya bound). -/
theorem pairwise_hard {t : Trellis} {u : Ω → ℕ → ℝ} (hu : UniformDraws μ u) (hind : iIndepFun (fun i ω => u ω i) μ) {p : ℝ} (h0 : 0 < p) (h1 : p ≤ 1 / 2) {c : List Nat} (hc : ∀ x ∈ c, x < 2)
    (m : Nat) :
    PairwiseBound μ (fun ω => metricLoss (fun x (b : Nat) => Nat.castAddMonoidHom ℝ (if x = b then 0 else 1)) 0 (paddedRx t 0 (bscBits c p (u ω))) (c ++ List.replicate m 0))
      (fun d => (2 * Real.sqrt (p * (1 - p))) ^ d) := by
  classical
  have := hind.isProbabilityMeasure
  have hr : 0 < (1 - p) / p := div_pos (by linarith) h0
  set s := Real.log ((1 - p) / p) / 2 with hs
  have hs0 : 0 ≤ s := by
    apply div_nonneg (Real.log_nonneg _) (by norm_num)
    rw [le_div_iff₀ h0]; linarith
  have hes : Real.exp s = Real.sqrt ((1 - p) / p) := by
    rw [hs, Real.exp_half, Real.exp_log hr]
  have hens : Real.exp (-s) = Real.sqrt (p / (1 - p)) := by
    rw [Real.exp_neg, hes, ← Real.sqrt_inv, inv_div]
  set f : ℕ → ℝ → ℝ := fun i x => if i < c.length ∧ x ≤ p then 1 else -1 with hf
  have hfm : ∀ i, Measurable (f i) := by
    intro i
    by_cases hi : i < c.length
    · simp only [hf, hi, true_and]
      exact Measurable.ite measurableSet_Iic measurable_const measurable_const
    · simp only [hf, hi, false_and, if_false]
      exact measurable_const
  have hloss : ∀ ω i, metricLoss (fun x (b : Nat) => Nat.castAddMonoidHom ℝ (if x = b then 0 else 1)) 0 (paddedRx t 0 (bscBits c p (u ω))) (c ++ List.replicate m 0) i =
      f i (u ω i) := fun ω i => hard_loss hc p (u ω) m i
  have hmgf : ∀ i, mgf (fun ω => f i (u ω i)) μ s = if i < c.length then 2 * Real.sqrt (p * (1 - p)) else Real.exp (-s) := by
    intro i
    by_cases hi : i < c.length
    · rw [if_pos hi]
      have e : ∀ ω, Real.exp (s * f i (u ω i)) = Real.exp (-s) + Set.indicator ((fun ω => u ω i) ⁻¹' Set.Iic p) (fun _ => Real.exp s - Real.exp (-s)) ω := by
        intro ω
        simp only [hf, hi, true_and]
        by_cases hu' : u ω i ≤ p
        · rw [if_pos hu', Set.indicator_of_mem (show ω ∈ (fun ω => u ω i) ⁻¹' Set.Iic p from hu'), mul_one]; ring
        · rw [if_neg hu', Set.indicator_of_notMem (show ω ∉ (fun ω => u ω i) ⁻¹' Set.Iic p from hu')]
          rw [add_zero]; congr 1; ring
      have hms : NullMeasurableSet ((fun ω => u ω i) ⁻¹' Set.Iic p) μ := (hu i).aemeasurable.nullMeasurable measurableSet_Iic
      have hpr : μ.real ((fun ω => u ω i) ⁻¹' Set.Iic p) = p := by
        have := uniform_le hu p h0.le (by linarith) i
        unfold Measure.real
        rw [show (fun ω => u ω i) ⁻¹' Set.Iic p = {ω | u ω i ≤ p} from rfl, this, ENNReal.toReal_ofReal h0.le]
      unfold mgf
      simp only [e]
      rw [integral_add (integrable_const _) ((integrable_const _).indicator₀ hms), integral_const, integral_indicator₀ hms, setIntegral_const, hpr, hes, hens]
      simp only [probReal_univ, smul_eq_mul, one_mul]
      have e1 : Real.sqrt ((1 - p) / p) = Real.sqrt (p * (1 - p)) / p := by
        rw [show (1 - p) / p = p * (1 - p) / p ^ 2 by field_simp, Real.sqrt_div (mul_nonneg h0.le (by linarith)), Real.sqrt_sq h0.le]
      have e2 : Real.sqrt (p / (1 - p)) = Real.sqrt (p * (1 - p)) / (1 - p) := by
        have h1p : 0 < 1 - p := by linarith
        rw [show p / (1 - p) = p * (1 - p) / (1 - p) ^ 2 by field_simp, Real.sqrt_div (mul_nonneg h0.le (by linarith)), Real.sqrt_sq (by linarith)]
      rw [e1, e2]
      have h1p : (1 - p) ≠ 0 := by linarith
      field_simp
      ring
    · rw [if_neg hi]
      have : (fun ω => f i (u ω i)) = fun _ => (-1 : ℝ) := by funext ω; simp only [hf, hi, false_and, if_false]
      rw [this, mgf_const]
      congr 1; ring
  have hpos : 0 < Real.sqrt (p * (1 - p)) := Real.sqrt_pos.2 (mul_pos h0 (by linarith))
  have hfun : (fun ω => metricLoss (fun x (b : Nat) => Nat.castAddMonoidHom ℝ (if x = b then 0 else 1)) 0 (paddedRx t 0 (bscBits c p (u ω))) (c ++ List.replicate m 0)) =
      fun ω i => f i (u ω i) := by funext ω i; exact hloss ω i
  rw [hfun]
  refine pairwise_chernoff (hind.comp f hfm) (fun i => (hfm i).comp_aemeasurable (hu i).aemeasurable) hs0 ?_ ?_
  · intro i
    show 0 < mgf (fun ω => f i (u ω i)) μ s
    rw [hmgf i]
    split
    · linarith
    · exact Real.exp_pos _
  · intro i
    show mgf (fun ω => f i (u ω i)) μ s ≤ _
    rw [hmgf i]
    split
    · exact le_rfl
    · rw [hens, Real.sqrt_le_iff]
      refine ⟨by positivity, ?_⟩
      rw [mul_pow, Real.sq_sqrt (mul_nonneg h0.le (by linarith))]
      rw [div_le_iff₀ (by linarith)]
      nlinarith [mul_nonneg h0.le (sq_nonneg (1 - p)), mul_pos h0 (show 0 < 1 - p by linarith), sq_nonneg (1 - 2 * p)]

end
end Verif
