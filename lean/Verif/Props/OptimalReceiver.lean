import Verif.Lemmas.Bayes
import Verif.Props.SymbolError
import Verif.Props.MimoNoise
/-
C144: no receiver makes fewer errors than the hard decisions (symbols), the signs of the soft decisions (bits) and `mimo_ml` (vectors).
-/
namespace Verif
open MeasureTheory ProbabilityTheory Finset
open scoped ENNReal NNReal

/-- A point in units of the noise. -/
noncomputable def scaledPoint (x : ℂ) (σ : ℝ) : ℝ × ℝ := (x.re / σ, x.im / σ)

theorem scaled_rx (x : ℂ) {σ : ℝ} (hσ : 0 < σ) (n : ℝ × ℝ) :
    x + σ * ((n.1 : ℂ) + Complex.I * n.2) = σ * (((n + scaledPoint x σ).1 : ℂ) + Complex.I * ((n + scaledPoint x σ).2 : ℝ)) := by
  have h := hσ.ne'
  apply Complex.ext <;> simp [scaledPoint] <;> field_simp <;> ring

theorem scaled_dist (x : ℂ) {σ : ℝ} (hσ : 0 < σ) (m : ℝ × ℝ) :
    ‖σ * ((m.1 : ℂ) + Complex.I * m.2) - x‖ ^ 2 = σ ^ 2 * ((m.1 - (scaledPoint x σ).1) ^ 2 + (m.2 - (scaledPoint x σ).2) ^ 2) := by
  have h := hσ.ne'
  rw [← Complex.normSq_eq_norm_sq, Complex.normSq_apply]
  simp [scaledPoint]
  field_simp

instance : IsProbabilityMeasure noise2 := by unfold noise2; infer_instance

/-- What the receiver sees of `x`, in units of the noise. -/
noncomputable def rxLaw (x : ℂ) (σ : ℝ) : Measure (ℝ × ℝ) := noise2.map fun n => n + scaledPoint x σ

instance (x : ℂ) (σ : ℝ) : IsProbabilityMeasure (rxLaw x σ) := Measure.isProbabilityMeasure_map (by fun_prop)

theorem rxLaw_event (x : ℂ) {σ : ℝ} (hσ : 0 < σ) {A : Set ℂ} (hA : MeasurableSet A) :
    noise2.real {n | x + σ * ((n.1 : ℂ) + Complex.I * n.2) ∈ A} = (rxLaw x σ).real {m | (σ : ℂ) * ((m.1 : ℂ) + Complex.I * m.2) ∈ A} := by
  unfold rxLaw
  have hm : Measurable fun m : ℝ × ℝ => (σ : ℂ) * ((m.1 : ℂ) + Complex.I * m.2) := by fun_prop
  have hA' : MeasurableSet {m : ℝ × ℝ | (σ : ℂ) * ((m.1 : ℂ) + Complex.I * m.2) ∈ A} := hm hA
  rw [map_measureReal_apply (by fun_prop) hA']
  congr 1
  ext n
  simp only [Set.mem_ofPred_eq, Set.mem_preimage]
  rw [scaled_rx x hσ n]

theorem shiftRatio_le {x x' : ℂ} {σ : ℝ} (hσ : 0 < σ) {m : ℝ × ℝ} (h : ‖σ * ((m.1 : ℂ) + Complex.I * m.2) - x‖ ≤ ‖σ * ((m.1 : ℂ) + Complex.I * m.2) - x'‖) :
    shiftRatio (scaledPoint x' σ) m ≤ shiftRatio (scaledPoint x σ) m := by
  rw [shiftRatio_dist, shiftRatio_dist]
  refine mul_le_mul_of_nonneg_left (Real.exp_le_exp.2 ?_) (Real.exp_pos _).le
  have h2 := pow_le_pow_left₀ (norm_nonneg _) h 2
  rw [scaled_dist x hσ, scaled_dist x' hσ] at h2
  have := le_of_mul_le_mul_left h2 (by positivity)
  linarith

/-- C144, hard decisions: no decision rule for equally likely symbols has a lower symbol error probability than choosing the nearest point. -/
theorem C144_symbols {cst : List ℂ} (hne : cst ≠ []) {σ : ℝ} (hσ : 0 < σ) {g : ℂ → ℕ} (hg : Measurable g) :
    symbolErrorProb cst σ ≤ (∑ l ∈ range cst.length, noise2.real {n | g (cst.getD l 0 + σ * (n.1 + Complex.I * n.2)) ≠ l}) / cst.length := by
  unfold symbolErrorProb
  refine div_le_div_of_nonneg_right ?_ (by positivity)
  have hy : Measurable fun m : ℝ × ℝ => (σ : ℂ) * ((m.1 : ℂ) + Complex.I * m.2) := by fun_prop
  have hd := nearestLabel_measurable hne
  have key := bayes_error (ρ := noise2) (range cst.length) (fun l => rxLaw (cst.getD l 0) σ) (fun l m => ENNReal.ofReal (shiftRatio (scaledPoint (cst.getD l 0) σ) m))
    (fun l _ => (shiftRatio_measurable _).ennreal_ofReal) (fun l _ => noise2_shift _) (fun l => l) (fun m => nearestLabel cst (σ * ((m.1 : ℂ) + Complex.I * m.2)))
    (fun m => g (σ * ((m.1 : ℂ) + Complex.I * m.2))) (fun k => (hd.comp hy) (measurableSet_singleton k)) (fun k => (hg.comp hy) (measurableSet_singleton k)) ?_
  · have e : ∀ e : ℂ → ℕ, Measurable e → ∀ l, noise2.real {n : ℝ × ℝ | e (cst.getD l 0 + σ * ((n.1 : ℂ) + Complex.I * n.2)) ≠ l} =
        (rxLaw (cst.getD l 0) σ).real {m | e (σ * ((m.1 : ℂ) + Complex.I * m.2)) ≠ l} := fun e he l =>
      rxLaw_event (cst.getD l 0) hσ (A := {y | e y ≠ l}) (he (measurableSet_singleton l)).compl
    rw [sum_congr rfl fun l _ => e _ hd l, sum_congr rfl fun l _ => e _ hg l]
    exact key
  · intro m k
    obtain ⟨h1, h2⟩ := nearestLabel_mem hne (σ * ((m.1 : ℂ) + Complex.I * m.2))
    rw [show ((range cst.length).filter fun l => l = nearestLabel cst (σ * ((m.1 : ℂ) + Complex.I * m.2))) = {nearestLabel cst (σ * ((m.1 : ℂ) + Complex.I * m.2))} by
      ext l
      simp only [mem_filter, mem_range, mem_singleton]
      exact ⟨fun h => h.2, fun h => ⟨by rw [h]; exact h1, h⟩⟩, sum_singleton]
    by_cases hk : k < cst.length
    · rw [show ((range cst.length).filter fun l => l = k) = {k} by
        ext l
        simp only [mem_filter, mem_range, mem_singleton]
        exact ⟨fun h => h.2, fun h => ⟨by rw [h]; exact hk, h⟩⟩, sum_singleton]
      refine ENNReal.ofReal_le_ofReal (shiftRatio_le hσ (h2 _ ?_))
      rw [List.getD_eq_getElem _ _ hk]
      exact List.getElem_mem _
    · rw [show ((range cst.length).filter fun l => l = k) = ∅ by
        ext l
        simp only [mem_filter, mem_range, Finset.notMem_empty, iff_false]
        omega, sum_empty]
      exact zero_le

/-! ### Soft decisions -/

theorem likelihood_measurable (s : Modem) (v : ℝ) (j b : Nat) : Measurable fun y => likelihood s y v j b := by
  unfold likelihood
  fun_prop

/-- The bit that the sign of the soft decision stands for. -/
noncomputable def llrSignBit (s : Modem) (v : ℝ) (j : Nat) (y : ℂ) : ℕ := if likelihood s y v j 0 < likelihood s y v j 1 then 1 else 0

theorem llrSignBit_measurable (s : Modem) (v : ℝ) (j : Nat) : Measurable (llrSignBit s v j) := by
  unfold llrSignBit
  exact Measurable.ite (measurableSet_lt (likelihood_measurable s v j 0) (likelihood_measurable s v j 1)) measurable_const measurable_const

theorem llrSignBit_api {s : Modem} (hs : s.Consistent) {v : ℝ} (hv : 0 < v) {j : Nat} (hj : j < s.nbits) (y : ℂ) {b : Nat} (hb : b < 2) :
    (∃ L, demodulate s [y] "soft" v = .ok (.llrs L) ∧ (0 < L.getD j 0 ↔ b = 1)) ↔ llrSignBit s v j y = b := by
  obtain ⟨L, h1, h2, h3⟩ := C67_llr hs [y] hv
  have h4 := h3 0 (by simp) j hj
  rw [Nat.zero_mul, Nat.zero_add] at h4
  have h5 : L.getD j 0 = Real.log (likelihood s y v j 1 / likelihood s y v j 0) := by
    rw [List.getD_eq_getElem?_getD, h4]; rfl
  have p0 := likelihood_pos hs y v hj (b := 0) (by norm_num)
  have p1 := likelihood_pos hs y v hj (b := 1) (by norm_num)
  have h6 : 0 < L.getD j 0 ↔ likelihood s y v j 0 < likelihood s y v j 1 := by
    rw [h5, Real.log_pos_iff (div_pos p1 p0).le, one_lt_div p0]
  have h7 : (∃ L, demodulate s [y] "soft" v = .ok (.llrs L) ∧ (0 < L.getD j 0 ↔ b = 1)) ↔ (0 < L.getD j 0 ↔ b = 1) := by
    constructor
    · rintro ⟨L', g1, g2⟩
      rw [h1] at g1
      cases g1
      exact g2
    · exact fun h => ⟨L, h1, h⟩
  rw [h7, h6]
  unfold llrSignBit
  split
  · rename_i h
    simp only [h, true_iff]
    exact eq_comm
  · rename_i h
    simp only [h, false_iff]
    omega

theorem sum_class_likelihood (s : Modem) {σ : ℝ} (hσ : 0 < σ) (j b : Nat) (m : ℝ × ℝ) :
    ∑ l ∈ range s.m with (toBits s.nbits l).getD j 0 = b, ENNReal.ofReal (shiftRatio (scaledPoint (s.constellation.getD l 0) σ) m) =
      ENNReal.ofReal (Real.exp ((m.1 ^ 2 + m.2 ^ 2) / 2) * likelihood s (σ * ((m.1 : ℂ) + Complex.I * m.2)) (2 * σ ^ 2) j b) := by
  rw [← ENNReal.ofReal_sum_of_nonneg fun l _ => (show 0 ≤ shiftRatio (scaledPoint (s.constellation.getD l 0) σ) m from (Real.exp_pos _).le)]
  congr 1
  unfold likelihood
  rw [mul_sum]
  refine sum_congr rfl fun l _ => ?_
  rw [shiftRatio_dist, scaled_dist _ hσ]
  congr 2
  field_simp

/-- C144, soft decisions: for the noise variance of the channel, no rule for bit `j` of equally likely symbols has a lower error probability than the sign of the LLR. -/
theorem C144_bits {s : Modem} (hs : s.Consistent) {σ : ℝ} (hσ : 0 < σ) {j : Nat} (hj : j < s.nbits) {g : ℂ → ℕ} (hg : Measurable g) :
    (∑ l ∈ range s.m, noise2.real {n | ¬ ∃ L, demodulate s [s.constellation.getD l 0 + σ * (n.1 + Complex.I * n.2)] "soft" (2 * σ ^ 2) = .ok (.llrs L) ∧
      (0 < L.getD j 0 ↔ (toBits s.nbits l).getD j 0 = 1)}) / s.m ≤
    (∑ l ∈ range s.m, noise2.real {n | g (s.constellation.getD l 0 + σ * (n.1 + Complex.I * n.2)) ≠ (toBits s.nbits l).getD j 0}) / s.m := by
  refine div_le_div_of_nonneg_right ?_ (by positivity)
  have hy : Measurable fun m : ℝ × ℝ => (σ : ℂ) * ((m.1 : ℂ) + Complex.I * m.2) := by fun_prop
  have hd := llrSignBit_measurable s (2 * σ ^ 2) j
  have key := bayes_error (ρ := noise2) (range s.m) (fun l => rxLaw (s.constellation.getD l 0) σ) (fun l m => ENNReal.ofReal (shiftRatio (scaledPoint (s.constellation.getD l 0) σ) m))
    (fun l _ => (shiftRatio_measurable _).ennreal_ofReal) (fun l _ => noise2_shift _) (fun l => (toBits s.nbits l).getD j 0)
    (fun m => llrSignBit s (2 * σ ^ 2) j (σ * ((m.1 : ℂ) + Complex.I * m.2)))
    (fun m => g (σ * ((m.1 : ℂ) + Complex.I * m.2))) (fun k => (hd.comp hy) (measurableSet_singleton k)) (fun k => (hg.comp hy) (measurableSet_singleton k)) ?_
  · have e : ∀ e : ℂ → ℕ, Measurable e → ∀ l, noise2.real {n : ℝ × ℝ | e (s.constellation.getD l 0 + σ * ((n.1 : ℂ) + Complex.I * n.2)) ≠ (toBits s.nbits l).getD j 0} =
        (rxLaw (s.constellation.getD l 0) σ).real {m | e (σ * ((m.1 : ℂ) + Complex.I * m.2)) ≠ (toBits s.nbits l).getD j 0} := fun e he l =>
      rxLaw_event (s.constellation.getD l 0) hσ (A := {y | e y ≠ (toBits s.nbits l).getD j 0}) (he (measurableSet_singleton _)).compl
    have e2 : ∀ l, {n : ℝ × ℝ | ¬ ∃ L, demodulate s [s.constellation.getD l 0 + σ * ((n.1 : ℂ) + Complex.I * n.2)] "soft" (2 * σ ^ 2) = .ok (.llrs L) ∧
        (0 < L.getD j 0 ↔ (toBits s.nbits l).getD j 0 = 1)} = {n : ℝ × ℝ | llrSignBit s (2 * σ ^ 2) j (s.constellation.getD l 0 + σ * ((n.1 : ℂ) + Complex.I * n.2)) ≠ (toBits s.nbits l).getD j 0} := by
      intro l
      ext n
      simp only [Set.mem_ofPred_eq]
      rw [llrSignBit_api hs (by positivity) hj _ (by rw [toBits_getD hj]; omega)]
    rw [sum_congr rfl fun l _ => (congrArg noise2.real (e2 l)).trans (e _ hd l), sum_congr rfl fun l _ => e _ hg l]
    exact key
  · intro m k
    rw [sum_class_likelihood s hσ, sum_class_likelihood s hσ]
    refine ENNReal.ofReal_le_ofReal (mul_le_mul_of_nonneg_left ?_ (Real.exp_pos _).le)
    set y : ℂ := σ * ((m.1 : ℂ) + Complex.I * m.2)
    have p0 := likelihood_pos hs y (2 * σ ^ 2) hj (b := 0) (by norm_num)
    have p1 := likelihood_pos hs y (2 * σ ^ 2) hj (b := 1) (by norm_num)
    unfold llrSignBit
    rcases Nat.lt_or_ge k 2 with hk | hk
    · interval_cases k <;> split <;> linarith
    · have : likelihood s y (2 * σ ^ 2) j k = 0 := by
        unfold likelihood
        rw [show ((range s.m).filter fun l => (toBits s.nbits l).getD j 0 = k) = ∅ by
          ext l
          simp only [mem_filter, mem_range, Finset.notMem_empty, iff_false, toBits_getD hj]
          omega, sum_empty]
      rw [this]
      split <;> linarith

/-- C144: the signs of the soft decisions have at most as many wrong bits, on average, as the hard decisions. -/
theorem C144_soft_hard {s : Modem} (hs : s.Consistent) (hm : 2 ≤ s.m) {σ : ℝ} (hσ : 0 < σ) :
    (∑ j ∈ range s.nbits, ∑ l ∈ range s.m, noise2.real {n | ¬ ∃ L, demodulate s [s.constellation.getD l 0 + σ * (n.1 + Complex.I * n.2)] "soft" (2 * σ ^ 2) = .ok (.llrs L) ∧
      (0 < L.getD j 0 ↔ (toBits s.nbits l).getD j 0 = 1)}) / (s.m * s.nbits) ≤ bitErrorProb s.constellation s.nbits σ := by
  have hk := hs.nbits_pos hm
  have hne : s.constellation ≠ [] := hs.ne_nil
  have hmR : (0 : ℝ) < s.m := by exact_mod_cast (by omega : 0 < s.m)
  have hpow : (s.m : ℝ) = 2 ^ s.nbits := by rw [hs.pow]; push_cast; rfl
  unfold bitErrorProb
  rw [← hpow, ← hs.pow]
  refine div_le_div_of_nonneg_right ?_ (by positivity)
  have hbit : ∀ j, Measurable fun y : ℂ => (toBits s.nbits (nearestLabel s.constellation y)).getD j 0 := fun j =>
    (measurable_from_top (f := fun m : ℕ => (toBits s.nbits m).getD j 0)).comp (nearestLabel_measurable hne)
  have h1 : ∀ l ∈ range s.m, ∫ n, (labelDiff s.nbits l (nearestLabel s.constellation (s.constellation.getD l 0 + σ * (n.1 + Complex.I * n.2))) : ℝ) ∂noise2 =
      ∑ j ∈ range s.nbits, noise2.real {n | (toBits s.nbits (nearestLabel s.constellation (s.constellation.getD l 0 + σ * (n.1 + Complex.I * n.2)))).getD j 0 ≠ (toBits s.nbits l).getD j 0} := by
    intro l _
    have hmeas : ∀ j, MeasurableSet {n : ℝ × ℝ | (toBits s.nbits (nearestLabel s.constellation (s.constellation.getD l 0 + σ * ((n.1 : ℂ) + Complex.I * n.2)))).getD j 0 ≠ (toBits s.nbits l).getD j 0} := fun j =>
      (((hbit j).comp (show Measurable fun n : ℝ × ℝ => s.constellation.getD l 0 + σ * ((n.1 : ℂ) + Complex.I * n.2) by fun_prop)) (measurableSet_singleton _)).compl
    have hint : ∀ j ∈ range s.nbits, Integrable (Set.indicator {n : ℝ × ℝ | (toBits s.nbits (nearestLabel s.constellation (s.constellation.getD l 0 + σ * ((n.1 : ℂ) + Complex.I * n.2)))).getD j 0 ≠ (toBits s.nbits l).getD j 0} (1 : ℝ × ℝ → ℝ)) noise2 :=
      fun j _ => (integrable_const (1 : ℝ)).indicator (hmeas j)
    rw [sum_congr rfl fun j _ => (integral_indicator_one (hmeas j)).symm, ← integral_finset_sum _ hint]
    refine integral_congr_ae (Filter.Eventually.of_forall fun n => ?_)
    dsimp only
    rw [← labelDiff_eq, card_filter, Nat.cast_sum]
    refine sum_congr rfl fun j _ => ?_
    by_cases h : (toBits s.nbits l).getD j 0 = (toBits s.nbits (nearestLabel s.constellation (s.constellation.getD l 0 + σ * ((n.1 : ℂ) + Complex.I * n.2)))).getD j 0
    · rw [if_neg (by simpa using h), Set.indicator_of_notMem (by simpa using h.symm)]
      norm_num
    · rw [if_pos h, Set.indicator_of_mem (by simpa only [Set.mem_ofPred_eq] using Ne.symm h)]
      simp
  rw [sum_congr rfl h1, sum_comm (s := range s.m)]
  refine sum_le_sum fun j hj => ?_
  have := C144_bits hs hσ (mem_range.1 hj) (hbit j)
  exact (div_le_div_iff_of_pos_right hmR).1 this

/-- C144: however strong the noise, hard decisions are at least as good as guessing. -/
theorem C144_guess {cst : List ℂ} (hne : cst ≠ []) {σ : ℝ} (hσ : 0 < σ) : symbolErrorProb cst σ ≤ 1 - 1 / cst.length := by
  have hpos : 0 < cst.length := List.length_pos_iff.2 hne
  have hR : (0 : ℝ) < cst.length := by exact_mod_cast hpos
  refine (C144_symbols hne hσ (g := fun _ => 0) measurable_const).trans (le_of_eq ?_)
  have h1 : ∀ l ∈ range cst.length, noise2.real {_n : ℝ × ℝ | (0 : ℕ) ≠ l} = if l = 0 then 0 else 1 := by
    intro l _
    split
    · rename_i h; subst h; simp
    · rename_i h
      have : {_n : ℝ × ℝ | (0 : ℕ) ≠ l} = Set.univ := by ext; simp [Ne.symm h]
      rw [this, measureReal_def, measure_univ]; rfl
  rw [sum_congr rfl h1]
  have h2 : ∑ l ∈ range cst.length, (if l = 0 then (0 : ℝ) else 1) = cst.length - 1 := by
    obtain ⟨k, hk⟩ : ∃ k, cst.length = k + 1 := ⟨cst.length - 1, by omega⟩
    rw [hk, sum_range_succ']
    simp
  rw [h2]
  field_simp

/-- C144: the sign of a soft decision is wrong with at most probability one half, at every noise level and for every bit. -/
theorem C144_half {s : Modem} (hs : s.Consistent) {σ : ℝ} (hσ : 0 < σ) {j : Nat} (hj : j < s.nbits) :
    (∑ l ∈ range s.m, noise2.real {n | ¬ ∃ L, demodulate s [s.constellation.getD l 0 + σ * (n.1 + Complex.I * n.2)] "soft" (2 * σ ^ 2) = .ok (.llrs L) ∧
      (0 < L.getD j 0 ↔ (toBits s.nbits l).getD j 0 = 1)}) / s.m ≤ 1 / 2 := by
  have hm0 : 0 < s.m := by rw [hs.pow]; positivity
  have hR : (0 : ℝ) < s.m := by exact_mod_cast hm0
  have h0 := C144_bits hs hσ hj (g := fun _ => 0) measurable_const
  have h1 := C144_bits hs hσ hj (g := fun _ => 1) measurable_const
  have hsum : (∑ l ∈ range s.m, noise2.real {_n : ℝ × ℝ | (0 : ℕ) ≠ (toBits s.nbits l).getD j 0}) + ∑ l ∈ range s.m, noise2.real {_n : ℝ × ℝ | (1 : ℕ) ≠ (toBits s.nbits l).getD j 0} = s.m := by
    rw [← sum_add_distrib, ← mul_one (s.m : ℝ), ← nsmul_eq_mul, ← card_range s.m, ← sum_const, card_range]
    refine sum_congr rfl fun l _ => ?_
    have hb : (toBits s.nbits l).getD j 0 = 0 ∨ (toBits s.nbits l).getD j 0 = 1 := by rw [toBits_getD hj]; omega
    rcases hb with hb | hb <;> rw [hb] <;> simp [measureReal_def]
  set a := (∑ l ∈ range s.m, noise2.real {_n : ℝ × ℝ | (0 : ℕ) ≠ (toBits s.nbits l).getD j 0})
  set b := (∑ l ∈ range s.m, noise2.real {_n : ℝ × ℝ | (1 : ℕ) ≠ (toBits s.nbits l).getD j 0})
  have h2 : a / s.m + b / s.m = 1 := by rw [← add_div, hsum, div_self hR.ne']
  linarith

/-! ### Several antennas -/

/-- What the receive antennas see of the vector `x`: `h x` plus `σ` times the noise. -/
noncomputable def mimoRx (rows : Nat) (h : Nat → Nat → ℂ) (x : List ℂ) (σ : ℝ) (n : Fin rows → ℝ × ℝ) (i : Fin rows) : ℂ :=
  ∑ j ∈ range x.length, h i j * x.getD j 0 + σ * ((n i).1 + Complex.I * (n i).2)

/-- An array with `rows` entries, as `mimo_ml` gets it. -/
def asArray {rows : Nat} (y : Fin rows → ℂ) (i : Nat) : ℂ := if hi : i < rows then y ⟨i, hi⟩ else 0

/-- The vector with the labels `f`. -/
noncomputable def labelVector (c : List ℂ) {N : Nat} (f : Fin N → Fin c.length) : List ℂ := List.ofFn fun j => c[f j]

theorem labelVector_isVector (c : List ℂ) {N : Nat} (f : Fin N → Fin c.length) : IsVector c N (labelVector c f) := by
  refine ⟨by simp [labelVector], fun z hz => ?_⟩
  obtain ⟨j, rfl⟩ := (List.mem_ofFn).1 hz
  exact List.getElem_mem _

theorem labelVector_inj {c : List ℂ} (hnd : c.Nodup) {N : Nat} : Function.Injective (labelVector c (N := N)) := by
  intro f g h
  funext j
  have h1 := List.ofFn_injective h
  exact Fin.ext ((List.Nodup.getElem_inj_iff hnd).1 (congrFun h1 j))

theorem exists_labelVector {c : List ℂ} {N : Nat} {x : List ℂ} (hx : IsVector c N x) : ∃ f : Fin N → Fin c.length, labelVector c f = x := by
  obtain ⟨h1, h2⟩ := hx
  have h3 : ∀ j : Fin N, ∃ l : Fin c.length, c[l] = x[j.val]'(by rw [h1]; exact j.2) := by
    intro j
    obtain ⟨l, hl, e⟩ := List.mem_iff_getElem.1 (h2 _ (List.getElem_mem (l := x) (by rw [h1]; exact j.2)))
    exact ⟨⟨l, hl⟩, e⟩
  choose f hf using h3
  refine ⟨f, List.ext_getElem (by simp [labelVector, h1]) fun i h4 h5 => ?_⟩
  simp only [labelVector, List.getElem_ofFn]
  exact hf ⟨i, by rw [← h1]; exact h5⟩

/-- The vector that `mimo_ml` returns (it never fails for a non-empty constellation). -/
noncomputable def mlDecision (rows N : Nat) (h : Nat → Nat → ℂ) (c : List ℂ) (y : Fin rows → ℂ) : List ℂ :=
  match mimoMl rows N (asArray y) h c with
  | .ok x => x
  | .error _ => []

theorem mlDecision_api {rows N : Nat} {h : Nat → Nat → ℂ} {c : List ℂ} (hc : c ≠ []) (y : Fin rows → ℂ) (x : List ℂ) :
    mlDecision rows N h c y = x ↔ mimoMl rows N (asArray y) h c = .ok x := by
  obtain ⟨z, hz, -⟩ := C68_ml rows N (asArray y) h hc
  unfold mlDecision
  rw [hz]
  constructor
  · rintro rfl; rfl
  · intro e; exact Except.ok.inj e

theorem mlDecision_isML {rows N : Nat} {h : Nat → Nat → ℂ} {c : List ℂ} (hc : c ≠ []) (y : Fin rows → ℂ) :
    IsML rows N (asArray y) h c (mlDecision rows N h c y) := by
  obtain ⟨z, hz, hml⟩ := C68_ml rows N (asArray y) h hc
  rw [(mlDecision_api hc y z).2 hz]
  exact hml

theorem sqErr_asArray (rows : Nat) (h : Nat → Nat → ℂ) (x : List ℂ) (y : Fin rows → ℂ) :
    sqErr rows (asArray y) h x = ∑ i : Fin rows, ‖y i - ∑ j ∈ range x.length, h i j * x.getD j 0‖ ^ 2 := by
  unfold sqErr
  rw [sum_range]
  refine sum_congr rfl fun i _ => ?_
  rw [show asArray y i = y i by unfold asArray; rw [dif_pos i.2]]

/-- The index of the first smallest of finitely many measurable functions is measurable. -/
theorem argmin_measurable {Y : Type*} [MeasurableSpace Y] (n : Nat) (hn : 0 < n) (F : Nat → Y → ℝ) (hF : ∀ j, Measurable (F j)) :
    Measurable fun y => argminFirst ((List.range n).map fun j => F j y) := by
  refine measurable_to_countable' fun j => ?_
  have hiff : ∀ y, argminFirst ((List.range n).map fun j => F j y) = j ↔ (j < n ∧ ∀ i ∈ range n, F j y ≤ F i y) ∧ ∀ j' ∈ range j, ¬ ∀ i ∈ range n, F j' y ≤ F i y := by
    intro y
    set l := (List.range n).map fun j => F j y with hl
    have hll : l.length = n := by simp [hl]
    have hne : l ≠ [] := by intro e; rw [e] at hll; simp at hll; omega
    have hg : ∀ i (hi : i < l.length), l[i] = F i y := fun i hi => by simp only [hl, List.getElem_map, List.getElem_range]
    obtain ⟨a1, a2⟩ := argminFirst_spec l hne
    have hmin : ∀ i ∈ range n, F (argminFirst l) y ≤ F i y := by
      intro i hi
      have hi' : i < l.length := by rw [hll]; exact mem_range.1 hi
      have := a2 _ (List.getElem_mem hi')
      rwa [hg, hg] at this
    have hle : ∀ i < n, (∀ i' ∈ range n, F i y ≤ F i' y) → argminFirst l ≤ i := by
      intro i hi h
      have hi' : i < l.length := by rw [hll]; exact hi
      refine argminFirst_le l i hi' fun v hv => ?_
      obtain ⟨i', hi'', rfl⟩ := List.mem_iff_getElem.1 hv
      rw [hg, hg]
      exact h i' (mem_range.2 (by rw [← hll]; exact hi''))
    constructor
    · intro e
      rw [← e]
      refine ⟨⟨by rw [← hll]; exact a1, hmin⟩, fun j' hj' h => ?_⟩
      have := hle j' (by have := mem_range.1 hj'; omega) h
      have := mem_range.1 hj'
      omega
    · rintro ⟨⟨h1, h2⟩, h3⟩
      refine le_antisymm (hle j h1 h2) ?_
      by_contra hc
      exact h3 _ (mem_range.2 (not_le.1 hc)) hmin
  have hset : ∀ j, MeasurableSet {y | ∀ i ∈ range n, F j y ≤ F i y} := by
    intro j
    have : {y | ∀ i ∈ range n, F j y ≤ F i y} = ⋂ i ∈ range n, {y | F j y ≤ F i y} := by ext y; simp
    rw [this]
    exact Finset.measurableSet_biInter _ fun i _ => measurableSet_le (hF j) (hF i)
  have : (fun y => argminFirst ((List.range n).map fun j => F j y)) ⁻¹' {j} = ({y | j < n} ∩ {y | ∀ i ∈ range n, F j y ≤ F i y}) ∩ ⋂ j' ∈ range j, {y | ∀ i ∈ range n, F j' y ≤ F i y}ᶜ := by
    ext y
    rw [Set.mem_preimage, Set.mem_singleton_iff, hiff]
    simp only [Set.mem_inter_iff, Set.mem_iInter, Set.mem_compl_iff, Set.mem_ofPred_eq]
  rw [this]
  exact ((MeasurableSet.const _).inter (hset j)).inter (Finset.measurableSet_biInter _ fun j' _ => (hset j').compl)

theorem mlDecision_measurable {rows N : Nat} {h : Nat → Nat → ℂ} {c : List ℂ} (hc : c ≠ []) (x : List ℂ) : MeasurableSet {y : Fin rows → ℂ | mlDecision rows N h c y = x} := by
  have hpos : 0 < c.length ^ N := Nat.pow_pos (List.length_pos_iff.2 hc)
  set column : Nat → List ℂ := fun j => (List.range N).map fun i => (idealRow c N i).getD j 0 with hcol
  set F : Nat → (Fin rows → ℂ) → ℝ := fun j y => Real.sqrt (∑ i : Fin rows, ‖y i - ∑ k ∈ range (column j).length, h i k * (column j).getD k 0‖ ^ 2) with hF
  have hval : ∀ y, mlDecision rows N h c y = column (argminFirst ((List.range (c.length ^ N)).map fun j => F j y)) := by
    intro y
    have e : ((List.range (c.length ^ N)).map fun j => Real.sqrt (residualSq rows (asArray y) h (column j))) = (List.range (c.length ^ N)).map fun j => F j y := by
      refine List.map_congr_left fun j _ => ?_
      rw [residualSq_eq, sqErr_asArray]
    have hne : ((List.range (c.length ^ N)).map fun j => Real.sqrt (residualSq rows (asArray y) h (column j))) ≠ [] := by
      rw [← List.length_pos_iff, List.length_map, List.length_range]; exact hpos
    rw [mlDecision_api hc, ← e]
    unfold mimoMl
    simp only []
    rw [if_neg hne]
  have hFm : ∀ j, Measurable (F j) := fun j => by
    simp only [hF]
    fun_prop
  have hA := argmin_measurable (c.length ^ N) hpos F hFm
  have : {y : Fin rows → ℂ | mlDecision rows N h c y = x} = (fun y => argminFirst ((List.range (c.length ^ N)).map fun j => F j y)) ⁻¹' {j | column j = x} := by
    ext y
    simp only [Set.mem_ofPred_eq, Set.mem_preimage, hval]
  rw [this]
  exact hA (MeasurableSet.of_discrete)

/-- C144, `mimo_ml`: for equally likely vectors and white Gaussian noise on the receive antennas, no receiver that knows the channel has a lower probability of a wrong vector. -/
theorem C144_ml {rows N : Nat} (h : Nat → Nat → ℂ) {c : List ℂ} (hc : c ≠ []) (hnd : c.Nodup) {σ : ℝ} (hσ : 0 < σ) {g : (Fin rows → ℂ) → List ℂ}
    (hg : ∀ x, MeasurableSet {y | g y = x}) :
    (∑ f : Fin N → Fin c.length, (Measure.pi fun _ : Fin rows => noise2).real {n | mimoMl rows N (asArray (mimoRx rows h (labelVector c f) σ n)) h c ≠ .ok (labelVector c f)}) / (c.length ^ N : ℕ) ≤
      (∑ f : Fin N → Fin c.length, (Measure.pi fun _ : Fin rows => noise2).real {n | g (mimoRx rows h (labelVector c f) σ n) ≠ labelVector c f}) / (c.length ^ N : ℕ) := by
  classical
  refine div_le_div_of_nonneg_right ?_ (by positivity)
  set pt : (Fin N → Fin c.length) → Fin rows → ℂ := fun f i => ∑ j ∈ range (labelVector c f).length, h i j * (labelVector c f).getD j 0 with hpt
  set Y : (Fin rows → ℝ × ℝ) → Fin rows → ℂ := fun m i => (σ : ℂ) * (((m i).1 : ℂ) + Complex.I * (m i).2) with hY
  have hYm : Measurable Y := by
    refine measurable_pi_lambda _ fun i => ?_
    simp only [hY]
    have hi : Measurable fun m : Fin rows → ℝ × ℝ => m i := measurable_pi_apply i
    fun_prop
  set P : (Fin N → Fin c.length) → Measure (Fin rows → ℝ × ℝ) := fun f => (Measure.pi fun _ : Fin rows => noise2).map fun n i => n i + scaledPoint (pt f i) σ with hP
  have hshm : ∀ f, Measurable fun (n : Fin rows → ℝ × ℝ) (i : Fin rows) => n i + scaledPoint (pt f i) σ := fun f =>
    measurable_pi_lambda _ fun i => (measurable_pi_apply i).add_const _
  have hPp : ∀ f, IsProbabilityMeasure (P f) := fun f => Measure.isProbabilityMeasure_map (hshm f).aemeasurable
  have hlaw : ∀ f, P f = (Measure.pi fun _ : Fin rows => noise2).withDensity fun m => ∏ i, ENNReal.ofReal (shiftRatio (scaledPoint (pt f i) σ) (m i)) := by
    intro f
    have hsig : ∀ i : Fin rows, SigmaFinite (noise2.withDensity fun m => ENNReal.ofReal (shiftRatio (scaledPoint (pt f i) σ) m)) := by
      intro i
      rw [← noise2_shift]
      have : IsProbabilityMeasure (noise2.map fun n => n + scaledPoint (pt f i) σ) := Measure.isProbabilityMeasure_map (by fun_prop)
      infer_instance
    rw [← pi_withDensity (fun _ : Fin rows => noise2) (fun i m => ENNReal.ofReal (shiftRatio (scaledPoint (pt f i) σ) m)) fun i => (shiftRatio_measurable _).ennreal_ofReal]
    simp only [hP]
    have hsig2 : ∀ i : Fin rows, SigmaFinite (noise2.map fun n => n + scaledPoint (pt f i) σ) := fun i => by rw [noise2_shift]; exact hsig i
    rw [Measure.pi_map_pi (μ := fun _ : Fin rows => noise2) (f := fun i n => n + scaledPoint (pt f i) σ) fun i => by fun_prop]
    congr 1
    funext i
    exact noise2_shift _
  have hev : ∀ (e : (Fin rows → ℂ) → List ℂ) (_ : ∀ x, MeasurableSet {y | e y = x}) (f : Fin N → Fin c.length),
      (Measure.pi fun _ : Fin rows => noise2).real {n | e (mimoRx rows h (labelVector c f) σ n) ≠ labelVector c f} = (P f).real {m | e (Y m) ≠ labelVector c f} := by
    intro e he f
    have hms : MeasurableSet {m | e (Y m) ≠ labelVector c f} := (hYm (he (labelVector c f))).compl
    rw [hP, map_measureReal_apply (hshm f) hms]
    congr 1
    ext n
    simp only [Set.mem_ofPred_eq, Set.mem_preimage]
    have : mimoRx rows h (labelVector c f) σ n = Y fun i => n i + scaledPoint (pt f i) σ := by
      funext i
      exact scaled_rx (pt f i) hσ (n i)
    rw [this]
  have hd := mlDecision_measurable (rows := rows) (N := N) (h := h) hc
  have key := bayes_error (ρ := Measure.pi fun _ : Fin rows => noise2) Finset.univ P (fun f m => ∏ i, ENNReal.ofReal (shiftRatio (scaledPoint (pt f i) σ) (m i)))
    (fun f _ => Finset.measurable_prod _ fun i _ => ((shiftRatio_measurable _).comp (measurable_pi_apply i)).ennreal_ofReal) (fun f _ => hlaw f) (labelVector c)
    (fun m => mlDecision rows N h c (Y m)) (fun m => g (Y m)) (fun x => hYm (hd x)) (fun x => hYm (hg x)) ?_
  · have e1 : ∀ f : Fin N → Fin c.length, {n | mimoMl rows N (asArray (mimoRx rows h (labelVector c f) σ n)) h c ≠ .ok (labelVector c f)} =
        {n | mlDecision rows N h c (mimoRx rows h (labelVector c f) σ n) ≠ labelVector c f} := by
      intro f
      ext n
      simp only [Set.mem_ofPred_eq]
      rw [Ne, Ne, mlDecision_api hc]
    rw [sum_congr rfl fun f _ => (congrArg (Measure.pi fun _ : Fin rows => noise2).real (e1 f)).trans (hev _ hd f), sum_congr rfl fun f _ => hev g hg f]
    exact key
  · intro m x
    have hml := mlDecision_isML (N := N) (h := h) hc (Y m)
    obtain ⟨f0, hf0⟩ := exists_labelVector hml.1
    have hsing : ∀ f1 : Fin N → Fin c.length, (Finset.univ.filter fun f => labelVector c f = labelVector c f1) = {f1} := by
      intro f1
      ext f
      simp only [mem_filter, mem_univ, true_and, mem_singleton]
      exact ⟨fun e => labelVector_inj hnd e, fun e => by rw [e]⟩
    rw [← hf0, hsing, sum_singleton]
    by_cases hx : ∃ f1 : Fin N → Fin c.length, labelVector c f1 = x
    · obtain ⟨f1, rfl⟩ := hx
      rw [hsing, sum_singleton]
      have hval : ∀ f, ∏ i, ENNReal.ofReal (shiftRatio (scaledPoint (pt f i) σ) (m i)) =
          ENNReal.ofReal (Real.exp ((∑ i, ((m i).1 ^ 2 + (m i).2 ^ 2)) / 2 - sqErr rows (asArray (Y m)) h (labelVector c f) / (2 * σ ^ 2))) := by
        intro f
        rw [← ENNReal.ofReal_prod_of_nonneg fun i _ => (show 0 ≤ shiftRatio (scaledPoint (pt f i) σ) (m i) from (Real.exp_pos _).le)]
        congr 1
        simp only [shiftRatio_dist, ← Real.exp_add]
        rw [← Real.exp_sum, sqErr_asArray]
        congr 1
        rw [sum_div, sum_div, ← sum_sub_distrib]
        refine sum_congr rfl fun i _ => ?_
        have := scaled_dist (pt f i) hσ (m i)
        show _ = _ - ‖Y m i - pt f i‖ ^ 2 / (2 * σ ^ 2)
        simp only [hY]
        rw [this]
        field_simp
        ring
      rw [hval, hval]
      refine ENNReal.ofReal_le_ofReal (Real.exp_le_exp.2 ?_)
      have h3 := hml.2 _ (labelVector_isVector c f1)
      rw [← hf0] at h3
      have := div_le_div_of_nonneg_right h3 (show (0 : ℝ) ≤ 2 * σ ^ 2 by positivity)
      linarith
    · rw [show (Finset.univ.filter fun f => labelVector c f = x) = ∅ by
        ext f
        simp only [mem_filter, mem_univ, true_and, Finset.notMem_empty, iff_false]
        exact fun e => hx ⟨f, e⟩, sum_empty]
      exact zero_le

/-! ### Instances -/

/-- 16-QAM: quantising the two components by any thresholds is no better than `demodulate`. -/
example : ∃ s, qamModem 16 = .ok s ∧ ∀ σ : ℝ, 0 < σ → ∀ t : ℝ,
    symbolErrorProb s.constellation σ ≤ (∑ l ∈ range s.constellation.length, noise2.real {n | (if t < (s.constellation.getD l 0 + σ * ((n.1 : ℂ) + Complex.I * n.2)).re then 3 else 5) ≠ l}) / s.constellation.length := by
  obtain ⟨s, s1, s2, -⟩ := C93_qam 2 (by norm_num)
  refine ⟨s, s1, fun σ hσ t => ?_⟩
  exact C144_symbols s2.ne_nil hσ (g := fun y => if t < y.re then 3 else 5) (Measurable.ite (measurableSet_lt measurable_const Complex.measurable_re) measurable_const measurable_const)

example : ∃ s, qamModem 16 = .ok s ∧ s.Consistent ∧ 2 ≤ s.m ∧ 2 < s.nbits := by
  obtain ⟨s, s1, s2, s3, -⟩ := C93_qam 2 (by norm_num)
  exact ⟨s, s1, s2, by rw [s2.pow, s3]; norm_num, by rw [s3]; norm_num⟩

/-- A zero-forcing receiver for two antennas and BPSK that looks at the first symbol only. -/
noncomputable def invertSlice (h : Nat → Nat → ℂ) (y : Fin 2 → ℂ) : List ℂ := if 0 < (h 1 1 * y 0 - h 0 1 * y 1).re then [1, 1] else [1, -1]

/-- Two transmit and two receive antennas: `mimo_ml` against inverting the channel and slicing. -/
example (σ : ℝ) (hσ : 0 < σ) (h : Nat → Nat → ℂ) (c : List ℂ) (hcc : c = [1, -1]) :
    (∑ f : Fin 2 → Fin c.length, (Measure.pi fun _ : Fin 2 => noise2).real {n | mimoMl 2 2 (asArray (mimoRx 2 h (labelVector c f) σ n)) h c ≠ .ok (labelVector c f)}) / (c.length ^ 2 : ℕ) ≤
      (∑ f : Fin 2 → Fin c.length, (Measure.pi fun _ : Fin 2 => noise2).real {n | invertSlice h (mimoRx 2 h (labelVector c f) σ n) ≠ labelVector c f}) / (c.length ^ 2 : ℕ) := by
  have hm : ∀ x : List ℂ, MeasurableSet {y : Fin 2 → ℂ | invertSlice h y = x} := by
    intro x
    have hre : Measurable fun y : Fin 2 → ℂ => (h 1 1 * y 0 - h 0 1 * y 1).re := by fun_prop
    have hs : MeasurableSet {y : Fin 2 → ℂ | 0 < (h 1 1 * y 0 - h 0 1 * y 1).re} := measurableSet_lt measurable_const hre
    have : {y : Fin 2 → ℂ | invertSlice h y = x} =
        ({y : Fin 2 → ℂ | 0 < (h 1 1 * y 0 - h 0 1 * y 1).re} ∩ {_y | ([1, 1] : List ℂ) = x}) ∪ ({y : Fin 2 → ℂ | 0 < (h 1 1 * y 0 - h 0 1 * y 1).re}ᶜ ∩ {_y | ([1, -1] : List ℂ) = x}) := by
      ext y
      simp only [invertSlice, Set.mem_ofPred_eq, Set.mem_union, Set.mem_inter_iff, Set.mem_compl_iff]
      by_cases hp : 0 < (h 1 1 * y 0 - h 0 1 * y 1).re
      · rw [if_pos hp]; simp only [hp, true_and, not_true_eq_false, false_and, or_false]
      · rw [if_neg hp]; simp only [hp, false_and, not_false_eq_true, true_and, false_or]
    rw [this]
    exact (hs.inter (MeasurableSet.const _)).union (hs.compl.inter (MeasurableSet.const _))
  exact C144_ml h (by rw [hcc]; simp) (by rw [hcc]; norm_num) hσ hm

end Verif
