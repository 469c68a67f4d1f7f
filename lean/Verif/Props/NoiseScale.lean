import Verif.Props.SymbolError
import Verif.Props.MimoNoise
import Verif.Props.ViterbiNoise
/-
C143: scaling the noise down never makes a minimum-distance decision wrong.
-/
namespace Verif
open MeasureTheory ProbabilityTheory Finset Filter Topology

/-! ### Minimum-distance decisions along a ray -/

/-- Squared distances to `b` and `a` of the point `a + s n`. -/
theorem ray_sq (a b n : ℂ) (s : ℝ) : ‖a + s * n - b‖ ^ 2 - ‖a + s * n - a‖ ^ 2 = ‖a - b‖ ^ 2 + s * (2 * ((a - b) * (starRingEnd ℂ) n).re) := by
  simp only [← Complex.normSq_eq_norm_sq, Complex.normSq_apply]
  simp
  ring

/-- An affine function that is nonnegative at 0 and at `s` is nonnegative between; and positive when it is positive at `s`, or at 0 and the argument is not `s`. -/
theorem affine_between {A B s s' : ℝ} (h0 : 0 ≤ s') (h1 : s' ≤ s) (hA : 0 ≤ A) (hD : 0 ≤ A + s * B) :
    0 ≤ A + s' * B ∧ (0 < A → 0 < A + s * B → 0 < A + s' * B) ∧ (0 < A → s' < s → 0 < A + s' * B) := by
  rcases le_or_gt 0 B with hB | hB
  · have := mul_nonneg h0 hB
    exact ⟨by linarith, fun h _ => by linarith, fun h _ => by linarith⟩
  · have := mul_le_mul_of_nonpos_right h1 hB.le
    refine ⟨by linarith, fun _ h => by linarith, fun _ h => ?_⟩
    have := mul_lt_mul_of_neg_right h hB
    linarith

/-- `l` is the chosen label exactly if its point is nearest and every earlier point is farther. -/
theorem nearestLabel_iff {cst : List ℂ} (hne : cst ≠ []) (y : ℂ) (l : Nat) (hl : l < cst.length) :
    nearestLabel cst y = l ↔ (∀ i < cst.length, ‖y - cst.getD l 0‖ ≤ ‖y - cst.getD i 0‖) ∧ ∀ i < l, ‖y - cst.getD l 0‖ < ‖y - cst.getD i 0‖ := by
  obtain ⟨m1, m2⟩ := nearestLabel_mem hne y
  have hg : ∀ i < cst.length, cst.getD i 0 ∈ cst := fun i hi => by rw [List.getD_eq_getElem _ _ hi]; exact List.getElem_mem _
  constructor
  · rintro rfl
    refine ⟨fun i hi => m2 _ (hg i hi), fun i hi => ?_⟩
    by_contra hc
    push Not at hc
    exact Nat.notMem_of_lt_sInf hi ⟨by omega, fun x hx => hc.trans (m2 x hx)⟩
  · rintro ⟨h1, h2⟩
    apply le_antisymm
    · refine Nat.sInf_le ⟨hl, fun x hx => ?_⟩
      obtain ⟨i, hi, rfl⟩ := List.mem_iff_getElem.1 hx
      have := h1 i hi
      rwa [List.getD_eq_getElem _ _ hi] at this
    · by_contra hc
      push Not at hc
      exact absurd (m2 _ (hg l hl)) (not_le.2 (h2 _ hc))

/-- C143, one symbol: if point `l` plus the noise `σ n` is decided right, then so is point `l` plus `σ' n` for all smaller `σ'`. -/
theorem C143_symbol {cst : List ℂ} {l : Nat} (hl : l < cst.length) {σ σ' : ℝ} (h0 : 0 ≤ σ') (h1 : σ' ≤ σ) {n : ℂ} (h : nearestLabel cst (cst.getD l 0 + σ * n) = l) :
    nearestLabel cst (cst.getD l 0 + σ' * n) = l := by
  have hne : cst ≠ [] := by rintro rfl; simp at hl
  rw [nearestLabel_iff hne _ l hl] at h ⊢
  have key : ∀ i : Nat, ∀ s : ℝ, (‖cst.getD l 0 + s * n - cst.getD l 0‖ ≤ ‖cst.getD l 0 + s * n - cst.getD i 0‖ ↔
      0 ≤ ‖cst.getD l 0 - cst.getD i 0‖ ^ 2 + s * (2 * ((cst.getD l 0 - cst.getD i 0) * (starRingEnd ℂ) n).re)) ∧
      (‖cst.getD l 0 + s * n - cst.getD l 0‖ < ‖cst.getD l 0 + s * n - cst.getD i 0‖ ↔
      0 < ‖cst.getD l 0 - cst.getD i 0‖ ^ 2 + s * (2 * ((cst.getD l 0 - cst.getD i 0) * (starRingEnd ℂ) n).re)) := by
    intro i s
    rw [← ray_sq, sub_nonneg, sub_pos]
    exact ⟨(sq_le_sq₀ (norm_nonneg _) (norm_nonneg _)).symm, (sq_lt_sq₀ (norm_nonneg _) (norm_nonneg _)).symm⟩
  refine ⟨fun i hi => ?_, fun i hi => ?_⟩
  · rw [(key i σ').1]
    exact (affine_between h0 h1 (sq_nonneg _) ((key i σ).1.1 (h.1 i hi))).1
  · rw [(key i σ').2]
    have hD := (key i σ).2.1 (h.2 i hi)
    refine (affine_between h0 h1 (sq_nonneg _) hD.le).2.1 ?_ hD
    by_contra hc
    have hz : ‖cst.getD l 0 - cst.getD i 0‖ = 0 := by
      have h3 := sq_nonneg ‖cst.getD l 0 - cst.getD i 0‖
      exact pow_eq_zero_iff (two_ne_zero) |>.1 (le_antisymm (not_lt.1 hc) h3)
    rw [norm_eq_zero] at hz
    rw [hz] at hD
    simp at hD

/-- C143, the modem: if `demodulate` returns the transmitted bits for the noise `σ n`, it returns them for `σ' n`, `0 ≤ σ' ≤ σ`. -/
theorem C143_modem {s : Modem} (hs : s.Consistent) (hm : 2 ≤ s.m) {bits : List Nat} (hb : ∀ x ∈ bits, x < 2) (hne : bits ≠ []) (hl : s.nbits ∣ bits.length) (v v' : ℝ) :
    ∃ syms, modulate s bits = .ok syms ∧ syms.length * s.nbits = bits.length ∧
      ∀ (n : Nat → ℂ) (σ σ' : ℝ), 0 ≤ σ' → σ' ≤ σ →
        demodulate s ((List.range syms.length).map fun i => syms.getD i 0 + σ * n i) "hard" v = .ok (.bits bits) →
        demodulate s ((List.range syms.length).map fun i => syms.getD i 0 + σ' * n i) "hard" v' = .ok (.bits bits) := by
  obtain ⟨N, hN⟩ := hl
  rw [Nat.mul_comm] at hN
  have hn := hs.nbits_pos hm
  have hlt : ∀ l ∈ inSyms s.nbits bits, l < s.constellation.length := by
    intro l h; rw [hs.len]; exact inSyms_lt hb _ l h
  have hlen : (inSyms s.nbits bits).length = N := by rw [inSyms_length, hN, Nat.mul_div_cancel _ hn]
  refine ⟨_, modulate_ok hs hm hb hne hN, ?_, ?_⟩
  · rw [List.length_map, hlen, hN]
  intro n σ σ' h0 h1
  rw [List.length_map, hlen]
  have hiff : ∀ (v : ℝ) (τ : ℝ), demodulate s ((List.range N).map fun i => ((inSyms s.nbits bits).map fun l => s.constellation.getD l 0).getD i 0 + τ * n i) "hard" v = .ok (.bits bits) ↔
      ∀ i < N, nearestLabel s.constellation (s.constellation.getD ((inSyms s.nbits bits).getD i 0) 0 + τ * n i) = (inSyms s.nbits bits).getD i 0 := by
    intro v τ
    unfold demodulate
    rw [if_pos rfl, demodHard_ok hs]
    have e : ((List.range N).map fun i => ((inSyms s.nbits bits).map fun l => s.constellation.getD l 0).getD i 0 + (τ : ℂ) * n i).map (nearestIdx s) =
        (List.range N).map fun i => nearestLabel s.constellation (s.constellation.getD ((inSyms s.nbits bits).getD i 0) 0 + τ * n i) := by
      rw [List.map_map]
      refine List.map_congr_left fun i hi => ?_
      rw [List.mem_range] at hi
      simp only [Function.comp_apply]
      rw [nearestIdx_eq hs, List.getD_eq_getElem _ _ (show i < ((inSyms s.nbits bits).map fun l => s.constellation.getD l 0).length by simpa [hlen] using hi),
        List.getElem_map, List.getD_eq_getElem (inSyms s.nbits bits) _ (by omega)]
    rw [e]
    have hf := flatMap_inSyms hn hb hN
    have hne' : s.constellation ≠ [] := hs.ne_nil
    constructor
    · intro h
      have h2 : ((List.range N).map fun i => nearestLabel s.constellation (s.constellation.getD ((inSyms s.nbits bits).getD i 0) 0 + (τ : ℂ) * n i)).flatMap (toBits s.nbits) = bits := by
        simpa [Except.map] using h
      have h3 := congrArg (inSyms s.nbits) h2
      rw [inSyms_flatMap hn (by
        intro u hu
        obtain ⟨i, -, rfl⟩ := List.mem_map.1 hu
        have := (nearestLabel_mem hne' (s.constellation.getD ((inSyms s.nbits bits).getD i 0) 0 + τ * n i)).1
        rwa [hs.len] at this)] at h3
      intro i hi
      have h5 := congrArg (fun l : List Nat => l.getD i 0) h3
      rw [List.getD_eq_getElem _ _ (show i < ((List.range N).map fun i => nearestLabel s.constellation (s.constellation.getD ((inSyms s.nbits bits).getD i 0) 0 + (τ : ℂ) * n i)).length by
        rw [List.length_map, List.length_range]; exact hi), List.getElem_map, List.getElem_range] at h5
      exact h5
    · intro h
      have e2 : ((List.range N).map fun i => nearestLabel s.constellation (s.constellation.getD ((inSyms s.nbits bits).getD i 0) 0 + (τ : ℂ) * n i)) = inSyms s.nbits bits := by
        apply List.ext_getElem (by rw [List.length_map, List.length_range, hlen])
        intro i h3 h4
        rw [List.getElem_map, List.getElem_range, h i (by simpa using h3), List.getD_eq_getElem _ _ h4]
      rw [e2, hf]
      rfl
  rw [hiff, hiff]
  intro h i hi
  have hmem : (inSyms s.nbits bits).getD i 0 ∈ inSyms s.nbits bits := by
    rw [List.getD_eq_getElem _ _ (by omega)]; exact List.getElem_mem _
  exact C143_symbol (hlt _ hmem) h0 h1 (h i hi)

/-! ### Symbol error probabilities -/

/-- C143: the symbol error probability of every constellation is a monotone function of the noise level. -/
theorem C143_probability (cst : List ℂ) : MonotoneOn (symbolErrorProb cst) (Set.Ici 0) := by
  intro σ' h0 σ _ h1
  unfold symbolErrorProb
  refine div_le_div_of_nonneg_right (sum_le_sum fun l hl => ?_) (by positivity)
  refine measureReal_mono fun n hn => ?_
  intro h
  exact hn (C143_symbol (mem_range.1 hl) h0 h1 h)

/-- C143: with enough SNR the symbol error probability of every constellation of distinct points is as small as one likes. -/
theorem C143_vanishes {cst : List ℂ} (hnd : cst.Nodup) : Tendsto (symbolErrorProb cst) (𝓝[>] 0) (𝓝 0) := by
  by_cases hne : cst = []
  · subst hne
    have : symbolErrorProb [] = fun _ => 0 := by funext σ; simp [symbolErrorProb]
    rw [this]
    exact tendsto_const_nhds
  have key : ∀ l ∈ range cst.length, Tendsto (fun σ : ℝ => noise2.real {n : ℝ × ℝ | nearestLabel cst (cst.getD l 0 + σ * (n.1 + Complex.I * n.2)) ≠ l}) (𝓝[>] 0) (𝓝 0) := by
    intro l hl
    rw [mem_range] at hl
    have e : ∀ σ : ℝ, noise2.real {n : ℝ × ℝ | nearestLabel cst (cst.getD l 0 + σ * (n.1 + Complex.I * n.2)) ≠ l} =
        ∫ n, Set.indicator {n : ℝ × ℝ | nearestLabel cst (cst.getD l 0 + σ * (n.1 + Complex.I * n.2)) ≠ l} (1 : ℝ × ℝ → ℝ) n ∂noise2 := fun σ =>
      (integral_indicator_one (wrong_measurable hne σ l)).symm
    simp only [e]
    have hP : IsProbabilityMeasure noise2 := by unfold noise2; infer_instance
    rw [show (𝓝 (0 : ℝ)) = 𝓝 (∫ _ : ℝ × ℝ, (0 : ℝ) ∂noise2) by rw [integral_zero]]
    refine tendsto_integral_filter_of_dominated_convergence (fun _ => 1) (Filter.Eventually.of_forall fun σ => ?_) (Filter.Eventually.of_forall fun σ => Filter.Eventually.of_forall fun n => ?_)
      (integrable_const 1) (Filter.Eventually.of_forall fun n => ?_)
    · exact (measurable_one.indicator (wrong_measurable hne σ l)).aestronglyMeasurable
    · rw [Set.indicator_apply]
      split <;> simp
    · have hev : ∀ᶠ σ : ℝ in 𝓝[>] 0, ∀ i ∈ range cst.length, i ≠ l → ‖cst.getD l 0 + σ * ((n.1 : ℂ) + Complex.I * n.2) - cst.getD l 0‖ < ‖cst.getD l 0 + σ * ((n.1 : ℂ) + Complex.I * n.2) - cst.getD i 0‖ := by
        rw [Filter.eventually_all_finset]
        intro i hi
        rw [mem_range] at hi
        by_cases hil : i = l
        · exact Filter.Eventually.of_forall fun σ h => absurd hil h
        have hd : 0 < ‖cst.getD l 0 - cst.getD i 0‖ ^ 2 := by
          refine pow_pos (norm_pos_iff.2 fun h => hil ?_) 2
          rw [List.getD_eq_getElem _ _ hl, List.getD_eq_getElem _ _ hi, sub_eq_zero] at h
          exact ((List.Nodup.getElem_inj_iff hnd).1 h).symm
        have hcont : Tendsto (fun σ : ℝ => ‖cst.getD l 0 - cst.getD i 0‖ ^ 2 + σ * (2 * ((cst.getD l 0 - cst.getD i 0) * (starRingEnd ℂ) ((n.1 : ℂ) + Complex.I * n.2)).re)) (𝓝[>] 0)
            (𝓝 (‖cst.getD l 0 - cst.getD i 0‖ ^ 2 + 0 * (2 * ((cst.getD l 0 - cst.getD i 0) * (starRingEnd ℂ) ((n.1 : ℂ) + Complex.I * n.2)).re))) := by
          refine Tendsto.mono_left ?_ nhdsWithin_le_nhds
          exact Continuous.tendsto (by fun_prop) 0
        rw [zero_mul, add_zero] at hcont
        filter_upwards [hcont.eventually (lt_mem_nhds hd)] with σ hσ _
        rw [← sq_lt_sq₀ (norm_nonneg _) (norm_nonneg _), ← sub_pos, ray_sq]
        exact hσ
      refine tendsto_const_nhds.congr' ?_
      filter_upwards [hev] with σ hσ
      rw [Set.indicator_of_notMem]
      rw [Set.mem_ofPred_eq, not_not, nearestLabel_iff hne _ l hl]
      refine ⟨fun i hi => ?_, fun i hi => ?_⟩
      · by_cases hil : i = l
        · rw [hil]
        · exact (hσ i (mem_range.2 hi) hil).le
      · exact hσ i (mem_range.2 (by omega)) (by omega)
  have h := (tendsto_finsetSum (range cst.length) key).div_const (cst.length : ℝ)
  rw [sum_const_zero, zero_div] at h
  exact h

/-- C143: and so is the bit error probability. -/
theorem C143_bits_vanish {s : Modem} (hs : s.Consistent) (hm : 2 ≤ s.m) (hnd : s.constellation.Nodup) : Tendsto (bitErrorProb s.constellation s.nbits) (𝓝[>] 0) (𝓝 0) := by
  refine squeeze_zero (fun σ => ?_) (fun σ => (C141_bits_symbols hs.len (hs.nbits_pos hm) σ).2) (C143_vanishes hnd)
  have h1 := (C141_bits_symbols hs.len (hs.nbits_pos hm) σ).1
  refine le_trans ?_ h1
  unfold symbolErrorProb
  positivity

/-! ### The channel function -/

/-- C143, `awgn`: if the transmitted bits come back at one SNR, they come back at every higher SNR with the same draws. -/
theorem C143_awgn {s : Modem} (hs : s.Consistent) (hm : 2 ≤ s.m) {bits : List Nat} (hb : ∀ x ∈ bits, x < 2) (hne : bits ≠ []) (hl : s.nbits ∣ bits.length) (v v' : ℝ) :
    ∃ syms, modulate s bits = .ok syms ∧
      ∀ (z : Nat → ℝ) (rate snr snr' : ℝ), 0 < rate → snr ≤ snr' →
        ∃ ys ys', awgn (.cplx syms) snr rate z = .ok ys ∧ awgn (.cplx syms) snr' rate z = .ok ys' ∧
          (demodulate s ys "hard" v = .ok (.bits bits) → demodulate s ys' "hard" v' = .ok (.bits bits)) := by
  obtain ⟨syms, h1, h2, h3⟩ := C143_modem hs hm hb hne hl v v'
  refine ⟨syms, h1, ?_⟩
  intro z rate snr snr' hr hle
  have hsne : syms ≠ [] := by
    rintro rfl
    apply hne
    rw [← List.length_eq_zero_iff, ← h2]
    simp
  have hform : ∀ snr : ℝ, awgn (.cplx syms) snr rate z = .ok ((List.range syms.length).map fun i => syms.getD i 0 +
      (Real.sqrt ((syms.map fun x => ‖x‖ * ‖x‖).sum / (syms.length : ℝ) / (2 * rate * (10 : ℝ) ^ (snr / 10))) : ℝ) * ((z i : ℂ) + Complex.I * z (syms.length + i))) := by
    intro snr
    unfold awgn
    rw [if_neg (show (Signal.cplx syms).toC ≠ [] from hsne)]
    simp only [Signal.toC]
    congr 1
    apply List.ext_getElem (by simp)
    intro i h4 h5
    have hi : i < syms.length := by simpa using h5
    rw [List.getElem_zipWith, List.getElem_map, List.getElem_map, List.getElem_range, List.getD_eq_getElem _ _ hi]
    simp only [awgnNoise, Signal.isComplex, if_true]
    ring
  refine ⟨_, _, hform snr, hform snr', ?_⟩
  refine h3 _ _ _ (Real.sqrt_nonneg _) (Real.sqrt_le_sqrt ?_)
  refine div_le_div_of_nonneg_left ?_ (by positivity) ?_
  · refine div_nonneg (List.sum_nonneg ?_) (by positivity)
    intro x hx
    obtain ⟨w, -, rfl⟩ := List.mem_map.1 hx
    positivity
  · refine mul_le_mul_of_nonneg_left ?_ (by positivity)
    exact Real.rpow_le_rpow_of_exponent_le (by norm_num) (by linarith)

/-! ### Numbers of wrong bits -/

/-- C143, numbers of bit errors are not monotone: in 64-QAM there are a bit group and a noise value that give one wrong bit, and two when the noise is scaled down by a third. -/
theorem C143_refuted : ∃ (s : Modem), qamModem 64 = .ok s ∧ ∃ (x n : ℂ) (b1 b2 : List Nat), modulate s [0, 0, 0, 0, 0, 0] = .ok [x] ∧
    (∀ v : ℝ, demodulate s [x + ((6 : ℝ) : ℂ) * n] "hard" v = .ok (.bits b1) ∧ demodulate s [x + ((4 : ℝ) : ℂ) * n] "hard" v = .ok (.bits b2)) ∧
    diffCount b1 [0, 0, 0, 0, 0, 0] = 1 ∧ diffCount b2 [0, 0, 0, 0, 0, 0] = 2 := by
  obtain ⟨s, s1, s2, s3, s4, s5⟩ := qam_grid 3 (by norm_num)
  rw [show 4 ^ 3 = 64 by norm_num] at s1
  obtain ⟨s', t1, tc, t2, t3⟩ := C93_qam 3 (by norm_num)
  rw [show 4 ^ 3 = 64 by norm_num, s1] at t1
  cases t1
  have hne : s.constellation ≠ [] := tc.ne_nil
  have hm : 2 ≤ s.m := by rw [tc.pow, s2]; norm_num
  have hpt : ∀ l < 64, ∀ v : ℝ, demodulate s [s.constellation.getD l 0] "hard" v = .ok (.bits (toBits 6 l)) := by
    intro l hl v
    unfold demodulate
    rw [if_pos rfl, demodHard_ok tc, s2]
    have : nearestLabel s.constellation (s.constellation.getD l 0) = l := by
      have hl' : l < s.constellation.length := by rw [s3]; exact hl
      rw [nearestLabel_iff hne _ l hl', sub_self, norm_zero]
      refine ⟨fun i _ => norm_nonneg _, fun i hi => ?_⟩
      exact lt_of_lt_of_le (by norm_num) (t3.getD hl' (show i < s.constellation.length by omega) (by omega))
    simp only [List.map_cons, List.map_nil, nearestIdx_eq tc, this, List.flatMap_cons, List.flatMap_nil, List.append_nil, Except.map]
  have p0 := s5 0 (by norm_num) 0 (by norm_num)
  have p2 := s5 0 (by norm_num) 2 (by norm_num)
  have p3 := s5 0 (by norm_num) 3 (by norm_num)
  rw [show grayCode 0 * 2 ^ 3 + grayCode 0 = 0 by decide] at p0
  rw [show grayCode 0 * 2 ^ 3 + grayCode 2 = 3 by decide] at p2
  rw [show grayCode 0 * 2 ^ 3 + grayCode 3 = 2 by decide] at p3
  refine ⟨s, s1, s.constellation.getD 0 0, Complex.I, toBits 6 2, toBits 6 3, ?_, fun v => ⟨?_, ?_⟩, by decide, by decide⟩
  · rw [modulate_ok tc hm (by decide) (by decide) (N := 1) (by rw [s2]; decide), s2]
    rfl
  · rw [← hpt 2 (by norm_num) v, p0, p3]
    congr 2
    push_cast
    ring
  · rw [← hpt 3 (by norm_num) v, p0, p2]
    congr 2
    push_cast
    ring

/-! ### Several antennas -/

/-- Squared distances of `h x + s w` to `h x'` and `h x`. -/
theorem ray_sqErr (rows : Nat) (h : Nat → Nat → ℂ) (x x' : List ℂ) (w : Nat → ℂ) : ∃ B : ℝ, ∀ s : ℝ,
    sqErr rows (fun i => ∑ j ∈ range x.length, h i j * x.getD j 0 + s * w i) h x' - sqErr rows (fun i => ∑ j ∈ range x.length, h i j * x.getD j 0 + s * w i) h x =
      rxDistSq rows h x x' + s * B := by
  refine ⟨∑ i ∈ range rows, (2 * ((∑ j ∈ range x.length, h i j * x.getD j 0 - ∑ j ∈ range x'.length, h i j * x'.getD j 0) * (starRingEnd ℂ) (w i)).re), fun s => ?_⟩
  unfold sqErr rxDistSq
  rw [← sum_sub_distrib, mul_sum, ← sum_add_distrib]
  exact sum_congr rfl fun i _ => ray_sq _ _ _ _

/-- If the noise-free received vectors coincide, the distances always do. -/
theorem sqErr_same {rows : Nat} {h : Nat → Nat → ℂ} {x x' : List ℂ} (h0 : rxDistSq rows h x x' = 0) (y : Nat → ℂ) : sqErr rows y h x' = sqErr rows y h x := by
  unfold rxDistSq at h0
  rw [sum_eq_zero_iff_of_nonneg (fun i _ => by positivity)] at h0
  unfold sqErr
  refine sum_congr rfl fun i hi => ?_
  have := h0 i hi
  rw [pow_eq_zero_iff two_ne_zero, norm_eq_zero, sub_eq_zero] at this
  rw [this]

/-- C143, `mimo_ml`: if the transmitted vector is detected with the noise `σ w`, it is detected with `σ' w`, `0 ≤ σ' ≤ σ`, for every channel matrix (also singular ones). -/
theorem C143_ml {rows n : Nat} {h : Nat → Nat → ℂ} {c x : List ℂ} (hx : IsVector c n x) (hc : c ≠ []) (w : Nat → ℂ) {σ σ' : ℝ} (h0 : 0 ≤ σ') (h1 : σ' ≤ σ)
    (hok : mimoMl rows n (fun i => ∑ j ∈ range n, h i j * x.getD j 0 + σ * w i) h c = .ok x) :
    mimoMl rows n (fun i => ∑ j ∈ range n, h i j * x.getD j 0 + σ' * w i) h c = .ok x := by
  rcases eq_or_lt_of_le h1 with rfl | hlt
  · exact hok
  have hpos : 0 < c.length := List.length_pos_iff.2 hc
  set column : Nat → List ℂ := fun j => (List.range n).map fun i => (idealRow c n i).getD j 0 with hcol
  set y : ℝ → Nat → ℂ := fun s i => ∑ j ∈ range n, h i j * x.getD j 0 + s * w i with hy
  set norms : ℝ → List ℝ := fun s => (List.range (c.length ^ n)).map fun j => Real.sqrt (residualSq rows (y s) h (column j)) with hnorms
  have hlen : ∀ s, (norms s).length = c.length ^ n := fun s => by simp [hnorms]
  have hne : ∀ s, norms s ≠ [] := by
    intro s
    rw [← List.length_pos_iff, hlen]; exact Nat.pow_pos hpos
  have hres : ∀ s, mimoMl rows n (y s) h c = .ok (column (argminFirst (norms s))) := by
    intro s
    have := hne s
    unfold mimoMl
    simp only []
    rw [if_neg this]
  have hget : ∀ s j (hj : j < (norms s).length), (norms s)[j] = Real.sqrt (sqErr rows (y s) h (column j)) := by
    intro s j hj
    simp only [hnorms, List.getElem_map, List.getElem_range]
    rw [residualSq_eq]
  have hcolv : ∀ j < c.length ^ n, IsVector c n (column j) := by
    intro j hj
    refine ⟨by simp [hcol], fun z hz => ?_⟩
    obtain ⟨i, hi, rfl⟩ := List.mem_map.1 hz
    rw [idealRow_getD (List.mem_range.1 hi) hj, List.getD_eq_getElem _ _ (Nat.mod_lt _ hpos)]
    exact List.getElem_mem _
  have harg : ∀ s, argminFirst (norms s) < c.length ^ n ∧ ∀ i < c.length ^ n, sqErr rows (y s) h (column (argminFirst (norms s))) ≤ sqErr rows (y s) h (column i) := by
    intro s
    obtain ⟨a1, a2⟩ := argminFirst_spec (norms s) (hne s)
    refine ⟨by rw [← hlen s]; exact a1, fun i hi => ?_⟩
    have hi' : i < (norms s).length := by rw [hlen]; exact hi
    have := a2 _ (List.getElem_mem hi')
    rw [hget, hget] at this
    exact (Real.sqrt_le_sqrt_iff (sqErr_nonneg _ _ _ _)).1 this
  have hfirst : ∀ s i, i < c.length ^ n → (∀ i' < c.length ^ n, sqErr rows (y s) h (column i) ≤ sqErr rows (y s) h (column i')) → argminFirst (norms s) ≤ i := by
    intro s i hi hmin
    have hi' : i < (norms s).length := by rw [hlen]; exact hi
    refine argminFirst_le (norms s) i hi' fun v hv => ?_
    obtain ⟨i', hi'', rfl⟩ := List.mem_iff_getElem.1 hv
    rw [hget, hget]
    exact Real.sqrt_le_sqrt (hmin i' (by rw [← hlen s]; exact hi''))
  have hσx : column (argminFirst (norms σ)) = x := by
    have := hres σ
    rw [hok] at this
    exact (Except.ok.inj this).symm
  have hxl : x.length = n := hx.1
  have hray : ∀ i, ∃ B : ℝ, ∀ s : ℝ, sqErr rows (y s) h (column i) - sqErr rows (y s) h x = rxDistSq rows h x (column i) + s * B := by
    intro i
    obtain ⟨B, hB⟩ := ray_sqErr rows h x (column i) w
    refine ⟨B, fun s => ?_⟩
    have := hB s
    rw [hxl] at this
    exact this
  have hA : ∀ i, 0 ≤ rxDistSq rows h x (column i) := fun i => by unfold rxDistSq; positivity
  obtain ⟨a1, a2⟩ := harg σ
  rw [hσx] at a2
  obtain ⟨b1, b2⟩ := harg σ'
  -- `x` is nearest at the smaller noise level
  have hmin : ∀ i < c.length ^ n, sqErr rows (y σ') h x ≤ sqErr rows (y σ') h (column i) := by
    intro i hi
    obtain ⟨B, hB⟩ := hray i
    have := (affine_between h0 h1 (hA i) (by rw [← hB σ]; linarith [a2 i hi])).1
    rw [← hB σ'] at this
    linarith
  -- the decision there has the same noise-free received vector
  have hz : rxDistSq rows h x (column (argminFirst (norms σ'))) = 0 := by
    by_contra hne0
    have hp : 0 < rxDistSq rows h x (column (argminFirst (norms σ'))) := lt_of_le_of_ne (hA _) (Ne.symm hne0)
    obtain ⟨B, hB⟩ := hray (argminFirst (norms σ'))
    have := (affine_between h0 h1 (hA _) (by rw [← hB σ]; linarith [a2 _ b1])).2.2 hp hlt
    rw [← hB σ'] at this
    have h4 := b2 _ a1
    rw [hσx] at h4
    linarith
  have e1 : argminFirst (norms σ) ≤ argminFirst (norms σ') := hfirst σ _ b1 fun i' hi' => by
    rw [sqErr_same hz]; exact a2 i' hi'
  have e2 : argminFirst (norms σ') ≤ argminFirst (norms σ) := hfirst σ' _ a1 fun i' hi' => by
    rw [hσx]; exact hmin i' hi'
  rw [hres σ', le_antisymm e2 e1, hσx]

/-! ### Convolutional codes -/

/-- C143, `viterbi_decode` with unquantized decisions.  `w` is an input path whose last outputs, beyond the block, are zeros (as after a termination); the decoder sees its code
bits as `±1` plus noise.  If at the noise level `σ` the path is at least as near as every other one, then at every smaller level its inputs are decoded. -/
theorem C143_viterbi {t : Trellis} (h : t.Balanced) (jk : VitJunk ℝ) {N : Nat} (hT : 2 ≤ N + t.M / t.k) (hB : t.k = 1 ∨ (t.M / t.k - 1) * t.k ≤ N + t.M / t.k)
    {w : List Nat} (hw : IsInput t (N + t.M / t.k - 1) w) (htail : (t.runOut 0 w).drop (N * t.n) = List.replicate ((t.M / t.k - 1) * t.n) 0)
    (hinj : ∀ vs, IsInput t (N + t.M / t.k - 1) vs → t.runOut 0 vs = t.runOut 0 w → vs.take N = w.take N) (z : ℕ → ℝ) {σ σ' : ℝ} (h0 : 0 ≤ σ') (h1 : σ' < σ)
    (hnear : ∀ vs, IsInput t (N + t.M / t.k - 1) vs →
      (List.zipWith (fun x (b : Nat) => (x - (2 * (b : ℝ) - 1)) ^ 2) (paddedRx t (-1) (noisyBits ((t.runOut 0 w).take (N * t.n)) σ z)) (t.runOut 0 w)).sum ≤
        (List.zipWith (fun x (b : Nat) => (x - (2 * (b : ℝ) - 1)) ^ 2) (paddedRx t (-1) (noisyBits ((t.runOut 0 w).take (N * t.n)) σ z)) (t.runOut 0 vs)).sum) :
    ∃ coded', viterbiDecode "unquantized" t jk (N * t.k) (N + t.M / t.k) (noisyBits ((t.runOut 0 w).take (N * t.n)) σ' z) = .ok ((w.take N).flatMap (toBits t.k), coded') := by
  have hq := h.one_le
  set c := t.runOut 0 w with hc
  set L := (N + t.M / t.k - 1) * t.n with hL
  have hLe : L = N * t.n + (t.M / t.k - 1) * t.n := by rw [hL, ← Nat.add_mul]; congr 1; omega
  have hlen : ∀ vs, IsInput t (N + t.M / t.k - 1) vs → (t.runOut 0 vs).length = L := fun vs hv => by rw [Trellis.runOut_length, hv.1]
  have hcl : c.length = L := hlen w hw
  have hct : (c.take (N * t.n)).length = N * t.n := by rw [List.length_take, hcl]; omega
  have hnl : ∀ s, (noisyBits (c.take (N * t.n)) s z).length = N * t.n := fun s => by unfold noisyBits; rw [List.length_map, List.length_range, hct]
  have hpl : ∀ s, (paddedRx t (-1) (noisyBits (c.take (N * t.n)) s z)).length = L := fun s => by
    unfold paddedRx; rw [List.length_append, hnl, List.length_replicate, hLe]
  set m : Nat → ℝ := fun p => if p < N * t.n then z p else 0 with hm
  have hget : ∀ s, ∀ p < L, (paddedRx t (-1) (noisyBits (c.take (N * t.n)) s z)).getD p (-1) = 2 * (c.getD p 0 : ℝ) - 1 + s * m p := by
    intro s p hp
    unfold paddedRx
    rw [getD_pad]
    by_cases hpN : p < N * t.n
    · rw [List.getD_eq_getElem _ _ (by rw [hnl]; exact hpN)]
      unfold noisyBits
      rw [List.getElem_map, List.getElem_range]
      simp only [hm]
      rw [if_pos hpN]
      congr 4
      rw [List.getD_eq_getElem?_getD, List.getElem?_take, if_pos hpN, ← List.getD_eq_getElem?_getD]
    · rw [List.getD_eq_getElem?_getD, List.getElem?_eq_none (by rw [hnl]; omega)]
      have e0 : c.getD p 0 = 0 := by
        have e1 : c.getD p 0 = (c.drop (N * t.n)).getD (p - N * t.n) 0 := by
          rw [List.getD_eq_getElem?_getD, List.getD_eq_getElem?_getD, List.getElem?_drop]
          congr 2
          omega
        rw [e1, htail, List.getD_eq_getElem?_getD, List.getElem?_replicate]
        split <;> rfl
      simp only [hm]
      rw [if_neg hpN, e0]
      norm_num
  have hsum : ∀ s vs, IsInput t (N + t.M / t.k - 1) vs → (List.zipWith (fun x (b : Nat) => (x - (2 * (b : ℝ) - 1)) ^ 2) (paddedRx t (-1) (noisyBits (c.take (N * t.n)) s z)) (t.runOut 0 vs)).sum =
      ∑ p ∈ range L, (2 * (c.getD p 0 : ℝ) - 1 + s * m p - (2 * ((t.runOut 0 vs).getD p 0 : ℝ) - 1)) ^ 2 := by
    intro s vs hv
    have := seqCost_sum (fun (x : ℝ) (b : Nat) => (x - (2 * (b : ℝ) - 1)) ^ 2) (-1) (paddedRx t (-1) (noisyBits (c.take (N * t.n)) s z)) (t.runOut 0 vs) (by rw [hpl, hlen vs hv])
    unfold seqCost at this
    rw [this, hlen vs hv]
    exact sum_congr rfl fun p hp => by rw [hget s p (mem_range.1 hp)]
  have hdiff : ∀ vs, IsInput t (N + t.M / t.k - 1) vs → ∀ s : ℝ, (∑ p ∈ range L, (2 * (c.getD p 0 : ℝ) - 1 + s * m p - (2 * ((t.runOut 0 vs).getD p 0 : ℝ) - 1)) ^ 2) -
      (∑ p ∈ range L, (2 * (c.getD p 0 : ℝ) - 1 + s * m p - (2 * (c.getD p 0 : ℝ) - 1)) ^ 2) =
      (∑ p ∈ range L, 4 * ((c.getD p 0 : ℝ) - (t.runOut 0 vs).getD p 0) ^ 2) + s * ∑ p ∈ range L, 4 * m p * ((c.getD p 0 : ℝ) - (t.runOut 0 vs).getD p 0) := by
    intro vs _ s
    rw [← sum_sub_distrib, mul_sum, ← sum_add_distrib]
    exact sum_congr rfl fun p _ => by ring
  obtain ⟨us, u1, u2, c', u3⟩ := C38_unquantized h jk (hnl σ') hT hB
  refine ⟨c', ?_⟩
  rw [u3]
  congr 3
  apply hinj us u1
  -- the decoded path has the same code bits
  have k1 := hnear us u1
  have k2 := u2 w hw
  rw [hsum _ _ hw, hsum _ _ u1] at k1 k2
  have d1 := hdiff us u1 σ
  have d2 := hdiff us u1 σ'
  set A := ∑ p ∈ range L, 4 * ((c.getD p 0 : ℝ) - (t.runOut 0 us).getD p 0) ^ 2 with hA
  have hA0 : 0 ≤ A := sum_nonneg fun p _ => by positivity
  rcases eq_or_lt_of_le hA0 with hz | hp
  · have := (sum_eq_zero_iff_of_nonneg (fun p _ => by positivity)).1 hz.symm
    apply List.ext_getElem (by rw [hlen us u1, hcl])
    intro p h3 h4
    have h5 := this p (mem_range.2 (by rw [← hcl]; exact h4))
    rw [List.getD_eq_getElem _ _ h4, List.getD_eq_getElem _ _ h3] at h5
    have h6 : (c[p] : ℝ) - ((t.runOut 0 us)[p] : ℝ) = 0 := by
      have : ((c[p] : ℝ) - ((t.runOut 0 us)[p] : ℝ)) ^ 2 = 0 := by linarith
      exact pow_eq_zero_iff two_ne_zero |>.1 this
    have h7 : (c[p] : ℝ) = ((t.runOut 0 us)[p] : ℝ) := by linarith
    exact_mod_cast h7.symm
  · exfalso
    have := (affine_between h0 h1.le hA0 (by rw [← d1]; linarith)).2.2 hp h1
    rw [← d2] at this
    linarith

/-! ### Instances -/

/-- A noise level at which 16-QAM is detected right, so that `C143_modem` applies. -/
example : ∃ s syms, qamModem 16 = .ok s ∧ modulate s [1, 0, 1, 1, 0, 0, 1, 0] = .ok syms ∧
    demodulate s ((List.range syms.length).map fun i => syms.getD i 0 + ((0.9 : ℝ) : ℂ) * Complex.I) "hard" 1 = .ok (.bits [1, 0, 1, 1, 0, 0, 1, 0]) ∧
    demodulate s ((List.range syms.length).map fun i => syms.getD i 0 + ((0.2 : ℝ) : ℂ) * Complex.I) "hard" 1 = .ok (.bits [1, 0, 1, 1, 0, 0, 1, 0]) := by
  obtain ⟨s, s1, s2, s3, s4⟩ := C93_qam 2 (by norm_num)
  have hm : 2 ≤ s.m := by rw [s2.pow, s3]; norm_num
  obtain ⟨syms, h1, h2, h3⟩ := C93_hard s2 hm s4 (bits := [1, 0, 1, 1, 0, 0, 1, 0]) (by decide) (by decide) (by rw [s3]; decide) 1
  obtain ⟨syms', g1, g2, g3⟩ := C143_modem s2 hm (bits := [1, 0, 1, 1, 0, 0, 1, 0]) (by decide) (by decide) (by rw [s3]; decide) 1 1
  rw [h1] at g1
  cases g1
  have hd : demodulate s ((List.range syms.length).map fun i => syms.getD i 0 + ((0.9 : ℝ) : ℂ) * Complex.I) "hard" 1 = .ok (.bits [1, 0, 1, 1, 0, 0, 1, 0]) := by
    refine h3 _ (by simp) fun i hi => ?_
    rw [List.getD_eq_getElem _ _ (by simpa using hi), List.getElem_map, List.getElem_range, add_sub_cancel_left, norm_mul, Complex.norm_I, Complex.norm_real]
    norm_num
  exact ⟨s, syms, s1, h1, hd, g3 (fun _ => Complex.I) _ _ (by norm_num) (by norm_num) hd⟩

/-- The (5,7) code, the message `1 0 0` with two zeros: the path meets the conditions of `C143_viterbi` for every noise sequence that leaves it nearest; without noise it is nearest. -/
example (z : ℕ → ℝ) : ∃ t, ∃ w : List Nat, mkTrellis (fun _ _ => 0) [2] [[5, 7]] 2 none false "MSB" = .ok t ∧ t.Balanced ∧ IsInput t (3 + t.M / t.k - 1) w ∧
    (t.runOut 0 w).drop (3 * t.n) = List.replicate ((t.M / t.k - 1) * t.n) 0 ∧
    ∀ vs, IsInput t (3 + t.M / t.k - 1) vs → t.runOut 0 vs = t.runOut 0 w → vs.take 3 = w.take 3 := by
  have hbal := ff_balanced (junk := fun _ _ => 0) (rsc := false) viterbiEx_args (by simp)
  refine ⟨trellisOf (fun _ _ => 0) [2] [[5, 7]] 2 none false "MSB", [1, 0, 0, 0], mkTrellis_ok viterbiEx_args, hbal, ⟨by decide, by decide⟩, by decide +kernel, ?_⟩
  intro vs hv he
  have hl : vs.length = 4 := hv.1
  match vs, hl with
  | [a, b, c, d], _ =>
    have hb : ∀ x ∈ [a, b, c, d], x < 2 := hv.2
    have ha := hb a (by simp)
    have hb' := hb b (by simp)
    have hc := hb c (by simp)
    have hd := hb d (by simp)
    interval_cases a <;> interval_cases b <;> interval_cases c <;> interval_cases d <;> first | rfl | (exfalso; revert he; decide +kernel)

example : ∃ s, qamModem 16 = .ok s ∧ symbolErrorProb s.constellation 0.1 ≤ symbolErrorProb s.constellation 0.3 := by
  obtain ⟨s, h, -⟩ := C65_qam 2 (by norm_num)
  exact ⟨s, h, C143_probability _ (by norm_num : (0 : ℝ) ≤ 0.1) (by norm_num : (0 : ℝ) ≤ 0.3) (by norm_num)⟩

/-- Two antennas, four points, a channel that mixes: noise of half the size of a component: the hypotheses are met. -/
example : ∃ c x : List ℂ, c ≠ [] ∧ IsVector c 2 x ∧ mimoMl 2 2 (fun i => ∑ j ∈ range 2, (if i = 0 then 1 else if j = 0 then 1 else -1) * x.getD j 0 + ((0.5 : ℝ) : ℂ) * Complex.I)
    (fun i j => if i = 0 then 1 else if j = 0 then 1 else -1) c = .ok x := by
  refine ⟨[1, -1], [1, -1], by simp, ⟨rfl, by simp⟩, ?_⟩
  refine C117_ml ⟨rfl, by simp⟩ (by simp) ?_
  intro x' hx' hne
  obtain ⟨h1, h2⟩ := hx'
  have hx2 : ∃ a b, x' = [a, b] := by
    match x', h1 with
    | [a, b], _ => exact ⟨a, b, rfl⟩
  obtain ⟨a, b, rfl⟩ := hx2
  have ha := h2 a (by simp)
  have hb := h2 b (by simp)
  simp only [List.mem_cons, List.not_mem_nil, or_false] at ha hb
  unfold sqErr rxDistSq
  rcases ha with rfl | rfl <;> rcases hb with rfl | rfl <;> simp [sum_range_succ] at hne ⊢ <;> norm_num

end Verif
