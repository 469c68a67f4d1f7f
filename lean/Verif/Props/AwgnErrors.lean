import Verif.Props.Channels
import Verif.Props.CodedModulation
import Mathlib.Probability.Independence.InfinitePi
/-
C120: error probability of hard demodulation over Gaussian channels.
-/
namespace Verif
open MeasureTheory ProbabilityTheory Finset

/-- Both tails of a standard normal variable. -/
theorem normal_tail {Ω : Type*} [MeasurableSpace Ω] {P : Measure Ω} {X : Ω → ℝ} (h : HasLaw X (gaussianReal 0 1) P) {a : ℝ} (ha : 0 ≤ a) :
    P {ω | a ≤ |X ω|} ≤ ENNReal.ofReal (2 * Real.exp (-(a ^ 2 / 2))) := by
  have hp := h.isProbabilityMeasure
  have hm : ∀ t, mgf X P t = Real.exp (t ^ 2 / 2) := by
    intro t; rw [mgf_gaussianReal h.map_eq]; simp
  have hi : ∀ t, Integrable (fun ω => Real.exp (t * X ω)) P := by
    intro t; rw [← mgf_pos_iff, hm]; exact Real.exp_pos _
  have h1 := measure_ge_le_exp_mul_mgf (μ := P) (X := X) a ha (hi a)
  have h2 := measure_le_le_exp_mul_mgf (μ := P) (X := X) (-a) (neg_nonpos.2 ha) (hi (-a))
  rw [hm, ← Real.exp_add] at h1 h2
  have e1 : -a * a + a ^ 2 / 2 = -(a ^ 2 / 2) := by ring
  have e2 : - -a * -a + (-a) ^ 2 / 2 = -(a ^ 2 / 2) := by ring
  rw [e1] at h1
  rw [e2] at h2
  have hsub : {ω | a ≤ |X ω|} ⊆ {ω | a ≤ X ω} ∪ {ω | X ω ≤ -a} := by
    intro ω hω
    rcases le_abs.1 (show a ≤ |X ω| from hω) with h | h
    · left; exact h
    · right
      change X ω ≤ -a
      linarith
  refine le_trans (measure_mono hsub) (le_trans (measure_union_le _ _) ?_)
  have g1 : P {ω | a ≤ X ω} ≤ ENNReal.ofReal (Real.exp (-(a ^ 2 / 2))) := by
    rw [← ofReal_measureReal]; exact ENNReal.ofReal_le_ofReal h1
  have g2 : P {ω | X ω ≤ -a} ≤ ENNReal.ofReal (Real.exp (-(a ^ 2 / 2))) := by
    rw [← ofReal_measureReal]; exact ENNReal.ofReal_le_ofReal h2
  rw [two_mul, ENNReal.ofReal_add (Real.exp_pos _).le (Real.exp_pos _).le]
  exact add_le_add g1 g2

/-- One of `2N` scaled normal draws reaches `r`. -/
theorem noise_tail {Ω : Type*} [MeasurableSpace Ω] {P : Measure Ω} {z : Ω → ℕ → ℝ} (hz : NormalDraws P z) (N : Nat) {σ r : ℝ} (hσ : 0 < σ)
    (hr : 0 ≤ r) :
    P {ω | ∃ i < N, r ≤ |σ * z ω i| ∨ r ≤ |σ * z ω (N + i)|} ≤ ENNReal.ofReal (4 * N * Real.exp (-(r ^ 2 / (2 * σ ^ 2)))) := by
  have hsub : {ω | ∃ i < N, r ≤ |σ * z ω i| ∨ r ≤ |σ * z ω (N + i)|} ⊆
      ⋃ i ∈ range (2 * N), {ω | r / σ ≤ |z ω i|} := by
    rintro ω ⟨i, hi, h⟩
    have hkey : ∀ j, r ≤ |σ * z ω j| → r / σ ≤ |z ω j| := by
      intro j hj
      rw [abs_mul, abs_of_pos hσ] at hj
      rw [div_le_iff₀ hσ, mul_comm]; exact hj
    simp only [Set.mem_iUnion]
    rcases h with h | h
    · exact ⟨i, mem_range.2 (by omega), hkey i h⟩
    · exact ⟨N + i, mem_range.2 (by omega), hkey _ h⟩
  refine le_trans (measure_mono hsub) (le_trans (measure_biUnion_finset_le _ _) ?_)
  refine le_trans (sum_le_sum fun i _ => normal_tail (hz i) (div_nonneg hr hσ.le)) ?_
  rw [sum_const, card_range, nsmul_eq_mul, ← ENNReal.ofReal_natCast, ← ENNReal.ofReal_mul (Nat.cast_nonneg _)]
  apply ENNReal.ofReal_le_ofReal
  have e : (r / σ) ^ 2 / 2 = r ^ 2 / (2 * σ ^ 2) := by field_simp
  rw [e]
  push_cast
  apply le_of_eq
  ring

/-- A QAM symbol is detected right when both components of the noise are below 1. -/
theorem qam_box (h : Nat) (hh : 1 ≤ h) : ∃ s, qamModem (4 ^ h) = .ok s ∧ s.Es = 2 * ((4 : ℝ) ^ h - 1) / 3 ∧
    ∀ (bits : List Nat) (v : ℝ), (∀ x ∈ bits, x < 2) → bits ≠ [] → 2 * h ∣ bits.length →
      ∃ syms, modulate s bits = .ok syms ∧ syms.length * (2 * h) = bits.length ∧ (∀ z ∈ syms, 2 ≤ ‖z‖ ^ 2) ∧
        ∀ ys : List ℂ, ys.length = syms.length →
          (∀ i < syms.length, |(ys.getD i 0 - syms.getD i 0).re| < 1 ∧ |(ys.getD i 0 - syms.getD i 0).im| < 1) →
          demodulate s ys "hard" v = .ok (.bits bits) := by
  obtain ⟨s, s1, s2, s3, s4, s5, -⟩ := C118_qam h hh
  obtain ⟨s', h1', g2, g3, g4, g5, g6, g7, -⟩ := C65_qam h hh
  rw [s1] at h1'
  cases h1'
  refine ⟨s, s1, g7, ?_⟩
  intro bits v hb hne hl
  have hm : 2 ≤ s.m := by
    rw [s3]
    calc 2 ≤ 4 ^ 1 := by norm_num
      _ ≤ 4 ^ h := Nat.pow_le_pow_right (by norm_num) hh
  obtain ⟨syms, m1, m2, m3⟩ := demod_bits s2 hm hb hne (by rw [s4]; exact hl) v
  obtain ⟨N, hN⟩ := hl
  have hsyms : syms = (inSyms s.nbits bits).map fun l => s.constellation.getD l 0 := by
    rw [modulate_ok s2 hm hb hne (N := N) (by rw [s4, hN, Nat.mul_comm])] at m1
    exact (Except.ok.inj m1).symm
  refine ⟨syms, m1, by rw [← s4]; exact m2, ?_, ?_⟩
  · intro z hz
    rw [hsyms] at hz
    obtain ⟨l, hl, rfl⟩ := List.mem_map.1 hz
    have hlt : l < s.constellation.length := by rw [s2.len]; exact inSyms_lt hb _ l hl
    obtain ⟨x, y, hx, hy, -, -, e⟩ := (g6 (s.constellation.getD l 0)).1 (by
      rw [List.getD_eq_getElem _ _ hlt]; exact List.getElem_mem _)
    rw [e, ← Complex.normSq_eq_norm_sq, Complex.normSq_apply]
    simp
    have hone : ∀ u : ℤ, Odd u → (1 : ℝ) ≤ (u : ℝ) * u := by
      intro u hu
      have : (1 : ℤ) ≤ u * u := by
        have : u ≠ 0 := by rintro rfl; simp at hu
        rcases lt_or_gt_of_ne this with h | h <;> nlinarith
      exact_mod_cast this
    have := hone x hx
    have := hone y hy
    linarith
  · intro ys hlen hbox
    obtain ⟨bits', e1, e2, e3, e4⟩ := m3 ys (fun _ => 0) hlen (by
      intro i hi a ha c hc hac hmin
      have ha' : a < s.constellation.length := by rw [← s2.size]; exact ha
      have hc' : c < s.constellation.length := by rw [← s2.size]; exact hc
      have hca : c = a := by
        by_contra hcne
        have hmem : s.constellation.getD a 0 ∈ s.constellation := by
          rw [List.getD_eq_getElem _ _ ha']; exact List.getElem_mem _
        have hmin := hmin _ hmem
        obtain ⟨x, y, hx, hy, -, -, ea⟩ := (g6 (s.constellation.getD a 0)).1 hmem
        obtain ⟨x', y', hx', hy', -, -, ec⟩ := (g6 (s.constellation.getD c 0)).1 (by
          rw [List.getD_eq_getElem _ _ hc']; exact List.getElem_mem _)
        have hor : x - x' ≠ 0 ∨ y - y' ≠ 0 := by
          by_contra hcon
          push Not at hcon
          have hx0 : x = x' := by omega
          have hy0 : y = y' := by omega
          have heq : s.constellation.getD a 0 = s.constellation.getD c 0 := by rw [ea, ec, hx0, hy0]
          rw [List.getD_eq_getElem _ _ ha', List.getD_eq_getElem _ _ hc'] at heq
          exact hcne ((List.Nodup.getElem_inj_iff g5).1 heq).symm
        obtain ⟨hre, him⟩ := hbox i hi
        rw [← hac] at hre him
        set y0 := ys.getD i 0 with hy0
        have hsq := pow_le_pow_left₀ (norm_nonneg _) hmin 2
        rw [← Complex.normSq_eq_norm_sq, ← Complex.normSq_eq_norm_sq, Complex.normSq_apply, Complex.normSq_apply] at hsq
        rw [ea] at hre him hsq
        rw [ec] at hsq
        simp only [Complex.sub_re, Complex.sub_im, Complex.add_re, Complex.add_im, Complex.mul_re, Complex.mul_im, Complex.intCast_re,
          Complex.intCast_im, Complex.I_re, Complex.I_im, mul_zero, mul_one, zero_mul, sub_zero, add_zero, zero_add, sub_self] at hre him hsq
        have hq : ∀ (u w : ℤ) (q : ℝ), Odd u → Odd w → |q - u| < 1 → (u - w ≠ 0 → (q - u) * (q - u) < (q - w) * (q - w)) ∧
            (u - w = 0 → (q - u) * (q - u) = (q - w) * (q - w)) := by
          intro u w q hu hw hq
          constructor
          · intro hne
            obtain ⟨p, rfl⟩ := hu
            obtain ⟨p', rfl⟩ := hw
            rw [abs_lt] at hq
            push_cast at hq ⊢
            have hpp : p < p' ∨ p' < p := by omega
            rcases hpp with hpp | hpp
            · have : (p : ℝ) + 1 ≤ p' := by exact_mod_cast hpp
              nlinarith
            · have : (p' : ℝ) + 1 ≤ p := by exact_mod_cast hpp
              nlinarith
          · intro h0
            have : u = w := by omega
            rw [this]
        obtain ⟨q1, q2⟩ := hq x x' y0.re hx hx' hre
        obtain ⟨q3, q4⟩ := hq y y' y0.im hy hy' him
        rcases hor with ho | ho
        · have := q1 ho
          by_cases hy1 : y - y' = 0
          · have := q4 hy1; linarith
          · have := q3 hy1; linarith
        · have := q3 ho
          by_cases hx1 : x - x' = 0
          · have := q2 hx1; linarith
          · have := q1 hx1; linarith
      rw [hca, diffCount_self])
    have hz : diffCount bits' bits = 0 := by simpa using e4
    have : bits' = bits := by
      by_contra hne'
      have := diffCount_pos e2 hne'
      omega
    rw [e1, this]

theorem getD_zipWith_add {a b : List ℂ} (h : b.length = a.length) {i : Nat} (hi : i < a.length) :
    (List.zipWith (fun a b => a + b) a b).getD i 0 = a.getD i 0 + b.getD i 0 := by
  rw [List.getD_eq_getElem _ _ (by simp [h, hi]), List.getElem_zipWith, List.getD_eq_getElem _ _ hi,
    List.getD_eq_getElem _ _ (by rw [h]; exact hi)]

/-- Mean energy of a list of symbols. -/
noncomputable def meanEnergy (l : List ℂ) : ℝ := (l.map fun x => ‖x‖ ^ 2).sum / l.length

theorem meanEnergy_pos {l : List ℂ} (hne : l ≠ []) (h : ∀ z ∈ l, 2 ≤ ‖z‖ ^ 2) : 0 < meanEnergy l := by
  have hl : 0 < l.length := List.length_pos_iff.2 hne
  apply div_pos _ (by exact_mod_cast hl)
  apply List.sum_pos
  · intro x hx
    obtain ⟨z, hz, rfl⟩ := List.mem_map.1 hx
    have := h z hz
    linarith
  · simpa using hne

/-- C120, `awgn`: QAM symbols sent through `awgn` at `snrDb` dB and demodulated by hard decisions: the probability that any of the
bits is wrong is at most `4 N exp (-rate 10^(snrDb/10) / E)`, with `N` symbols of mean energy `E`. -/
theorem C120_awgn (h : Nat) (hh : 1 ≤ h) : ∃ s, qamModem (4 ^ h) = .ok s ∧
    ∀ (bits : List Nat) (v : ℝ), (∀ x ∈ bits, x < 2) → bits ≠ [] → 2 * h ∣ bits.length →
      ∃ syms, modulate s bits = .ok syms ∧ syms.length * (2 * h) = bits.length ∧
        ∀ {Ω : Type*} [MeasurableSpace Ω] {P : Measure Ω} {z : Ω → ℕ → ℝ}, NormalDraws P z → ∀ snrDb rate : ℝ, 0 < rate →
          ∃ ys : Ω → List ℂ, (∀ ω, awgn (.cplx syms) snrDb rate (z ω) = .ok (ys ω)) ∧
            P {ω | demodulate s (ys ω) "hard" v ≠ .ok (.bits bits)} ≤
              ENNReal.ofReal (4 * syms.length * Real.exp (-(rate * (10 : ℝ) ^ (snrDb / 10) / meanEnergy syms))) := by
  obtain ⟨s, s1, -, H⟩ := qam_box h hh
  refine ⟨s, s1, ?_⟩
  intro bits v hb hne hl
  obtain ⟨syms, m1, m2, m3, m4⟩ := H bits v hb hne hl
  refine ⟨syms, m1, m2, ?_⟩
  have hsne : syms ≠ [] := by
    rintro rfl
    simp at m2
    exact hne (List.length_eq_zero_iff.1 m2.symm)
  intro Ω _ P z hz snrDb rate hr
  have htoC : (Signal.cplx syms).toC = syms := rfl
  set σ2 := meanEnergy syms / (2 * rate * (10 : ℝ) ^ (snrDb / 10)) with hσ2
  have hE := meanEnergy_pos hsne m3
  have hpow : (0 : ℝ) < (10 : ℝ) ^ (snrDb / 10) := Real.rpow_pos_of_pos (by norm_num) _
  have hσpos : 0 < σ2 := by positivity
  refine ⟨fun ω => List.zipWith (fun a b => a + b) syms ((List.range syms.length).map (awgnNoise true σ2 syms.length (z ω))), ?_, ?_⟩
  · intro ω
    unfold awgn
    rw [if_neg (by rw [htoC]; exact hsne)]
    simp only [htoC, Signal.isComplex]
    congr 4
    rw [hσ2, meanEnergy]
    simp only [← pow_two]
  · have hb2 := noise_tail hz syms.length (Real.sqrt_pos.2 hσpos) (r := 1) (by norm_num)
    rw [Real.sq_sqrt hσpos.le] at hb2
    have he : (1 : ℝ) ^ 2 / (2 * σ2) = rate * (10 : ℝ) ^ (snrDb / 10) / meanEnergy syms := by
      rw [hσ2]; field_simp
    rw [he] at hb2
    refine le_trans (measure_mono ?_) hb2
    intro ω hω
    by_contra hcon
    apply hω
    apply m4
    · simp
    · intro i hi
      have hcon : ¬ ∃ i < syms.length, 1 ≤ |Real.sqrt σ2 * z ω i| ∨ 1 ≤ |Real.sqrt σ2 * z ω (syms.length + i)| := hcon
      push Not at hcon
      obtain ⟨c1, c2⟩ := hcon i hi
      rw [getD_zipWith_add (by simp) hi, add_sub_cancel_left, List.getD_eq_getElem _ _ (by simpa using hi), List.getElem_map,
        List.getElem_range]
      simp only [awgnNoise, if_true]
      constructor
      · simpa using c1
      · simpa using c2

/-- C120, `SISOFlatChannel`: the same for a channel without fading (`fading_param = (1 + 0j, 0)`) after
`set_SNR_lin(snr, rate, Es)` with the modem's own `Es`: at most `4 N exp (-rate snr / Es)`. -/
theorem C120_siso (h : Nat) (hh : 1 ≤ h) : ∃ s, qamModem (4 ^ h) = .ok s ∧ s.Es = 2 * ((4 : ℝ) ^ h - 1) / 3 ∧
    ∀ (bits : List Nat) (v : ℝ), (∀ x ∈ bits, x < 2) → bits ≠ [] → 2 * h ∣ bits.length →
      ∃ syms, modulate s bits = .ok syms ∧ syms.length * (2 * h) = bits.length ∧
        ∀ {Ω : Type*} [MeasurableSpace Ω] {P : Measure Ω} {z : Ω → ℕ → ℝ}, NormalDraws P z → ∀ (std0 : Option ℝ) (snr rate : ℝ), 0 < snr → 0 < rate →
          ∃ ch ch1, Siso.init std0 (.cplx 1, 0) = .ok ch ∧ ch.step (.setSnrLin snr rate s.Es) = (ch1, none) ∧
          ∃ ys : Ω → List ℂ, (∀ ω, (ch1.propagate (.cplx syms) (z ω)).2 = .ok (ys ω)) ∧
            P {ω | demodulate s (ys ω) "hard" v ≠ .ok (.bits bits)} ≤
              ENNReal.ofReal (4 * syms.length * Real.exp (-(rate * snr / s.Es))) := by
  obtain ⟨s, s1, sE, H⟩ := qam_box h hh
  refine ⟨s, s1, sE, ?_⟩
  intro bits v hb hne hl
  obtain ⟨syms, m1, m2, m3, m4⟩ := H bits v hb hne hl
  refine ⟨syms, m1, m2, ?_⟩
  have hsne : syms ≠ [] := by
    rintro rfl
    simp at m2
    exact hne (List.length_eq_zero_iff.1 m2.symm)
  have hEs : 0 < s.Es := by
    rw [sE]
    have : (4 : ℝ) ^ 1 ≤ 4 ^ h := pow_le_pow_right₀ (by norm_num) hh
    have : (0 : ℝ) < 4 ^ h - 1 := by linarith
    positivity
  intro Ω _ P z hz std0 snr rate hs hr
  set std := Real.sqrt ((1 + 1 : ℝ) * ((1 : ℕ) : ℝ) * s.Es / (rate * snr)) with hstd
  have hin : 0 < (1 + 1 : ℝ) * ((1 : ℕ) : ℝ) * s.Es / (rate * snr) := by positivity
  have hstdpos : 0 < std := Real.sqrt_pos.2 hin
  refine ⟨⟨std0, (.cplx 1, 0), true, none, none, none⟩, ⟨some std, (.cplx 1, 0), true, none, none, none⟩, ?_, ?_, ?_⟩
  · unfold Siso.init Siso.setFading
    simp [Num.toC, Num.isComplex]
  · simp only [Siso.step, noiseStdLin]
    rw [if_neg (by positivity : rate * snr ≠ 0)]
    simp only [if_true, hstd]
  · have htoC : (Signal.cplx syms).toC = syms := rfl
    refine ⟨fun ω => List.zipWith (fun a b => a + b) syms ((List.range syms.length).map (noiseSample true std syms.length (z ω))), ?_, ?_⟩
    · intro ω
      unfold Siso.propagate
      rw [if_neg (by rw [htoC]; exact hsne), if_neg (by simp [Signal.isComplex])]
      simp only [htoC]
      have hg : List.zipWith (fun a b => a * b) ((List.range syms.length).map
          ((⟨some std, (.cplx 1, 0), true, none, none, none⟩ : Siso).gainSample syms.length
            (fun i => z ω (drawCount true syms.length + i)))) syms = syms := by
        apply List.ext_getElem
        · simp
        · intro i h1 h2
          rw [List.getElem_zipWith, List.getElem_map]
          simp [Siso.gainSample, Num.toC]
      rw [hg]
    · have hb2 := noise_tail hz syms.length (σ := std / 2) (by positivity) (r := 1) (by norm_num)
      have he : (1 : ℝ) ^ 2 / (2 * (std / 2) ^ 2) = rate * snr / s.Es := by
        rw [div_pow, hstd, Real.sq_sqrt hin.le]
        push_cast
        field_simp
        norm_num
      rw [he] at hb2
      refine le_trans (measure_mono ?_) hb2
      intro ω hω
      by_contra hcon
      apply hω
      apply m4
      · simp
      · intro i hi
        have hcon : ¬ ∃ i < syms.length, 1 ≤ |std / 2 * z ω i| ∨ 1 ≤ |std / 2 * z ω (syms.length + i)| := hcon
        push Not at hcon
        obtain ⟨c1, c2⟩ := hcon i hi
        rw [getD_zipWith_add (by simp) hi, add_sub_cancel_left, List.getD_eq_getElem _ _ (by simpa using hi), List.getElem_map,
          List.getElem_range]
        have e : noiseSample true std syms.length (z ω) i = ((std / 2 * z ω i : ℝ) : ℂ) + ((std / 2 * z ω (syms.length + i) : ℝ) : ℂ) * Complex.I := by
          simp only [noiseSample, if_true]
          push_cast
          ring
        rw [e]
        constructor
        · simpa using c1
        · simpa using c2

/-- C120: reliability improves without bound: for any number of bits and any `ε > 0`, above some SNR the probability of a wrong bit is
at most `ε`. -/
theorem C120_reliable (h : Nat) (hh : 1 ≤ h) (n : Nat) {ε rate : ℝ} (hε : 0 < ε) (hr : 0 < rate) : ∃ s snr0, qamModem (4 ^ h) = .ok s ∧ 0 < snr0 ∧
    ∀ (bits : List Nat) (v : ℝ), (∀ x ∈ bits, x < 2) → bits ≠ [] → 2 * h ∣ bits.length → bits.length ≤ n →
      ∃ syms, modulate s bits = .ok syms ∧
        ∀ {Ω : Type*} [MeasurableSpace Ω] {P : Measure Ω} {z : Ω → ℕ → ℝ}, NormalDraws P z → ∀ (std0 : Option ℝ) (snr : ℝ), snr0 ≤ snr →
          ∃ ch ch1, Siso.init std0 (.cplx 1, 0) = .ok ch ∧ ch.step (.setSnrLin snr rate s.Es) = (ch1, none) ∧
          ∃ ys : Ω → List ℂ, (∀ ω, (ch1.propagate (.cplx syms) (z ω)).2 = .ok (ys ω)) ∧
            P {ω | demodulate s (ys ω) "hard" v ≠ .ok (.bits bits)} ≤ ENNReal.ofReal ε := by
  obtain ⟨s, s1, sE, H⟩ := C120_siso h hh
  have hEs : 0 < s.Es := by
    rw [sE]
    have : (4 : ℝ) ^ 1 ≤ 4 ^ h := pow_le_pow_right₀ (by norm_num) hh
    have : (0 : ℝ) < 4 ^ h - 1 := by linarith
    positivity
  have hQ : (0 : ℝ) < 4 * n / ε + 1 := by positivity
  refine ⟨s, s.Es / rate * (4 * n / ε + 1), s1, by positivity, ?_⟩
  intro bits v hb hne hl hn
  obtain ⟨syms, m1, m2, H2⟩ := H bits v hb hne hl
  refine ⟨syms, m1, ?_⟩
  intro Ω _ P z hz std0 snr hsnr
  have hs0 : 0 < snr := lt_of_lt_of_le (by positivity) hsnr
  obtain ⟨ch, ch1, a1, a2, ys, a3, a4⟩ := H2 hz std0 snr rate hs0 hr
  refine ⟨ch, ch1, a1, a2, ys, a3, le_trans a4 (ENNReal.ofReal_le_ofReal ?_)⟩
  have hX : 4 * n / ε + 1 ≤ rate * snr / s.Es := by
    rw [le_div_iff₀ hEs]
    have := mul_le_mul_of_nonneg_left hsnr hr.le
    calc (4 * n / ε + 1) * s.Es = rate * (s.Es / rate * (4 * n / ε + 1)) := by field_simp
      _ ≤ _ := this
  set X := rate * snr / s.Es with hXd
  have hexp := Real.add_one_le_exp X
  have hlen : (syms.length : ℝ) ≤ n := by
    have : syms.length ≤ n := le_trans (by rw [← m2]; exact Nat.le_mul_of_pos_right _ (by omega)) hn
    exact_mod_cast this
  rw [Real.exp_neg, ← div_eq_mul_inv, div_le_iff₀ (Real.exp_pos _)]
  have h4 : 4 * (n : ℝ) ≤ ε * (4 * n / ε + 1) := by
    rw [mul_add, mul_div_cancel₀ _ hε.ne']; linarith
  have h5 : ε * (4 * n / ε + 1) ≤ ε * Real.exp X := mul_le_mul_of_nonneg_left (by linarith) hε.le
  linarith

/-- The hypotheses are met: normal draws exist; eight bits with 16-QAM at SNR 100. -/
example : ∃ (Ω : Type) (_ : MeasurableSpace Ω) (P : Measure Ω) (z : Ω → ℕ → ℝ), NormalDraws P z ∧
    ∃ s syms ch ch1, qamModem (4 ^ 2) = .ok s ∧ modulate s [0, 1, 1, 0, 1, 1, 0, 1] = .ok syms ∧ Siso.init none (.cplx 1, 0) = .ok ch ∧
      ch.step (.setSnrLin 100 1 s.Es) = (ch1, none) ∧
      ∃ ys : Ω → List ℂ, (∀ ω, (ch1.propagate (.cplx syms) (z ω)).2 = .ok (ys ω)) ∧
        P {ω | demodulate s (ys ω) "hard" 0 ≠ .ok (.bits [0, 1, 1, 0, 1, 1, 0, 1])} ≤ ENNReal.ofReal (8 * Real.exp (-10)) := by
  have hz : NormalDraws (Measure.infinitePi fun _ : ℕ => gaussianReal 0 1) (fun ω i => ω i) :=
    fun i => MeasurePreserving.hasLaw (measurePreserving_eval_infinitePi _ _)
  obtain ⟨s, s1, sE, H⟩ := C120_siso 2 (by decide)
  obtain ⟨syms, m1, m2, H2⟩ := H [0, 1, 1, 0, 1, 1, 0, 1] 0 (by decide) (by simp) (by decide)
  obtain ⟨ch, ch1, a1, a2, ys, a3, a4⟩ := H2 hz none 100 1 (by norm_num) (by norm_num)
  refine ⟨ℕ → ℝ, inferInstance, _, fun ω i => ω i, hz, s, syms, ch, ch1, s1, m1, a1, a2, ys, a3, le_trans a4 ?_⟩
  have hl : syms.length = 2 := by simp at m2; omega
  rw [hl, sE]
  norm_num

end Verif
