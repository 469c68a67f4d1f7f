import Verif.Props.ModemSoft
import Verif.Props.ModemNoise
import Verif.Props.PskQam
import Verif.Props.Filters
import Verif.Props.ChannelsPropagate
import Verif.Props.Turbo
import Verif.Props.TurboEncode
import Verif.Props.HardSamples
import Verif.Props.Wifi
/-
Concrete cases meeting the hypotheses of theorems about modems, filters, channels and trellis decoders that have no instance next to
them.
-/
namespace Verif
open MeasureTheory ProbabilityTheory

/-- C61, C62, C66: a Gray-labelled modem whose constellation is replaced by four points and then, unsuccessfully, by three. -/
example : ∃ s s', newModem [1, Complex.I, -1, -Complex.I] true = .ok s ∧ s' = [[-3, -1, 1, 3], [0, 1, 2]].foldl (fun s v => (setConstellation s v).1) s ∧ s'.nbits = 2 ∧
    s'.constellation = [-3, -1, 1, 3] ∧ s'.Consistent := by
  obtain ⟨s, -, h1, -⟩ := C63_gray (c := [1, Complex.I, -1, -Complex.I]) (b := 2) (by norm_num) rfl
  have k1 := setConstellation_pow s (v := [-3, -1, 1, 3]) (b := 2) rfl
  have k2 : ∀ s2 : Modem, (setConstellation s2 [0, 1, 2]).1 = s2 := fun s2 => by
    rw [setConstellation_err s2 (fun b hb => by
      have hb' : 3 = 2 ^ b := hb
      rcases b with _ | _ | b
      · omega
      · omega
      · have := Nat.pow_le_pow_right (n := 2) (by norm_num) (show 2 ≤ b + 2 by omega)
        omega)]
  refine ⟨s, _, h1, rfl, ?_, ?_, C66_history h1 _⟩ <;> simp only [List.foldl_cons, List.foldl_nil, k2, k1]

/-- C61, C67: bits through an 8-PSK modem. -/
example (v : ℝ) : ∃ s syms, pskModem 8 = .ok s ∧ modulate s [1, 0, 1, 0, 0, 1] = .ok syms ∧ syms.length = 2 ∧
    demodulate s syms "hard" v = .ok (.bits [1, 0, 1, 0, 0, 1]) := by
  obtain ⟨s, h1, h2, h3, h4, h5, -⟩ := C64_psk 3 (by norm_num)
  obtain ⟨s', h1', hs, -⟩ := C93_psk 3 (by norm_num)
  obtain rfl : s' = s := Except.ok.inj (h1'.symm.trans h1)
  obtain ⟨syms, k1, k2, -, k3⟩ := C61_roundtrip hs h5 (by omega) (bits := [1, 0, 1, 0, 0, 1]) (by decide) (by simp) (by rw [h3]; decide) v
  refine ⟨s', syms, h1, k1, ?_, k3⟩
  rw [h3] at k2
  have : syms.length * 3 = 6 := k2
  omega

/-- C62: received values near 16-QAM points. -/
example (v : ℝ) : ∃ s bits, qamModem 16 = .ok s ∧ demodulate s [3 / 2 + Complex.I, -7, 0] "hard" v = .ok (.bits bits) ∧ bits.length = 12 := by
  obtain ⟨s, h1, hs, h2, -⟩ := C93_qam 2 (by norm_num)
  obtain ⟨bits, k1, k2, -⟩ := C62_nearest hs [3 / 2 + Complex.I, -7, 0] v
  exact ⟨s, bits, h1, k1, by rw [k2, h2]; rfl⟩

/-- C67: at a small enough noise variance the LLRs of 16-QAM symbols have the signs of the bits. -/
example : ∃ s v syms L, qamModem 16 = .ok s ∧ 0 < v ∧ modulate s [1, 0, 1, 1] = .ok syms ∧ demodulate s syms "soft" v = .ok (.llrs L) ∧
    0 < L.getD 0 0 ∧ L.getD 1 0 < 0 := by
  obtain ⟨s, h1, hs, h2, -⟩ := C93_qam 2 (by norm_num)
  obtain ⟨s', h1', h3, -, -, h5, -⟩ := C65_qam 2 (by norm_num)
  obtain rfl : s' = s := Except.ok.inj (h1'.symm.trans h1)
  obtain ⟨v0, hv0, h⟩ := C67_noiseless hs h5 (by rw [h3]; norm_num)
  obtain ⟨syms, L, k1, k2, -, k3⟩ := h v0 hv0 le_rfl [1, 0, 1, 1] (by decide) (by simp) (by rw [h2]; decide)
  refine ⟨s', v0, syms, L, h1, hv0, k1, k2, ?_, ?_⟩
  · have := k3 0 (by decide); simpa using this
  · have := k3 1 (by decide); simpa using this

/-- C19, C20: a filter of 9 taps. -/
example : ∃ time h, rrcosfilter 9 (1 / 4) 1 4 = .ok (time, h) ∧ time.length = 9 ∧ h.length = 9 := by
  obtain ⟨time, h, h1, h2, h3, -⟩ := C19_rrcos 9 (1 / 4) 1 4 (by norm_num)
  exact ⟨time, h, h1, h2, h3⟩

example : ∃ time h, gaussianfilter 9 (1 / 4) 1 4 = .ok (time, h) ∧ (∀ x ∈ h, 0 < x) ∧ rectfilter 9 1 4 = .ok (time, List.replicate 9 1) := by
  obtain ⟨time, hg, hr, -, -, h1, h2, -, -, h3, h4, h5, -, h6, -, -, h7⟩ := C20_gauss_rect 9 (1 / 4) 1 4 (by norm_num) (by norm_num)
  refine ⟨time, hg, h1, h6, ?_⟩
  rw [h2, List.eq_replicate_of_mem h7, h5]

/-- C75: the noise level of a 2-antenna complex channel falls when the SNR grows from 10 to 20. -/
example : ∃ s s', noiseStdLin true 2 10 (1 / 2) 2 = .ok s ∧ noiseStdLin true 2 20 (1 / 2) 2 = .ok s' ∧ 0 < s' ∧ s' < s := by
  obtain ⟨s, h1, -⟩ := C75_positive true 2 10 (1 / 2) 2 (by norm_num) (by norm_num) (by norm_num) (by norm_num)
  obtain ⟨s', h2, h3⟩ := C75_positive true 2 20 (1 / 2) 2 (by norm_num) (by norm_num) (by norm_num) (by norm_num)
  exact ⟨s, s', h1, h2, h3, C75_decreasing true 2 10 20 (1 / 2) 2 s s' (by norm_num) (by norm_num) (by norm_num) (by norm_num) (by norm_num) h1 h2⟩

/-- C76: a refused setter, an SNR, a transmission and a change to a Rician channel. -/
example (z : Nat → ℝ) : ∃ ch, Siso.init none (.real 1, 0) = .ok ch ∧
    ([SisoOp.setFading (.real 1, 1), .setSnrLin 10 1 1, .propagate (.real [1, -1]) z, .setFading (.cplx Complex.I, 0)].foldl
      (fun c op => (c.step op).1) ch).Normalised := by
  have h : ∃ ch, Siso.init none (.real 1, 0) = .ok ch := by simp [Siso.init, Siso.setFading, Num.toC]
  obtain ⟨ch, h⟩ := h
  exact ⟨ch, h, C76_invariant _ _ ch h _⟩

/-- C75: signal and noise power of a real channel at SNR 10. -/
example : ∃ ch ch1, Siso.init none (.real 1, 0) = .ok ch ∧ ch.step (.setSnrLin 10 (1 / 2) 3) = (ch1, none) ∧
    ∃ out un : ℝ → List ℂ, (∀ ω, (ch1.propagate (.real [1, -1, 3]) (fun _ => ω)).2 = .ok (out ω)) ∧
      (∀ ω, (ch1.propagate (.real [1, -1, 3]) (fun _ => ω)).1.unnoisy = some (un ω)) ∧
      ∫ ω, ‖(out ω).getD 2 0 - (un ω).getD 2 0‖ ^ 2 ∂(gaussianReal 0 1) = 3 / (1 / 2 * 10) ∧
      ∫ ω, ‖(un ω).getD 2 0‖ ^ 2 ∂(gaussianReal 0 1) = ‖(Signal.real [1, -1, 3]).toC.getD 2 0‖ ^ 2 := by
  have h : ∃ ch, Siso.init none (.real 1, 0) = .ok ch ∧ ch.isComplex = false ∧ ch.fading = (.real 1, 0) := by
    simp [Siso.init, Siso.setFading, Num.toC, Num.isComplex]
  obtain ⟨ch, h, hc, hf⟩ := h
  have hz : NormalDraws (gaussianReal 0 1) (fun (ω : ℝ) (_ : Nat) => ω) := fun _ => HasLaw.id
  obtain ⟨s, hs, -⟩ := C75_positive ch.isComplex 1 10 (1 / 2) 3 (by norm_num) (by norm_num) (by norm_num) (by norm_num)
  have hset : ch.step (.setSnrLin 10 (1 / 2) 3) = ({ ch with noiseStd := some s }, none) := by simp only [Siso.step, hs]
  exact ⟨ch, _, h, hset, C75_siso_powers hz ch _ (C76_invariant _ _ ch h []) (by rw [hf]) 10 (1 / 2) 3 (by norm_num) (by norm_num) (by norm_num)
    hset (.real [1, -1, 3]) (by simp [Signal.toC]) (by simp [Signal.isComplex]) 2 (by simp [Signal.toC])⟩

/-- C77: a correlated Rician 2 × 2 channel with k-factor 3. -/
example (ch : Mimo 2 2) : (ch.expoCorrRician ⟨true, !![1, Complex.I; 0, 2]⟩ 3 Complex.I (-1) (1 / 2) 0).1.kFactor = 3 := by
  have h := (C77_expo_corr_rician ch ⟨true, !![1, Complex.I; 0, 2]⟩ (by
    intro h
    have := congrFun (congrFun h 0) 0
    simp at this) (by norm_num) (by norm_num) 3 (by norm_num) Complex.I (-1) (by simp) (by simp) (1 / 2) 0 (by norm_num) le_rfl).2.2.1
  simpa using h

open scoped ComplexOrder in
/-- C79: the correlation matrices of a 2 × 3 channel. -/
example (ch : Mimo 2 3) : (ch.expoCorrRayleigh Complex.I (-1) 0 0).1.fading.Rt.PosSemidef :=
  (C79_posSemidef ch (by norm_num) (by norm_num) Complex.I (-1) (by simp) (by simp)).1

/-- C78, C75: three symbols over a 2 × 2 channel, padded to two vectors. -/
example (sqrtmT sqrtmR : Matrix (Fin 2) (Fin 2) ℂ → Matrix (Fin 2) (Fin 2) ℂ) (ch : Mimo 2 2) :
    ∃ out un : ℝ → List (Fin 2 → ℂ),
      (∀ ω, ((ch.after sqrtmT sqrtmR (.setSnrLin 10 1 1)).propagate sqrtmT sqrtmR (.real [1, -1, 1]) (fun _ => ω)).2 = .ok (out ω)) ∧
      (∀ ω, ((ch.after sqrtmT sqrtmR (.setSnrLin 10 1 1)).propagate sqrtmT sqrtmR (.real [1, -1, 1]) (fun _ => ω)).1.unnoisy = some (un ω)) ∧
      ∫ ω, ‖(out ω).getD 1 0 1 - (un ω).getD 1 0 1‖ ^ 2 ∂(gaussianReal 0 1) = (2 : ℕ) * 1 / (1 * 10) := by
  have hz : NormalDraws (gaussianReal 0 1) (fun (ω : ℝ) (_ : Nat) => ω) := fun _ => HasLaw.id
  exact C75_mimo_noise_power hz sqrtmT sqrtmR (by norm_num) ch _ 10 1 1 (by norm_num) (by norm_num) (by norm_num) rfl (.real [1, -1, 1])
    (by simp [Signal.toC]) (by simp [Signal.isComplex]) 1 (by simp [Signal.toC]) 1

/-- C52: three symbols decoded by the MAP decoder, in both modes. -/
example (v : NNReal) (hv : 0 < v) : ∃ llr bits, mapDecode turboTrellis v [9, -12, 1] [1, 3, -7] [0, 5, -2] "decode" = .ok (llr, bits) ∧
    ∀ i : Fin 3, bits[(i : Nat)]? = some 0 ∨ bits[(i : Nat)]? = some 1 := by
  obtain ⟨llr, bits, h1, h2, -, h3⟩ := C52_decisions turboTrellis_WF rfl (by decide) v hv (ys := [9, -12, 1]) (yp := [1, 3, -7])
    (lint := [0, 5, -2]) (L := 3) rfl (by decide) rfl "decode"
  exact ⟨llr, bits, h1, fun i => (h3 rfl i).1⟩

/-- C41, C45: five received blocks of the (5,7) code.  The hard decoder overwrites the last block of its argument. -/
example (jk : VitJunk Nat) : ∃ t d, mkTrellis (fun _ _ => 0) [2] [[5, 7]] 2 none false "MSB" = .ok t ∧
    viterbiHard t jk 5 6 [1, 1, 0, 1, 1, 1, 0, 0, 1, 0] = .ok (d, [1, 1, 0, 1, 1, 1, 0, 0, 0, 0]) := by
  have hbal := ff_balanced (junk := fun _ _ => 0) (rsc := false) viterbiEx_args (by simp)
  obtain ⟨d, h⟩ := C41_input_after_hard hbal jk (N := 5) (tb := 6) (coded := [1, 1, 0, 1, 1, 1, 0, 0, 1, 0]) rfl (by decide) (by norm_num)
    (by norm_num) (by decide) (Or.inl rfl)
  exact ⟨_, d, mkTrellis_ok viterbiEx_args, h⟩

example (jk jk' : VitJunk Nat) : ∃ t d c, mkTrellis (fun _ _ => 0) [2] [[5, 7]] 2 none false "MSB" = .ok t ∧
    viterbiHard t jk 5 (defaultDepth t 5) [1, 1, 0, 1, 1, 1, 0, 0, 1, 0] = .ok (d, c) ∧
    viterbiHard t jk' 5 (defaultDepth t 5) [1, 1, 0, 1, 1, 1, 0, 0, 1, 0] = .ok (d, c) := by
  have hbal := ff_balanced (junk := fun _ _ => 0) (rsc := false) viterbiEx_args (by simp)
  obtain ⟨d, c, -, h, h'⟩ := C45_default_depth_one_input hbal rfl (N := 5) (by norm_num) (coded := [1, 1, 0, 1, 1, 1, 0, 0, 1, 0]) rfl (by decide) jk jk'
  exact ⟨_, d, c, mkTrellis_ok viterbiEx_args, h, h'⟩

/-- C38, C41: soft decoding of noisy LLRs. -/
example (jk : VitJunk ℝ) : ∃ t d, mkTrellis (fun _ _ => 0) [2] [[5, 7]] 2 none false "MSB" = .ok t ∧
    viterbiDecode "soft" t jk 3 5 [2, 1, -1 / 2, 3, 7, -600] = .ok (d, [2, 1, -1 / 2, 3, 7, -600]) := by
  have hbal := ff_balanced (junk := fun _ _ => 0) (rsc := false) viterbiEx_args (by simp)
  obtain ⟨us, -, -, h⟩ := C38_soft hbal jk (N := 3) (llr := [2, 1, -1 / 2, 3, 7, -600]) rfl (by decide) (Or.inl rfl)
  have := C41_input_after_soft _ jk _ _ _ _ _ h
  exact ⟨_, _, mkTrellis_ok viterbiEx_args, h⟩

/-- C123: BPSK samples given to the hard decoder are decoded as the word of ones. -/
example (jk : VitJunk Nat) (jk' : VitJunk ℝ) (hp : jk'.paths = jk.paths) (hb : jk'.bits = jk.bits) :
    ∃ t, mkTrellis (fun _ _ => 0) [2] [[5, 7]] 2 none false "MSB" = .ok t ∧
    (viterbiDecode "hard" t jk' 3 5 ([1, 1, 0, 1, 1, 1].map fun (b : Nat) => 2 * (b : ℝ) - 1)).map Prod.fst =
      (viterbiHard t jk 3 5 [1, 1, 1, 1, 1, 1]).map Prod.fst := by
  have hbal := ff_balanced (junk := fun _ _ => 0) (rsc := false) viterbiEx_args (by simp)
  exact ⟨_, mkTrellis_ok viterbiEx_args, C123_bpsk hbal hp hb 3 5 [1, 1, 0, 1, 1, 1] (by decide)⟩

/-- C46: six message bits at rate 3/4. -/
example : ∃ t coded, wifiTrellis (fun _ _ => 0) = .ok t ∧ convEncode (· * 2) t [1, 0, 1, 1, 0, 0] "cont" none = .ok coded ∧
    wifiTransmit (fun _ _ => 0) (· * 2) 4 [1, 0, 1, 1, 0, 0] = .ok ((List.range 2).flatMap fun p =>
      (standardKeep (3, 4)).map fun e => coded.getD (2 * (p * 3 + e.1) + e.2) 0) :=
  C46_standard_pattern (fun _ _ => 0) (mcs := 4) (num := 3) (den := 4) rfl 2 (by decide) rfl rfl

example : ∃ p, puncturing ([1, 2, 3, 4, 5, 6] : List ℝ) [1, 1, 1, 0, 0, 1] = .ok p ∧ p.length = 4 ∧
    wifiDepuncture (3, 4) p = .ok [1, 2, 3, 0, 0, 6] := by
  obtain ⟨p, h1, h2, h3⟩ := C46_depuncture (num := 3) (den := 4) (v := [1, 1, 1, 0, 0, 1]) rfl 1 [1, 2, 3, 4, 5, 6] rfl
  refine ⟨p, h1, h2, ?_⟩
  rw [h3]
  simp [List.zipIdx, kept]

end Verif
