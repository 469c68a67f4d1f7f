import Verif.Props.ViterbiBerSoft
import Verif.Props.ModemBerPsk
import Verif.Props.ModemSoft
/-
C127: the (5,7) code with soft decisions, and the whole chain with the BPSK modem.
-/
namespace Verif
open MeasureTheory ProbabilityTheory Finset

/-- The modem `PSKModem(2)`: bit 0 is sent as 1 and bit 1 as -1. -/
theorem bpsk_modem : pskModem 2 = .ok ⟨[1, -1], 1, 2, 1⟩ := by
  obtain ⟨c', h1, h2, h3⟩ := newModem_gray (b := 1) le_rfl (c := [1, -1]) rfl
  have hc : c' = [1, -1] := by
    have a0 := h3 0 (by norm_num)
    have a1 := h3 1 (by norm_num)
    rw [show grayCode 0 = 0 by decide] at a0
    rw [show grayCode 1 = 1 by decide] at a1
    apply List.ext_getElem?
    intro i
    rcases i with _ | _ | i
    · exact a0
    · exact a1
    · rw [List.getElem?_eq_none (by rw [h2]; norm_num), List.getElem?_eq_none (by simp)]
  unfold pskModem checkPow2
  rw [if_neg (by norm_num), show (2 : ℕ) = 2 ^ 1 from rfl, exactLog2_pow]
  simp only [bind, Except.bind]
  rw [psk_points _ (by norm_num)]
  have e : ((List.range (2 ^ 1)).map fun i => Complex.exp (2 * Real.pi * Complex.I / (2 ^ 1 : ℕ)) ^ i) = [1, -1] := by
    have : Complex.exp (2 * Real.pi * Complex.I / (2 ^ 1 : ℕ)) = -1 := by
      rw [← Complex.exp_pi_mul_I]; congr 1; push_cast; ring
    rw [this]
    simp [List.range_succ]
  rw [e, h1, hc]
  norm_num

/-- The soft value of one BPSK symbol: `-4 Re(y) / noise_var`. -/
theorem bpsk_llr (ys : List ℂ) (v : ℝ) (hv : 0 < v) :
    demodulate ⟨[1, -1], 1, 2, 1⟩ ys "soft" v = .ok (.llrs (ys.map fun y => -4 * y.re / v)) := by
  have hs : Modem.Consistent ⟨[1, -1], 1, 2, 1⟩ := ⟨rfl, rfl, by norm_num⟩
  obtain ⟨L, h1, h2, h3⟩ := C67_llr hs ys hv
  rw [h1]
  congr 2
  simp only [Nat.mul_one] at h2
  apply List.ext_getElem
  · rw [h2, List.length_map]
  · intro i hi hi'
    have hiy : i < ys.length := by rw [← h2]; exact hi
    have := h3 i hiy 0 (by norm_num)
    simp only [Nat.mul_one, Nat.add_zero] at this
    rw [List.getElem?_eq_getElem hi] at this
    rw [Option.some.inj this, List.getElem_map]
    have l1 : likelihood ⟨[1, -1], 1, 2, 1⟩ ys[i] v 0 1 = Real.exp (-‖ys[i] + 1‖ ^ 2 / v) := by
      unfold likelihood
      rw [show (range 2).filter (fun l => (toBits 1 l).getD 0 0 = 1) = {1} by decide, sum_singleton]
      simp
    have l0 : likelihood ⟨[1, -1], 1, 2, 1⟩ ys[i] v 0 0 = Real.exp (-‖ys[i] - 1‖ ^ 2 / v) := by
      unfold likelihood
      rw [show (range 2).filter (fun l => (toBits 1 l).getD 0 0 = 0) = {0} by decide, sum_singleton]
      simp
    rw [l1, l0, ← Real.exp_sub, Real.log_exp, ← Complex.normSq_eq_norm_sq, ← Complex.normSq_eq_norm_sq, Complex.normSq_apply, Complex.normSq_apply]
    simp only [Complex.add_re, Complex.add_im, Complex.sub_re, Complex.sub_im, Complex.one_re, Complex.one_im]
    field_simp
    ring

theorem bpsk_modulate {c : List Nat} (hc : ∀ x ∈ c, x < 2) (hne : c ≠ []) :
    modulate ⟨[1, -1], 1, 2, 1⟩ c = .ok (c.map fun (b : Nat) => 1 - 2 * (b : ℂ)) := by
  have hs : Modem.Consistent ⟨[1, -1], 1, 2, 1⟩ := ⟨rfl, rfl, by norm_num⟩
  rw [modulate_ok hs (by norm_num) hc hne (N := c.length) (by simp)]
  congr 1
  rw [inSyms_one]
  apply List.map_congr_left
  intro b hb
  have := hc b hb
  have : b = 0 ∨ b = 1 := by omega
  rcases this with rfl | rfl <;> norm_num

/-- `channels.awgn` on the BPSK signal of the bits `c`, and the soft demodulator. -/
theorem awgn_bpsk {c : List Nat} (hc : ∀ x ∈ c, x < 2) (hne : c ≠ []) (snrDb : ℝ) {rate : ℝ} (hr : 0 < rate) (z : ℕ → ℝ) {v : ℝ} (hv : 0 < v) :
    ∃ ys, awgn (.cplx (c.map fun (b : Nat) => 1 - 2 * (b : ℂ))) snrDb rate z = .ok ys ∧
      demodulate ⟨[1, -1], 1, 2, 1⟩ ys "soft" v = .ok (.llrs ((noisyBits c (-Real.sqrt (1 / (2 * rate * (10 : ℝ) ^ (snrDb / 10)))) z).map (4 / v * ·))) := by
  have hs : (0 : ℝ) < (10 : ℝ) ^ (snrDb / 10) := Real.rpow_pos_of_pos (by norm_num) _
  have e2 : ((c.map fun (b : Nat) => 1 - 2 * (b : ℂ)).map fun x => ‖x‖ * ‖x‖).sum = (c.length : ℝ) := by
    rw [List.map_map]
    have : c.map ((fun (x : ℂ) => ‖x‖ * ‖x‖) ∘ fun (b : Nat) => 1 - 2 * (b : ℂ)) = c.map fun _ => (1 : ℝ) := by
      apply List.map_congr_left
      intro b hb
      have := hc b hb
      have : b = 0 ∨ b = 1 := by omega
      rcases this with rfl | rfl <;> norm_num
    rw [this]; simp
  have hl : (c.length : ℝ) ≠ 0 := by
    have := List.length_pos_of_ne_nil hne
    exact Nat.cast_ne_zero.2 (by omega)
  unfold awgn
  have hnil : (Signal.cplx (c.map fun (b : Nat) => 1 - 2 * (b : ℂ))).toC ≠ [] := by simpa [Signal.toC] using hne
  rw [if_neg hnil]
  simp only [Signal.toC]
  rw [e2, List.length_map, div_self hl]
  refine ⟨_, rfl, ?_⟩
  rw [bpsk_llr _ _ hv]
  congr 2
  apply List.ext_getElem
  · simp [noisyBits]
  · intro i h1 h2
    have hi : i < c.length := by simpa [noisyBits] using h2
    simp only [List.getElem_zipWith, List.getElem_map, List.getElem_range, noisyBits, awgnNoise, Signal.isComplex, if_true]
    rw [List.getD_eq_getElem _ _ hi]
    simp
    ring

/-- The bound on the frame error probability of `K` message bits of the (5,7) code with soft decisions. -/
noncomputable def softFrame57 (K : Nat) (x : ℝ) : ℝ :=
  (K * (x ^ 5 + x ^ 6 * (1 + 19 * x + 41 * x ^ 2 + 24 * x ^ 3 + 4 * x ^ 4)) + x ^ 3 * (1 + 4 * x)) / (1 - 2 * x)

theorem softBounds57 {t : Trellis} (h : Is57 t) {x : ℝ} (h0 : 0 ≤ x) (h1 : x < 1 / 2) {q : Nat → ℝ} (hq : ∀ d, q d ≤ x ^ d) {L : Nat} :
    unionBound t q (L + 2) 10 L ≤ softFrame57 L x ∧ ∀ j, j + 7 ≤ L → bitBound t q (L + 2) 10 j 0 ≤ bit57 x := by
  obtain ⟨u1, u2⟩ := union57 h h0 h1 hq (T := L + 2) (tb := 10) (by omega)
  refine ⟨?_, ?_⟩
  · refine (u1 L 2 (le_refl _)).trans (le_of_eq ?_)
    rw [tail57_8, softFrame57]
    simp only [tail57]
    ring
  · intro j hj
    refine (u2 j 8 (by omega)).trans (le_of_eq ?_)
    rw [tail57_8, bit57]; ring

/-- C127, the whole chain with the BPSK modem: a message of at least 8 bits is encoded with the (5,7) code of the documentation, modulated with `PSKModem(2)`, sent over
`channels.awgn`, demodulated with soft decisions (for any noise variance `v` handed to the demodulator) and decoded with the default traceback depth.  With `s = rate * SNR` and
`x = exp(-s) + exp(-250 v s) < 1/2` the message is returned except with probability `softFrame57`, and each of its bits but the last six except with probability `bit57`.  (The second exponential is the price of
the cut of the soft values at 500.) -/
theorem C127_57_bpsk (junk : Nat → Nat → Nat) :
    ∃ t modem, mkTrellis junk [2] [[5, 7]] 2 none false "MSB" = .ok t ∧ pskModem 2 = .ok modem ∧
      ∀ (outLen : Nat → Nat) (msg : List Nat), (∀ b ∈ msg, b < 2) → 8 ≤ msg.length → outLen (msg.length + 2) = (msg.length + 2) * 2 →
        ∃ c syms, convEncode outLen t msg "term" none = .ok c ∧ modulate modem c = .ok syms ∧
          ∀ {Ω : Type*} [MeasurableSpace Ω] {P : Measure Ω} {z : Ω → ℕ → ℝ}, NormalDraws P z → iIndepFun (fun i ω => z ω i) P →
            ∀ (snrDb rate v : ℝ) (jk : VitJunk ℝ), 0 < rate → 0 < v →
              Real.exp (-(rate * (10 : ℝ) ^ (snrDb / 10))) + Real.exp (-(250 * v * (rate * (10 : ℝ) ^ (snrDb / 10)))) < 1 / 2 →
              P.real {ω | ¬ ∃ y llr dec coded', awgn (.cplx syms) snrDb rate (z ω) = .ok y ∧ demodulate modem y "soft" v = .ok (.llrs llr) ∧
                viterbiDecode "soft" t jk (msg.length + 2) (defaultDepth t (msg.length + 2)) llr = .ok (dec, coded') ∧
                dec.length = msg.length + 2 ∧ dec.take msg.length = msg} ≤
                  softFrame57 msg.length (Real.exp (-(rate * (10 : ℝ) ^ (snrDb / 10))) + Real.exp (-(250 * v * (rate * (10 : ℝ) ^ (snrDb / 10))))) ∧
              ∀ j, j + 7 ≤ msg.length →
                P.real {ω | ¬ ∃ y llr dec coded', awgn (.cplx syms) snrDb rate (z ω) = .ok y ∧ demodulate modem y "soft" v = .ok (.llrs llr) ∧
                  viterbiDecode "soft" t jk (msg.length + 2) (defaultDepth t (msg.length + 2)) llr = .ok (dec, coded') ∧
                  dec.length = msg.length + 2 ∧ dec.getD j 0 = msg.getD j 0} ≤
                    bit57 (Real.exp (-(rate * (10 : ℝ) ^ (snrDb / 10))) + Real.exp (-(250 * v * (rate * (10 : ℝ) ^ (snrDb / 10))))) := by
  obtain ⟨t, ht, hz⟩ := C34_zero_tail args57 junk
  refine ⟨t, _, ht, bpsk_modem, ?_⟩
  intro outLen msg hb hlen ho
  have hteq : t = trellisOf junk [2] [[5, 7]] 2 none false "MSB" := by
    have := mkTrellis_ok (junk := junk) (rsc := false) args57
    rw [ht] at this
    exact Except.ok.inj this
  have hk : t.k = 1 := by rw [hteq]; rfl
  have hMt : t.M = 2 := by rw [hteq]; rfl
  have hnt : t.n = 2 := by rw [hteq]; rfl
  have hrsc : t.rsc = false := by rw [hteq]; rfl
  have hbal : t.Balanced := by rw [hteq]; exact ff_balanced args57 (by simp)
  have hlin : t.Linear := by rw [hteq]; exact trellisOf_linear args57 (fits_one _ _ _ _) (fun F _ => fitsFb_one _ _ _)
  have h57 : Is57 t := by rw [hteq]; exact is57 junk
  have hne : ∀ u < 2 ^ t.k, u ≠ 0 → t.out 0 u ≠ 0 := by rw [hteq, trellisOf_junk _ (fun _ _ => 0)]; decide +kernel
  obtain ⟨c, hc⟩ := hz msg outLen hb ho
  have hN : codedInputLen t msg.length "term" = (msg.length + 2) * t.k := by simp [codedInputLen, hrsc, hk, hMt, Nat.mod_one]
  have hout : outLen ((msg.length + 2) * t.k) = (msg.length + 2) * t.n := by rw [hk, hnt, Nat.mul_one]; exact ho
  obtain ⟨w, hw, -, hcw, -, -⟩ := encoded_path hbal hb (q := msg.length) (by rw [hk, Nat.one_mul]) hN hout hc
  have hcb : ∀ x ∈ c, x < 2 := by rw [hcw]; exact t.runOut_lt_two 0 w
  have hcn : c ≠ [] := by
    intro h0
    have : c.length = (msg.length + 2) * t.n := by rw [hcw, Trellis.runOut_length, hw.1]
    rw [h0, hnt] at this
    simp at this
  refine ⟨c, _, by rw [convEncode_none hbal.wf.k_pos (by rw [hnt]; decide), hc]; rfl, bpsk_modulate hcb hcn, ?_⟩
  intro Ω _ P z hz hind snrDb rate v jk hr hv hx
  have htb : defaultDepth t (msg.length + 2) = 10 := by rw [defaultDepth, hMt]; omega
  set s := rate * (10 : ℝ) ^ (snrDb / 10) with hs
  have hspos : 0 < s := mul_pos hr (Real.rpow_pos_of_pos (by norm_num) _)
  have hσ : -Real.sqrt (1 / (2 * s)) ≠ 0 := neg_ne_zero.2 (Real.sqrt_pos.2 (by positivity)).ne'
  have hsq : (-Real.sqrt (1 / (2 * s))) ^ 2 = 1 / (2 * s) := by rw [neg_sq, Real.sq_sqrt (by positivity)]
  have hxe : Real.exp (-1 / (2 * (-Real.sqrt (1 / (2 * s))) ^ 2)) + Real.exp (-500 / (4 / v * (-Real.sqrt (1 / (2 * s))) ^ 2)) = Real.exp (-s) + Real.exp (-(250 * v * s)) := by
    rw [hsq]
    congr 2
    · field_simp
    · field_simp; norm_num
  obtain ⟨B1, B2⟩ := softBounds57 h57 (x := Real.exp (-s) + Real.exp (-(250 * v * s))) (by positivity) hx (fun d => le_refl _) (L := msg.length)
  obtain ⟨A1, A2⟩ := C127_soft hbal hlin hne hb (by rw [hk]; exact one_dvd _) hN hout hc (tb := 10) (by decide)
    (by rw [hk, hMt]; omega) (Or.inl hk) hz hind hσ (lam := 4 / v) (by positivity) jk
  rw [hxe] at A1 A2
  have hset : ∀ φ : List Nat → Prop, {ω | ¬ ∃ y llr dec coded', awgn (.cplx (c.map fun (b : Nat) => 1 - 2 * (b : ℂ))) snrDb rate (z ω) = .ok y ∧
      demodulate ⟨[1, -1], 1, 2, 1⟩ y "soft" v = .ok (.llrs llr) ∧
      viterbiDecode "soft" t jk (msg.length + 2) (defaultDepth t (msg.length + 2)) llr = .ok (dec, coded') ∧ dec.length = msg.length + 2 ∧ φ dec} =
      {ω | ¬ ∃ dec coded', viterbiDecode "soft" t jk ((msg.length + 2) * t.k) 10 ((noisyBits c (-Real.sqrt (1 / (2 * s))) (z ω)).map (4 / v * ·)) = .ok (dec, coded') ∧
        dec.length = (msg.length + 2) * t.k ∧ φ dec} := by
    intro φ
    ext ω
    simp only [Set.mem_setOf_eq]
    obtain ⟨ys, hys, hd⟩ := awgn_bpsk hcb hcn snrDb hr (z ω) hv
    rw [mul_assoc, ← hs] at hd
    rw [htb, hk, Nat.mul_one, not_iff_not]
    constructor
    · rintro ⟨y, llr, dec, cc, hy, hl, h⟩
      rw [hys] at hy
      obtain rfl := Except.ok.inj hy
      rw [hd] at hl
      injection hl with hl
      injection hl with hl
      subst hl
      exact ⟨dec, cc, h⟩
    · rintro ⟨dec, cc, h⟩
      exact ⟨ys, _, dec, cc, hys, hd, h⟩
  refine ⟨?_, ?_⟩
  · rw [hset (fun dec => dec.take msg.length = msg)]
    have := A1 msg.length (by rw [hk, Nat.mul_one])
    simp only [hk, Nat.mul_one, List.take_length] at this ⊢
    exact this.trans B1
  · intro j hj
    rw [hset (fun dec => dec.getD j 0 = msg.getD j 0)]
    have := A2 j (by omega)
    simp only [hk, Nat.div_one, Nat.mod_one, Nat.mul_one] at this ⊢
    exact this.trans (B2 j hj)

/-- The hypotheses are met: at `Es/N0 = 10` dB with the matching noise variance 1/10, the second bit of `1,0,1,1,0,0,1,0` is wrong with probability at most `10⁻¹⁹`. -/
example : ∃ (Ω : Type) (_ : MeasurableSpace Ω) (P : Measure Ω) (z : Ω → ℕ → ℝ), NormalDraws P z ∧ iIndepFun (fun i ω => z ω i) P ∧
    ∃ t modem c syms, mkTrellis (fun _ _ => 0) [2] [[5, 7]] 2 none false "MSB" = .ok t ∧ pskModem 2 = .ok modem ∧
      convEncode (· * 2) t [1, 0, 1, 1, 0, 0, 1, 0] "term" none = .ok c ∧ modulate modem c = .ok syms ∧
      P.real {ω | ¬ ∃ y llr dec coded', awgn (.cplx syms) 10 1 (z ω) = .ok y ∧ demodulate modem y "soft" (1 / 10) = .ok (.llrs llr) ∧
        viterbiDecode "soft" t ⟨fun _ _ => 0, fun _ => 0, fun _ _ => 0, fun _ _ => (0, 0)⟩ 10 (defaultDepth t 10) llr = .ok (dec, coded') ∧
        dec.length = 10 ∧ dec.getD 1 0 = 0} ≤ 1 / 10 ^ 19 := by
  have hz : NormalDraws (Measure.infinitePi fun _ : ℕ => gaussianReal 0 1) (fun ω i => ω i) := by
    intro i
    have := measurePreserving_eval_infinitePi (fun _ : ℕ => gaussianReal 0 1) i
    exact ⟨this.measurable.aemeasurable, this.map_eq⟩
  have hi : iIndepFun (fun i (ω : ℕ → ℝ) => ω i) (Measure.infinitePi fun _ : ℕ => gaussianReal 0 1) :=
    iIndepFun_infinitePi (X := fun _ x => x) (fun _ => measurable_id)
  obtain ⟨t, modem, ht, hm, H⟩ := C127_57_bpsk (fun _ _ => 0)
  obtain ⟨c, syms, hc, hsy, H2⟩ := H (· * 2) [1, 0, 1, 1, 0, 0, 1, 0] (by decide) (by decide) rfl
  refine ⟨ℕ → ℝ, inferInstance, _, fun ω i => ω i, hz, hi, t, modem, c, syms, ht, hm, hc, hsy, ?_⟩
  have e10 : (1 : ℝ) * (10 : ℝ) ^ ((10 : ℝ) / 10) = 10 := by norm_num
  have hx : Real.exp (-(1 * (10 : ℝ) ^ ((10 : ℝ) / 10))) + Real.exp (-(250 * (1 / 10) * (1 * (10 : ℝ) ^ ((10 : ℝ) / 10)))) ≤ 1 / 10000 := by
    rw [e10]
    have h1 : (27 / 10 : ℝ) ≤ Real.exp 1 := by have := Real.exp_one_gt_d9; linarith
    have h2 : Real.exp (-(10 : ℝ)) = (Real.exp 1 ^ 10)⁻¹ := by rw [← Real.exp_nat_mul, ← Real.exp_neg]; norm_num
    have h3 : Real.exp (-(250 * (1 / 10) * (10 : ℝ))) ≤ Real.exp (-12) := Real.exp_le_exp.2 (by norm_num)
    have h4 : Real.exp (-(12 : ℝ)) = (Real.exp 1 ^ 12)⁻¹ := by rw [← Real.exp_nat_mul, ← Real.exp_neg]; norm_num
    have h5 : (Real.exp 1 ^ 10)⁻¹ ≤ ((27 / 10 : ℝ) ^ 10)⁻¹ := inv_anti₀ (by positivity) (pow_le_pow_left₀ (by norm_num) h1 10)
    have h6 : (Real.exp 1 ^ 12)⁻¹ ≤ ((27 / 10 : ℝ) ^ 12)⁻¹ := inv_anti₀ (by positivity) (pow_le_pow_left₀ (by norm_num) h1 12)
    rw [h2]
    rw [h4] at h3
    refine (add_le_add h5 (h3.trans h6)).trans ?_
    norm_num
  obtain ⟨-, H3⟩ := H2 hz hi 10 1 (1 / 10) ⟨fun _ _ => 0, fun _ => 0, fun _ _ => 0, fun _ _ => (0, 0)⟩ one_pos (by norm_num) (lt_of_le_of_lt hx (by norm_num))
  refine (H3 1 (by decide)).trans ?_
  have hx0 : 0 ≤ Real.exp (-(1 * (10 : ℝ) ^ ((10 : ℝ) / 10))) + Real.exp (-(250 * (1 / 10) * (1 * (10 : ℝ) ^ ((10 : ℝ) / 10)))) := by positivity
  revert hx hx0
  generalize Real.exp (-(1 * (10 : ℝ) ^ ((10 : ℝ) / 10))) + Real.exp (-(250 * (1 / 10) * (1 * (10 : ℝ) ^ ((10 : ℝ) / 10)))) = x
  intro hx hx0
  have hd : (9998 / 10000 : ℝ) ≤ 1 - 2 * x := by linarith
  unfold bit57
  have b1 : x ^ 5 / (1 - 2 * x) ^ 2 ≤ (1 / 10000) ^ 5 / (9998 / 10000) ^ 2 :=
    div_le_div₀ (by norm_num) (pow_le_pow_left₀ hx0 hx 5) (by norm_num) (pow_le_pow_left₀ (by norm_num) hd 2)
  have b2 : 2 * x ^ 6 * (1 + 19 * x + 41 * x ^ 2 + 24 * x ^ 3 + 4 * x ^ 4) / (1 - 2 * x) ≤
      2 * (1 / 10000) ^ 6 * (1 + 19 * (1 / 10000) + 41 * (1 / 10000) ^ 2 + 24 * (1 / 10000) ^ 3 + 4 * (1 / 10000) ^ 4) / (9998 / 10000) := by
    gcongr
  refine (add_le_add b1 b2).trans ?_
  norm_num

end Verif
