import Verif.Model.SisoLink
import Verif.Props.ModemNoise
import Verif.Props.LinksPerfect
import Verif.Props.Wifi
import Mathlib.Analysis.SpecialFunctions.Log.Base
/-
C94 (uncoded links), C95: complete simulations over a SISO channel.
-/
namespace Verif

variable {ρ : Type}

/-- The generator delivers bits, and normal draws of magnitude at most `A`. -/
structure Rng.Bounded (rng : Rng ρ) (A : ℝ) : Prop where
  length : ∀ g n, (rng.bits g n).1.length = n
  bit : ∀ g n, ∀ a ∈ (rng.bits g n).1, a = 0 ∨ a = 1
  normal : ∀ g n i, |(rng.normals g n).1 i| ≤ A

/-- A complex SISO channel without fading, with noise level `std`. -/
def Siso.Unfaded (ch : Siso) (std : ℝ) : Prop :=
  ch.fading = (.cplx 1, 0) ∧ ch.isComplex = true ∧ ch.noiseStd = some std

theorem propagate_close {rng : Rng ρ} {A : ℝ} (hr : rng.Bounded A) {w : Siso × ρ} {std : ℝ} (h0 : 0 ≤ std) (hw : w.1.Unfaded std)
    {syms : List ℂ} (hne : syms ≠ []) :
    ∃ ys w', sisoPropagate rng w (.cplx syms) = .ok (ys, w') ∧ ys.length = syms.length ∧
      (∀ i < syms.length, ‖ys.getD i 0 - syms.getD i 0‖ ≤ A * std) ∧ w'.1.Unfaded std := by
  obtain ⟨h1, h2, h3⟩ := hw
  have hz := hr.normal w.2 (2 * drawCount w.1.isComplex syms.length)
  set z := (rng.normals w.2 (2 * drawCount w.1.isComplex syms.length)).1 with hzdef
  have hprop : ∃ ys ch, w.1.propagate (.cplx syms) z = (ch, .ok ys) ∧ ys.length = syms.length ∧
      (∀ i < syms.length, ‖ys.getD i 0 - syms.getD i 0‖ ≤ A * std) ∧ ch.Unfaded std := by
    unfold Siso.propagate
    rw [if_neg (by simpa [Signal.toC] using hne), if_neg (by simp [h2])]
    simp only [h3]
    refine ⟨_, _, rfl, ?_, ?_, ?_⟩
    · simp [Signal.toC]
    · intro i hi
      rw [List.getD_eq_getElem _ _ (by simpa [Signal.toC] using hi), List.getD_eq_getElem _ _ hi]
      simp only [List.getElem_zipWith, List.getElem_map, List.getElem_range, Signal.toC]
      have hg : w.1.gainSample syms.length (fun i => z (drawCount w.1.isComplex syms.length + i)) i = 1 := by
        unfold Siso.gainSample
        rw [if_pos h2, h1]
        simp [Num.toC]
      rw [hg, one_mul, add_sub_cancel_left]
      unfold noiseSample
      rw [if_pos h2]
      rw [norm_mul, norm_mul, Complex.norm_real, Complex.norm_real, Real.norm_of_nonneg h0, Real.norm_of_nonneg (by norm_num)]
      have hn : ‖(z i : ℂ) + Complex.I * (z (syms.length + i) : ℂ)‖ ≤ A + A := by
        refine (norm_add_le _ _).trans (add_le_add ?_ ?_)
        · rw [Complex.norm_real]; exact hz i
        · rw [norm_mul, Complex.norm_I, one_mul, Complex.norm_real]; exact hz _
      nlinarith
    · exact ⟨h1, h2, rfl⟩
  obtain ⟨ys, ch, h4, h5, h6, h7⟩ := hprop
  refine ⟨ys, (ch, (rng.normals w.2 (2 * drawCount w.1.isComplex syms.length)).2), ?_, h5, h6, h7⟩
  unfold sisoPropagate
  simp only [Signal.toC]
  rw [← hzdef, h4]

theorem setSnr_ok {w : Siso × ρ} {snr Es : ℝ} {rate : ℚ} (hr : 0 < rate) (hf : w.1.fading = (.cplx 1, 0)) (hc : w.1.isComplex = true) :
    ∃ w1, sisoSetSnr w snr rate Es = .ok w1 ∧ w1.1.Unfaded (Real.sqrt (2 * Es / (rate * (10 : ℝ) ^ (snr / 10)))) := by
  have hpos : (0 : ℝ) < rate * (10 : ℝ) ^ (snr / 10) := mul_pos (by exact_mod_cast hr) (Real.rpow_pos_of_pos (by norm_num) _)
  unfold sisoSetSnr Siso.step
  simp only
  unfold noiseStdDb
  rw [if_neg hpos.ne', hc]
  refine ⟨_, rfl, hf, rfl, ?_⟩
  norm_num

/-- For every bound `A` on the draws there is a noise level below which nothing goes wrong. -/
theorem small_std {d A L : ℝ} (hd : 0 < d) (hA : 0 ≤ A) (hL : 0 ≤ L) :
    ∃ τ > 0, ∀ std, 0 ≤ std → std ≤ τ → std ^ 2 * L ≤ d * (d - 2 * (A * std)) ∧ A * std < d / 2 := by
  refine ⟨min 1 (d * d / (L + 2 * d * A + 1) / (d + 1) ), by positivity, ?_⟩
  intro std h0 h1
  have h2 : std ≤ 1 := h1.trans (min_le_left _ _)
  have h3 : std ≤ d * d / (L + 2 * d * A + 1) / (d + 1) := h1.trans (min_le_right _ _)
  have hp : 0 < L + 2 * d * A + 1 := by positivity
  have h4 : std * (L + 2 * d * A + 1) * (d + 1) ≤ d * d := by
    rw [div_div, le_div_iff₀ (by positivity)] at h3
    nlinarith
  have h5 : 0 ≤ std * (L + 2 * d * A + 1) := by positivity
  have h6 : std * (L + 2 * d * A + 1) ≤ d * d := by nlinarith
  have h7 : std * (L + 2 * d * A + 1) * d ≤ d * d := by nlinarith
  have h8 : std * (L + 2 * d * A + 1) ≤ d := le_of_mul_le_mul_right h7 hd
  constructor
  · have : std ^ 2 * L ≤ std * L := by
      have : std ^ 2 ≤ std := by nlinarith
      exact mul_le_mul_of_nonneg_right this hL
    nlinarith [mul_nonneg h0 hL]
  · have h9 : std * (2 * d * A) ≤ std * (L + 2 * d * A + 1) := by
      apply mul_le_mul_of_nonneg_left _ h0; linarith
    have h10 : std * (L + 2 * d * A + 1) * (d + 1) ≤ d * d := h4
    -- A std < d/2
    by_contra hcon
    push Not at hcon
    have h11 : d * d ≤ std * (2 * d * A) := by nlinarith
    have h12 : d * d ≤ std * (L + 2 * d * A + 1) := h11.trans h9
    have h13 : 0 < std * (L + 2 * d * A + 1) := lt_of_lt_of_le (by positivity) h12
    nlinarith

/-- High SNR means a small noise level. -/
theorem snr_threshold {rate : ℚ} (hr : 0 < rate) {Es τ : ℝ} (hE : 0 < Es) (hτ : 0 < τ) :
    ∃ s0 : ℝ, ∀ snr, s0 ≤ snr → 0 < Real.sqrt (2 * Es / (rate * (10 : ℝ) ^ (snr / 10))) ∧
      Real.sqrt (2 * Es / (rate * (10 : ℝ) ^ (snr / 10))) ≤ τ := by
  have hrR : (0 : ℝ) < rate := by exact_mod_cast hr
  refine ⟨10 * Real.logb 10 (2 * Es / (rate * τ ^ 2)), ?_⟩
  intro snr hs
  have hx : 0 < 2 * Es / (rate * τ ^ 2) := by positivity
  have h1 : 2 * Es / (rate * τ ^ 2) ≤ (10 : ℝ) ^ (snr / 10) := by
    have : Real.logb 10 (2 * Es / (rate * τ ^ 2)) ≤ snr / 10 := by linarith
    calc 2 * Es / (rate * τ ^ 2) = (10 : ℝ) ^ Real.logb 10 (2 * Es / (rate * τ ^ 2)) := by
          rw [Real.rpow_logb (by norm_num) (by norm_num) hx]
      _ ≤ _ := Real.rpow_le_rpow_of_exponent_le (by norm_num) this
  have hp : 0 < (10 : ℝ) ^ (snr / 10) := Real.rpow_pos_of_pos (by norm_num) _
  refine ⟨Real.sqrt_pos.2 (by positivity), ?_⟩
  rw [Real.sqrt_le_iff]
  refine ⟨hτ.le, ?_⟩
  rw [div_le_iff₀ (by positivity)]
  rw [div_le_iff₀ (by positivity)] at h1
  nlinarith

theorem toNat_bits {msg : List Int} (hb : ∀ a ∈ msg, a = 0 ∨ a = 1) :
    (∀ b ∈ msg.map Int.toNat, b < 2) ∧ ∀ i < msg.length, (((msg.map Int.toNat).getD i 0 : Nat) : ℝ) = ((msg.getD i 0 : Int) : ℝ) := by
  constructor
  · intro b hbm
    obtain ⟨a, ha, rfl⟩ := List.mem_map.1 hbm
    rcases hb a ha with rfl | rfl <;> decide
  · intro i hi
    rw [List.getD_eq_getElem _ _ (by simpa using hi), List.getElem_map, List.getD_eq_getElem _ _ hi]
    rcases hb _ (List.getElem_mem hi) with h | h <;> simp [h]

theorem uncoded_errorFree {rng : Rng ρ} {A : ℝ} (hr : rng.Bounded A) {s : Modem} (hs : s.Consistent) (hm : 2 ≤ s.m) {d : ℝ}
    (hd : Separated s.constellation d) {std : ℝ} (h0 : 0 ≤ std) (hsmall : A * std < d / 2) {bufLen : Nat → Nat}
    {memory : Siso × ρ → Nat → ℝ} {n : Nat} (hn : 0 < n) (hdvd : s.nbits ∣ n) :
    (uncodedLink rng s).ErrorFree bufLen memory n (fun w => w.1.Unfaded std) := by
  intro w hw
  set msg := (rng.bits w.2 n).1 with hmsg
  have hlen : msg.length = n := hr.length _ _
  have hbit := hr.bit w.2 n
  rw [← hmsg] at hbit
  obtain ⟨hb2, hcast⟩ := toNat_bits hbit
  obtain ⟨syms, h1, h2, h3⟩ := C93_hard hs hm hd (bits := msg.map Int.toNat) hb2 (by
    intro e
    have := congrArg List.length e
    simp [hlen] at this
    omega) (by simpa [hlen] using hdvd) (std ^ 2)
  have hsne : syms ≠ [] := by
    rintro rfl
    simp [hlen] at h2
    omega
  obtain ⟨ys, w', h4, h5, h6, h7⟩ := propagate_close hr (w := (w.1, (rng.bits w.2 n).2)) h0 hw hsne
  have h8 := h3 ys h5 (fun i hi => lt_of_le_of_lt (h6 i hi) hsmall)
  refine ⟨msg, (msg.map Int.toNat).map fun (x : Nat) => (x : ℝ), w', ?_, hlen, hbit, by simp [hlen], ?_, h7⟩
  · simp only [Link.send, uncodedLink, sisoLink, bind, Except.bind]
    rw [← hmsg, h1]
    simp only [Except.map]
    rw [h4]
    simp only [Link.received, Link.decode, defaultDecoder, h7.2.2, Option.getD_some]
    simp only [Bool.false_eq_true, if_false]
    rw [h8]
    rfl
  · intro i hi
    rw [← hcast i (by omega), List.getD_eq_getElem _ _ (by simp [hlen]; omega), List.getD_eq_getElem _ _ (by simp [hlen]; omega)]
    simp

/-- C94 for an uncoded link over an unfaded complex SISO channel: for every bound on the normal draws there is an SNR above which the
simulation reports no error, whatever the modem (any consistent modem of at least two distinct, separated points), the
random bits and draws, the number of bits, and the other SNRs. -/
theorem C94_uncoded {s : Modem} (hs : s.Consistent) (hm : 2 ≤ s.m) {d : ℝ} (hd0 : 0 < d) (hd : Separated s.constellation d) (hE : 0 < s.Es)
    {A : ℝ} (hA : 0 ≤ A) :
    ∃ s0 : ℝ, ∀ (rng : Rng ρ) (_ : rng.Bounded A) (w : Siso × ρ) (_ : w.1.fading = (.cplx 1, 0)) (_ : w.1.isComplex = true)
      (snr : ℝ) (rest : List ℝ) (_ : s0 ≤ snr) (bufLen : ℚ → Nat → Nat) (memory : Siso × ρ → Nat → ℝ) (sendMax errMin : Int)
      (sc : Option Int) (fuel : Nat) (_ : sendMax.toNat ≤ fuel) (_ : 1 ≤ sendMax) (_ : 1 ≤ errMin),
      ∃ w', (uncodedLink rng s).performance bufLen memory fuel (snr :: rest) sendMax errMin sc 1 w =
        .ok (List.replicate (rest.length + 1) 0, w') := by
  obtain ⟨τ, hτ, hτ2⟩ := small_std hd0 hA (L := 0) le_rfl
  obtain ⟨s0, hs0⟩ := snr_threshold (rate := 1) one_pos hE hτ
  refine ⟨s0, ?_⟩
  intro rng hr w hf hc snr rest hsnr bufLen memory sendMax errMin sc fuel hfuel hsm hem
  obtain ⟨w1, h1, h2⟩ := setSnr_ok (w := w) (snr := snr) (Es := s.Es) (rate := 1) one_pos hf hc
  obtain ⟨h3, h4⟩ := hs0 snr hsnr
  obtain ⟨w', h5, -⟩ := C94_performance (uncodedLink rng s) bufLen memory fuel snr rest sendMax errMin sc 1 w w1 _
    (hs.nbits_pos hm) Nat.one_pos one_pos hfuel hsm hem h1 h2 (by
      intro n hn hwv _
      refine uncoded_errorFree hr hs hm hd h3.le (hτ2 _ h3.le h4).2 hn ?_
      obtain ⟨m, hm'⟩ := hwv
      refine ⟨m, ?_⟩
      rw [div_one] at hm'
      have : (n : ℚ) = ((s.nbits * m : Nat) : ℚ) := by
        rw [hm', show (uncodedLink rng s).bitsPerSymbol = s.nbits from rfl, show (uncodedLink rng s).nbTx = 1 from rfl]
        push_cast; ring
      exact_mod_cast this)
  exact ⟨w', h5⟩

/-! ### C95 -/

theorem wifi_modem {mcs : Nat} (h : mcs < 10) : ∃ s num den d, wifiModemObj mcs = .ok s ∧ wifiGetCoding mcs = .ok (num, den) ∧
    s.Consistent ∧ 2 ≤ s.m ∧ 0 < d ∧ Separated s.constellation d ∧ 0 < s.Es ∧ 0 < num ∧ 0 < den ∧ Nat.Coprime num den := by
  have qam : ∀ k, 1 ≤ k → ∃ s d, qamModem (4 ^ k) = .ok s ∧ s.Consistent ∧ 2 ≤ s.m ∧ 0 < d ∧ Separated s.constellation d ∧ 0 < s.Es := by
    intro k hk
    obtain ⟨s, h1, h2, h3, h4⟩ := C93_qam k hk
    obtain ⟨s', h1', h2', -, -, -, -, h5, -⟩ := C65_qam k hk
    obtain rfl := Except.ok.inj (h1.symm.trans h1')
    have h4k : 4 ≤ 4 ^ k := by
      calc 4 = 4 ^ 1 := rfl
        _ ≤ 4 ^ k := Nat.pow_le_pow_right (by decide) hk
    refine ⟨s, 2, h1, h2, by omega, by norm_num, h4, ?_⟩
    rw [h5]
    have : (4 : ℝ) ≤ 4 ^ k := by exact_mod_cast h4k
    linarith
  have psk : ∀ b, 1 ≤ b → ∃ s d, pskModem (2 ^ b) = .ok s ∧ s.Consistent ∧ 2 ≤ s.m ∧ 0 < d ∧ Separated s.constellation d ∧ 0 < s.Es := by
    intro b hb
    obtain ⟨s, h1, h2, h3, h4⟩ := C93_psk b hb
    obtain ⟨s', h1', h2', -, -, -, -, -, h5, -⟩ := C64_psk b hb
    obtain rfl := Except.ok.inj (h1.symm.trans h1')
    have h2b : 2 ≤ 2 ^ b := by
      calc 2 = 2 ^ 1 := rfl
        _ ≤ 2 ^ b := Nat.pow_le_pow_right (by decide) hb
    refine ⟨s, _, h1, h2, by omega, ?_, h4, by rw [h5]; norm_num⟩
    have hp : (2 : ℝ) ≤ ((2 ^ b : ℕ) : ℝ) := by exact_mod_cast h2b
    have := Real.sin_pos_of_pos_of_lt_pi (x := Real.pi / ((2 ^ b : ℕ) : ℝ)) (div_pos Real.pi_pos (by linarith))
      (by rw [div_lt_iff₀ (by linarith)]; nlinarith [Real.pi_pos])
    linarith
  obtain ⟨b, hb⟩ : ∃ b, b = mcs := ⟨_, rfl⟩
  have q2 := qam 2 (by decide)
  have q3 := qam 3 (by decide)
  have q4 := qam 4 (by decide)
  have p1 := psk 1 (by decide)
  have p2 := psk 2 (by decide)
  have fin : ∀ (num den : Nat) (e : Py Modem), wifiModemObj mcs = e → wifiGetCoding mcs = .ok (num, den) → 0 < num → 0 < den →
      Nat.Coprime num den → (∃ s d, e = .ok s ∧ s.Consistent ∧ 2 ≤ s.m ∧ 0 < d ∧ Separated s.constellation d ∧ 0 < s.Es) →
      ∃ s num den d, wifiModemObj mcs = .ok s ∧ wifiGetCoding mcs = .ok (num, den) ∧
        s.Consistent ∧ 2 ≤ s.m ∧ 0 < d ∧ Separated s.constellation d ∧ 0 < s.Es ∧ 0 < num ∧ 0 < den ∧ Nat.Coprime num den := by
    intro num den e he hc h1 h2 h3 ⟨s, d, h4, h5, h6, h7, h8, h9⟩
    exact ⟨s, num, den, d, he.trans h4, hc, h5, h6, h7, h8, h9, h1, h2, h3⟩
  interval_cases mcs
  · exact fin 1 2 _ rfl rfl (by decide) (by decide) (by decide) p1
  · exact fin 1 2 _ rfl rfl (by decide) (by decide) (by decide) p2
  · exact fin 3 4 _ rfl rfl (by decide) (by decide) (by decide) p2
  · exact fin 1 2 _ rfl rfl (by decide) (by decide) (by decide) q2
  · exact fin 3 4 _ rfl rfl (by decide) (by decide) (by decide) q2
  · exact fin 2 3 _ rfl rfl (by decide) (by decide) (by decide) q3
  · exact fin 3 4 _ rfl rfl (by decide) (by decide) (by decide) q3
  · exact fin 5 6 _ rfl rfl (by decide) (by decide) (by decide) q3
  · exact fin 3 4 _ rfl rfl (by decide) (by decide) (by decide) q4
  · exact fin 5 6 _ rfl rfl (by decide) (by decide) (by decide) q4

/-- A number of message bits that fills whole symbols is a whole number of puncturing periods. -/
theorem whole_periods {num den B n : Nat} (hn : 0 < num) (hd : 0 < den) (hcop : Nat.Coprime num den)
    (h : WholeVectors ((num : ℚ) / den) (B * 1) n) : ∃ q, n = q * num ∧ B ∣ q * den := by
  obtain ⟨m, hm⟩ := h
  have hn' : (num : ℚ) ≠ 0 := by exact_mod_cast hn.ne'
  have hd' : (den : ℚ) ≠ 0 := by exact_mod_cast hd.ne'
  have h1 : (n : ℚ) * den = m * B * num := by
    field_simp at hm
    push_cast at hm
    linarith
  have h2 : n * den = m * B * num := by exact_mod_cast h1
  obtain ⟨q, hq⟩ : num ∣ n := by
    apply Nat.Coprime.dvd_of_dvd_mul_right hcop
    exact ⟨m * B, by rw [h2]; ring⟩
  refine ⟨q, by rw [hq]; ring, m, ?_⟩
  rw [hq] at h2
  have : num * (q * den) = num * (B * m) := by rw [← mul_assoc, h2]; ring
  exact Nat.eq_of_mul_eq_mul_left hn this

theorem wifi_errorFree {rng : Rng ρ} {A : ℝ} (hr : rng.Bounded A) {mcs : Int} {s : Modem} {num den : Nat}
    (hc : wifiGetCoding mcs = .ok (num, den)) (hs : s.Consistent) (hm : 2 ≤ s.m) {d : ℝ} (hd0 : 0 < d)
    (hd : Separated s.constellation d) {std : ℝ} (h0 : 0 < std) (hsmall : std ^ 2 * Real.log s.m ≤ d * (d - 2 * (A * std)))
    {junk : Nat → Nat → Nat} {outLen : Nat → Nat} {jk : List ℝ → VitJunk ℝ} {bufLen : Nat → Nat}
    {memory : Siso × ρ → Nat → ℝ} {q : Nat} (hden : 0 < den) (h2 : 2 ≤ q * num) (ho : outLen (q * num) = q * num * 2)
    (hdvd : s.nbits ∣ q * den) :
    (wifiLink rng junk outLen jk mcs s).ErrorFree bufLen memory (q * num) (fun w => w.1.Unfaded std) := by
  intro w hw
  set msg := (rng.bits w.2 (q * num)).1 with hmsg
  have hlen : msg.length = q * num := hr.length _ _
  have hbit := hr.bit w.2 (q * num)
  rw [← hmsg] at hbit
  obtain ⟨hb2, hcast⟩ := toNat_bits hbit
  have hlen' : (msg.map Int.toNat).length = q * num := by simp [hlen]
  obtain ⟨p, hp1, hp2, hp3⟩ := C46_rate junk hc q hb2 hlen' (outLen := outLen) (by rw [hlen']; exact ho)
  obtain ⟨syms, h1, h2', h3⟩ := C93_soft hs hm hd hd0 (ε := A * std) (v := std ^ 2) (by positivity) hsmall (bits := p) hp3 (by
    intro e
    rw [e] at hp2
    simp at hp2
    rcases hp2 with h | h
    · rw [h] at h2; omega
    · omega) (by rw [hp2]; exact hdvd)
  have hpl : 0 < q * den := by
    rcases Nat.eq_zero_or_pos q with h | h
    · rw [h] at h2; omega
    · exact Nat.mul_pos h hden
  have hsne : syms ≠ [] := by
    rintro rfl
    rw [hp2, List.length_nil, Nat.zero_mul] at h2'
    omega
  obtain ⟨ys, w', h4, h5, h6, h7⟩ := propagate_close hr (w := (w.1, (rng.bits w.2 (q * num)).2)) h0.le hw hsne
  obtain ⟨L, h8, h9, h10⟩ := h3 ys h5 h6
  have hdec : wifiReceive junk (jk L) mcs L = .ok (msg.map Int.toNat) := by
    obtain ⟨p'', hp1'', hch⟩ := C49_chain junk junk hc q hb2 hlen' (by rw [hlen']; exact h2) (outLen := outLen) (by rw [hlen']; exact ho) (jk L)
    obtain rfl := Except.ok.inj (hp1.symm.trans hp1'')
    exact hch L h9 h10
  refine ⟨msg, (msg.map Int.toNat).map fun (x : Nat) => (x : ℝ), w', ?_, hlen, hbit, by simp [hlen], ?_, h7⟩
  · simp only [Link.send, wifiLink, sisoLink, bind, Except.bind]
    rw [← hmsg, hp1]
    simp only
    rw [h1]
    simp only [pure, Except.pure]
    rw [h4]
    simp only [Link.received, Link.decode, h7.2.2, Option.getD_some]
    simp only [Bool.false_eq_true, if_false]
    rw [h8]
    simp only [Except.map, DemodOut.toReals]
    rw [hdec]
  · intro i hi
    rw [← hcast i (by omega), List.getD_eq_getElem _ _ (by simp [hlen]; omega), List.getD_eq_getElem _ _ (by simp [hlen]; omega)]
    simp

/-- C95. `Wifi80211(mcs).link_performance` over an unfaded complex SISO channel: for every MCS and every bound on the normal draws there is
an SNR above which the whole simulation (encoder, puncturing, modulation, noise, soft demodulation, depuncturing, Viterbi
decoding, counting) reports no error, whatever the random bits and draws, the uninitialised memory, the chunk size and the
number of frames per transmission, provided that a transmission has at least two bits. -/
theorem C95_wifi {mcs : Nat} (hmcs : mcs < 10) {A : ℝ} (hA : 0 ≤ A) :
    ∃ s0 : ℝ, ∀ (rng : Rng ρ) (_ : rng.Bounded A) (w : Siso × ρ) (_ : w.1.fading = (.cplx 1, 0)) (_ : w.1.isComplex = true)
      (snr : ℝ) (rest : List ℝ) (_ : s0 ≤ snr) (junk : Nat → Nat → Nat) (outLen : Nat → Nat) (_ : ∀ n, outLen n = n * 2)
      (jk : List ℝ → VitJunk ℝ) (bufLen : ℚ → Nat → Nat) (memory : Siso × ρ → Nat → ℝ)
      (txMax : Nat) (errMin : Int) (sc : Option Int) (frames : Nat) (stop : Bool) (_ : 1 ≤ txMax) (_ : 1 ≤ errMin) (_ : 1 ≤ frames)
      (_ : 2 ≤ frames ∨ 2 ≤ sc.getD errMin),
      ∃ w', wifiLinkPerformance rng junk outLen jk bufLen memory mcs (snr :: rest) txMax errMin sc frames stop w =
        .ok (⟨some 0, List.replicate txMax 0, List.replicate txMax 0, List.replicate txMax (frames : Int)⟩ ::
          List.replicate rest.length (zeroRow txMax), w') := by
  obtain ⟨s, num, den, d, hmod, hcod, hs, hm, hd0, hd, hE, hnum, hden, hcop⟩ := wifi_modem hmcs
  have hlog : 0 ≤ Real.log s.m := Real.log_nonneg (by exact_mod_cast (by omega : 1 ≤ s.m))
  have hrate : (0 : ℚ) < (num : ℚ) / den := by positivity
  obtain ⟨τ, hτ, hτ2⟩ := small_std hd0 hA hlog
  obtain ⟨s0, hs0⟩ := snr_threshold hrate hE hτ
  refine ⟨s0, ?_⟩
  intro rng hr w hf hc snr rest hsnr junk outLen ho jk bufLen memory txMax errMin sc frames stop htx hem hfr h2
  obtain ⟨w1, h1, hw1⟩ := setSnr_ok (w := w) (snr := snr) (Es := s.Es) hrate hf hc
  obtain ⟨h3, h4⟩ := hs0 snr hsnr
  obtain ⟨w', h5, -⟩ := C94_metrics (wifiLink rng junk outLen jk mcs s) bufLen memory snr rest txMax errMin sc ((num : ℚ) / den) frames stop
    w w1 _ (hs.nbits_pos hm) Nat.one_pos hrate htx hem h1 hw1 (by
      intro n hn hwv hmax
      change WholeVectors _ (s.nbits * 1) n at hwv
      obtain ⟨q, hq, hdv⟩ := whole_periods hnum hden hcop hwv
      have e : n * frames = (q * frames) * num := by rw [hq]; ring
      rw [e]
      refine wifi_errorFree hr hcod hs hm hd0 hd h3 (hτ2 _ h3.le h4).1 hden ?_ (ho _) ?_
      · rw [← e]
        rcases h2 with h2 | h2
        · calc 2 = 1 * 2 := rfl
            _ ≤ n * frames := Nat.mul_le_mul hn h2
        · have hn2 : 2 ≤ n := by
            by_contra hlt
            have hn1 : n = 1 := by omega
            have := hmax 2 (by decide) (by
              obtain ⟨m, hm'⟩ := hwv
              refine ⟨2 * m, ?_⟩
              change _ = _ * ((s.nbits * 1 : Nat) : ℚ)
              rw [hn1] at hm'
              push_cast at hm' ⊢
              rw [show (2 : ℚ) / (num / den) = 2 * (1 / (num / den)) by ring, hm']
              ring) h2
            omega
          calc 2 = 2 * 1 := rfl
            _ ≤ n * frames := Nat.mul_le_mul hn2 hfr
      · rw [show q * frames * den = q * den * frames by ring]
        exact Dvd.dvd.mul_right hdv _)
  refine ⟨w', ?_⟩
  unfold wifiLinkPerformance
  rw [hcod, hmod]
  exact h5

/-- C95: the default channel `SISOFlatChannel()` has real gains; the simulation raises TypeError in the first transmission, for every
MCS, because the symbols are complex. -/
theorem C95_real_channel {mcs : Nat} (hmcs : mcs < 10) (rng : Rng ρ) {A : ℝ} (hr : rng.Bounded A) (ch : Siso) (noise : Option ℝ)
    (hch : Siso.init noise (.real 1, 0) = .ok ch) (g : ρ) (snr : ℝ) (rest : List ℝ) (junk : Nat → Nat → Nat) (outLen : Nat → Nat)
    (ho : ∀ n, outLen n = n * 2) (jk : List ℝ → VitJunk ℝ) (bufLen : ℚ → Nat → Nat) (memory : Siso × ρ → Nat → ℝ)
    (txMax : Nat) (errMin : Int) (sc : Option Int) (frames : Nat) (stop : Bool) (htx : 1 ≤ txMax) (hem : 0 ≤ errMin) (hfr : 1 ≤ frames) :
    wifiLinkPerformance rng junk outLen jk bufLen memory mcs (snr :: rest) txMax errMin sc frames stop (ch, g) = .error .typeError := by
  obtain ⟨s, num, den, d, hmod, hcod, hs, hm, hd0, hd, hE, hnum, hden, hcop⟩ := wifi_modem hmcs
  have hrate : (0 : ℚ) < (num : ℚ) / den := by positivity
  have hreal : ch.isComplex = false := by
    unfold Siso.init Siso.setFading at hch
    rw [if_neg (by simp [Num.toC])] at hch
    obtain rfl := Except.ok.inj hch
    rfl
  unfold wifiLinkPerformance
  rw [hcod, hmod]
  simp only [bind, Except.bind]
  obtain ⟨dv, hdv, hpos, hwv, -⟩ := C80_chunk (B := s.nbits) (T := 1) (hs.nbits_pos hm) Nat.one_pos hrate (sc.getD errMin)
  set chunk := linkChunk dv (sc.getD errMin) with hchunk
  obtain ⟨q, hq, hqd⟩ := whole_periods hnum hden hcop hwv
  -- the noise level is set
  have hset : ∃ ch1 : Siso, sisoSetSnr (ch, g) snr ((num : ℚ) / den) s.Es = .ok (ch1, g) ∧ ch1.isComplex = false := by
    have hp : (0 : ℝ) < (((num : ℚ) / den : ℚ) : ℝ) * (10 : ℝ) ^ (snr / 10) :=
      mul_pos (by exact_mod_cast hrate) (Real.rpow_pos_of_pos (by norm_num) _)
    unfold sisoSetSnr Siso.step
    simp only
    unfold noiseStdDb
    rw [if_neg hp.ne']
    exact ⟨_, rfl, hreal⟩
  obtain ⟨ch1, hset1, hreal1⟩ := hset
  -- the first transmission
  have hsend : (wifiLink rng junk outLen jk mcs s).send (bufLen ((num : ℚ) / den)) memory (chunk * frames) (ch1, g) = .error .typeError := by
    set msg := (rng.bits g (chunk * frames)).1 with hmsg
    have hlen : msg.length = chunk * frames := hr.length _ _
    have hbit := hr.bit g (chunk * frames)
    rw [← hmsg] at hbit
    obtain ⟨hb2, -⟩ := toNat_bits hbit
    have hlen' : (msg.map Int.toNat).length = (q * frames) * num := by rw [List.length_map, hlen, hq]; ring
    obtain ⟨p, hp1, hp2, hp3⟩ := C46_rate junk hcod (q * frames) hb2 hlen' (outLen := outLen) (ho _)
    have hq0 : 0 < q := by
      rcases Nat.eq_zero_or_pos q with h | h
      · rw [h] at hq; omega
      · exact h
    have hppos : 0 < p.length := by rw [hp2]; exact Nat.mul_pos (Nat.mul_pos hq0 hfr) hden
    obtain ⟨N, hN⟩ : s.nbits ∣ p.length := by
      rw [hp2, show q * frames * den = q * den * frames by ring]
      exact Dvd.dvd.mul_right hqd _
    have hmo := modulate_ok hs hm hp3 (by intro e; rw [e] at hppos; simp at hppos) (N := N) (by rw [hN]; ring)
    have hsne : (inSyms s.nbits p).map (fun l => s.constellation.getD l 0) ≠ [] := by
      intro e
      have := congrArg List.length e
      rw [List.length_map, inSyms_length, hN, Nat.mul_div_cancel_left _ (hs.nbits_pos hm)] at this
      rw [hN, this] at hppos
      simp at hppos
    simp only [Link.send, wifiLink, sisoLink, bind, Except.bind]
    rw [← hmsg, hp1]
    simp only
    rw [hmo]
    simp only [pure, Except.pure]
    unfold sisoPropagate Siso.propagate
    extract_lets z
    rw [if_neg (by simpa [Signal.toC] using hsne), if_pos (by simp [Signal.isComplex, hreal1])]
  show (Link.fullMetrics _ _ _ _ _ _ _ _ _ _ _) = _
  simp only [Link.fullMetrics]
  rw [show linkDivider (wifiLink rng junk outLen jk mcs s).bitsPerSymbol (wifiLink rng junk outLen jk mcs s).nbTx ((num : ℚ) / den) = .ok dv from hdv]
  simp only [bind, Except.bind, Link.metricsLoop]
  rw [show (wifiLink rng junk outLen jk mcs s).setSnr (ch, g) snr ((num : ℚ) / den) (wifiLink rng junk outLen jk mcs s).Es = .ok (ch1, g) from hset1]
  obtain ⟨t, rfl⟩ : ∃ t, txMax = t + 1 := ⟨txMax - 1, by omega⟩
  simp only
  rw [show List.range (t + 1) = 0 :: (List.range t).map Nat.succ from List.range_succ_eq_map]
  simp only [Link.txLoop, bind, Except.bind]
  rw [if_neg (by simp; omega), ← hchunk, hsend]

/-- A generator for the examples: alternating bits, all normal draws `-2`. -/
noncomputable def exampleRng : Rng Unit where
  bits := fun g n => ((List.range n).map fun i => ((i % 2 : Nat) : Int), g)
  normals := fun g _ => (fun _ => -2, g)

theorem exampleRng_bounded : exampleRng.Bounded 2 where
  length := by intro g n; simp [exampleRng]
  bit := by
    intro g n a ha
    simp only [exampleRng, List.mem_map, List.mem_range] at ha
    obtain ⟨i, -, rfl⟩ := ha
    omega
  normal := by intro g n i; simp [exampleRng]

/-- Non-vacuity of C95: 64-QAM with rate 5/6 (MCS 7), 3 transmissions of 2 frames, requested chunk of 100 bits, all normal draws -2. -/
example : ∃ (ch : Siso) (snr : ℝ) (w' : Siso × Unit), Siso.init none (.cplx 1, 0) = .ok ch ∧
    wifiLinkPerformance exampleRng (fun _ _ => 5) (· * 2) (fun _ => ⟨fun _ _ => 0, fun _ => 0, fun _ _ => 0, fun _ _ => (0, 0)⟩) (fun _ n => n) (fun _ _ => 0) 7 [snr, 90] 3 10 (some 100) 2 true
      (ch, ()) = .ok ([⟨some 0, [0, 0, 0], [0, 0, 0], [2, 2, 2]⟩, zeroRow 3], w') := by
  have hch : ∃ ch, Siso.init none (.cplx 1, 0) = .ok ch ∧ ch.fading = (.cplx 1, 0) ∧ ch.isComplex = true := by
    unfold Siso.init Siso.setFading
    rw [if_neg (by simp [Num.toC])]
    exact ⟨_, rfl, rfl, rfl⟩
  obtain ⟨ch, h1, h2, h3⟩ := hch
  obtain ⟨s0, h⟩ := C95_wifi (ρ := Unit) (mcs := 7) (by decide) (A := 2) (by norm_num)
  obtain ⟨w', h4⟩ := h exampleRng exampleRng_bounded (ch, ()) h2 h3 s0 [90] le_rfl (fun _ _ => 5) (· * 2) (fun _ => rfl) (fun _ => ⟨fun _ _ => 0, fun _ => 0, fun _ _ => 0, fun _ _ => (0, 0)⟩)
    (fun _ n => n) (fun _ _ => 0) 3 10 (some 100) 2 true (by decide) (by decide) (by decide) (Or.inl le_rfl)
  exact ⟨ch, s0, w', h1, h4⟩

/-- Non-vacuity of C94: an uncoded 16-QAM link. -/
example : ∃ (s : Modem) (ch : Siso) (snr : ℝ) (w' : Siso × Unit), qamModem 16 = .ok s ∧ Siso.init none (.cplx 1, 0) = .ok ch ∧
    (uncodedLink exampleRng s).performance (fun _ n => n) (fun _ _ => 0) 1000 [snr, 90, 91] 1000 10 none 1 (ch, ()) = .ok ([0, 0, 0], w') := by
  have hch : ∃ ch, Siso.init none (.cplx 1, 0) = .ok ch ∧ ch.fading = (.cplx 1, 0) ∧ ch.isComplex = true := by
    unfold Siso.init Siso.setFading
    rw [if_neg (by simp [Num.toC])]
    exact ⟨_, rfl, rfl, rfl⟩
  obtain ⟨ch, h1, h2, h3⟩ := hch
  obtain ⟨s, h4, h5, h6, h7⟩ := C93_qam 2 (by decide)
  obtain ⟨s', h4', h8, -, -, -, -, h9, -⟩ := C65_qam 2 (by decide)
  obtain rfl := Except.ok.inj (h4.symm.trans h4')
  obtain ⟨s0, h⟩ := C94_uncoded (ρ := Unit) h5 (by rw [h8]; decide) (by norm_num) h7 (by rw [h9]; norm_num) (A := 2) (by norm_num)
  obtain ⟨w', h10⟩ := h exampleRng exampleRng_bounded (ch, ()) h2 h3 s0 [90, 91] le_rfl (fun _ n => n) (fun _ _ => 0) 1000 10 none 1000
    (by decide) (by decide) (by decide)
  exact ⟨s, ch, s0, w', h4, h1, h10⟩

end Verif
