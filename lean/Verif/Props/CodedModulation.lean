import Verif.Props.ModemNoise
import Verif.Props.ConvDistance
/-
C118: the chain convolutional encoder, modulator, noisy channel, hard demodulator, Viterbi decoder tolerates noise.
-/
namespace Verif

open Finset

/-- Number of received symbols at distance `r` or more from the transmitted ones. -/
noncomputable def farCount (r : ℝ) (ys syms : List ℂ) : Nat :=
  open Classical in ((range syms.length).filter fun i => r ≤ ‖ys.getD i 0 - syms.getD i 0‖).card

theorem diffCount_flatMap_le (b : Nat) (f : Nat → Nat) : ∀ (xs zs : List Nat), xs.length = zs.length →
    (∀ i < zs.length, diffCount (toBits b (xs.getD i 0)) (toBits b (zs.getD i 0)) ≤ f i) →
    diffCount (xs.flatMap (toBits b)) (zs.flatMap (toBits b)) ≤ ∑ i ∈ range zs.length, f i
  | [], [], _, _ => by simp [diffCount]
  | x :: xs, z :: zs, h, hf => by
    rw [List.flatMap_cons, List.flatMap_cons, diffCount_append (by rw [toBits_length, toBits_length]), List.length_cons, sum_range_succ']
    have h0 := hf 0 (by simp)
    simp only [List.getD_cons_zero] at h0
    have ih := diffCount_flatMap_le (b := b) (f := fun i => f (i + 1)) xs zs (by simpa using h)
      (fun i hi => by
        have := hf (i + 1) (by simp only [List.length_cons]; omega)
        simpa using this)
    omega

theorem diffCount_le_length : ∀ (a b : List Nat), diffCount a b ≤ a.length
  | [], _ => by simp [diffCount]
  | _ :: _, [] => by simp [diffCount]
  | x :: a, y :: b => by
    have := diffCount_le_length a b
    simp only [diffCount, List.length_cons]
    split <;> omega

/-- What the hard demodulator returns for received symbols near the transmitted ones: generic form with a bound `g i` for the
number of wrong bits in symbol `i`. -/
theorem demod_bits {s : Modem} (hs : s.Consistent) (hm : 2 ≤ s.m) {bits : List Nat}
    (hb : ∀ x ∈ bits, x < 2) (hne : bits ≠ []) (hl : s.nbits ∣ bits.length) (v : ℝ) :
    ∃ syms, modulate s bits = .ok syms ∧ syms.length * s.nbits = bits.length ∧
      ∀ (ys : List ℂ) (g : Nat → Nat), ys.length = syms.length →
        (∀ i < syms.length, ∀ a < s.m, ∀ c < s.m, s.constellation.getD a 0 = syms.getD i 0 →
          (∀ z ∈ s.constellation, ‖ys.getD i 0 - s.constellation.getD c 0‖ ≤ ‖ys.getD i 0 - z‖) →
          diffCount (toBits s.nbits c) (toBits s.nbits a) ≤ g i) →
        ∃ bits', demodulate s ys "hard" v = .ok (.bits bits') ∧ bits'.length = bits.length ∧ (∀ x ∈ bits', x < 2) ∧
          diffCount bits' bits ≤ ∑ i ∈ range syms.length, g i := by
  obtain ⟨N, hN⟩ := hl
  rw [Nat.mul_comm] at hN
  have hn := hs.nbits_pos hm
  have hlt : ∀ l ∈ inSyms s.nbits bits, l < s.constellation.length := by
    intro l h; rw [hs.len]; exact inSyms_lt hb _ l h
  have hlen0 : (inSyms s.nbits bits).length = N := by rw [inSyms_length, hN, Nat.mul_div_cancel _ hn]
  refine ⟨_, modulate_ok hs hm hb hne hN, ?_, ?_⟩
  · rw [List.length_map, hlen0, hN]
  intro ys g hlen hg
  rw [List.length_map] at hlen hg
  unfold demodulate
  rw [if_pos rfl, demodHard_ok hs]
  refine ⟨_, rfl, ?_, ?_, ?_⟩
  · rw [List.length_flatMap, List.map_congr_left (g := fun _ => s.nbits) (fun a _ => toBits_length _ _)]
    rw [List.map_const', List.sum_replicate, List.length_map, hlen, hlen0, hN, smul_eq_mul]
  · intro x hx
    obtain ⟨l, -, hx⟩ := List.mem_flatMap.1 hx
    exact toBits_lt_two hx
  · have hfl : diffCount ((ys.map (nearestIdx s)).flatMap (toBits s.nbits)) bits =
        diffCount ((ys.map (nearestIdx s)).flatMap (toBits s.nbits)) ((inSyms s.nbits bits).flatMap (toBits s.nbits)) := by
      rw [flatMap_inSyms hn hb hN]
    rw [hfl, List.length_map]
    refine diffCount_flatMap_le _ _ _ _ (by rw [List.length_map, hlen]) ?_
    intro i hi
    have hiy : i < ys.length := by rw [hlen]; exact hi
    rw [List.getD_eq_getElem _ _ (show i < (ys.map (nearestIdx s)).length by rw [List.length_map]; exact hiy), List.getElem_map,
      List.getD_eq_getElem _ _ hi]
    obtain ⟨h3, h4⟩ := nearestIdx_spec hs ys[i]
    have hkl := hlt _ (List.getElem_mem hi)
    refine hg i hi _ (by rw [hs.size]; exact hkl) _ (by rw [hs.size]; exact h3) ?_ ?_
    · rw [List.getD_eq_getElem _ _ (show i < ((inSyms s.nbits bits).map fun l => s.constellation.getD l 0).length by
        rw [List.length_map]; exact hi), List.getElem_map]
    · intro z hz
      rw [List.getD_eq_getElem _ _ hiy, List.getD_eq_getElem _ _ h3]
      exact h4 z hz

/-- C118, symbols to bits: when every symbol is received closer than `ρ`, where points closer than `2ρ` differ in at most one bit,
the number of wrong bits is at most the number of symbols received at half the minimum distance or farther. -/
theorem C118_gray {s : Modem} (hs : s.Consistent) (hm : 2 ≤ s.m) {d ρ : ℝ} (hd : Separated s.constellation d)
    (hgray : ∀ a < s.m, ∀ c < s.m, ‖s.constellation.getD a 0 - s.constellation.getD c 0‖ < 2 * ρ →
      diffCount (toBits s.nbits a) (toBits s.nbits c) ≤ 1) {bits : List Nat}
    (hb : ∀ x ∈ bits, x < 2) (hne : bits ≠ []) (hl : s.nbits ∣ bits.length) (v : ℝ) :
    ∃ syms, modulate s bits = .ok syms ∧ syms.length * s.nbits = bits.length ∧
      ∀ ys : List ℂ, ys.length = syms.length → (∀ i < syms.length, ‖ys.getD i 0 - syms.getD i 0‖ < ρ) →
        ∃ bits', demodulate s ys "hard" v = .ok (.bits bits') ∧ bits'.length = bits.length ∧ (∀ x ∈ bits', x < 2) ∧
          diffCount bits' bits ≤ farCount (d / 2) ys syms := by
  classical
  obtain ⟨syms, h1, h2, h3⟩ := demod_bits hs hm hb hne hl v
  refine ⟨syms, h1, h2, ?_⟩
  intro ys hlen hclose
  obtain ⟨bits', e1, e2, e3, e4⟩ := h3 ys (fun i => if d / 2 ≤ ‖ys.getD i 0 - syms.getD i 0‖ then 1 else 0) hlen (by
    intro i hi a ha c hc hac hmin
    have hmem : s.constellation.getD a 0 ∈ s.constellation := by
      rw [List.getD_eq_getElem _ _ (by rw [← hs.size]; exact ha)]; exact List.getElem_mem _
    have h5 := hmin _ hmem
    rw [hac] at h5
    have h7 : ‖s.constellation.getD c 0 - s.constellation.getD a 0‖ ≤
        ‖ys.getD i 0 - s.constellation.getD c 0‖ + ‖ys.getD i 0 - syms.getD i 0‖ := by
      rw [← hac, norm_sub_rev (ys.getD i 0) (s.constellation.getD c 0)]
      exact norm_sub_le_norm_sub_add_norm_sub _ _ _
    have hcl := hclose i hi
    by_cases hfar : d / 2 ≤ ‖ys.getD i 0 - syms.getD i 0‖
    · rw [if_pos hfar]
      exact hgray c hc a ha (by linarith)
    · rw [if_neg hfar]
      push Not at hfar
      by_cases hca : c = a
      · rw [hca, diffCount_self]
      · have := hd.getD (k := c) (l := a) (by rw [← hs.size]; exact hc) (by rw [← hs.size]; exact ha) (Ne.symm hca)
        linarith)
  refine ⟨bits', e1, e2, e3, le_trans e4 ?_⟩
  unfold farCount
  rw [card_filter]

/-- C118, symbols to bits without Gray labels: symbols received at half the minimum distance or farther cost at most all their
bits. -/
theorem C118_any {s : Modem} (hs : s.Consistent) (hm : 2 ≤ s.m) {d : ℝ} (hd : Separated s.constellation d) {bits : List Nat}
    (hb : ∀ x ∈ bits, x < 2) (hne : bits ≠ []) (hl : s.nbits ∣ bits.length) (v : ℝ) :
    ∃ syms, modulate s bits = .ok syms ∧ syms.length * s.nbits = bits.length ∧
      ∀ ys : List ℂ, ys.length = syms.length →
        ∃ bits', demodulate s ys "hard" v = .ok (.bits bits') ∧ bits'.length = bits.length ∧ (∀ x ∈ bits', x < 2) ∧
          diffCount bits' bits ≤ s.nbits * farCount (d / 2) ys syms := by
  classical
  obtain ⟨syms, h1, h2, h3⟩ := demod_bits hs hm hb hne hl v
  refine ⟨syms, h1, h2, ?_⟩
  intro ys hlen
  obtain ⟨bits', e1, e2, e3, e4⟩ := h3 ys (fun i => s.nbits * if d / 2 ≤ ‖ys.getD i 0 - syms.getD i 0‖ then 1 else 0) hlen (by
    intro i hi a ha c hc hac hmin
    have hmem : s.constellation.getD a 0 ∈ s.constellation := by
      rw [List.getD_eq_getElem _ _ (by rw [← hs.size]; exact ha)]; exact List.getElem_mem _
    have h5 := hmin _ hmem
    rw [hac] at h5
    have h7 : ‖s.constellation.getD c 0 - s.constellation.getD a 0‖ ≤
        ‖ys.getD i 0 - s.constellation.getD c 0‖ + ‖ys.getD i 0 - syms.getD i 0‖ := by
      rw [← hac, norm_sub_rev (ys.getD i 0) (s.constellation.getD c 0)]
      exact norm_sub_le_norm_sub_add_norm_sub _ _ _
    by_cases hfar : d / 2 ≤ ‖ys.getD i 0 - syms.getD i 0‖
    · rw [if_pos hfar, Nat.mul_one]
      exact le_trans (diffCount_le_length _ _) (le_of_eq (toBits_length _ _))
    · rw [if_neg hfar]
      push Not at hfar
      by_cases hca : c = a
      · rw [hca, diffCount_self]; exact Nat.zero_le _
      · have := hd.getD (k := c) (l := a) (by rw [← hs.size]; exact hc) (by rw [← hs.size]; exact ha) (Ne.symm hca)
        linarith)
  refine ⟨bits', e1, e2, e3, le_trans e4 ?_⟩
  unfold farCount
  rw [card_filter, mul_sum]

/-- C118: a square QAM modem's points closer than `2√2` differ in at most one bit. -/
theorem C118_qam (h : Nat) (hh : 1 ≤ h) : ∃ s, qamModem (4 ^ h) = .ok s ∧ s.Consistent ∧ s.m = 4 ^ h ∧ s.nbits = 2 * h ∧ Separated s.constellation 2 ∧
    ∀ a < s.m, ∀ c < s.m, ‖s.constellation.getD a 0 - s.constellation.getD c 0‖ < 2 * Real.sqrt 2 →
      diffCount (toBits s.nbits a) (toBits s.nbits c) ≤ 1 := by
  obtain ⟨s, h1, h2, h3, h4⟩ := C93_qam h hh
  obtain ⟨s', h1', g2, g3, g4, g5, g6, -, g8⟩ := C65_qam h hh
  rw [h1] at h1'
  cases h1'
  refine ⟨s, h1, h2, g2, h3, h4, ?_⟩
  intro a ha c hc hlt
  have ha' : a < s.constellation.length := by rw [← h2.size]; exact ha
  have hc' : c < s.constellation.length := by rw [← h2.size]; exact hc
  obtain ⟨x, y, hx, hy, -, -, ea⟩ := (g6 (s.constellation.getD a 0)).1 (by
    rw [List.getD_eq_getElem _ _ ha']; exact List.getElem_mem _)
  obtain ⟨x', y', hx', hy', -, -, ec⟩ := (g6 (s.constellation.getD c 0)).1 (by
    rw [List.getD_eq_getElem _ _ hc']; exact List.getElem_mem _)
  by_cases hac : a = c
  · rw [hac, diffCount_self]; omega
  have hd := h4.getD ha' hc' (Ne.symm hac)
  have hsq : ‖s.constellation.getD a 0 - s.constellation.getD c 0‖ ^ 2 = ((x - x' : ℤ) : ℝ) ^ 2 + ((y - y' : ℤ) : ℝ) ^ 2 := by
    rw [ea, ec, ← Complex.normSq_eq_norm_sq, Complex.normSq_apply]
    simp
    ring
  set D := ‖s.constellation.getD a 0 - s.constellation.getD c 0‖ with hD
  have hlt8 : D ^ 2 < 8 := by
    have := Real.sq_sqrt (show (0 : ℝ) ≤ 2 by norm_num)
    have := Real.sqrt_nonneg 2
    nlinarith [norm_nonneg (s.constellation.getD a 0 - s.constellation.getD c 0)]
  have hge4 : 4 ≤ D ^ 2 := by nlinarith
  rw [hsq] at hlt8 hge4
  obtain ⟨p, rfl⟩ := hx
  obtain ⟨p', rfl⟩ := hx'
  obtain ⟨q, rfl⟩ := hy
  obtain ⟨q', rfl⟩ := hy'
  have e1 : (2 * p + 1 - (2 * p' + 1)) ^ 2 + (2 * q + 1 - (2 * q' + 1)) ^ 2 < (8 : ℤ) := by exact_mod_cast hlt8
  have e2 : (4 : ℤ) ≤ (2 * p + 1 - (2 * p' + 1)) ^ 2 + (2 * q + 1 - (2 * q' + 1)) ^ 2 := by exact_mod_cast hge4
  have e3 : (2 * p + 1 - (2 * p' + 1)) ^ 2 + (2 * q + 1 - (2 * q' + 1)) ^ 2 = (4 : ℤ) * ((p - p') ^ 2 + (q - q') ^ 2) := by ring
  rw [e3] at e1 e2
  have e4 : (p - p') ^ 2 + (q - q') ^ 2 = (1 : ℤ) := by omega
  rw [e4] at e3
  have e5 : D ^ 2 = 4 := by rw [hsq]; exact_mod_cast e3
  have e6 : D = 2 := by nlinarith
  rw [g3]
  exact (g8 a (by rw [← g2]; exact ha) c (by rw [← g2]; exact hc) e6).le

theorem sin_mul_ge_two {m k : Nat} (hk : 2 ≤ k) (hkm : k + 2 ≤ m) : Real.sin (2 * Real.pi / m) ≤ Real.sin (Real.pi * k / m) := by
  have hm : (0 : ℝ) < m := by exact_mod_cast (by omega : 0 < m)
  have hm4 : (4 : ℝ) ≤ m := by exact_mod_cast (by omega : 4 ≤ m)
  have hpi := Real.pi_pos
  have hx0 : 0 < Real.pi / m := by positivity
  have e0 : 2 * Real.pi / m = 2 * (Real.pi / m) := by ring
  have e : Real.pi * k / m = k * (Real.pi / m) := by ring
  have e2 : Real.pi - Real.pi * k / m = ((m - k : ℕ) : ℝ) * (Real.pi / m) := by
    rw [Nat.cast_sub (by omega)]; field_simp
  have hk1 : (2 : ℝ) ≤ k := by exact_mod_cast hk
  have hmk1 : (2 : ℝ) ≤ ((m - k : ℕ) : ℝ) := by exact_mod_cast (by omega : 2 ≤ m - k)
  rcases le_total (Real.pi * k / m) (Real.pi / 2) with h | h
  · apply Real.sin_le_sin_of_le_of_le_pi_div_two _ h
    · rw [e, e0]; nlinarith
    · rw [e0]; linarith
  · rw [← Real.sin_pi_sub (Real.pi * k / m)]
    apply Real.sin_le_sin_of_le_of_le_pi_div_two
    · rw [e0]; linarith
    · linarith
    · rw [e2, e0]; nlinarith

/-- C118: points of a PSK modem closer than `2 sin (2π / 2^b)` differ in at most one bit. -/
theorem C118_psk (b : Nat) (hb : 1 ≤ b) :
    ∃ s, pskModem (2 ^ b) = .ok s ∧ s.Consistent ∧ s.m = 2 ^ b ∧ s.nbits = b ∧ Separated s.constellation (2 * Real.sin (Real.pi / (2 ^ b : ℕ))) ∧
      ∀ a < s.m, ∀ c < s.m, ‖s.constellation.getD a 0 - s.constellation.getD c 0‖ < 2 * Real.sin (2 * Real.pi / (2 ^ b : ℕ)) →
        diffCount (toBits s.nbits a) (toBits s.nbits c) ≤ 1 := by
  obtain ⟨s, h1, h2, h3, h4⟩ := C93_psk b hb
  obtain ⟨s', h1', g2, g3, g4, g5, g6, g7, -, g8⟩ := C64_psk b hb
  rw [h1] at h1'
  cases h1'
  refine ⟨s, h1, h2, g2, h3, h4, ?_⟩
  intro a ha c hc hlt
  have ha' : a < s.constellation.length := by rw [← h2.size]; exact ha
  have hc' : c < s.constellation.length := by rw [← h2.size]; exact hc
  have hpos : 0 < 2 ^ b := Nat.two_pow_pos b
  have hx : s.constellation.getD a 0 ∈ s.constellation := by rw [List.getD_eq_getElem _ _ ha']; exact List.getElem_mem _
  have hy : s.constellation.getD c 0 ∈ s.constellation := by rw [List.getD_eq_getElem _ _ hc']; exact List.getElem_mem _
  set x := s.constellation.getD a 0 with hxd
  set y := s.constellation.getD c 0 with hyd
  have hx1 := (g6 x).1 hx
  have hy1 := (g6 y).1 hy
  have hyn := g7 y hy
  have hy0 : y ≠ 0 := by intro e; rw [e, norm_zero] at hyn; exact zero_ne_one hyn
  have hroot : (x / y) ^ 2 ^ b = 1 := by rw [div_pow, hx1, hy1, div_one]
  have hprim := Complex.isPrimitiveRoot_exp (2 ^ b) hpos.ne'
  have : NeZero (2 ^ b) := ⟨hpos.ne'⟩
  obtain ⟨k, hk, hk2⟩ := hprim.eq_pow_of_pow_eq_one hroot
  have hxy : ‖x - y‖ = ‖x / y - 1‖ := by
    rw [← mul_one ‖x / y - 1‖, ← hyn, ← norm_mul, sub_mul, div_mul_cancel₀ _ hy0, one_mul]
  have hnorm : ‖x - y‖ = |2 * Real.sin (Real.pi * k / ((2 ^ b : ℕ) : ℝ))| := by
    rw [hxy, ← hk2, ← Complex.exp_nat_mul,
      show (k : ℂ) * (2 * Real.pi * Complex.I / ((2 ^ b : ℕ) : ℂ)) = Complex.I * ((2 * Real.pi * k / (2 ^ b : ℕ) : ℝ) : ℂ) by push_cast; ring,
      Complex.norm_exp_I_mul_ofReal_sub_one,
      show 2 * Real.pi * k / ((2 ^ b : ℕ) : ℝ) / 2 = Real.pi * k / ((2 ^ b : ℕ) : ℝ) by ring, Real.norm_eq_abs]
  rw [g3]
  have hxe : x = y * Complex.exp (2 * Real.pi * Complex.I / (2 ^ b : ℕ)) ^ k := by
    rw [hk2, mul_div_cancel₀ _ hy0]
  have hcases : k = 0 ∨ k = 1 ∨ k + 1 = 2 ^ b ∨ (2 ≤ k ∧ k + 2 ≤ 2 ^ b) := by omega
  rcases hcases with rfl | rfl | hkm | ⟨hk1, hk2'⟩
  · rw [pow_zero, mul_one] at hxe
    have hac : a = c := by
      by_contra hne
      rw [hxd, hyd, List.getD_eq_getElem _ _ ha', List.getD_eq_getElem _ _ hc'] at hxe
      exact hne ((List.Nodup.getElem_inj_iff g5).1 hxe)
    rw [hac, diffCount_self]; omega
  · rw [pow_one] at hxe
    rw [diffCount_comm]
    exact (g8 c (by rw [← g2]; exact hc) a (by rw [← g2]; exact ha) hxe).le
  · refine (g8 a (by rw [← g2]; exact ha) c (by rw [← g2]; exact hc) ?_).le
    change y = x * _
    rw [hxe, mul_assoc, ← pow_succ, hkm, hprim.pow_eq_one, mul_one]
  · exfalso
    have h5 := sin_mul_ge_two hk1 (m := 2 ^ b) hk2'
    have h6 := le_abs_self (2 * Real.sin (Real.pi * k / ((2 ^ b : ℕ) : ℝ)))
    linarith

/-! ### The whole chain -/

theorem ff_encode_bits {M n : Nat} {g : List Nat} {fmt : String} (h : TrellisArgs [M] [g] n none fmt) (hn : 0 < n)
    {junk : Nat → Nat → Nat} {t : Trellis} (ht : mkTrellis junk [M] [g] n none false fmt = .ok t) {outLen : Nat → Nat} {msg c : List Nat}
    (hb : ∀ b ∈ msg, b < 2) (ho : outLen (msg.length + M) = (msg.length + M) * n) (hc : convEncode outLen t msg "term" none = .ok c) :
    ∀ x ∈ c, x < 2 := by
  have hteq : t = trellisOf junk [M] [g] n none false fmt := by
    have := mkTrellis_ok (junk := junk) (rsc := false) h
    rw [ht] at this
    exact Except.ok.inj this
  have hk : t.k = 1 := by rw [hteq]; rfl
  have hMt : t.M = M := by rw [hteq]; simp [trellisOf]
  have hnt : t.n = n := by rw [hteq]; rfl
  have hrsc : t.rsc = false := by rw [hteq]; rfl
  have hwf : t.WF := by rw [hteq]; exact trellisOf_WF h
  rw [convEncode_main hwf (by rw [hnt]; exact hn) hb (by rw [hrsc]; simp)
    (by simp [encInput, hrsc, hk, hMt, hnt, Nat.mod_one, ho])] at hc
  rw [← Except.ok.inj hc]
  intro x hx
  rcases List.mem_append.1 hx with hx | hx
  · exact Trellis.runOut_lt_two _ _ _ x hx
  · rw [(List.mem_replicate.1 hx).2]; omega


/-- C118, feedforward code of rate `1/n` with memory `M`, any modem: with the distances of the code checked by `columnCheck`
(`e` correctable errors), every received signal whose symbols are closer than `ρ` to the transmitted ones, all but at most `e` of
them closer than half the minimum distance, is demodulated and decoded to the message. -/
theorem C118_chain {M n : Nat} {g : List Nat} {fmt : String} (h : TrellisArgs [M] [g] n none fmt) (hM : 0 < M) (hn : 0 < n)
    {D D' d d' e : Nat} (hD : columnCheck (trellisOf (fun _ _ => 0) [M] [g] n none false fmt) D d = true)
    (hD' : columnCheck (trellisOf (fun _ _ => 0) [M] [g] n none false fmt) D' d' = true) (hDD : D' ≤ D) (he : 2 * e < d) (he' : 2 * e ≤ d')
    {s : Modem} (hs : s.Consistent) (hm : 2 ≤ s.m) {δ ρ : ℝ} (hd : Separated s.constellation δ)
    (hgray : ∀ a < s.m, ∀ c < s.m, ‖s.constellation.getD a 0 - s.constellation.getD c 0‖ < 2 * ρ →
      diffCount (toBits s.nbits a) (toBits s.nbits c) ≤ 1) (junk : Nat → Nat → Nat) (v : ℝ) :
    ∃ t, mkTrellis junk [M] [g] n none false fmt = .ok t ∧
      ∀ (outLen : Nat → Nat) (msg : List Nat), (∀ b ∈ msg, b < 2) → outLen (msg.length + M) = (msg.length + M) * n →
        s.nbits ∣ (msg.length + M) * n →
        ∃ c syms, convEncode outLen t msg "term" none = .ok c ∧ modulate s c = .ok syms ∧
          syms.length * s.nbits = (msg.length + M) * n ∧
          ∀ (ys : List ℂ) (jk : VitJunk Nat) (tb : Nat), ys.length = syms.length →
            (∀ i < syms.length, ‖ys.getD i 0 - syms.getD i 0‖ < ρ) → farCount (δ / 2) ys syms ≤ e →
            D + 2 ≤ tb → tb ≤ msg.length + 2 * M →
            ∃ rx dec coded', demodulate s ys "hard" v = .ok (.bits rx) ∧
              viterbiHard t jk (msg.length + M) tb rx = .ok (dec, coded') ∧ dec.length = msg.length + M ∧
              ∀ K ≤ msg.length, K + D' + 1 ≤ msg.length + 2 * M → dec.take K = msg.take K := by
  obtain ⟨t, ht, H⟩ := C110_feedforward h hM hn hD hD' hDD he he' junk
  refine ⟨t, ht, ?_⟩
  intro outLen msg hb ho hdv
  obtain ⟨c, h1, h2, -, h4⟩ := H outLen msg hb ho
  have hcb : ∀ x ∈ c, x < 2 := ff_encode_bits h hn ht hb ho h1
  obtain ⟨syms, m1, m2, m3⟩ := C118_gray hs hm hd hgray hcb (by
    intro h0; rw [h0] at h2; simp at h2; omega) (by rw [h2]; exact hdv) v
  refine ⟨c, syms, h1, m1, by rw [m2, h2], ?_⟩
  intro ys jk tb hlen hclose hfar htb htb2
  obtain ⟨rx, r1, r2, r3, r4⟩ := m3 ys hlen hclose
  obtain ⟨dec, coded', d1, d2, d3⟩ := h4 rx jk tb r2 r3 (le_trans r4 hfar) htb htb2
  exact ⟨rx, dec, coded', r1, d1, d2, d3⟩

/-- C118: the (5,7) code of the documentation and a square QAM modem: noise below `√2` on every symbol and below 1 on all but two
of them is removed, with the default traceback depth, for every message of at least 5 bits. -/
theorem C118_57_qam (h : Nat) (hh : 1 ≤ h) (junk : Nat → Nat → Nat) (v : ℝ) :
    ∃ t s, mkTrellis junk [2] [[5, 7]] 2 none false "MSB" = .ok t ∧ qamModem (4 ^ h) = .ok s ∧
      ∀ (outLen : Nat → Nat) (msg : List Nat), (∀ b ∈ msg, b < 2) → 5 ≤ msg.length → outLen (msg.length + 2) = (msg.length + 2) * 2 →
        h ∣ msg.length + 2 →
        ∃ c syms, convEncode outLen t msg "term" none = .ok c ∧ modulate s c = .ok syms ∧
          ∀ (ys : List ℂ) (jk : VitJunk Nat), ys.length = syms.length →
            (∀ i < syms.length, ‖ys.getD i 0 - syms.getD i 0‖ < Real.sqrt 2) → farCount 1 ys syms ≤ 2 →
            ∃ rx dec coded', demodulate s ys "hard" v = .ok (.bits rx) ∧
              viterbiHard t jk (msg.length + 2) (defaultDepth t (msg.length + 2)) rx = .ok (dec, coded') ∧
              dec.length = msg.length + 2 ∧ dec.take msg.length = msg := by
  obtain ⟨s, s1, s2, s3, s4, s5, s6⟩ := C118_qam h hh
  have hm : 2 ≤ s.m := by
    rw [s3]
    calc 2 ≤ 4 ^ 1 := by norm_num
      _ ≤ 4 ^ h := Nat.pow_le_pow_right (by norm_num) hh
  obtain ⟨t, ht, H⟩ := C118_chain args57 (by decide) (by decide) (D := 5) (D' := 3) (d := 5) (d' := 4) (e := 2)
    (by decide +kernel) (by decide +kernel) (by decide) (by decide) (by decide) s2 hm s5 s6 junk v
  have hM : t.M = 2 := by rw [mkTrellis_ok args57] at ht; rw [← Except.ok.inj ht]; rfl
  refine ⟨t, s, ht, s1, ?_⟩
  intro outLen msg hb hlen ho hdv
  obtain ⟨c, syms, h1, h2, h3, h4⟩ := H outLen msg hb ho (by rw [s4, Nat.mul_comm 2 h]; exact Nat.mul_dvd_mul_right hdv 2)
  refine ⟨c, syms, h1, h2, ?_⟩
  intro ys jk hl hclose hfar
  obtain ⟨rx, dec, coded', e1, e2, e3, e4⟩ := h4 ys jk (defaultDepth t (msg.length + 2)) hl hclose (by simpa using hfar)
    (by unfold defaultDepth; rw [hM]; omega) (by unfold defaultDepth; rw [hM]; omega)
  exact ⟨rx, dec, coded', e1, e2, e3, by rw [e4 msg.length (le_refl _) (by omega), List.take_length]⟩

/-- The hypotheses of the chain are met: 16-QAM, a message of six bits, noise `6/5` on the first two symbols, and the two symbols are
indeed beyond half the minimum distance. -/
example : ∃ t s c syms, mkTrellis (fun _ _ => 0) [2] [[5, 7]] 2 none false "MSB" = .ok t ∧ qamModem (4 ^ 2) = .ok s ∧
    convEncode (· * 2) t [1, 0, 1, 1, 0, 0] "term" none = .ok c ∧ modulate s c = .ok syms ∧
    ∃ rx dec coded', demodulate s ((List.range syms.length).map fun i => syms.getD i 0 + if i < 2 then 6 / 5 else 0) "hard" 0 = .ok (.bits rx) ∧
      viterbiHard t ⟨fun _ _ => 0, fun _ => 0, fun _ _ => 0, fun _ _ => (0, 0)⟩ 8 (defaultDepth t 8) rx = .ok (dec, coded') ∧
      dec.take 6 = [1, 0, 1, 1, 0, 0] := by
  obtain ⟨t, s, ht, hs, H⟩ := C118_57_qam 2 (by decide) (fun _ _ => 0) 0
  obtain ⟨c, syms, h1, h2, h3⟩ := H (· * 2) [1, 0, 1, 1, 0, 0] (by decide) (by decide) rfl (by decide)
  have hd : ∀ i < syms.length, ‖((List.range syms.length).map fun i => syms.getD i 0 + if i < 2 then (6 / 5 : ℂ) else 0).getD i 0 -
      syms.getD i 0‖ = if i < 2 then 6 / 5 else 0 := by
    intro i hi
    rw [List.getD_eq_getElem _ _ (by simpa using hi), List.getElem_map, List.getElem_range, add_sub_cancel_left]
    split
    · norm_num
    · simp
  obtain ⟨rx, dec, coded', e1, e2, -, e4⟩ := h3 ((List.range syms.length).map fun i => syms.getD i 0 + if i < 2 then 6 / 5 else 0)
    ⟨fun _ _ => 0, fun _ => 0, fun _ _ => 0, fun _ _ => (0, 0)⟩ (by simp) (by
      intro i hi
      rw [hd i hi]
      have : (6 / 5 : ℝ) < Real.sqrt 2 := Real.lt_sqrt_of_sq_lt (by norm_num)
      split
      · exact this
      · linarith) (by
      unfold farCount
      refine le_trans (card_le_card (t := range 2) ?_) (by simp)
      intro i hi
      obtain ⟨hi1, hi2⟩ := mem_filter.1 hi
      rw [mem_range] at hi1 ⊢
      rw [hd i hi1] at hi2
      by_contra hcon
      rw [if_neg hcon] at hi2
      linarith)
  exact ⟨t, s, c, syms, ht, hs, h1, h2, rx, dec, coded', e1, e2, e4⟩

end Verif
