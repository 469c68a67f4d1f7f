import Verif.Props.ModemSoft
import Verif.Props.PskQam
/-
C93: demodulation tolerates noise, with explicit bounds.
-/
namespace Verif

/-- Any two points of the list are at least `d` apart. -/
def Separated (c : List ℂ) (d : ℝ) : Prop := c.Pairwise fun x y => d ≤ ‖x - y‖

theorem Separated.getD {c : List ℂ} {d : ℝ} (h : Separated c d) {k l : Nat} (hk : k < c.length) (hl : l < c.length) (hne : l ≠ k) :
    d ≤ ‖c.getD k 0 - c.getD l 0‖ := by
  rw [List.getD_eq_getElem _ _ hk, List.getD_eq_getElem _ _ hl]
  rcases lt_or_gt_of_ne hne with h1 | h1
  · rw [norm_sub_rev]
    exact List.pairwise_iff_getElem.1 h l k hl hk h1
  · exact List.pairwise_iff_getElem.1 h k l hk hl h1

theorem Modem.Consistent.nbits_pos {s : Modem} (hs : s.Consistent) (hm : 2 ≤ s.m) : 0 < s.nbits := by
  have := hs.pow
  rcases Nat.eq_zero_or_pos s.nbits with h | h
  · rw [h] at this; omega
  · exact h

/-- C93, hard decisions: if every received symbol is closer than half the minimum distance to the transmitted one, the
transmitted bits are returned. -/
theorem C93_hard {s : Modem} (hs : s.Consistent) (hm : 2 ≤ s.m) {d : ℝ} (hd : Separated s.constellation d) {bits : List Nat}
    (hb : ∀ x ∈ bits, x < 2) (hne : bits ≠ []) (hl : s.nbits ∣ bits.length) (v : ℝ) :
    ∃ syms, modulate s bits = .ok syms ∧ syms.length * s.nbits = bits.length ∧
      ∀ ys : List ℂ, ys.length = syms.length → (∀ i < syms.length, ‖ys.getD i 0 - syms.getD i 0‖ < d / 2) →
        demodulate s ys "hard" v = .ok (.bits bits) := by
  obtain ⟨N, hN⟩ := hl
  rw [Nat.mul_comm] at hN
  have hn := hs.nbits_pos hm
  have hlt : ∀ l ∈ inSyms s.nbits bits, l < s.constellation.length := by
    intro l h; rw [hs.len]; exact inSyms_lt hb _ l h
  refine ⟨_, modulate_ok hs hm hb hne hN, ?_, ?_⟩
  · rw [List.length_map, inSyms_length, hN, Nat.mul_div_cancel _ hn]
  intro ys hlen hclose
  rw [List.length_map] at hlen hclose
  unfold demodulate
  rw [if_pos rfl, demodHard_ok hs]
  have e : ys.map (nearestIdx s) = inSyms s.nbits bits := by
    apply List.ext_getElem (by rw [List.length_map, hlen])
    intro i h1 h2
    rw [List.getElem_map]
    have hi : i < ys.length := by simpa using h1
    have hc := hclose i h2
    rw [List.getD_eq_getElem _ _ hi, List.getD_eq_getElem _ _ (by simpa using h2), List.getElem_map] at hc
    set k := (inSyms s.nbits bits)[i] with hk
    have hkl := hlt k (List.getElem_mem _)
    obtain ⟨h3, h4⟩ := nearestIdx_spec hs ys[i]
    by_contra hne'
    have h5 := hd.getD hkl h3 hne'
    have h6 := h4 (s.constellation.getD k 0) (by rw [List.getD_eq_getElem _ _ hkl]; exact List.getElem_mem _)
    rw [List.getD_eq_getElem _ _ h3] at h5
    have h7 : ‖s.constellation.getD k 0 - s.constellation[nearestIdx s ys[i]]‖ ≤
        ‖ys[i] - s.constellation.getD k 0‖ + ‖ys[i] - s.constellation[nearestIdx s ys[i]]‖ := by
      rw [norm_sub_rev ys[i] (s.constellation.getD k 0)]
      exact norm_sub_le_norm_sub_add_norm_sub _ _ _
    linarith
  rw [e, flatMap_inSyms hn hb hN]
  rfl

/-- C93, soft decisions: noise of magnitude at most `ε` and a noise variance `v` with `v log m ≤ d (d - 2 ε)`: every LLR has
the sign of its transmitted bit (positive for 1). -/
theorem C93_soft {s : Modem} (hs : s.Consistent) (hm : 2 ≤ s.m) {d ε v : ℝ} (hd : Separated s.constellation d) (hd0 : 0 < d)
    (hv : 0 < v) (hbound : v * Real.log s.m ≤ d * (d - 2 * ε)) {bits : List Nat}
    (hb : ∀ x ∈ bits, x < 2) (hne : bits ≠ []) (hl : s.nbits ∣ bits.length) :
    ∃ syms, modulate s bits = .ok syms ∧ syms.length * s.nbits = bits.length ∧
      ∀ ys : List ℂ, ys.length = syms.length → (∀ i < syms.length, ‖ys.getD i 0 - syms.getD i 0‖ ≤ ε) →
        ∃ L, demodulate s ys "soft" v = .ok (.llrs L) ∧ L.length = bits.length ∧
          ∀ i < bits.length, (bits.getD i 0 = 1 ∧ 0 < L.getD i 0) ∨ (bits.getD i 0 = 0 ∧ L.getD i 0 < 0) := by
  obtain ⟨N, hN⟩ := hl
  rw [Nat.mul_comm] at hN
  have hn := hs.nbits_pos hm
  have hlog : 0 < Real.log s.m := Real.log_pos (by exact_mod_cast (by omega : 1 < s.m))
  have hlen0 : ((inSyms s.nbits bits).map fun l => s.constellation.getD l 0).length = N := by
    rw [List.length_map, inSyms_length, hN, Nat.mul_div_cancel _ hn]
  refine ⟨_, modulate_ok hs hm hb hne hN, by rw [hlen0, hN], ?_⟩
  set syms := (inSyms s.nbits bits).map fun l => s.constellation.getD l 0 with hsyms
  intro ys hlen hclose
  obtain ⟨L, h1, h2, h3⟩ := C67_llr hs ys hv
  refine ⟨L, h1, by rw [h2, hlen, hlen0, hN], ?_⟩
  intro i hi
  have hq : i / s.nbits < ys.length := by rw [hlen, hlen0, Nat.div_lt_iff_lt_mul hn, ← hN]; exact hi
  have hr : i % s.nbits < s.nbits := Nat.mod_lt _ hn
  have hq' : i / s.nbits < (inSyms s.nbits bits).length := by rw [hlen] at hq; simpa [hsyms] using hq
  set k := (inSyms s.nbits bits)[i / s.nbits] with hkdef
  have hk : k < s.m := by rw [hs.pow]; exact inSyms_lt hb _ _ (List.getElem_mem _)
  have hcl := hclose (i / s.nbits) (by rw [← hlen]; exact hq)
  rw [List.getD_eq_getElem _ _ hq, List.getD_eq_getElem _ _ (by rw [← hlen]; exact hq)] at hcl
  simp only [hsyms, List.getElem_map] at hcl
  rw [← hkdef] at hcl
  obtain ⟨L', h1', h4⟩ := C67_sign hs (ys := ys) hv hq hk (δ := d * (d - 2 * ε)) (by
      intro l hl hne'
      have hD := hd.getD (by rw [← hs.size]; exact hk) (by rw [← hs.size]; exact hl) hne'
      set y := ys[i / s.nbits]
      set a := s.constellation.getD k 0
      set b := s.constellation.getD l 0
      have htri : ‖a - b‖ ≤ ‖y - a‖ + ‖y - b‖ := by
        rw [norm_sub_rev y a]; exact norm_sub_le_norm_sub_add_norm_sub _ _ _
      have hya := norm_nonneg (y - a)
      have hyb := norm_nonneg (y - b)
      have hpos : 0 < d - 2 * ε := by
        have : 0 < d * (d - 2 * ε) := lt_of_lt_of_le (mul_pos hv hlog) hbound
        exact (mul_pos_iff_of_pos_left hd0).1 this
      have hge : d - ‖y - a‖ ≤ ‖y - b‖ := by linarith
      have h0 : 0 ≤ d - ‖y - a‖ := by linarith
      nlinarith [mul_self_le_mul_self h0 hge]) hbound
  rw [h1] at h1'
  obtain rfl : L = L' := by
    have := Except.ok.inj h1'
    cases this; rfl
  have := h4 (i % s.nbits) hr
  rw [show i / s.nbits * s.nbits + i % s.nbits = i by rw [Nat.mul_comm]; exact Nat.div_add_mod _ _] at this
  have hbit : (toBits s.nbits k).getD (i % s.nbits) 0 = bits.getD i 0 := by
    have hf := flatMap_inSyms hn hb hN
    have hblk := flatMap_block (toBits s.nbits) s.nbits (fun a => toBits_length _ _) (inSyms s.nbits bits) _ hq'
    rw [hf] at hblk
    rw [hkdef, ← hblk, List.getD_eq_getElem?_getD, List.getElem?_take, if_pos hr, List.getElem?_drop,
      show i / s.nbits * s.nbits + i % s.nbits = i by rw [Nat.mul_comm]; exact Nat.div_add_mod _ _, ← List.getD_eq_getElem?_getD]
  rw [hbit] at this
  exact this

/-- C93: the points of a QAM modem are at least 2 apart. -/
theorem C93_qam (h : Nat) (hh : 1 ≤ h) : ∃ s, qamModem (4 ^ h) = .ok s ∧ s.Consistent ∧ s.nbits = 2 * h ∧ Separated s.constellation 2 := by
  obtain ⟨s, h1, h2, h3, h4, h5, h6, h7, -⟩ := C65_qam h hh
  refine ⟨s, h1, ?_, h3, ?_⟩
  · unfold qamModem at h1
    simp only [bind, Except.bind] at h1
    by_cases hq : Nat.sqrt (4 ^ h) * Nat.sqrt (4 ^ h) = 4 ^ h
    · rw [if_neg (by simpa using hq)] at h1
      split at h1
      · cases h1
      · exact newModem_consistent h1
    · rw [if_pos hq] at h1; cases h1
  · refine List.Nodup.pairwise_of_forall_ne h5 ?_
    intro a ha b hb hne
    obtain ⟨x, y, hx, hy, -, -, rfl⟩ := (h6 a).1 ha
    obtain ⟨x', y', hx', hy', -, -, rfl⟩ := (h6 b).1 hb
    have hsq : ‖((x : ℂ) + y * Complex.I) - (x' + y' * Complex.I)‖ ^ 2 = ((x - x' : ℤ) : ℝ) ^ 2 + ((y - y' : ℤ) : ℝ) ^ 2 := by
      rw [← Complex.normSq_eq_norm_sq, Complex.normSq_apply]
      simp
      ring
    have hor : x - x' ≠ 0 ∨ y - y' ≠ 0 := by
      by_contra hc
      push Not at hc
      apply hne
      rw [sub_eq_zero.1 hc.1, sub_eq_zero.1 hc.2]
    have hev : ∀ u w : ℤ, Odd u → Odd w → u - w ≠ 0 → (4 : ℝ) ≤ ((u - w : ℤ) : ℝ) ^ 2 := by
      intro u w hu hw hne
      obtain ⟨p, rfl⟩ := hu
      obtain ⟨q, rfl⟩ := hw
      have : (4 : ℤ) ≤ (2 * p + 1 - (2 * q + 1)) ^ 2 := by
        have hpq : p - q ≠ 0 := by intro e; apply hne; omega
        have : 1 ≤ (p - q) ^ 2 := Order.one_le_iff_pos.2 (by positivity)
        nlinarith
      exact_mod_cast this
    have h4' : (4 : ℝ) ≤ ‖((x : ℂ) + y * Complex.I) - (x' + y' * Complex.I)‖ ^ 2 := by
      rw [hsq]
      rcases hor with hc | hc
      · have := hev x x' hx hx' hc
        nlinarith [sq_nonneg ((y - y' : ℤ) : ℝ)]
      · have := hev y y' hy hy' hc
        nlinarith [sq_nonneg ((x - x' : ℤ) : ℝ)]
    nlinarith [norm_nonneg (((x : ℂ) + y * Complex.I) - (x' + y' * Complex.I))]

theorem sin_mul_ge {m k : Nat} (hk : 1 ≤ k) (hkm : k + 1 ≤ m) : Real.sin (Real.pi / m) ≤ Real.sin (Real.pi * k / m) := by
  have hm : (0 : ℝ) < m := by exact_mod_cast (by omega : 0 < m)
  have hm2 : (2 : ℝ) ≤ m := by exact_mod_cast (by omega : 2 ≤ m)
  have hpi := Real.pi_pos
  have hx0 : 0 < Real.pi / m := by positivity
  have hx1 : Real.pi / m ≤ Real.pi / 2 := by
    apply div_le_div_of_nonneg_left hpi.le (by norm_num) hm2
  have e : Real.pi * k / m = k * (Real.pi / m) := by ring
  have e2 : Real.pi - Real.pi * k / m = ((m - k : ℕ) : ℝ) * (Real.pi / m) := by
    rw [Nat.cast_sub (by omega)]; field_simp
  have hk1 : (1 : ℝ) ≤ k := by exact_mod_cast hk
  have hmk1 : (1 : ℝ) ≤ ((m - k : ℕ) : ℝ) := by exact_mod_cast (by omega : 1 ≤ m - k)
  rcases le_total (Real.pi * k / m) (Real.pi / 2) with h | h
  · apply Real.sin_le_sin_of_le_of_le_pi_div_two _ h
    · rw [e]; nlinarith
    · linarith
  · rw [← Real.sin_pi_sub (Real.pi * k / m)]
    apply Real.sin_le_sin_of_le_of_le_pi_div_two
    · linarith
    · linarith
    · rw [e2]; nlinarith

/-- C93: the points of a PSK modem with `2^b` points are at least `2 sin (π / 2^b)` apart. -/
theorem C93_psk (b : Nat) (hb : 1 ≤ b) :
    ∃ s, pskModem (2 ^ b) = .ok s ∧ s.Consistent ∧ s.nbits = b ∧ Separated s.constellation (2 * Real.sin (Real.pi / (2 ^ b : ℕ))) := by
  obtain ⟨s, h1, h2, h3, h4, h5, h6, h7, -⟩ := C64_psk b hb
  refine ⟨s, h1, ?_, h3, ?_⟩
  · unfold pskModem at h1
    simp only [bind, Except.bind] at h1
    split at h1
    · cases h1
    · exact newModem_consistent h1
  · refine List.Nodup.pairwise_of_forall_ne h5 ?_
    intro x hx y hy hne
    have hpos : 0 < 2 ^ b := Nat.two_pow_pos b
    have hx1 := (h6 x).1 hx
    have hy1 := (h6 y).1 hy
    have hyn := h7 y hy
    have hy0 : y ≠ 0 := by intro e; rw [e, norm_zero] at hyn; exact zero_ne_one hyn
    have hroot : (x / y) ^ 2 ^ b = 1 := by rw [div_pow, hx1, hy1, div_one]
    have hprim := Complex.isPrimitiveRoot_exp (2 ^ b) hpos.ne'
    have : NeZero (2 ^ b) := ⟨hpos.ne'⟩
    obtain ⟨k, hk, hk2⟩ := hprim.eq_pow_of_pow_eq_one hroot
    have hk0 : 1 ≤ k := by
      rcases Nat.eq_zero_or_pos k with h0 | h0
      · rw [h0, pow_zero] at hk2
        exact absurd ((div_eq_one_iff_eq hy0).1 hk2.symm) hne
      · exact h0
    have hxy : ‖x - y‖ = ‖x / y - 1‖ := by
      rw [← mul_one ‖x / y - 1‖, ← hyn, ← norm_mul, sub_mul, div_mul_cancel₀ _ hy0, one_mul]
    rw [hxy, ← hk2, ← Complex.exp_nat_mul,
      show (k : ℂ) * (2 * Real.pi * Complex.I / ((2 ^ b : ℕ) : ℂ)) = Complex.I * ((2 * Real.pi * k / (2 ^ b : ℕ) : ℝ) : ℂ) by push_cast; ring,
      Complex.norm_exp_I_mul_ofReal_sub_one,
      show 2 * Real.pi * k / ((2 ^ b : ℕ) : ℝ) / 2 = Real.pi * k / ((2 ^ b : ℕ) : ℝ) by ring]
    refine le_trans ?_ (le_abs_self _)
    have := sin_mul_ge hk0 (m := 2 ^ b) (by omega)
    push_cast at this ⊢
    linarith

/-- Non-vacuity: a 16-QAM modem, two symbols received with noise `1/2` and `-1/2 i`: the eight bits are recovered by hard
decisions, and by the signs of the soft ones for noise variance `1/10`. -/
example : ∃ s syms, qamModem 16 = .ok s ∧ modulate s [0, 1, 1, 0, 1, 1, 0, 1] = .ok syms ∧ syms.length = 2 ∧
    demodulate s [syms.getD 0 0 + 1 / 2, syms.getD 1 0 - 1 / 2 * Complex.I] "hard" 0 = .ok (.bits [0, 1, 1, 0, 1, 1, 0, 1]) ∧
    ∃ L, demodulate s [syms.getD 0 0 + 1 / 2, syms.getD 1 0 - 1 / 2 * Complex.I] "soft" (1 / 10) = .ok (.llrs L) ∧
      L.getD 0 0 < 0 ∧ 0 < L.getD 1 0 := by
  obtain ⟨s, h1, h2, h3, h4⟩ := C93_qam 2 (by decide)
  have hm : s.m = 16 := by rw [h2.pow, h3]; rfl
  have hb : ∀ x ∈ [0, 1, 1, 0, 1, 1, 0, 1], x < 2 := by decide
  have hdv : s.nbits ∣ [0, 1, 1, 0, 1, 1, 0, 1].length := by rw [h3]; decide
  obtain ⟨syms, h5, h6, h7⟩ := C93_hard h2 (by omega) h4 hb (by simp) hdv 0
  have hlog : Real.log s.m ≤ 4 := by
    rw [hm, show ((16 : ℕ) : ℝ) = 2 ^ 4 by norm_num, Real.log_pow]
    have := Real.log_le_sub_one_of_pos (show (0 : ℝ) < 2 by norm_num)
    push_cast
    linarith
  obtain ⟨syms', h5', h6', h8⟩ := C93_soft h2 (by omega) h4 (by norm_num) (ε := 1 / 2) (v := 1 / 10) (by norm_num) (by linarith) hb
    (by simp) hdv
  obtain rfl := Except.ok.inj (h5.symm.trans h5')
  have hlen : syms.length = 2 := by rw [h3] at h6; simp at h6; omega
  have hn : ∀ i < syms.length, ‖[syms.getD 0 0 + 1 / 2, syms.getD 1 0 - 1 / 2 * Complex.I].getD i 0 - syms.getD i 0‖ ≤ 1 / 2 := by
    intro i hi
    rw [hlen] at hi
    interval_cases i <;> simp
  refine ⟨s, syms, h1, h5, hlen, h7 _ (by simp [hlen]) (fun i hi => lt_of_le_of_lt (hn i hi) (by norm_num)), ?_⟩
  obtain ⟨L, h9, -, h10⟩ := h8 _ (by simp [hlen]) hn
  refine ⟨L, h9, ?_, ?_⟩
  · have := h10 0 (by simp); simpa using this
  · have := h10 1 (by simp); simpa using this

end Verif
