import Verif.Props.QamBer
/-
C141: symbol error probabilities in general and of PSK.
-/
namespace Verif
open MeasureTheory ProbabilityTheory Finset Filter Topology

theorem wrong_measurable {cst : List ℂ} (hne : cst ≠ []) (σ : ℝ) (l : Nat) : MeasurableSet {n : ℝ × ℝ | nearestLabel cst (cst.getD l 0 + σ * (n.1 + Complex.I * n.2)) ≠ l} := by
  have : Measurable fun n : ℝ × ℝ => nearestLabel cst (cst.getD l 0 + σ * (n.1 + Complex.I * n.2)) := (nearestLabel_measurable hne).comp (by fun_prop)
  exact (this (measurableSet_singleton l)).compl

/-- Every event that contains the symbol errors bounds the symbol error probability. -/
theorem ser_le_event {cst : List ℂ} {k : Nat} (hlen : cst.length = 2 ^ k) {σ p : ℝ} (E : Nat → Set (ℝ × ℝ)) (hE : ∀ l < 2 ^ k, MeasurableSet (E l) ∧ noise2.real (E l) ≤ p)
    (h : ∀ l < 2 ^ k, ∀ n : ℝ × ℝ, nearestLabel cst (cst.getD l 0 + σ * (n.1 + Complex.I * n.2)) ≠ l → n ∈ E l) : symbolErrorProb cst σ ≤ p := by
  unfold symbolErrorProb
  rw [hlen]
  have hp : (0 : ℝ) < (2 ^ k : ℕ) := by exact_mod_cast Nat.two_pow_pos k
  rw [div_le_iff₀ hp]
  calc _ ≤ ∑ l ∈ range (2 ^ k), p := sum_le_sum fun l hl => (measureReal_mono (h l (mem_range.1 hl))).trans (hE l (mem_range.1 hl)).2
    _ = _ := by rw [sum_const, card_range, nsmul_eq_mul, mul_comm]

/-- C141, every constellation: a wrong symbol has at least one wrong bit and at most all. -/
theorem C141_bits_symbols {cst : List ℂ} {k : Nat} (hlen : cst.length = 2 ^ k) (hk : 0 < k) (σ : ℝ) :
    symbolErrorProb cst σ / k ≤ bitErrorProb cst k σ ∧ bitErrorProb cst k σ ≤ symbolErrorProb cst σ := by
  have hne : cst ≠ [] := by
    rintro rfl
    have := Nat.two_pow_pos k
    simp at hlen
    omega
  have hkR : (0 : ℝ) < k := by exact_mod_cast hk
  have hp : (0 : ℝ) < 2 ^ k := by positivity
  have hb : ∀ l ∈ range (2 ^ k), noise2.real {n : ℝ × ℝ | nearestLabel cst (cst.getD l 0 + σ * (n.1 + Complex.I * n.2)) ≠ l} ≤ ∫ n, symWrong cst k σ l n ∂noise2 ∧
      ∫ n, symWrong cst k σ l n ∂noise2 ≤ k * noise2.real {n : ℝ × ℝ | nearestLabel cst (cst.getD l 0 + σ * (n.1 + Complex.I * n.2)) ≠ l} := by
    intro l hl
    rw [mem_range] at hl
    have hm := wrong_measurable hne σ l
    rw [← integral_indicator_one hm, ← integral_const_mul]
    constructor
    · refine integral_mono ((integrable_const (1 : ℝ)).indicator hm) (symWrong_integrable hne k σ l) fun n => ?_
      by_cases hn : nearestLabel cst (cst.getD l 0 + σ * (n.1 + Complex.I * n.2)) = l
      · rw [Set.indicator_of_notMem (by simpa using hn)]
        exact (symWrong_bound cst k σ l n).1
      · rw [Set.indicator_of_mem (by exact hn)]
        have := labelDiff_pos hl (by have := (nearestLabel_mem hne (cst.getD l 0 + σ * (n.1 + Complex.I * n.2))).1; omega) (Ne.symm hn)
        show (1 : ℝ) ≤ _
        unfold symWrong
        exact_mod_cast this
    · refine integral_mono (symWrong_integrable hne k σ l) (((integrable_const (1 : ℝ)).indicator hm).const_mul _) fun n => ?_
      dsimp only
      by_cases hn : nearestLabel cst (cst.getD l 0 + σ * (n.1 + Complex.I * n.2)) = l
      · have : symWrong cst k σ l n = 0 := by unfold symWrong; rw [hn, labelDiff_self]; simp
        rw [this]
        exact mul_nonneg (by positivity) (Set.indicator_nonneg (fun _ _ => zero_le_one) _)
      · rw [Set.indicator_of_mem (by exact hn)]
        simpa using (symWrong_bound cst k σ l n).2
  unfold symbolErrorProb bitErrorProb
  rw [hlen]
  push_cast
  rw [div_div]
  constructor
  · exact div_le_div_of_nonneg_right (sum_le_sum fun l hl => (hb l hl).1) (by positivity)
  · rw [div_le_div_iff₀ (by positivity) (by positivity), mul_comm ((2 : ℝ) ^ k) k, ← mul_assoc]
    refine mul_le_mul_of_nonneg_right ?_ hp.le
    rw [mul_comm _ (k : ℝ), mul_sum]
    exact sum_le_sum fun l hl => (hb l hl).2

/-- C141, PSK with `2 ^ b` points: the symbol error probability is `Q (√(2 SNR) sin (π / 2^b))` up to a factor of two. -/
theorem C141_psk (b : Nat) (hb : 1 ≤ b) : ∃ s, pskModem (2 ^ b) = .ok s ∧ ∀ x : ℝ, 0 < x →
    qFunction (Real.sqrt (2 * x) * Real.sin (Real.pi / (2 ^ b : ℕ))) ≤ symbolErrorProb s.constellation (Real.sqrt (s.Es / (2 * x))) ∧
    symbolErrorProb s.constellation (Real.sqrt (s.Es / (2 * x))) ≤ 2 * qFunction (Real.sqrt (2 * x) * Real.sin (Real.pi / (2 ^ b : ℕ))) := by
  obtain ⟨s, h1, -, h3, h4, h5, h6, h7, h8, -⟩ := C64_psk b hb
  refine ⟨s, h1, fun x hx => ?_⟩
  obtain ⟨hσ, hinv⟩ := inv_sigma (Es := s.Es) (by rw [h8]; norm_num) hx
  rw [h8, div_one] at hinv
  have hpos : 0 < 2 ^ b := Nat.two_pow_pos b
  have hM : 2 ≤ 2 ^ b := by
    calc 2 = 2 ^ 1 := rfl
      _ ≤ _ := Nat.pow_le_pow_right (by norm_num) hb
  have hMR : (2 : ℝ) ≤ (2 ^ b : ℕ) := by exact_mod_cast hM
  have hpi := Real.pi_pos
  set α := 2 * (Real.pi / (2 ^ b : ℕ)) with hα
  have hα0 : 0 < α := by positivity
  have hα2 : α / 2 = Real.pi / (2 ^ b : ℕ) := by rw [hα]; ring
  have hαpi : α / 2 ≤ Real.pi / 2 := by
    rw [hα2]; exact div_le_div_of_nonneg_left hpi.le (by norm_num) hMR
  have hsin : 0 < Real.sin (α / 2) := Real.sin_pos_of_pos_of_lt_pi (by linarith) (by linarith)
  set σ := Real.sqrt (s.Es / (2 * x)) with hσd
  have hcmem : ∀ l < 2 ^ b, s.constellation.getD l 0 ∈ s.constellation := fun l hl => by rw [List.getD_eq_getElem _ _ (by rw [h4]; exact hl)]; exact List.getElem_mem _
  have hcn : ∀ l < 2 ^ b, ‖s.constellation.getD l 0‖ = 1 := fun l hl => h7 _ (hcmem l hl)
  have hw : ∀ l < 2 ^ b, ∀ ε : ℝ, (ε = 1 ∨ ε = -1) → ‖s.constellation.getD l 0 * Complex.exp ((ε * α : ℝ) * Complex.I) - s.constellation.getD l 0‖ = 2 * Real.sin (α / 2) := by
    intro l hl ε hε
    rw [← mul_sub_one, norm_mul, hcn l hl, one_mul, mul_comm _ Complex.I, Complex.norm_exp_I_mul_ofReal_sub_one]
    rcases hε with rfl | rfl
    · rw [one_mul, Real.norm_of_nonneg (by positivity)]
    · rw [show -1 * α / 2 = -(α / 2) by ring, Real.sin_neg, mul_neg, norm_neg, Real.norm_of_nonneg (by positivity)]
  have hpe : ∀ l < 2 ^ b, ∀ ε : ℝ, (ε = 1 ∨ ε = -1) → noise2.real {n | ‖(s.constellation.getD l 0 + σ * (n.1 + Complex.I * n.2)) - s.constellation.getD l 0 * Complex.exp ((ε * α : ℝ) * Complex.I)‖ ≤
      ‖(s.constellation.getD l 0 + σ * (n.1 + Complex.I * n.2)) - s.constellation.getD l 0‖} = qFunction (Real.sqrt (2 * x) * Real.sin (Real.pi / (2 ^ b : ℕ))) := by
    intro l hl ε hε
    have hne : s.constellation.getD l 0 * Complex.exp ((ε * α : ℝ) * Complex.I) - s.constellation.getD l 0 ≠ 0 := by
      rw [← norm_pos_iff, hw l hl ε hε]; positivity
    have := (pairwise_error hσ hne (s.constellation.getD l 0)).1
    rw [add_sub_cancel, hw l hl ε hε] at this
    rw [this, ← hα2, ← hinv]
    congr 1
    rw [hσd, h8]
    field_simp
  have hpl : ∀ l < 2 ^ b, noise2.real {n | ‖(s.constellation.getD l 0 + σ * (n.1 + Complex.I * n.2)) - s.constellation.getD l 0 * Complex.exp (((1 : ℝ) * α : ℝ) * Complex.I)‖ <
      ‖(s.constellation.getD l 0 + σ * (n.1 + Complex.I * n.2)) - s.constellation.getD l 0‖} = qFunction (Real.sqrt (2 * x) * Real.sin (Real.pi / (2 ^ b : ℕ))) := by
    intro l hl
    have hne : s.constellation.getD l 0 * Complex.exp (((1 : ℝ) * α : ℝ) * Complex.I) - s.constellation.getD l 0 ≠ 0 := by
      rw [← norm_pos_iff, hw l hl 1 (Or.inl rfl)]; positivity
    have := (pairwise_error hσ hne (s.constellation.getD l 0)).2
    rw [add_sub_cancel, hw l hl 1 (Or.inl rfl)] at this
    rw [this, ← hα2, ← hinv]
    congr 1
    rw [hσd, h8]
    field_simp
  have hne0 : s.constellation ≠ [] := by intro e; rw [e] at h4; simp at h4; omega
  constructor
  · unfold symbolErrorProb
    rw [h4]
    have hp : (0 : ℝ) < (2 ^ b : ℕ) := by exact_mod_cast hpos
    rw [le_div_iff₀ hp]
    calc _ = ∑ l ∈ range (2 ^ b), qFunction (Real.sqrt (2 * x) * Real.sin (Real.pi / (2 ^ b : ℕ))) := by rw [sum_const, card_range, nsmul_eq_mul, mul_comm]
      _ ≤ _ := sum_le_sum fun l hl => by
        rw [mem_range] at hl
        rw [← hpl l hl]
        refine measureReal_mono fun n hn e => ?_
        obtain ⟨m1, m2⟩ := nearestLabel_mem hne0 (s.constellation.getD l 0 + σ * (n.1 + Complex.I * n.2))
        have hin : s.constellation.getD l 0 * Complex.exp (((1 : ℝ) * α : ℝ) * Complex.I) ∈ s.constellation := by
          rw [h6, mul_pow, (h6 _).1 (hcmem l hl), one_mul, ← Complex.exp_nat_mul, Complex.exp_eq_one_iff]
          refine ⟨1, ?_⟩
          rw [hα]
          push_cast
          have : ((2 : ℂ) ^ b) ≠ 0 := pow_ne_zero _ (by norm_num)
          field_simp
        have := m2 _ hin
        rw [e] at this
        exact absurd hn (not_lt.2 this)
  refine ser_le_event h4 (fun l => {n | ‖(s.constellation.getD l 0 + σ * (n.1 + Complex.I * n.2)) - s.constellation.getD l 0 * Complex.exp (((1 : ℝ) * α : ℝ) * Complex.I)‖ ≤
      ‖(s.constellation.getD l 0 + σ * (n.1 + Complex.I * n.2)) - s.constellation.getD l 0‖} ∪
      {n | ‖(s.constellation.getD l 0 + σ * (n.1 + Complex.I * n.2)) - s.constellation.getD l 0 * Complex.exp (((-1 : ℝ) * α : ℝ) * Complex.I)‖ ≤
      ‖(s.constellation.getD l 0 + σ * (n.1 + Complex.I * n.2)) - s.constellation.getD l 0‖}) (fun l hl => ⟨?_, ?_⟩) ?_
  · exact (measurableSet_le (by fun_prop) (by fun_prop)).union (measurableSet_le (by fun_prop) (by fun_prop))
  · refine (measureReal_union_le _ _).trans ?_
    rw [hpe l hl 1 (Or.inl rfl), hpe l hl (-1) (Or.inr rfl)]
    linarith
  · intro l hl n hn
    set y := s.constellation.getD l 0 + σ * (n.1 + Complex.I * n.2) with hy
    obtain ⟨m1, m2⟩ := nearestLabel_mem hne0 y
    set m := nearestLabel s.constellation y with hmd
    rw [h4] at m1
    have hcl := m2 _ (hcmem l hl)
    set c := s.constellation.getD l 0 with hcd
    set c' := s.constellation.getD m 0 with hcd'
    have hc0 : c ≠ 0 := by intro e; have := hcn l hl; rw [← hcd, e, norm_zero] at this; norm_num at this
    have hroot : (c' / c) ^ 2 ^ b = 1 := by rw [div_pow, (h6 _).1 (hcmem m m1), (h6 _).1 (hcmem l hl), div_one]
    have hprim := Complex.isPrimitiveRoot_exp (2 ^ b) hpos.ne'
    have : NeZero (2 ^ b) := ⟨hpos.ne'⟩
    obtain ⟨j, hj, hj2⟩ := hprim.eq_pow_of_pow_eq_one hroot
    have hj0 : 1 ≤ j := by
      rcases Nat.eq_zero_or_pos j with h0 | h0
      · rw [h0, pow_zero] at hj2
        have e : c' = c := by rw [eq_comm, div_eq_one_iff_eq hc0] at hj2; exact hj2
        exact absurd (sub_eq_zero.2 e) (getD_inj h5 (by omega) (by omega) (Ne.symm hn))
      · exact h0
    have hc' : c' = c * Complex.exp ((j * α : ℝ) * Complex.I) := by
      rw [show c' = c * (c' / c) by field_simp, ← hj2, ← Complex.exp_nat_mul]
      congr 2
      rw [hα]
      push_cast
      ring
    rw [hc', rotate_closer (hcn l hl)] at hcl
    have ht1 : α / 2 ≤ j * α / 2 := by
      have : (1 : ℝ) ≤ j := by exact_mod_cast hj0
      nlinarith
    have ht2 : j * α / 2 ≤ Real.pi - α / 2 := by
      have : (j : ℝ) + 1 ≤ (2 ^ b : ℕ) := by exact_mod_cast hj
      have e : (2 ^ b : ℕ) * (α / 2) = Real.pi := by rw [hα2]; field_simp
      nlinarith
    have hs : 0 < Real.sin (j * α / 2) := Real.sin_pos_of_pos_of_lt_pi (by linarith) (by linarith)
    have hg := nonneg_of_mul_nonneg_right hcl hs
    rcases cone hα0 ht1 ht2 hg with h | h
    · left
      show ‖y - c * _‖ ≤ ‖y - c‖
      rw [rotate_closer (hcn l hl), one_mul]
      exact mul_nonneg hsin.le h
    · right
      show ‖y - c * _‖ ≤ ‖y - c‖
      rw [rotate_closer (hcn l hl), show -1 * α / 2 = -(α / 2) by ring, Real.sin_neg, Real.cos_neg]
      nlinarith

/-- C141, PSK: the lower bound on bits that follows from the symbols (the upper one is `C125_psk`). -/
theorem C141_psk_bits (b : Nat) (hb : 1 ≤ b) : ∃ s, pskModem (2 ^ b) = .ok s ∧ ∀ x : ℝ, 0 < x →
    qFunction (Real.sqrt (2 * x) * Real.sin (Real.pi / (2 ^ b : ℕ))) / b ≤ bitErrorProb s.constellation s.nbits (Real.sqrt (s.Es / (2 * x))) := by
  obtain ⟨s, h1, H⟩ := C141_psk b hb
  obtain ⟨s', h1', -, h3, h4, -⟩ := C64_psk b hb
  obtain rfl := Except.ok.inj (h1.symm.trans h1')
  refine ⟨s, h1, fun x hx => ?_⟩
  rw [h3]
  exact (div_le_div_of_nonneg_right (H x hx).1 (by positivity)).trans (C141_bits_symbols h4 (by omega) _).1

/-- 8-PSK at 10 dB. -/
example : ∃ s, pskModem 8 = .ok s ∧ symbolErrorProb s.constellation (Real.sqrt (s.Es / (2 * 10))) ≤ 2 * qFunction (Real.sqrt 20 * Real.sin (Real.pi / 8)) := by
  obtain ⟨s, h1, H⟩ := C141_psk 3 (by norm_num)
  refine ⟨s, h1, ?_⟩
  have := (H 10 (by norm_num)).2
  norm_num at this ⊢
  exact this

end Verif
