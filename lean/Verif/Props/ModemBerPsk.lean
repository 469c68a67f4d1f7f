import Verif.Props.ModemBer
/-
C125: the bit error probability of the PSK and QAM modems.
-/
namespace Verif
open MeasureTheory ProbabilityTheory Finset Filter Topology

/-- The standard deviation of each component of the noise at SNR `x` (linear) for symbols of energy `Es`, inverted. -/
theorem inv_sigma {Es x : ℝ} (hE : 0 < Es) (hx : 0 < x) : 0 < Real.sqrt (Es / (2 * x)) ∧ 1 / Real.sqrt (Es / (2 * x)) = Real.sqrt (2 * x / Es) := by
  refine ⟨Real.sqrt_pos.2 (by positivity), ?_⟩
  rw [one_div, ← Real.sqrt_inv, inv_div]

/-- C125, BPSK: the bit error probability is `Q (√(2 SNR))`. -/
theorem C125_bpsk : ∃ s, pskModem 2 = .ok s ∧ ∀ x : ℝ, 0 < x → bitErrorProb s.constellation s.nbits (Real.sqrt (s.Es / (2 * x))) = qFunction (Real.sqrt (2 * x)) := by
  obtain ⟨s, h1, -, h3, h4, h5, h6, -, h8, -⟩ := C64_psk 1 le_rfl
  refine ⟨s, h1, fun x hx => ?_⟩
  obtain ⟨hσ, hinv⟩ := inv_sigma (Es := s.Es) (by rw [h8]; norm_num) hx
  rw [h8, div_one] at hinv
  have hpt : ∀ l < 2, s.constellation.getD l 0 = 1 ∨ s.constellation.getD l 0 = -1 := by
    intro l hl
    have : s.constellation.getD l 0 ^ 2 ^ 1 = 1 := (h6 _).1 (by rw [List.getD_eq_getElem _ _ (by rw [h4]; exact hl)]; exact List.getElem_mem _)
    exact sq_eq_one_iff.1 (by simpa using this)
  have hd : ‖s.constellation.getD 1 0 - s.constellation.getD 0 0‖ = 2 := by
    have hne := getD_inj h5 (show 0 < s.constellation.length by rw [h4]; norm_num) (show 1 < s.constellation.length by rw [h4]; norm_num) (by norm_num)
    rcases hpt 0 (by norm_num) with e0 | e0 <;> rcases hpt 1 (by norm_num) with e1 | e1 <;> rw [e0, e1] at hne ⊢ <;> first | exact absurd (sub_self _) hne | (norm_num; done)
  have hd' : ‖s.constellation.getD 0 0 - s.constellation.getD 1 0‖ = 2 := by rw [norm_sub_rev, hd]
  have hL : labelDiff 1 0 1 = 1 := by decide
  have hL' : labelDiff 1 1 0 = 1 := by decide
  have harg : (2 : ℝ) / (2 * Real.sqrt (s.Es / (2 * x))) = Real.sqrt (2 * x) := by
    rw [← hinv, h8]; field_simp
  rw [h3]
  apply le_antisymm
  · have := C125_union h4 h5 hσ
    simp only [pow_one, sum_range_succ, range_zero, sum_empty, zero_add] at this
    rw [show (range 2).erase 0 = {1} by decide, show (range 2).erase 1 = {0} by decide, sum_singleton, sum_singleton, hd, hd', hL, hL', harg] at this
    refine this.trans (le_of_eq ?_)
    push_cast
    ring
  · have := C125_lower h4 h5 hσ (fun l => 1 - l) (by decide)
    simp only [pow_one, sum_range_succ, range_zero, sum_empty, zero_add, Nat.sub_zero, Nat.sub_self] at this
    rw [hd, hd', harg] at this
    refine le_trans (le_of_eq ?_) this
    push_cast
    ring

/-- A sinusoid that is not negative somewhere between two points less than half a turn apart is not negative at one of them. -/
theorem cone {a b α t : ℝ} (hα : 0 < α) (h1 : α / 2 ≤ t) (h2 : t ≤ Real.pi - α / 2) (hg : 0 ≤ -a * Real.sin t + b * Real.cos t) :
    0 ≤ -a * Real.sin (α / 2) + b * Real.cos (α / 2) ∨ 0 ≤ -a * Real.sin (α / 2) - b * Real.cos (α / 2) := by
  by_contra hcon
  push Not at hcon
  obtain ⟨c1, c2⟩ := hcon
  rcases eq_or_lt_of_le h1 with e | h1
  · rw [e] at c1
    linarith
  · have s1 : 0 < Real.sin (t - α / 2) := Real.sin_pos_of_pos_of_lt_pi (by linarith) (by linarith)
    have s2 : 0 ≤ Real.sin (t + α / 2) := Real.sin_nonneg_of_nonneg_of_le_pi (by linarith) (by linarith)
    have s3 : 0 ≤ Real.sin α := Real.sin_nonneg_of_nonneg_of_le_pi hα.le (by linarith)
    have key : (-a * Real.sin t + b * Real.cos t) * Real.sin α =
        (-a * Real.sin (α / 2) + b * Real.cos (α / 2)) * Real.sin (t + α / 2) + (-a * Real.sin (α / 2) - b * Real.cos (α / 2)) * Real.sin (t - α / 2) := by
      have e : Real.sin α = 2 * Real.sin (α / 2) * Real.cos (α / 2) := by rw [← Real.sin_two_mul]; congr 1; ring
      rw [e, Real.sin_add, Real.sin_sub]
      ring
    have l1 : 0 ≤ (-a * Real.sin t + b * Real.cos t) * Real.sin α := mul_nonneg hg s3
    have l2 := mul_nonpos_of_nonpos_of_nonneg c1.le s2
    have l3 := mul_neg_of_neg_of_pos c2 s1
    linarith

theorem rotate_closer {c y : ℂ} (hc : ‖c‖ = 1) (θ : ℝ) :
    ‖y - c * Complex.exp (θ * Complex.I)‖ ≤ ‖y - c‖ ↔ 0 ≤ Real.sin (θ / 2) * (-(y / c).re * Real.sin (θ / 2) + (y / c).im * Real.cos (θ / 2)) := by
  have hc0 : c ≠ 0 := by intro e; rw [e, norm_zero] at hc; norm_num at hc
  set u := y / c with hu
  have hy : y = c * u := by rw [hu]; field_simp
  have e1 : ‖y - c * Complex.exp (θ * Complex.I)‖ = ‖u - Complex.exp (θ * Complex.I)‖ := by rw [hy, ← mul_sub, norm_mul, hc, one_mul]
  have e2 : ‖y - c‖ = ‖u - 1‖ := by rw [hy, ← mul_sub_one, norm_mul, hc, one_mul]
  rw [e1, e2, ← abs_norm, ← abs_norm (u - 1), ← sq_le_sq, ← Complex.normSq_eq_norm_sq, ← Complex.normSq_eq_norm_sq, Complex.normSq_apply, Complex.normSq_apply]
  simp only [Complex.sub_re, Complex.sub_im, Complex.exp_ofReal_mul_I_re, Complex.exp_ofReal_mul_I_im, Complex.one_re, Complex.one_im]
  have d1 : Real.cos θ = 1 - 2 * Real.sin (θ / 2) ^ 2 := by
    have := Real.cos_two_mul (θ / 2)
    have h2 := Real.sin_sq_add_cos_sq (θ / 2)
    rw [show 2 * (θ / 2) = θ by ring] at this
    linarith
  have d2 : Real.sin θ = 2 * Real.sin (θ / 2) * Real.cos (θ / 2) := by rw [← Real.sin_two_mul]; congr 1; ring
  have d3 := Real.sin_sq_add_cos_sq θ
  have : (u.re - 1) * (u.re - 1) + (u.im - 0) * (u.im - 0) - ((u.re - Real.cos θ) * (u.re - Real.cos θ) + (u.im - Real.sin θ) * (u.im - Real.sin θ)) =
      4 * (Real.sin (θ / 2) * (-u.re * Real.sin (θ / 2) + u.im * Real.cos (θ / 2))) := by
    have : (u.re - 1) * (u.re - 1) + (u.im - 0) * (u.im - 0) - ((u.re - Real.cos θ) * (u.re - Real.cos θ) + (u.im - Real.sin θ) * (u.im - Real.sin θ)) =
        1 - (Real.sin θ ^ 2 + Real.cos θ ^ 2) + 2 * u.re * (Real.cos θ - 1) + 2 * u.im * Real.sin θ := by ring
    rw [this, d3, d1, d2]
    ring
  constructor <;> intro h <;> linarith

/-- C125, PSK with `2 ^ b` points: at most `2 Q (√(2 SNR) sin (π / 2^b))`. -/
theorem C125_psk (b : Nat) (hb : 1 ≤ b) : ∃ s, pskModem (2 ^ b) = .ok s ∧ ∀ x : ℝ, 0 < x →
    bitErrorProb s.constellation s.nbits (Real.sqrt (s.Es / (2 * x))) ≤ 2 * qFunction (Real.sqrt (2 * x) * Real.sin (Real.pi / (2 ^ b : ℕ))) := by
  obtain ⟨s, h1, -, h3, h4, h5, h6, h7, h8, -⟩ := C64_psk b hb
  refine ⟨s, h1, fun x hx => ?_⟩
  obtain ⟨hσ, hinv⟩ := inv_sigma (Es := s.Es) (by rw [h8]; norm_num) hx
  rw [h8, div_one] at hinv
  have hpos : 0 < 2 ^ b := Nat.two_pow_pos b
  have hM : 2 ≤ 2 ^ b := by
    calc 2 = 2 ^ 1 := rfl
      _ ≤ _ := Nat.pow_le_pow_right (by norm_num) hb
  have hMR : (2 : ℝ) ≤ (2 ^ b : ℕ) := by exact_mod_cast hM
  have hpi := Real.pi_pos
  set α := 2 * (Real.pi / (2 ^ b : ℕ)) with hα
  have hα0 : 0 < α := by positivity
  have hα2 : α / 2 = Real.pi / (2 ^ b : ℕ) := by rw [hα]; ring
  have hαpi : α / 2 ≤ Real.pi / 2 := by
    rw [hα2]; exact div_le_div_of_nonneg_left hpi.le (by norm_num) hMR
  have hsin : 0 < Real.sin (α / 2) := Real.sin_pos_of_pos_of_lt_pi (by linarith) (by linarith)
  set σ := Real.sqrt (s.Es / (2 * x)) with hσd
  rw [h3]
  have hcmem : ∀ l < 2 ^ b, s.constellation.getD l 0 ∈ s.constellation := fun l hl => by rw [List.getD_eq_getElem _ _ (by rw [h4]; exact hl)]; exact List.getElem_mem _
  have hcn : ∀ l < 2 ^ b, ‖s.constellation.getD l 0‖ = 1 := fun l hl => h7 _ (hcmem l hl)
  have hw : ∀ l < 2 ^ b, ∀ ε : ℝ, (ε = 1 ∨ ε = -1) → ‖s.constellation.getD l 0 * Complex.exp ((ε * α : ℝ) * Complex.I) - s.constellation.getD l 0‖ = 2 * Real.sin (α / 2) := by
    intro l hl ε hε
    rw [← mul_sub_one, norm_mul, hcn l hl, one_mul, mul_comm _ Complex.I, Complex.norm_exp_I_mul_ofReal_sub_one]
    rcases hε with rfl | rfl
    · rw [one_mul, Real.norm_of_nonneg (by positivity)]
    · rw [show -1 * α / 2 = -(α / 2) by ring, Real.sin_neg, mul_neg, norm_neg, Real.norm_of_nonneg (by positivity)]
  have hpe : ∀ l < 2 ^ b, ∀ ε : ℝ, (ε = 1 ∨ ε = -1) → noise2.real {n | ‖(s.constellation.getD l 0 + σ * (n.1 + Complex.I * n.2)) - s.constellation.getD l 0 * Complex.exp ((ε * α : ℝ) * Complex.I)‖ ≤
      ‖(s.constellation.getD l 0 + σ * (n.1 + Complex.I * n.2)) - s.constellation.getD l 0‖} = qFunction (Real.sqrt (2 * x) * Real.sin (Real.pi / (2 ^ b : ℕ))) := by
    intro l hl ε hε
    have hne : s.constellation.getD l 0 * Complex.exp ((ε * α : ℝ) * Complex.I) - s.constellation.getD l 0 ≠ 0 := by
      rw [← norm_pos_iff, hw l hl ε hε]; positivity
    have := (pairwise_error hσ hne (s.constellation.getD l 0)).1
    rw [add_sub_cancel, hw l hl ε hε] at this
    rw [this, ← hα2, ← hinv]
    congr 1
    rw [hσd, h8]
    field_simp
  refine ber_le_event h4 (by omega) (fun l => {n | ‖(s.constellation.getD l 0 + σ * (n.1 + Complex.I * n.2)) - s.constellation.getD l 0 * Complex.exp (((1 : ℝ) * α : ℝ) * Complex.I)‖ ≤
      ‖(s.constellation.getD l 0 + σ * (n.1 + Complex.I * n.2)) - s.constellation.getD l 0‖} ∪
      {n | ‖(s.constellation.getD l 0 + σ * (n.1 + Complex.I * n.2)) - s.constellation.getD l 0 * Complex.exp (((-1 : ℝ) * α : ℝ) * Complex.I)‖ ≤
      ‖(s.constellation.getD l 0 + σ * (n.1 + Complex.I * n.2)) - s.constellation.getD l 0‖}) (fun l hl => ⟨?_, ?_⟩) ?_
  · exact (measurableSet_le (by fun_prop) (by fun_prop)).union (measurableSet_le (by fun_prop) (by fun_prop))
  · refine (measureReal_union_le _ _).trans ?_
    rw [hpe l hl 1 (Or.inl rfl), hpe l hl (-1) (Or.inr rfl)]
    linarith
  · intro l hl n hn
    set y := s.constellation.getD l 0 + σ * (n.1 + Complex.I * n.2) with hy
    have hne0 : s.constellation ≠ [] := by intro e; rw [e] at h4; simp at h4; omega
    obtain ⟨m1, m2⟩ := nearestLabel_mem hne0 y
    set m := nearestLabel s.constellation y with hmd
    rw [h4] at m1
    have hcl := m2 _ (hcmem l hl)
    set c := s.constellation.getD l 0 with hcd
    set c' := s.constellation.getD m 0 with hcd'
    have hc0 : c ≠ 0 := by intro e; have := hcn l hl; rw [← hcd, e, norm_zero] at this; norm_num at this
    have hroot : (c' / c) ^ 2 ^ b = 1 := by rw [div_pow, (h6 _).1 (hcmem m m1), (h6 _).1 (hcmem l hl), div_one]
    have hprim := Complex.isPrimitiveRoot_exp (2 ^ b) hpos.ne'
    have : NeZero (2 ^ b) := ⟨hpos.ne'⟩
    obtain ⟨j, hj, hj2⟩ := hprim.eq_pow_of_pow_eq_one hroot
    have hj0 : 1 ≤ j := by
      rcases Nat.eq_zero_or_pos j with h0 | h0
      · rw [h0, pow_zero] at hj2
        have e : c' = c := by rw [eq_comm, div_eq_one_iff_eq hc0] at hj2; exact hj2
        exact absurd (sub_eq_zero.2 e) (getD_inj h5 (by omega) (by omega) (Ne.symm hn))
      · exact h0
    have hc' : c' = c * Complex.exp ((j * α : ℝ) * Complex.I) := by
      rw [show c' = c * (c' / c) by field_simp, ← hj2, ← Complex.exp_nat_mul]
      congr 2
      rw [hα]
      push_cast
      ring
    rw [hc', rotate_closer (hcn l hl)] at hcl
    have ht1 : α / 2 ≤ j * α / 2 := by
      have : (1 : ℝ) ≤ j := by exact_mod_cast hj0
      nlinarith
    have ht2 : j * α / 2 ≤ Real.pi - α / 2 := by
      have : (j : ℝ) + 1 ≤ (2 ^ b : ℕ) := by exact_mod_cast hj
      have e : (2 ^ b : ℕ) * (α / 2) = Real.pi := by rw [hα2]; field_simp
      nlinarith
    have hs : 0 < Real.sin (j * α / 2) := Real.sin_pos_of_pos_of_lt_pi (by linarith) (by linarith)
    have hg := nonneg_of_mul_nonneg_right hcl hs
    rcases cone hα0 ht1 ht2 hg with h | h
    · left
      show ‖y - c * _‖ ≤ ‖y - c‖
      rw [rotate_closer (hcn l hl), one_mul]
      exact mul_nonneg hsin.le h
    · right
      show ‖y - c * _‖ ≤ ‖y - c‖
      rw [rotate_closer (hcn l hl), show -1 * α / 2 = -(α / 2) by ring, Real.sin_neg, Real.cos_neg]
      nlinarith

/-- C125, QAM with `4 ^ h` points: at most `4 Q (√(3 SNR / (4^h - 1)))`. -/
theorem C125_qam (h : Nat) (hh : 1 ≤ h) : ∃ s, qamModem (4 ^ h) = .ok s ∧ ∀ x : ℝ, 0 < x →
    bitErrorProb s.constellation s.nbits (Real.sqrt (s.Es / (2 * x))) ≤ 4 * qFunction (Real.sqrt (3 * x / ((4 : ℝ) ^ h - 1))) := by
  obtain ⟨s, s1, sE, H⟩ := qam_box h hh
  obtain ⟨s', h1', hcons, hnb, -⟩ := C93_qam h hh
  obtain rfl := Except.ok.inj (s1.symm.trans h1')
  refine ⟨s, s1, fun x hx => ?_⟩
  have h4 : (4 : ℝ) ^ 1 ≤ 4 ^ h := pow_le_pow_right₀ (by norm_num) hh
  have hM : (0 : ℝ) < 4 ^ h - 1 := by linarith
  obtain ⟨hσ, hinv⟩ := inv_sigma (Es := s.Es) (by rw [sE]; positivity) hx
  have harg : 1 / Real.sqrt (s.Es / (2 * x)) = Real.sqrt (3 * x / ((4 : ℝ) ^ h - 1)) := by
    rw [hinv, sE]
    congr 1
    field_simp
  rw [← harg]
  set σ := Real.sqrt (s.Es / (2 * x)) with hσd
  set E : Fin 4 → Set (ℝ × ℝ) := fun i => {n | 1 / σ ≤ (![1, -1, 0, 0] i : ℝ) * n.1 + (![0, 0, 1, -1] i : ℝ) * n.2} with hE
  have hEm : ∀ i, MeasurableSet (E i) := fun i => measurableSet_le (by fun_prop) (by fun_prop)
  have hEp : ∀ i, noise2.real (E i) = qFunction (1 / σ) := by
    intro i
    have hlaw := noise2_direction (u := (![1, -1, 0, 0] i : ℝ)) (v := (![0, 0, 1, -1] i : ℝ)) (by fin_cases i <;> norm_num)
    rw [← q_ici, ← hlaw.map_eq, map_measureReal_apply (by fun_prop) measurableSet_Ici]
    rfl
  refine ber_le_event hcons.len (by omega) (fun _ => ⋃ i ∈ (univ : Finset (Fin 4)), E i) (fun l _ => ⟨Finset.measurableSet_biUnion _ fun i _ => hEm i, ?_⟩) ?_
  · refine (measureReal_biUnion_finset_le _ _).trans ?_
    rw [sum_congr rfl fun i _ => hEp i, sum_const, card_univ, Fintype.card_fin, nsmul_eq_mul]
    norm_num
  · intro l hl n hn
    by_contra hcon
    apply hn
    simp only [Set.mem_iUnion, mem_univ, exists_prop, true_and, not_exists] at hcon
    have b0 := hcon 0
    have b1 := hcon 1
    have b2 := hcon 2
    have b3 := hcon 3
    simp only [hE, Set.mem_ofPred_eq, not_le, Matrix.cons_val] at b0 b1 b2 b3
    have hb1 : |σ * n.1| < 1 := by
      rw [abs_mul, abs_of_pos hσ, ← lt_div_iff₀' hσ, abs_lt]
      constructor <;> linarith
    have hb2 : |σ * n.2| < 1 := by
      rw [abs_mul, abs_of_pos hσ, ← lt_div_iff₀' hσ, abs_lt]
      constructor <;> linarith
    have hkne : toBits s.nbits l ≠ [] := by
      intro e
      have := congrArg List.length e
      simp at this
      omega
    obtain ⟨syms, m1, m2, -, m4⟩ := H (toBits s.nbits l) 0 (fun x hx => toBits_lt_two hx) hkne (by rw [toBits_length, hnb])
    have hm : 2 ≤ s.m := by
      rw [hcons.pow, hnb]
      calc 2 = 2 ^ 1 := rfl
        _ ≤ _ := Nat.pow_le_pow_right (by norm_num) (by omega)
    rw [modulate_ok hcons hm (fun x hx => toBits_lt_two hx) hkne (N := 1) (by simp)] at m1
    have hin : inSyms s.nbits (toBits s.nbits l) = [l] := by
      unfold inSyms
      rw [toBits_length, Nat.div_self (by omega)]
      simp [List.take_of_length_le, bitarray2dec_toBits hl]
    rw [hin] at m1
    have hsy : syms = [s.constellation.getD l 0] := (Except.ok.inj m1).symm
    have hdem := m4 [s.constellation.getD l 0 + σ * (n.1 + Complex.I * n.2)] (by rw [hsy]; rfl) (by
      intro i hi
      rw [hsy] at hi ⊢
      have : i = 0 := by simpa using hi
      subst this
      simp only [List.getD_cons_zero, add_sub_cancel_left]
      constructor
      · simpa using hb1
      · simpa using hb2)
    unfold demodulate at hdem
    rw [if_pos rfl, demodHard_ok hcons] at hdem
    simp only [List.map_cons, List.map_nil, List.flatMap_cons, List.flatMap_nil, List.append_nil, Except.map, Except.ok.injEq, DemodOut.bits.injEq] at hdem
    rw [← nearestIdx_eq hcons]
    have hlt : nearestIdx s (s.constellation.getD l 0 + σ * (n.1 + Complex.I * n.2)) < 2 ^ s.nbits := by
      rw [← hcons.len]; exact (nearestIdx_spec hcons _).1
    rw [← bitarray2dec_toBits hlt, hdem, bitarray2dec_toBits hl]

/-- `Q` is decreasing and at most `exp (-x² / 2)`. -/
theorem q_le {x : ℝ} (hx : 0 ≤ x) : qFunction x ≤ Real.exp (-(x ^ 2 / 2)) := by
  have hl : HasLaw (id : ℝ → ℝ) (gaussianReal 0 1) (gaussianReal 0 1) := ⟨aemeasurable_id, Measure.map_id⟩
  have hm : mgf id (gaussianReal 0 1) x = Real.exp (x ^ 2 / 2) := by rw [mgf_gaussianReal hl.map_eq]; simp
  have hi : Integrable (fun ω => Real.exp (x * id ω)) (gaussianReal 0 1) := by
    rw [← mgf_pos_iff, hm]; exact Real.exp_pos _
  have h1 := measure_ge_le_exp_mul_mgf (μ := gaussianReal 0 1) (X := id) x hx hi
  rw [hm, ← Real.exp_add] at h1
  rw [← q_ici]
  refine le_trans (le_of_eq rfl) (h1.trans (le_of_eq ?_))
  congr 1
  ring

/-- The draws of a simulation exist. -/
theorem fairDraws_exist : ∃ (Ω : Type) (_ : MeasurableSpace Ω) (P : Measure Ω) (b : Ω → ℕ → Int) (z : Ω → ℕ → ℝ), FairDraws P b z := by
  classical
  have hU : IsProbabilityMeasure (volume.restrict (Set.Ico (0 : ℝ) 1)) := ⟨by simp⟩
  set ν : ℕ ⊕ ℕ → Measure ℝ := Sum.elim (fun _ => volume.restrict (Set.Ico (0 : ℝ) 1)) (fun _ => gaussianReal 0 1) with hν
  have hp : ∀ j, IsProbabilityMeasure (ν j) := by
    rintro (i | i)
    · exact hU
    · exact inferInstanceAs (IsProbabilityMeasure (gaussianReal 0 1))
  have hg : Measurable fun x : ℝ => if x < 1 / 2 then (1 : Int) else 0 := Measurable.ite (measurableSet_lt measurable_id measurable_const) measurable_const measurable_const
  refine ⟨ℕ ⊕ ℕ → ℝ, inferInstance, Measure.infinitePi ν, fun ω i => if ω (Sum.inl i) < 1 / 2 then 1 else 0, fun ω i => ω (Sum.inr i), ?_, ?_, ?_, ?_, ?_⟩
  · intro ω i
    split <;> simp
  · intro i
    have := hg.comp (measurable_pi_apply (X := fun _ : ℕ ⊕ ℕ => ℝ) (Sum.inl i))
    simp only [Function.comp_def] at this
    exact this
  · intro i
    have e : {ω : ℕ ⊕ ℕ → ℝ | (if ω (Sum.inl i) < 1 / 2 then (1 : Int) else 0) = 1} = (fun ω => ω (Sum.inl i)) ⁻¹' Set.Iio (1 / 2) := by
      ext ω
      simp only [Set.mem_ofPred_eq, Set.mem_preimage, Set.mem_Iio]
      split <;> simp_all
    rw [e, (measurePreserving_eval_infinitePi ν (Sum.inl i)).measure_preimage measurableSet_Iio.nullMeasurableSet]
    simp only [hν, Sum.elim_inl]
    rw [Measure.restrict_apply measurableSet_Iio, Set.inter_comm, Set.Ico_inter_Iio, Real.volume_Ico, show min (1 : ℝ) (1 / 2) - 0 = 2⁻¹ by norm_num, ENNReal.ofReal_inv_of_pos (by norm_num)]
    norm_num
  · exact fun i => MeasurePreserving.hasLaw (measurePreserving_eval_infinitePi ν (Sum.inr i))
  · have := iIndepFun_infinitePi (P := ν) (X := fun (j : ℕ ⊕ ℕ) (x : ℝ) => Sum.elim (fun _ => ((if x < 1 / 2 then (1 : Int) else 0 : Int) : ℝ)) (fun _ => x) j) (by
      rintro (i | i)
      · exact (measurable_from_top (f := fun m : ℤ => (m : ℝ))).comp hg
      · exact measurable_id)
    convert this using 1
    funext j ω
    rcases j with i | i <;> rfl

/-- The hypotheses are met: a simulation of BPSK over an unfaded channel. -/
example : ∃ s ch, pskModem 2 = .ok s ∧ Siso.init none (.cplx 1, 0) = .ok ch ∧
    ∃ (Ω : Type) (_ : MeasurableSpace Ω) (P : Measure Ω) (b : Ω → ℕ → Int) (z : Ω → ℕ → ℝ), IsProbabilityMeasure P ∧ ∀ snr : ℝ,
      ∀ᵐ ω ∂P, ∃ ber : Nat → ℚ, (∀ j : Nat, ReportsBer (uncodedLink streamRng s) (fun _ n => n) (fun _ _ => 0) snr (1000 * (j + 1)) (10 * (j + 1)) 7 1 (ch, (b ω, z ω)) (ber j)) ∧
        Tendsto (fun j => (ber j : ℝ)) atTop (𝓝 (qFunction (Real.sqrt (2 * (10 : ℝ) ^ (snr / 10))))) := by
  obtain ⟨s, h1, h2⟩ := C125_bpsk
  obtain ⟨s', h1', hcons, hnb, -⟩ := C93_psk 1 le_rfl
  obtain rfl := Except.ok.inj (h1.symm.trans h1')
  obtain ⟨Ω, _, P, b, z, hd⟩ := fairDraws_exist
  have hch : Siso.init none (.cplx 1, 0) = .ok ⟨none, (.cplx 1, 0), true, none, none, none⟩ := by
    unfold Siso.init Siso.setFading
    simp [Num.toC, Num.isComplex]
  refine ⟨s, _, h1, hch, Ω, _, P, b, z, hd.indep.isProbabilityMeasure, fun snr => ?_⟩
  have hm : 2 ≤ s.m := by rw [hcons.pow, hnb]; norm_num
  have := C125_awgn hcons hm (fun _ n => n) (fun _ _ => 0) (ch := ⟨none, (.cplx 1, 0), true, none, none, none⟩) rfl rfl snr 7 hd
  filter_upwards [this] with ω hω
  rw [h2 _ (Real.rpow_pos_of_pos (by norm_num) _)] at hω
  refine hω (fun j => 1000 * (j + 1)) (fun j => 10 * (j + 1)) (fun j => by positivity) (fun j => by positivity) ?_ ?_
  · refine tendsto_atTop_mono (fun j => ?_) tendsto_natCast_atTop_atTop
    have : (0 : Int) ≤ j := by positivity
    show (j : Int) ≤ 1000 * (j + 1)
    omega
  · refine tendsto_atTop_mono (fun j => ?_) tendsto_natCast_atTop_atTop
    have : (0 : Int) ≤ j := by positivity
    show (j : Int) ≤ 10 * (j + 1)
    omega

end Verif
