import Verif.Props.WifiNoise
/-
C125: the exact bit error probability of the modems with four points.
-/
namespace Verif
open MeasureTheory ProbabilityTheory Finset

theorem labelDiff_two : ∀ l < 4, ∀ m < 4, labelDiff 2 l m = (if l / 2 ≠ m / 2 then 1 else 0) + (if l % 2 ≠ m % 2 then 1 else 0) := by decide

/-- A component of the noise. -/
theorem noise2_tail {u v : ℝ} (h : u ^ 2 + v ^ 2 = 1) {A σ : ℝ} (hσ : 0 < σ) {s : ℝ} (hs : s = 1 ∨ s = -1) :
    noise2.real {n | s * (A * s + σ * (u * n.1 + v * n.2)) < 0} = qFunction (A / σ) ∧ noise2 {n | A * s + σ * (u * n.1 + v * n.2) = 0} = 0 := by
  have hs2 : s * s = 1 := by rcases hs with rfl | rfl <;> norm_num
  have hl := noise2_direction (u := -s * u) (v := -s * v) (by
    rw [mul_pow, mul_pow, ← mul_add, h, neg_sq, sq, hs2, mul_one])
  constructor
  · unfold qFunction
    rw [← hl.map_eq, map_measureReal_apply (by fun_prop) measurableSet_Ioi]
    congr 1
    ext n
    simp only [Set.mem_ofPred_eq, Set.mem_preimage, Set.mem_Ioi]
    rw [div_lt_iff₀ hσ]
    have : s * (A * s + σ * (u * n.1 + v * n.2)) = A - (-s * u * n.1 + -s * v * n.2) * σ := by linear_combination A * hs2
    rw [this, sub_neg]
  · have h0 : gaussianReal 0 1 {A / σ} = 0 := by
      have := trivial
      exact measure_singleton _
    rw [← hl.map_eq, Measure.map_apply (by fun_prop) (measurableSet_singleton _)] at h0
    refine measure_mono_null ?_ h0
    intro n hn
    simp only [Set.mem_ofPred_eq, Set.mem_preimage, Set.mem_singleton_iff] at hn ⊢
    rw [eq_div_iff hσ.ne']
    linear_combination (-s) * hn + A * hs2

/-- Four points on two orthogonal axes, one bit on each. -/
theorem ber_quadrature {cst : List ℂ} (hlen : cst.length = 4) {p q A ε σ : ℝ} (hpq : p ^ 2 + q ^ 2 = 1) (hε : ε = 1 ∨ ε = -1) (hA : 0 < A) (hσ : 0 < σ)
    (h1 : ∀ l < 4, p * (cst.getD l 0).re + q * (cst.getD l 0).im = A * (1 - 2 * ((l / 2 : ℕ) : ℝ)))
    (h0 : ∀ l < 4, -ε * q * (cst.getD l 0).re + ε * p * (cst.getD l 0).im = A * (1 - 2 * ((l % 2 : ℕ) : ℝ))) :
    bitErrorProb cst 2 σ = qFunction (A / σ) := by
  have hε2 : ε ^ 2 = 1 := by rcases hε with rfl | rfl <;> norm_num
  have hne : cst ≠ [] := by rintro rfl; simp at hlen
  have hsgn : ∀ b < 2, (1 - 2 * ((b : ℕ) : ℝ) = 1 ∨ 1 - 2 * ((b : ℕ) : ℝ) = -1) := by
    intro b hb
    have : b = 0 ∨ b = 1 := by omega
    rcases this with rfl | rfl <;> norm_num
  -- the sign of a coordinate decides the bit
  have decide : ∀ (d : ℝ) (b : ℕ), b < 2 → (d - A * (1 - 2 * (b : ℝ))) ^ 2 ≤ (d - A * (1 - 2 * ((1 - b : ℕ) : ℝ))) ^ 2 → (0 < d → b = 0) ∧ (d < 0 → b = 1) := by
    intro d b hb h
    have : b = 0 ∨ b = 1 := by omega
    rcases this with rfl | rfl
    · refine ⟨fun _ => rfl, fun hd => ?_⟩
      norm_num at h
      nlinarith
    · refine ⟨fun hd => ?_, fun _ => rfl⟩
      norm_num at h
      nlinarith
  have near : ∀ y : ℂ, nearestLabel cst y < 4 ∧
      ((0 < p * y.re + q * y.im → nearestLabel cst y / 2 = 0) ∧ (p * y.re + q * y.im < 0 → nearestLabel cst y / 2 = 1)) ∧
      ((0 < -ε * q * y.re + ε * p * y.im → nearestLabel cst y % 2 = 0) ∧ (-ε * q * y.re + ε * p * y.im < 0 → nearestLabel cst y % 2 = 1)) := by
    intro y
    obtain ⟨m1, m2⟩ := nearestLabel_mem hne y
    set m := nearestLabel cst y with hm
    rw [hlen] at m1
    have hdist : ∀ l < 4, ‖y - cst.getD l 0‖ ^ 2 = (p * y.re + q * y.im - A * (1 - 2 * ((l / 2 : ℕ) : ℝ))) ^ 2 +
        (-ε * q * y.re + ε * p * y.im - A * (1 - 2 * ((l % 2 : ℕ) : ℝ))) ^ 2 := by
      intro l hl
      rw [← h1 l hl, ← h0 l hl, ← Complex.normSq_eq_norm_sq, Complex.normSq_apply]
      simp only [Complex.sub_re, Complex.sub_im]
      have e : ∀ a b : ℝ, a * a + b * b = (p * a + q * b) ^ 2 + (-ε * q * a + ε * p * b) ^ 2 := by
        intro a b
        have : (p * a + q * b) ^ 2 + (-ε * q * a + ε * p * b) ^ 2 = (p * a + q * b) ^ 2 + ε ^ 2 * (-q * a + p * b) ^ 2 := by ring
        rw [this, hε2]
        linear_combination (-(a * a) - b * b) * hpq
      rw [e]; ring
    have hmin : ∀ l < 4, ‖y - cst.getD m 0‖ ^ 2 ≤ ‖y - cst.getD l 0‖ ^ 2 := by
      intro l hl
      have := m2 (cst.getD l 0) (by rw [List.getD_eq_getElem _ _ (by omega)]; exact List.getElem_mem _)
      exact pow_le_pow_left₀ (norm_nonneg _) this 2
    refine ⟨m1, decide _ _ (by omega) ?_, decide _ _ (by omega) ?_⟩
    · have := hmin ((1 - m / 2) * 2 + m % 2) (by omega)
      rw [hdist _ m1, hdist _ (by omega), show ((1 - m / 2) * 2 + m % 2) / 2 = 1 - m / 2 by omega, show ((1 - m / 2) * 2 + m % 2) % 2 = m % 2 by omega] at this
      linarith
    · have := hmin (m / 2 * 2 + (1 - m % 2)) (by omega)
      rw [hdist _ m1, hdist _ (by omega), show (m / 2 * 2 + (1 - m % 2)) / 2 = m / 2 by omega, show (m / 2 * 2 + (1 - m % 2)) % 2 = 1 - m % 2 by omega] at this
      linarith
  have flip : ∀ (d : ℝ) (b c : ℕ), b < 2 → c < 2 → d ≠ 0 → (0 < d → c = 0) ∧ (d < 0 → c = 1) → (b ≠ c ↔ (1 - 2 * (b : ℝ)) * d < 0) := by
    intro d b c hb hc hd h
    have hb : b = 0 ∨ b = 1 := by omega
    rcases lt_or_gt_of_ne hd with hd | hd
    · rw [h.2 hd]
      rcases hb with rfl | rfl <;> norm_num <;> linarith
    · rw [h.1 hd]
      rcases hb with rfl | rfl <;> norm_num <;> linarith
  have one : ∀ l < 4, ∫ n, (labelDiff 2 l (nearestLabel cst (cst.getD l 0 + σ * (n.1 + Complex.I * n.2))) : ℝ) ∂noise2 = 2 * qFunction (A / σ) := by
    intro l hl
    obtain ⟨a1, a2⟩ := noise2_tail hpq (A := A) hσ (hsgn (l / 2) (by omega))
    have hq2 : (-ε * q) ^ 2 + (ε * p) ^ 2 = 1 := by
      have : (-ε * q) ^ 2 + (ε * p) ^ 2 = ε ^ 2 * (p ^ 2 + q ^ 2) := by ring
      rw [this, hε2, hpq, one_mul]
    obtain ⟨b1, b2⟩ := noise2_tail hq2 (A := A) hσ (hsgn (l % 2) (by omega))
    set E1 : Set (ℝ × ℝ) := {n | (1 - 2 * ((l / 2 : ℕ) : ℝ)) * (A * (1 - 2 * ((l / 2 : ℕ) : ℝ)) + σ * (p * n.1 + q * n.2)) < 0} with hE1
    set E0 : Set (ℝ × ℝ) := {n | (1 - 2 * ((l % 2 : ℕ) : ℝ)) * (A * (1 - 2 * ((l % 2 : ℕ) : ℝ)) + σ * (-ε * q * n.1 + ε * p * n.2)) < 0} with hE0
    have hm1 : MeasurableSet E1 := measurableSet_lt (by fun_prop) measurable_const
    have hm0 : MeasurableSet E0 := measurableSet_lt (by fun_prop) measurable_const
    have hae : (fun n : ℝ × ℝ => (labelDiff 2 l (nearestLabel cst (cst.getD l 0 + σ * (n.1 + Complex.I * n.2))) : ℝ)) =ᵐ[noise2]
        fun n => E1.indicator 1 n + E0.indicator 1 n := by
      have c1 : ∀ᵐ n ∂noise2, ¬ (A * (1 - 2 * ((l / 2 : ℕ) : ℝ)) + σ * (p * n.1 + q * n.2) = 0) := by rw [ae_iff]; simpa using a2
      have c0 : ∀ᵐ n ∂noise2, ¬ (A * (1 - 2 * ((l % 2 : ℕ) : ℝ)) + σ * (-ε * q * n.1 + ε * p * n.2) = 0) := by rw [ae_iff]; simpa using b2
      filter_upwards [c1, c0] with n d1 d0
      set y := cst.getD l 0 + σ * (n.1 + Complex.I * n.2) with hy
      have ere : y.re = (cst.getD l 0).re + σ * n.1 := by rw [hy]; simp
      have eim : y.im = (cst.getD l 0).im + σ * n.2 := by rw [hy]; simp
      have e1 : p * y.re + q * y.im = A * (1 - 2 * ((l / 2 : ℕ) : ℝ)) + σ * (p * n.1 + q * n.2) := by
        rw [ere, eim, ← h1 l hl]; ring
      have e0 : -ε * q * y.re + ε * p * y.im = A * (1 - 2 * ((l % 2 : ℕ) : ℝ)) + σ * (-ε * q * n.1 + ε * p * n.2) := by
        rw [ere, eim, ← h0 l hl]; ring
      obtain ⟨n1, n2, n3⟩ := near y
      rw [e1] at n2
      rw [e0] at n3
      have f1 := flip _ (l / 2) (nearestLabel cst y / 2) (by omega) (by omega) d1 n2
      have f0 := flip _ (l % 2) (nearestLabel cst y % 2) (by omega) (by omega) d0 n3
      rw [labelDiff_two l hl _ n1]
      push_cast
      congr 1
      · by_cases h : l / 2 ≠ nearestLabel cst y / 2
        · rw [if_pos h, Set.indicator_of_mem (show n ∈ E1 from f1.1 h)]; rfl
        · rw [if_neg h, Set.indicator_of_notMem (show n ∉ E1 from fun hn => h (f1.2 hn))]
      · by_cases h : l % 2 ≠ nearestLabel cst y % 2
        · rw [if_pos h, Set.indicator_of_mem (show n ∈ E0 from f0.1 h)]; rfl
        · rw [if_neg h, Set.indicator_of_notMem (show n ∉ E0 from fun hn => h (f0.2 hn))]
    have i1 : Integrable (E1.indicator (1 : ℝ × ℝ → ℝ)) noise2 := (integrable_const (1 : ℝ)).indicator hm1
    have i0 : Integrable (E0.indicator (1 : ℝ × ℝ → ℝ)) noise2 := (integrable_const (1 : ℝ)).indicator hm0
    rw [integral_congr_ae hae, integral_add i1 i0,
      integral_indicator_one hm1, integral_indicator_one hm0, a1, b1]
    ring
  unfold bitErrorProb
  rw [sum_congr rfl fun l hl => one l (by simpa using hl), sum_const, card_range, nsmul_eq_mul]
  push_cast
  ring

/-- The modem `QAMModem(4)`. -/
theorem qam4_modem : qamModem 4 = .ok ⟨[-Complex.I - 1, Complex.I - 1, -Complex.I + 1, Complex.I + 1], 2, 4, 2⟩ := by
  obtain ⟨c', h1, h2, h3⟩ := newModem_gray (b := 2) (by norm_num) (c := [-Complex.I - 1, Complex.I - 1, Complex.I + 1, -Complex.I + 1]) rfl
  have hc : c' = [-Complex.I - 1, Complex.I - 1, -Complex.I + 1, Complex.I + 1] := by
    have a0 := h3 0 (by norm_num)
    have a1 := h3 1 (by norm_num)
    have a2 := h3 2 (by norm_num)
    have a3 := h3 3 (by norm_num)
    rw [show grayCode 0 = 0 by decide] at a0
    rw [show grayCode 1 = 1 by decide] at a1
    rw [show grayCode 2 = 3 by decide] at a2
    rw [show grayCode 3 = 2 by decide] at a3
    apply List.ext_getElem?
    intro i
    rcases i with _ | _ | _ | _ | i
    · exact a0
    · exact a1
    · exact a3
    · exact a2
    · rw [List.getElem?_eq_none (by rw [h2]; norm_num), List.getElem?_eq_none (by simp)]
  obtain ⟨s, g1, -, -, -, -, -, g5, -⟩ := C65_qam 1 le_rfl
  have hq : qamModem 4 = newModem [-Complex.I - 1, Complex.I - 1, Complex.I + 1, -Complex.I + 1] true := by
    unfold qamModem
    have hs : Nat.sqrt 4 = 2 := Nat.sqrt_eq 2
    have hp : arangeR (-((2 : ℕ) : ℝ) + 1) (2 : ℕ) 2 = [-1, 1] := by
      unfold arangeR
      have : ⌈(((2 : ℕ) : ℝ) - (-((2 : ℕ) : ℝ) + 1)) / 2⌉₊ = 2 := by
        rw [Nat.ceil_eq_iff (by norm_num)]
        norm_num
      rw [this]
      simp [List.range_succ]
      norm_num
    rw [hs, if_neg (by norm_num), hp]
    have hb : broadcast2 (fun (x y : ℝ) => (x : ℂ) * Complex.I + (y : ℂ)) (npTile ([-1, 1] ++ ([-1, 1] : List ℝ).reverse) (2 / 2)) (npRepeat [-1, 1] 2) =
        .ok [-Complex.I - 1, Complex.I - 1, Complex.I + 1, -Complex.I + 1] := by
      simp [npTile, npRepeat, broadcast2]
      refine ⟨?_, ?_⟩ <;> ring
    simp only [bind, Except.bind]
    rw [hb]
  rw [show (4 : ℕ) ^ 1 = 4 from rfl, hq, h1] at g1
  have hs := Except.ok.inj g1
  have hE : s.Es = 2 := by rw [g5]; norm_num
  rw [← hs] at hE
  simp only at hE
  rw [hq, h1, hE, h2, hc]
  norm_num

/-- C125, QPSK: the bit error probability is `Q (√SNR)`. -/
theorem C125_qpsk : ∃ s, pskModem 4 = .ok s ∧ ∀ x : ℝ, 0 < x → bitErrorProb s.constellation s.nbits (Real.sqrt (s.Es / (2 * x))) = qFunction (Real.sqrt x) := by
  refine ⟨_, qpsk_modem, fun x hx => ?_⟩
  obtain ⟨hσ, hinv⟩ := inv_sigma (Es := 1) one_pos hx
  have h2 : Real.sqrt 2 ^ 2 = 2 := Real.sq_sqrt (by norm_num)
  have h2p : 0 < Real.sqrt 2 := by positivity
  have := ber_quadrature (cst := [1, Complex.I, -Complex.I, -1]) rfl (p := 1 / Real.sqrt 2) (q := 1 / Real.sqrt 2) (A := 1 / Real.sqrt 2) (ε := -1) (σ := Real.sqrt (1 / (2 * x)))
    (by rw [div_pow, h2]; norm_num) (Or.inr rfl) (by positivity) hσ (by
      intro l hl
      interval_cases l <;> norm_num) (by
      intro l hl
      interval_cases l <;> norm_num)
  rw [this]
  congr 1
  rw [div_div, ← Real.sqrt_mul (by norm_num), one_div, ← Real.sqrt_inv]
  congr 1
  field_simp

/-- C125, 4-QAM: the bit error probability is `Q (√SNR)`. -/
theorem C125_qam4 : ∃ s, qamModem 4 = .ok s ∧ ∀ x : ℝ, 0 < x → bitErrorProb s.constellation s.nbits (Real.sqrt (s.Es / (2 * x))) = qFunction (Real.sqrt x) := by
  refine ⟨_, qam4_modem, fun x hx => ?_⟩
  obtain ⟨hσ, hinv⟩ := inv_sigma (Es := 2) two_pos hx
  have := ber_quadrature (cst := [-Complex.I - 1, Complex.I - 1, -Complex.I + 1, Complex.I + 1]) rfl (p := -1) (q := 0) (A := 1) (ε := 1) (σ := Real.sqrt (2 / (2 * x)))
    (by norm_num) (Or.inl rfl) (by positivity) hσ (by
      intro l hl
      interval_cases l <;> norm_num) (by
      intro l hl
      interval_cases l <;> norm_num)
  rw [this, hinv]
  congr 2
  field_simp

/-- At 0 dB both have bit error probability `Q 1`. -/
example : ∃ s s', pskModem 4 = .ok s ∧ qamModem 4 = .ok s' ∧ bitErrorProb s.constellation s.nbits (Real.sqrt (s.Es / 2)) = qFunction 1 ∧
    bitErrorProb s'.constellation s'.nbits (Real.sqrt (s'.Es / 2)) = qFunction 1 := by
  obtain ⟨s, h1, h2⟩ := C125_qpsk
  obtain ⟨s', h3, h4⟩ := C125_qam4
  have a := h2 1 one_pos
  have b := h4 1 one_pos
  rw [mul_one, Real.sqrt_one] at a b
  exact ⟨s, s', h1, h3, a, b⟩

end Verif
