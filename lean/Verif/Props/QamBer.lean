import Verif.Lemmas.GrayPam
import Verif.Spec.QamError
/-
C141: the exact error probabilities of QAM.
-/
namespace Verif
open MeasureTheory ProbabilityTheory Finset

/-- One bit of one axis of a grid with `2 W K` levels: how often a decision for the nearest level changes it. -/
theorem axis_error {u v : ℝ} (huv : u ^ 2 + v ^ 2 = 1) {σ : ℝ} (hσ : 0 < σ) {W K i : Nat} (hW : 0 < W) (hi : i < 2 * W * K) {d : ℝ × ℝ → ℕ} (hd : ∀ n, d n < 2 * W * K)
    {L : ℝ} (hdec : ∀ n, ∀ T, 0 < T → T < 2 * W * K → (T ≤ d n → 2 * (T : ℝ) - L ≤ 2 * i - L + 1 + σ * (u * n.1 + v * n.2)) ∧
      (d n < T → 2 * i - L + 1 + σ * (u * n.1 + v * n.2) ≤ 2 * (T : ℝ) - L)) :
    ∃ F : ℝ × ℝ → ℝ, (fun n => if (i + W) / (2 * W) % 2 ≠ (d n + W) / (2 * W) % 2 then (1 : ℝ) else 0) =ᵐ[noise2] F ∧ Integrable F noise2 ∧
      ∫ n, F n ∂noise2 = ∑ t ∈ range K, (if i < W * (2 * t + 1) then
        (fun j : ℕ => (-1) ^ (j / (2 * W)) * qFunction ((2 * j + 1) / σ)) (W * (2 * t + 1) - i - 1) else
        (fun j : ℕ => (-1) ^ (j / (2 * W)) * qFunction ((2 * j + 1) / σ)) (i - W * (2 * t + 1))) := by
  set up : ℕ → Set (ℝ × ℝ) := fun j => {n | (-1 : ℝ) * ((2 * (j : ℝ) + 1) * (-1) + σ * (u * n.1 + v * n.2)) < 0} with hup
  set dn : ℕ → Set (ℝ × ℝ) := fun j => {n | (1 : ℝ) * ((2 * (j : ℝ) + 1) * 1 + σ * (u * n.1 + v * n.2)) < 0} with hdn
  have hpu := fun j : ℕ => noise2_tail huv (A := 2 * (j : ℝ) + 1) hσ (s := -1) (Or.inr rfl)
  have hpd := fun j : ℕ => noise2_tail huv (A := 2 * (j : ℝ) + 1) hσ (s := 1) (Or.inl rfl)
  have mu : ∀ j, MeasurableSet (up j) := fun j => measurableSet_lt (by fun_prop) measurable_const
  have md : ∀ j, MeasurableSet (dn j) := fun j => measurableSet_lt (by fun_prop) measurable_const
  set G : ℕ → ℝ × ℝ → ℝ := fun t n => if i < W * (2 * t + 1) then (-1) ^ ((W * (2 * t + 1) - i - 1) / (2 * W)) * (up (W * (2 * t + 1) - i - 1)).indicator 1 n
    else (-1) ^ ((i - W * (2 * t + 1)) / (2 * W)) * (dn (i - W * (2 * t + 1))).indicator 1 n with hG
  have hGi : ∀ t, Integrable (G t) noise2 := by
    intro t
    by_cases h : i < W * (2 * t + 1)
    · simp only [hG, if_pos h]
      exact ((integrable_const (1 : ℝ)).indicator (mu _)).const_mul _
    · simp only [hG, if_neg h]
      exact ((integrable_const (1 : ℝ)).indicator (md _)).const_mul _
  refine ⟨fun n => ∑ t ∈ range K, G t n, ?_, integrable_finsetSum _ fun t _ => hGi t, ?_⟩
  · have c1 : ∀ᵐ n ∂noise2, ∀ t ∈ range K, ¬ ((2 * ((W * (2 * t + 1) - i - 1 : ℕ) : ℝ) + 1) * (-1) + σ * (u * n.1 + v * n.2) = 0) := by
      rw [Filter.eventually_all_finset]
      intro t _
      rw [ae_iff]
      simpa using (hpu (W * (2 * t + 1) - i - 1)).2
    have c2 : ∀ᵐ n ∂noise2, ∀ t ∈ range K, ¬ ((2 * ((i - W * (2 * t + 1) : ℕ) : ℝ) + 1) * 1 + σ * (u * n.1 + v * n.2) = 0) := by
      rw [Filter.eventually_all_finset]
      intro t _
      rw [ae_iff]
      simpa using (hpd (i - W * (2 * t + 1))).2
    filter_upwards [c1, c2] with n n1 n2
    rw [gray_error hW hi (hd n)]
    refine sum_congr rfl fun t ht => ?_
    have htK := mem_range.1 ht
    have hT0 : 0 < W * (2 * t + 1) := by positivity
    have hTL : W * (2 * t + 1) < 2 * W * K := by nlinarith
    obtain ⟨d1, d2⟩ := hdec n _ hT0 hTL
    have m1 := n1 t ht
    have m2 := n2 t ht
    simp only [hG]
    by_cases h : i < W * (2 * t + 1)
    · rw [if_pos h, if_pos h]
      have ec : ((W * (2 * t + 1) - i - 1 : ℕ) : ℝ) = ((W * (2 * t + 1) : ℕ) : ℝ) - i - 1 := by
        rw [Nat.sub_sub, Nat.cast_sub (by omega)]; push_cast; ring
      by_cases h2 : W * (2 * t + 1) ≤ d n
      · rw [if_pos h2, Set.indicator_of_mem]
        · simp
        · have := d1 h2
          show (-1 : ℝ) * _ < 0
          rw [ec] at m1 ⊢
          have : (2 * (((W * (2 * t + 1) : ℕ) : ℝ) - i - 1) + 1) * (-1) + σ * (u * n.1 + v * n.2) ≠ 0 := m1
          rcases lt_or_gt_of_ne this with h' | h' <;> linarith
      · rw [if_neg h2, Set.indicator_of_notMem]
        · simp
        · have := d2 (by omega)
          show ¬ ((-1 : ℝ) * _ < 0)
          rw [ec]
          linarith
    · rw [if_neg h, if_neg h]
      have ec : ((i - W * (2 * t + 1) : ℕ) : ℝ) = (i : ℝ) - ((W * (2 * t + 1) : ℕ) : ℝ) := Nat.cast_sub (by omega)
      by_cases h2 : d n < W * (2 * t + 1)
      · rw [if_pos h2, Set.indicator_of_mem]
        · simp
        · have := d2 h2
          show (1 : ℝ) * _ < 0
          rw [ec] at m2 ⊢
          have : (2 * ((i : ℝ) - ((W * (2 * t + 1) : ℕ) : ℝ)) + 1) * 1 + σ * (u * n.1 + v * n.2) ≠ 0 := m2
          rcases lt_or_gt_of_ne this with h' | h' <;> linarith
      · rw [if_neg h2, Set.indicator_of_notMem]
        · simp
        · have := d1 (by omega)
          show ¬ ((1 : ℝ) * _ < 0)
          rw [ec]
          linarith
  · rw [integral_finsetSum _ fun t _ => hGi t]
    refine sum_congr rfl fun t _ => ?_
    by_cases h : i < W * (2 * t + 1)
    · simp only [hG, if_pos h]
      rw [integral_const_mul, integral_indicator_one (mu _), (hpu _).1]
    · simp only [hG, if_neg h]
      rw [integral_const_mul, integral_indicator_one (md _), (hpd _).1]

theorem sum_gray (G : ℕ → ℝ) (h : Nat) : ∑ a ∈ range (2 ^ h), G a = ∑ c ∈ range (2 ^ h), G (grayCode c) := by
  symm
  refine sum_nbij grayCode ?_ ?_ ?_ fun _ _ => rfl
  · intro c hc
    rw [mem_range] at hc ⊢
    exact gray_lt hc
  · intro a _ b _ hab
    exact gray_inj hab
  · intro a ha
    rw [coe_range, Set.mem_Iio] at ha
    obtain ⟨i, hi, rfl⟩ := gray_surj ha
    exact ⟨i, by simpa using hi, rfl⟩

theorem labelDiff_grid {h c r c' r' : Nat} (hr : r < 2 ^ h) (hr' : r' < 2 ^ h) :
    (labelDiff (2 * h) (grayCode c * 2 ^ h + grayCode r) (grayCode c' * 2 ^ h + grayCode r') : ℝ) =
      ∑ p ∈ range h, ((if (r + 2 ^ p) / (2 * 2 ^ p) % 2 ≠ (r' + 2 ^ p) / (2 * 2 ^ p) % 2 then (1 : ℝ) else 0) +
        (if (c + 2 ^ p) / (2 * 2 ^ p) % 2 ≠ (c' + 2 ^ p) / (2 * 2 ^ p) % 2 then (1 : ℝ) else 0)) := by
  unfold labelDiff
  rw [card_filter, two_mul h]
  push_cast
  rw [sum_range_add, sum_add_distrib]
  have hb : ∀ x y p : Nat, ((grayCode x).testBit p ≠ (grayCode y).testBit p) ↔ (x + 2 ^ p) / (2 * 2 ^ p) % 2 ≠ (y + 2 ^ p) / (2 * 2 ^ p) % 2 := by
    intro x y p
    rw [gray_bit, gray_bit, Ne, decide_eq_decide]
    omega
  congr 1
  · refine sum_congr rfl fun p hp => ?_
    rw [mem_range] at hp
    rw [Nat.mul_comm (grayCode c), Nat.mul_comm (grayCode c'), Nat.testBit_two_pow_mul_add _ (gray_lt hr), Nat.testBit_two_pow_mul_add _ (gray_lt hr'), if_pos hp, if_pos hp]
    simp only [hb]
  · refine sum_congr rfl fun p hp => ?_
    rw [Nat.mul_comm (grayCode c), Nat.mul_comm (grayCode c'), Nat.testBit_two_pow_mul_add _ (gray_lt hr), Nat.testBit_two_pow_mul_add _ (gray_lt hr'), if_neg (show ¬ h + p < h by omega),
      if_neg (show ¬ h + p < h by omega), Nat.add_sub_cancel_left]
    simp only [hb]

/-- The decision on a grid is made axis by axis. -/
theorem grid_decision {h : Nat} {cst : List ℂ} (hlen : cst.length = 4 ^ h)
    (hgrid : ∀ c < 2 ^ h, ∀ r < 2 ^ h, cst.getD (grayCode c * 2 ^ h + grayCode r) 0 = ((2 * (c : ℝ) - 2 ^ h + 1 : ℝ) : ℂ) + ((2 * (r : ℝ) - 2 ^ h + 1 : ℝ) : ℂ) * Complex.I) (y : ℂ) :
    ∃ c' < 2 ^ h, ∃ r' < 2 ^ h, nearestLabel cst y = grayCode c' * 2 ^ h + grayCode r' ∧
      ∀ T, 0 < T → T < 2 ^ h → ((T ≤ c' → 2 * (T : ℝ) - 2 ^ h ≤ y.re) ∧ (c' < T → y.re ≤ 2 * (T : ℝ) - 2 ^ h)) ∧
        ((T ≤ r' → 2 * (T : ℝ) - 2 ^ h ≤ y.im) ∧ (r' < T → y.im ≤ 2 * (T : ℝ) - 2 ^ h)) := by
  have h0 : 0 < 2 ^ h := Nat.two_pow_pos h
  have e4' : (4 : Nat) ^ h = 2 ^ h * 2 ^ h := by rw [← Nat.mul_pow]
  have hne : cst ≠ [] := by
    rintro rfl
    simp at hlen
    exact absurd hlen.symm (by positivity)
  obtain ⟨m1, m2⟩ := nearestLabel_mem hne y
  set m := nearestLabel cst y with hm
  rw [hlen, e4'] at m1
  obtain ⟨c', hc', hce⟩ := gray_surj (b := h) (a := m / 2 ^ h) (by rwa [Nat.div_lt_iff_lt_mul h0])
  obtain ⟨r', hr', hre⟩ := gray_surj (b := h) (a := m % 2 ^ h) (Nat.mod_lt _ h0)
  have hmm : m = grayCode c' * 2 ^ h + grayCode r' := by rw [hce, hre, Nat.mul_comm]; exact (Nat.div_add_mod m _).symm
  refine ⟨c', hc', r', hr', hmm, ?_⟩
  have hd : ∀ c : ℕ, c < 2 ^ h → ∀ r : ℕ, r < 2 ^ h → (y.re - (2 * (c' : ℝ) - 2 ^ h + 1)) ^ 2 + (y.im - (2 * (r' : ℝ) - 2 ^ h + 1)) ^ 2 ≤
      (y.re - (2 * (c : ℝ) - 2 ^ h + 1)) ^ 2 + (y.im - (2 * (r : ℝ) - 2 ^ h + 1)) ^ 2 := by
    intro c hc r hr
    have hlt : grayCode c * 2 ^ h + grayCode r < cst.length := by
      rw [hlen, e4']
      have h1 := gray_lt hr
      have h2 : (grayCode c + 1) * 2 ^ h ≤ 2 ^ h * 2 ^ h := Nat.mul_le_mul_right _ (gray_lt hc)
      rw [Nat.succ_mul] at h2
      omega
    have := m2 (cst.getD (grayCode c * 2 ^ h + grayCode r) 0) (by rw [List.getD_eq_getElem _ _ hlt]; exact List.getElem_mem _)
    have := pow_le_pow_left₀ (norm_nonneg _) this 2
    rw [hmm, hgrid c' hc' r' hr', hgrid c hc r hr, ← Complex.normSq_eq_norm_sq, ← Complex.normSq_eq_norm_sq, Complex.normSq_apply, Complex.normSq_apply] at this
    simp only [Complex.sub_re, Complex.sub_im, Complex.add_re, Complex.add_im, Complex.ofReal_re, Complex.ofReal_im, Complex.mul_re, Complex.mul_im, Complex.I_re, Complex.I_im] at this
    nlinarith
  intro T hT0 hTL
  refine ⟨⟨fun hT => ?_, fun hT => ?_⟩, ⟨fun hT => ?_, fun hT => ?_⟩⟩
  · have := hd (c' - 1) (by omega) r' hr'
    rw [Nat.cast_sub (by omega)] at this
    have hTc : (T : ℝ) ≤ c' := by exact_mod_cast hT
    push_cast at this
    nlinarith
  · have := hd (c' + 1) (by omega) r' hr'
    have hTc : (c' : ℝ) + 1 ≤ T := by exact_mod_cast hT
    push_cast at this
    nlinarith
  · have := hd c' hc' (r' - 1) (by omega)
    rw [Nat.cast_sub (by omega)] at this
    have hTc : (T : ℝ) ≤ r' := by exact_mod_cast hT
    push_cast at this
    nlinarith
  · have := hd c' hc' (r' + 1) (by omega)
    have hTc : (r' : ℝ) + 1 ≤ T := by exact_mod_cast hT
    push_cast at this
    nlinarith

/-- Bit errors on a grid, axis by axis. -/
theorem grid_ber {h : Nat} {cst : List ℂ} (hlen : cst.length = 4 ^ h)
    (hgrid : ∀ c < 2 ^ h, ∀ r < 2 ^ h, cst.getD (grayCode c * 2 ^ h + grayCode r) 0 = ((2 * (c : ℝ) - 2 ^ h + 1 : ℝ) : ℂ) + ((2 * (r : ℝ) - 2 ^ h + 1 : ℝ) : ℂ) * Complex.I)
    {σ : ℝ} (hσ : 0 < σ) :
    bitErrorProb cst (2 * h) σ = (∑ p ∈ range h, 2 * ∑ j ∈ range (2 ^ h),
      ((2 ^ (h - 1 - p) - (j + 2 ^ p) / (2 * 2 ^ p) : ℕ) : ℝ) * ((-1) ^ (j / (2 * 2 ^ p)) * qFunction ((2 * j + 1) / σ))) / (h * 2 ^ h) := by
  choose col hcol row hrow hlab hdec using fun y => grid_decision hlen hgrid y
  have hWK : ∀ p < h, 2 * 2 ^ p * 2 ^ (h - 1 - p) = 2 ^ h := by
    intro p hp
    rw [mul_assoc, ← pow_add, ← pow_succ']
    congr 1
    omega
  set f : ℕ → ℕ → ℝ := fun p j => (-1) ^ (j / (2 * 2 ^ p)) * qFunction ((2 * j + 1) / σ) with hf
  set S : ℕ → ℕ → ℝ := fun p i => ∑ t ∈ range (2 ^ (h - 1 - p)), if i < 2 ^ p * (2 * t + 1) then f p (2 ^ p * (2 * t + 1) - i - 1) else f p (i - 2 ^ p * (2 * t + 1)) with hS
  have hone : ∀ c < 2 ^ h, ∀ r < 2 ^ h, ∫ n, (labelDiff (2 * h) (grayCode c * 2 ^ h + grayCode r)
      (nearestLabel cst (cst.getD (grayCode c * 2 ^ h + grayCode r) 0 + σ * (n.1 + Complex.I * n.2))) : ℝ) ∂noise2 = ∑ p ∈ range h, (S p r + S p c) := by
    intro c hc r hr
    set y : ℝ × ℝ → ℂ := fun n => cst.getD (grayCode c * 2 ^ h + grayCode r) 0 + σ * (n.1 + Complex.I * n.2) with hy
    have ere : ∀ n, (y n).re = 2 * (c : ℝ) - 2 ^ h + 1 + σ * (1 * n.1 + 0 * n.2) := by
      intro n
      rw [hy]
      dsimp only
      rw [hgrid c hc r hr]
      simp only [Complex.add_re, Complex.add_im, Complex.ofReal_re, Complex.ofReal_im, Complex.mul_re, Complex.mul_im, Complex.I_re, Complex.I_im]
      ring
    have eim : ∀ n, (y n).im = 2 * (r : ℝ) - 2 ^ h + 1 + σ * (0 * n.1 + 1 * n.2) := by
      intro n
      rw [hy]
      dsimp only
      rw [hgrid c hc r hr]
      simp only [Complex.add_re, Complex.add_im, Complex.ofReal_re, Complex.ofReal_im, Complex.mul_re, Complex.mul_im, Complex.I_re, Complex.I_im]
      ring
    have hax : ∀ p < h, ∃ F : ℝ × ℝ → ℝ, (fun n => (if (r + 2 ^ p) / (2 * 2 ^ p) % 2 ≠ (row (y n) + 2 ^ p) / (2 * 2 ^ p) % 2 then (1 : ℝ) else 0) +
        (if (c + 2 ^ p) / (2 * 2 ^ p) % 2 ≠ (col (y n) + 2 ^ p) / (2 * 2 ^ p) % 2 then (1 : ℝ) else 0)) =ᵐ[noise2] F ∧ Integrable F noise2 ∧ ∫ n, F n ∂noise2 = S p r + S p c := by
      intro p hp
      have hW : 0 < 2 ^ p := Nat.two_pow_pos p
      obtain ⟨F1, a1, a2, a3⟩ := axis_error (u := 0) (v := 1) (by norm_num) hσ hW (K := 2 ^ (h - 1 - p)) (i := r) (by rw [hWK p hp]; exact hr) (d := fun n => row (y n))
        (fun n => by rw [hWK p hp]; exact hrow _) (L := 2 ^ h) (by
          intro n T hT0 hTL
          rw [hWK p hp] at hTL
          have := (hdec (y n) T hT0 hTL).2
          rwa [eim] at this)
      obtain ⟨F2, b1, b2, b3⟩ := axis_error (u := 1) (v := 0) (by norm_num) hσ hW (K := 2 ^ (h - 1 - p)) (i := c) (by rw [hWK p hp]; exact hc) (d := fun n => col (y n))
        (fun n => by rw [hWK p hp]; exact hcol _) (L := 2 ^ h) (by
          intro n T hT0 hTL
          rw [hWK p hp] at hTL
          have := (hdec (y n) T hT0 hTL).1
          rwa [ere] at this)
      refine ⟨F1 + F2, a1.add b1, a2.add b2, ?_⟩
      rw [show (fun n => (F1 + F2) n) = fun n => F1 n + F2 n from rfl, integral_add a2 b2, a3, b3]
    choose! F hF1 hF2 hF3 using hax
    have hae : (fun n : ℝ × ℝ => (labelDiff (2 * h) (grayCode c * 2 ^ h + grayCode r) (nearestLabel cst (y n)) : ℝ)) =ᵐ[noise2] fun n => ∑ p ∈ range h, F p n := by
      have : ∀ᵐ n ∂noise2, ∀ p ∈ range h, ((if (r + 2 ^ p) / (2 * 2 ^ p) % 2 ≠ (row (y n) + 2 ^ p) / (2 * 2 ^ p) % 2 then (1 : ℝ) else 0) +
        (if (c + 2 ^ p) / (2 * 2 ^ p) % 2 ≠ (col (y n) + 2 ^ p) / (2 * 2 ^ p) % 2 then (1 : ℝ) else 0)) = F p n := by
        rw [Filter.eventually_all_finset]
        intro p hp
        exact hF1 p (mem_range.1 hp)
      filter_upwards [this] with n hn
      rw [hlab (y n), labelDiff_grid hr (hrow _)]
      exact sum_congr rfl hn
    rw [integral_congr_ae hae, integral_finsetSum _ fun p hp => hF2 p (mem_range.1 hp)]
    exact sum_congr rfl fun p hp => hF3 p (mem_range.1 hp)
  unfold bitErrorProb
  have e4 : 2 ^ (2 * h) = 2 ^ h * 2 ^ h := by rw [two_mul, pow_add]
  rw [e4, sum_blocks, sum_gray]
  have e5 : ∑ c ∈ range (2 ^ h), ∑ b ∈ range (2 ^ h), ∫ n, (labelDiff (2 * h) (grayCode c * 2 ^ h + b)
      (nearestLabel cst (cst.getD (grayCode c * 2 ^ h + b) 0 + σ * (n.1 + Complex.I * n.2))) : ℝ) ∂noise2 =
      ∑ c ∈ range (2 ^ h), ∑ r ∈ range (2 ^ h), ∑ p ∈ range h, (S p r + S p c) := by
    refine sum_congr rfl fun c hc => ?_
    rw [sum_gray]
    exact sum_congr rfl fun r hr => hone c (mem_range.1 hc) r (mem_range.1 hr)
  rw [e5]
  have e6 : ∑ c ∈ range (2 ^ h), ∑ r ∈ range (2 ^ h), ∑ p ∈ range h, (S p r + S p c) = 2 * 2 ^ h * ∑ p ∈ range h, ∑ i ∈ range (2 ^ h), S p i := by
    simp only [sum_add_distrib, sum_const, card_range, nsmul_eq_mul]
    rw [← mul_sum]
    rw [sum_comm (s := range (2 ^ h)) (t := range h)]
    push_cast
    ring
  have e7 : ∀ p ∈ range h, ∑ i ∈ range (2 ^ h), S p i = 2 * ∑ j ∈ range (2 ^ h), ((2 ^ (h - 1 - p) - (j + 2 ^ p) / (2 * 2 ^ p) : ℕ) : ℝ) * f p j := by
    intro p hp
    have := gray_levels (f p) (W := 2 ^ p) (K := 2 ^ (h - 1 - p)) (Nat.two_pow_pos p)
    rw [hWK p (mem_range.1 hp)] at this
    exact this
  rw [e6, sum_congr rfl e7]
  push_cast
  rcases Nat.eq_zero_or_pos h with rfl | hh
  · simp
  · have hh' : (h : ℝ) ≠ 0 := by positivity
    have : (2 : ℝ) ^ h ≠ 0 := by positivity
    rw [show (2 : ℝ) ^ (2 * h) = 2 ^ h * 2 ^ h by rw [two_mul, pow_add]]
    field_simp
    simp only [hf, mul_assoc]

/-- The sums of the textbook formula. -/
theorem qam_formula {h : Nat} (a : ℝ) :
    (∑ p ∈ range h, 2 * ∑ j ∈ range (2 ^ h), ((2 ^ (h - 1 - p) - (j + 2 ^ p) / (2 * 2 ^ p) : ℕ) : ℝ) * ((-1) ^ (j / (2 * 2 ^ p)) * qFunction ((2 * j + 1) * a))) / (h * 2 ^ h) =
      qamBitError h a := by
  unfold qamBitError
  have hk : ∀ p ∈ range h, 2 * ∑ j ∈ range (2 ^ h), ((2 ^ (h - 1 - p) - (j + 2 ^ p) / (2 * 2 ^ p) : ℕ) : ℝ) * ((-1) ^ (j / (2 * 2 ^ p)) * qFunction ((2 * j + 1) * a)) =
      ∑ i ∈ range (2 ^ h - 2 ^ (h - (h - p))), (-1) ^ (i * 2 ^ (h - p - 1) / 2 ^ h) * ((2 : ℝ) ^ (h - p - 1) - ((i * 2 ^ (h - p - 1) + 2 ^ (h - 1)) / 2 ^ h : ℕ)) *
        (2 * qFunction ((2 * i + 1) * a)) := by
    intro p hp
    rw [mem_range] at hp
    have hK : 0 < 2 ^ (h - 1 - p) := Nat.two_pow_pos _
    have e1 : h - (h - p) = p := by omega
    have e2 : h - p - 1 = h - 1 - p := by omega
    have hL : 2 ^ h = 2 * 2 ^ p * 2 ^ (h - 1 - p) := by
      rw [mul_assoc, ← pow_add, ← pow_succ']
      congr 1
      omega
    have hH : 2 ^ (h - 1) = 2 ^ p * 2 ^ (h - 1 - p) := by
      rw [← pow_add]
      congr 1
      omega
    have hW : 0 < 2 ^ p := Nat.two_pow_pos p
    have hWL : 2 ^ p ≤ 2 ^ h := Nat.pow_le_pow_right (by norm_num) hp.le
    have d1 : ∀ i, i * 2 ^ (h - 1 - p) / 2 ^ h = i / (2 * 2 ^ p) := by
      intro i
      rw [hL, Nat.mul_div_mul_right _ _ hK]
    have d2 : ∀ i, (i * 2 ^ (h - 1 - p) + 2 ^ (h - 1)) / 2 ^ h = (i + 2 ^ p) / (2 * 2 ^ p) := by
      intro i
      rw [hL, hH, ← add_mul, Nat.mul_div_mul_right _ _ hK]
    rw [e1, e2]
    simp only [d1, d2]
    have hsplit : range (2 ^ h) = range (2 ^ h - 2 ^ p + 2 ^ p) := by rw [Nat.sub_add_cancel hWL]
    rw [hsplit, sum_range_add]
    have z : ∑ i ∈ range (2 ^ p), ((2 ^ (h - 1 - p) - ((2 ^ h - 2 ^ p + i) + 2 ^ p) / (2 * 2 ^ p) : ℕ) : ℝ) * ((-1) ^ ((2 ^ h - 2 ^ p + i) / (2 * 2 ^ p)) *
        qFunction ((2 * ((2 ^ h - 2 ^ p + i : ℕ) : ℝ) + 1) * a)) = 0 := by
      refine sum_eq_zero fun i _ => ?_
      have : 2 ^ (h - 1 - p) ≤ ((2 ^ h - 2 ^ p + i) + 2 ^ p) / (2 * 2 ^ p) := by
        rw [Nat.le_div_iff_mul_le (by omega)]
        rw [Nat.mul_comm, ← hL]
        omega
      rw [Nat.sub_eq_zero_of_le this]
      simp
    rw [z, add_zero, mul_sum]
    refine sum_congr rfl fun i hi => ?_
    rw [mem_range] at hi
    have hle : (i + 2 ^ p) / (2 * 2 ^ p) ≤ 2 ^ (h - 1 - p) := by
      rw [Nat.div_le_iff_le_mul_add_pred (by omega), ← hL]
      omega
    rw [Nat.cast_sub hle]
    push_cast
    ring
  rw [sum_congr rfl hk]
  have e3 : ∑ k ∈ Icc 1 h, (∑ i ∈ range (2 ^ h - 2 ^ (h - k)),
      (-1) ^ (i * 2 ^ (k - 1) / 2 ^ h) * ((2 : ℝ) ^ (k - 1) - ((i * 2 ^ (k - 1) + 2 ^ (h - 1)) / 2 ^ h : ℕ)) * (2 * qFunction ((2 * i + 1) * a))) / 2 ^ h =
      ∑ p ∈ range h, (∑ i ∈ range (2 ^ h - 2 ^ (h - (h - p))), (-1) ^ (i * 2 ^ (h - p - 1) / 2 ^ h) * ((2 : ℝ) ^ (h - p - 1) - ((i * 2 ^ (h - p - 1) + 2 ^ (h - 1)) / 2 ^ h : ℕ)) *
        (2 * qFunction ((2 * i + 1) * a))) / 2 ^ h := by
    symm
    refine sum_nbij (fun p => h - p) ?_ ?_ ?_ fun _ _ => rfl
    · intro p hp
      rw [mem_range] at hp
      rw [mem_Icc]
      omega
    · intro p hp q hq e
      simp only [coe_range, Set.mem_Iio] at hp hq
      dsimp only at e
      omega
    · intro k hk
      simp only [coe_Icc, Set.mem_Icc] at hk
      exact ⟨h - k, by simp; omega, by dsimp only; omega⟩
  rw [e3, ← sum_div, div_div, mul_comm (h : ℝ)]

/-- C141, bit errors: the bit error probability of `QAMModem(4^h)` at the signal-to-noise ratio `x` is that of Cho and Yoon, with `a = √(3 x / (M-1))`. -/
theorem C141_qam_bits (h : Nat) (hh : 1 ≤ h) : ∃ s, qamModem (4 ^ h) = .ok s ∧ ∀ x : ℝ, 0 < x →
    bitErrorProb s.constellation s.nbits (Real.sqrt (s.Es / (2 * x))) = qamBitError h (Real.sqrt (3 * x / ((4 : ℝ) ^ h - 1))) := by
  obtain ⟨s, s1, s2, s3, s4, s5⟩ := qam_grid h hh
  refine ⟨s, s1, fun x hx => ?_⟩
  have h4 : (4 : ℝ) ^ 1 ≤ 4 ^ h := pow_le_pow_right₀ (by norm_num) hh
  have hM : (0 : ℝ) < 4 ^ h - 1 := by linarith
  obtain ⟨hσ, hinv⟩ := inv_sigma (Es := s.Es) (by rw [s4]; positivity) hx
  have harg : 1 / Real.sqrt (s.Es / (2 * x)) = Real.sqrt (3 * x / ((4 : ℝ) ^ h - 1)) := by
    rw [hinv, s4]
    congr 1
    field_simp
  rw [s2, grid_ber s3 s5 hσ, ← harg, ← qam_formula]
  simp only [mul_one_div]

/-- C141, 16-QAM: `3/4 Q(a) + 1/2 Q(3a) - 1/4 Q(5a)` with `a = √(SNR/5)`. -/
theorem C141_qam16 : ∃ s, qamModem 16 = .ok s ∧ ∀ x : ℝ, 0 < x → bitErrorProb s.constellation s.nbits (Real.sqrt (s.Es / (2 * x))) =
    3 / 4 * qFunction (Real.sqrt (x / 5)) + 1 / 2 * qFunction (3 * Real.sqrt (x / 5)) - 1 / 4 * qFunction (5 * Real.sqrt (x / 5)) := by
  obtain ⟨s, h1, h2⟩ := C141_qam_bits 2 (by norm_num)
  refine ⟨s, h1, fun x hx => ?_⟩
  rw [h2 x hx, show 3 * x / ((4 : ℝ) ^ 2 - 1) = x / 5 by ring]
  have e : Icc 1 2 = ({1, 2} : Finset ℕ) := rfl
  unfold qamBitError
  rw [e, sum_pair (by norm_num)]
  norm_num [sum_range_succ]
  ring

/-- C141, 64-QAM. -/
theorem C141_qam64 : ∃ s, qamModem 64 = .ok s ∧ ∀ x : ℝ, 0 < x → bitErrorProb s.constellation s.nbits (Real.sqrt (s.Es / (2 * x))) =
    7 / 12 * qFunction (Real.sqrt (x / 21)) + 1 / 2 * qFunction (3 * Real.sqrt (x / 21)) - 1 / 12 * qFunction (5 * Real.sqrt (x / 21)) +
      1 / 12 * qFunction (9 * Real.sqrt (x / 21)) - 1 / 12 * qFunction (13 * Real.sqrt (x / 21)) := by
  obtain ⟨s, h1, h2⟩ := C141_qam_bits 3 (by norm_num)
  refine ⟨s, h1, fun x hx => ?_⟩
  rw [h2 x hx, show 3 * x / ((4 : ℝ) ^ 3 - 1) = x / 21 by ring]
  have e : Icc 1 3 = insert 1 ({2, 3} : Finset ℕ) := rfl
  unfold qamBitError
  rw [e, sum_insert (by norm_num), sum_pair (by norm_num)]
  norm_num [sum_range_succ]
  ring

/-- The noise that leaves a level of a grid with spacing 2 the nearest one; the outer levels have no limit on one side. -/
def levelSet (σ : ℝ) (L c : ℕ) : Set ℝ := {x | (0 < c → -1 < σ * x) ∧ (c + 1 < L → σ * x < 1)}

theorem levelSet_prob {σ : ℝ} (hσ : 0 < σ) {L c : ℕ} (hc : c < L) :
    (gaussianReal 0 1).real (levelSet σ L c) = 1 - (if 0 < c then qFunction (1 / σ) else 0) - (if c + 1 < L then qFunction (1 / σ) else 0) := by
  set A : Set ℝ := {x | 0 < c ∧ x ≤ -(1 / σ)} with hA
  set B : Set ℝ := {x | c + 1 < L ∧ 1 / σ ≤ x} with hB
  have mA : MeasurableSet A := by
    by_cases h : 0 < c
    · have : A = Set.Iic (-(1 / σ)) := by ext x; simp [hA, h]
      rw [this]; exact measurableSet_Iic
    · have : A = ∅ := by ext x; simp [hA, h]
      rw [this]; exact MeasurableSet.empty
  have mB : MeasurableSet B := by
    by_cases h : c + 1 < L
    · have : B = Set.Ici (1 / σ) := by ext x; simp [hB, h]
      rw [this]; exact measurableSet_Ici
    · have : B = ∅ := by ext x; simp [hB, h]
      rw [this]; exact MeasurableSet.empty
  have hcompl : levelSet σ L c = (A ∪ B)ᶜ := by
    ext x
    have e1 : x ≤ -(1 / σ) ↔ σ * x ≤ -1 := by rw [← neg_div, le_div_iff₀ hσ, mul_comm]
    have e2 : 1 / σ ≤ x ↔ 1 ≤ σ * x := by rw [div_le_iff₀ hσ, mul_comm]
    simp only [levelSet, hA, hB, Set.mem_setOf_eq, Set.mem_compl_iff, Set.mem_union, e1, e2, not_or, not_and, not_le]
  have hdisj : Disjoint A B := by
    rw [Set.disjoint_left]
    rintro x ⟨-, h1⟩ ⟨-, h2⟩
    have : 0 < 1 / σ := by positivity
    linarith
  have pA : (gaussianReal 0 1).real A = if 0 < c then qFunction (1 / σ) else 0 := by
    by_cases h : 0 < c
    · have : A = (fun x => -x) ⁻¹' (Set.Ici (1 / σ)) := by ext x; simp [hA, h, le_neg]
      rw [if_pos h, this, ← map_measureReal_apply measurable_neg measurableSet_Ici, gaussianReal_map_neg, neg_zero, q_ici]
    · have : A = ∅ := by ext x; simp [hA, h]
      rw [this, if_neg h]; simp
  have pB : (gaussianReal 0 1).real B = if c + 1 < L then qFunction (1 / σ) else 0 := by
    by_cases h : c + 1 < L
    · have : B = Set.Ici (1 / σ) := by ext x; simp [hB, h]
      rw [if_pos h, this, q_ici]
    · have : B = ∅ := by ext x; simp [hB, h]
      rw [this, if_neg h]; simp
  rw [hcompl, probReal_compl_eq_one_sub (mA.union mB), measureReal_union hdisj mB, pA, pB]
  ring

theorem levelSet_meas (σ : ℝ) (L c : ℕ) : MeasurableSet (levelSet σ L c) := by
  unfold levelSet
  refine MeasurableSet.inter ?_ ?_
  · by_cases h : 0 < c
    · simp only [h, forall_true_left]; exact measurableSet_lt measurable_const (by fun_prop)
    · simp only [h, false_imp_iff]; exact MeasurableSet.univ
  · by_cases h : c + 1 < L
    · simp only [h, forall_true_left]; exact measurableSet_lt (by fun_prop) measurable_const
    · simp only [h, false_imp_iff]; exact MeasurableSet.univ

theorem levelSet_total {σ : ℝ} (hσ : 0 < σ) {L : ℕ} (hL : 0 < L) :
    ∑ c ∈ range L, (gaussianReal 0 1).real (levelSet σ L c) = L - 2 * (L - 1) * qFunction (1 / σ) := by
  rw [sum_congr rfl fun c hc => levelSet_prob hσ (mem_range.1 hc), sum_sub_distrib, sum_sub_distrib, sum_const, card_range, nsmul_eq_mul, mul_one]
  obtain ⟨m, rfl⟩ : ∃ m, L = m + 1 := ⟨L - 1, by omega⟩
  have e1 : ∑ c ∈ range (m + 1), (if 0 < c then qFunction (1 / σ) else 0) = m * qFunction (1 / σ) := by
    rw [sum_range_succ']
    simp
  have e2 : ∑ c ∈ range (m + 1), (if c + 1 < m + 1 then qFunction (1 / σ) else 0) = m * qFunction (1 / σ) := by
    rw [sum_range_succ, if_neg (by omega), add_zero, sum_congr rfl (fun c hc => if_pos (by have := mem_range.1 hc; omega)), sum_const, card_range, nsmul_eq_mul]
  rw [e1, e2]
  push_cast
  ring

/-- Symbol errors on a grid. -/
theorem grid_ser {h : Nat} {cst : List ℂ} (hlen : cst.length = 4 ^ h)
    (hgrid : ∀ c < 2 ^ h, ∀ r < 2 ^ h, cst.getD (grayCode c * 2 ^ h + grayCode r) 0 = ((2 * (c : ℝ) - 2 ^ h + 1 : ℝ) : ℂ) + ((2 * (r : ℝ) - 2 ^ h + 1 : ℝ) : ℂ) * Complex.I)
    {σ : ℝ} (hσ : 0 < σ) : symbolErrorProb cst σ = 1 - (1 - 2 * (1 - 1 / 2 ^ h) * qFunction (1 / σ)) ^ 2 := by
  have e4' : (4 : Nat) ^ h = 2 ^ h * 2 ^ h := by rw [← Nat.mul_pow]
  have hone : ∀ c < 2 ^ h, ∀ r < 2 ^ h, noise2.real {n | nearestLabel cst (cst.getD (grayCode c * 2 ^ h + grayCode r) 0 + σ * (n.1 + Complex.I * n.2)) ≠ grayCode c * 2 ^ h + grayCode r} =
      1 - (gaussianReal 0 1).real (levelSet σ (2 ^ h) c) * (gaussianReal 0 1).real (levelSet σ (2 ^ h) r) := by
    intro c hc r hr
    have hprod : (gaussianReal 0 1).real (levelSet σ (2 ^ h) c) * (gaussianReal 0 1).real (levelSet σ (2 ^ h) r) = noise2.real (levelSet σ (2 ^ h) c ×ˢ levelSet σ (2 ^ h) r) := by
      unfold noise2
      rw [measureReal_prod_prod]
    have hP : IsProbabilityMeasure noise2 := by unfold noise2; infer_instance
    rw [hprod, ← probReal_compl_eq_one_sub ((levelSet_meas _ _ _).prod (levelSet_meas _ _ _))]
    refine measureReal_congr ?_
    have n1 := noise2_tail (u := 1) (v := 0) (by norm_num) (A := 1) hσ (s := 1) (Or.inl rfl)
    have n2 := noise2_tail (u := 1) (v := 0) (by norm_num) (A := 1) hσ (s := -1) (Or.inr rfl)
    have n3 := noise2_tail (u := 0) (v := 1) (by norm_num) (A := 1) hσ (s := 1) (Or.inl rfl)
    have n4 := noise2_tail (u := 0) (v := 1) (by norm_num) (A := 1) hσ (s := -1) (Or.inr rfl)
    have a1 : ∀ᵐ n ∂noise2, ¬ ((1 : ℝ) * 1 + σ * (1 * n.1 + 0 * n.2) = 0) := by rw [ae_iff]; simpa using n1.2
    have a2 : ∀ᵐ n ∂noise2, ¬ ((1 : ℝ) * (-1) + σ * (1 * n.1 + 0 * n.2) = 0) := by rw [ae_iff]; simpa using n2.2
    have a3 : ∀ᵐ n ∂noise2, ¬ ((1 : ℝ) * 1 + σ * (0 * n.1 + 1 * n.2) = 0) := by rw [ae_iff]; simpa using n3.2
    have a4 : ∀ᵐ n ∂noise2, ¬ ((1 : ℝ) * (-1) + σ * (0 * n.1 + 1 * n.2) = 0) := by rw [ae_iff]; simpa using n4.2
    filter_upwards [a1, a2, a3, a4] with n b1 b2 b3 b4
    rw [eq_iff_iff]
    show _ ≠ _ ↔ n ∈ (levelSet σ (2 ^ h) c ×ˢ levelSet σ (2 ^ h) r)ᶜ
    rw [Set.mem_compl_iff, Ne, not_iff_not, Set.mem_prod]
    obtain ⟨c', hc', r', hr', hlab, hdec⟩ := grid_decision hlen hgrid (cst.getD (grayCode c * 2 ^ h + grayCode r) 0 + σ * (n.1 + Complex.I * n.2))
    rw [hlab]
    have ere : (cst.getD (grayCode c * 2 ^ h + grayCode r) 0 + σ * (n.1 + Complex.I * n.2)).re = 2 * (c : ℝ) - 2 ^ h + 1 + σ * n.1 := by
      rw [hgrid c hc r hr]
      simp only [Complex.add_re, Complex.ofReal_re, Complex.ofReal_im, Complex.mul_re, Complex.I_re, Complex.I_im]
      ring
    have eim : (cst.getD (grayCode c * 2 ^ h + grayCode r) 0 + σ * (n.1 + Complex.I * n.2)).im = 2 * (r : ℝ) - 2 ^ h + 1 + σ * n.2 := by
      rw [hgrid c hc r hr]
      simp only [Complex.add_im, Complex.ofReal_re, Complex.ofReal_im, Complex.mul_im, Complex.I_re, Complex.I_im, Complex.add_re, Complex.mul_re]
      ring
    rw [ere, eim] at hdec
    have hax : ∀ (c c' : ℕ) (x : ℝ), c < 2 ^ h → c' < 2 ^ h → 1 + σ * x ≠ 0 → -1 + σ * x ≠ 0 →
        (∀ T : ℕ, 0 < T → T < 2 ^ h → (T ≤ c' → 2 * (T : ℝ) - 2 ^ h ≤ 2 * (c : ℝ) - 2 ^ h + 1 + σ * x) ∧ (c' < T → 2 * (c : ℝ) - 2 ^ h + 1 + σ * x ≤ 2 * (T : ℝ) - 2 ^ h)) →
        (c' = c ↔ x ∈ levelSet σ (2 ^ h) c) := by
      intro c c' x hc hc' h1 h2 hd
      unfold levelSet
      constructor
      · rintro rfl
        refine ⟨fun h0 => ?_, fun h0 => ?_⟩
        · have := (hd c' h0 hc').1 le_rfl
          rcases lt_or_gt_of_ne h1 with h' | h' <;> linarith
        · have := (hd (c' + 1) (by omega) h0).2 (by omega)
          push_cast at this
          rcases lt_or_gt_of_ne h2 with h' | h' <;> linarith
      · rintro ⟨g1, g2⟩
        rcases lt_trichotomy c' c with hlt | he | hgt
        · have := (hd c (by omega) hc).2 hlt
          have := g1 (by omega)
          linarith
        · exact he
        · have := (hd (c + 1) (by omega) (by omega)).1 hgt
          have := g2 (by omega)
          push_cast at *
          linarith
    have k1 := hax c c' n.1 hc hc' (by simpa using b1) (by simpa using b2) (fun T h1 h2 => (hdec T h1 h2).1)
    have k2 := hax r r' n.2 hr hr' (by simpa using b3) (by simpa using b4) (fun T h1 h2 => (hdec T h1 h2).2)
    rw [← k1, ← k2]
    constructor
    · intro e
      have h1 : grayCode c' = grayCode c := by
        have := congrArg (· / 2 ^ h) e
        simpa [Nat.mul_comm _ (2 ^ h), Nat.mul_add_div (Nat.two_pow_pos h), Nat.div_eq_of_lt (gray_lt hr), Nat.div_eq_of_lt (gray_lt hr')] using this
      rw [h1] at e
      exact ⟨gray_inj h1, gray_inj (by omega)⟩
    · rintro ⟨rfl, rfl⟩; rfl
  unfold symbolErrorProb
  rw [hlen, e4', sum_blocks, sum_gray]
  have e5 : ∑ c ∈ range (2 ^ h), ∑ b ∈ range (2 ^ h), noise2.real {n | nearestLabel cst (cst.getD (grayCode c * 2 ^ h + b) 0 + σ * (n.1 + Complex.I * n.2)) ≠ grayCode c * 2 ^ h + b} =
      ∑ c ∈ range (2 ^ h), ∑ r ∈ range (2 ^ h), (1 - (gaussianReal 0 1).real (levelSet σ (2 ^ h) c) * (gaussianReal 0 1).real (levelSet σ (2 ^ h) r)) := by
    refine sum_congr rfl fun c hc => ?_
    rw [sum_gray]
    exact sum_congr rfl fun r hr => hone c (mem_range.1 hc) r (mem_range.1 hr)
  rw [e5]
  simp only [sum_sub_distrib, sum_const, card_range, nsmul_eq_mul, mul_one, ← mul_sum, ← sum_mul]
  rw [levelSet_total hσ (Nat.two_pow_pos h)]
  push_cast
  have : (2 : ℝ) ^ h ≠ 0 := by positivity
  field_simp

/-- C141, symbol errors: `1 - (1 - 2 (1 - 1/√M) Q(a))²`, `a = √(3 x / (M-1))`. -/
theorem C141_qam_symbols (h : Nat) (hh : 1 ≤ h) : ∃ s, qamModem (4 ^ h) = .ok s ∧ ∀ x : ℝ, 0 < x →
    symbolErrorProb s.constellation (Real.sqrt (s.Es / (2 * x))) = 1 - (1 - 2 * (1 - 1 / 2 ^ h) * qFunction (Real.sqrt (3 * x / ((4 : ℝ) ^ h - 1)))) ^ 2 := by
  obtain ⟨s, s1, s2, s3, s4, s5⟩ := qam_grid h hh
  refine ⟨s, s1, fun x hx => ?_⟩
  have h4 : (4 : ℝ) ^ 1 ≤ 4 ^ h := pow_le_pow_right₀ (by norm_num) hh
  have hM : (0 : ℝ) < 4 ^ h - 1 := by linarith
  obtain ⟨hσ, hinv⟩ := inv_sigma (Es := s.Es) (by rw [s4]; positivity) hx
  have harg : 1 / Real.sqrt (s.Es / (2 * x)) = Real.sqrt (3 * x / ((4 : ℝ) ^ h - 1)) := by
    rw [hinv, s4]
    congr 1
    field_simp
  rw [grid_ser s3 s5 hσ, harg]


/-- The symbol error probability in terms of `modulate` and `demodulate`: a bit group is sent as one symbol and does not come back. -/
theorem C141_symbol_api {s : Modem} (hs : s.Consistent) (hm : 2 ≤ s.m) (σ v : ℝ) :
    symbolErrorProb s.constellation σ = (∑ l ∈ range (2 ^ s.nbits), noise2.real {n | ¬ ∃ x, modulate s (toBits s.nbits l) = .ok [x] ∧
      demodulate s [x + σ * (n.1 + Complex.I * n.2)] "hard" v = .ok (.bits (toBits s.nbits l))}) / 2 ^ s.nbits := by
  unfold symbolErrorProb
  have hlen : s.constellation.length = 2 ^ s.nbits := hs.len
  rw [hlen]
  push_cast
  congr 1
  refine sum_congr rfl fun l hl => ?_
  rw [mem_range] at hl
  congr 1
  ext n
  have hn : 0 < s.nbits := by
    rcases Nat.eq_zero_or_pos s.nbits with h0 | h0
    · have := hs.pow
      rw [h0] at this
      omega
    · exact h0
  have hkne : toBits s.nbits l ≠ [] := by
    intro e
    have := congrArg List.length e
    simp at this
    omega
  have hmod : modulate s (toBits s.nbits l) = .ok [s.constellation.getD l 0] := by
    rw [modulate_ok hs hm (fun x hx => toBits_lt_two hx) hkne (N := 1) (by simp)]
    unfold inSyms
    rw [toBits_length, Nat.div_self hn]
    simp [List.take_of_length_le, bitarray2dec_toBits hl]
  show nearestLabel _ _ ≠ l ↔ ¬ ∃ x, _
  rw [hmod, Ne, not_iff_not]
  have hdem : ∀ y : ℂ, demodulate s [y] "hard" v = .ok (.bits (toBits s.nbits (nearestLabel s.constellation y))) := by
    intro y
    unfold demodulate
    rw [if_pos rfl, demodHard_ok hs]
    simp [nearestIdx_eq hs, Except.map]
    try rfl
  constructor
  · intro h
    refine ⟨_, rfl, ?_⟩
    rw [hdem, h]
  · rintro ⟨x, hx, h⟩
    have : x = s.constellation.getD l 0 := by
      injection hx with hx
      injection hx with hx
      exact hx.symm
    rw [this, hdem] at h
    injection h with h
    injection h with h
    have hb := congrArg bitarray2dec h
    have hne : s.constellation ≠ [] := by
      intro e
      rw [e] at hlen
      simp at hlen
      exact absurd hlen.symm (by positivity)
    have h1 := (nearestLabel_mem hne (s.constellation.getD l 0 + σ * (n.1 + Complex.I * n.2))).1
    rw [hlen] at h1
    rwa [bitarray2dec_toBits h1, bitarray2dec_toBits hl] at hb

/-- C141, the simulation: the bit error ratio reported by `link_performance` for an uncoded `QAMModem(4^h)` over `SISOFlatChannel` without fading tends almost surely to the value of
Cho and Yoon when `send_max` and `err_min` grow. -/
theorem C141_link (h : Nat) (hh : 1 ≤ h) : ∃ s, qamModem (4 ^ h) = .ok s ∧
    ∀ (bufLen : ℚ → Nat → Nat) (memory : Siso × ((Nat → Int) × (Nat → ℝ)) → Nat → ℝ) {ch : Siso}, ch.fading = (.cplx 1, 0) → ch.isComplex = true →
      ∀ (snr : ℝ) (sc : Int) {Ω : Type*} [MeasurableSpace Ω] {P : Measure Ω} {b : Ω → ℕ → Int} {z : Ω → ℕ → ℝ}, FairDraws P b z →
        ∀ᵐ ω ∂P, ∀ sendMax errMin : Nat → Int, (∀ j, 0 < sendMax j) → (∀ j, 0 < errMin j) → Filter.Tendsto sendMax Filter.atTop Filter.atTop →
          Filter.Tendsto errMin Filter.atTop Filter.atTop →
          ∃ ber : Nat → ℚ, (∀ j, ReportsBer (uncodedLink streamRng s) bufLen memory snr (sendMax j) (errMin j) sc 1 (ch, (b ω, z ω)) (ber j)) ∧
            Filter.Tendsto (fun j => (ber j : ℝ)) Filter.atTop (nhds (qamBitError h (Real.sqrt (3 * (10 : ℝ) ^ (snr / 10) / ((4 : ℝ) ^ h - 1))))) := by
  obtain ⟨s, s1, H⟩ := C141_qam_bits h hh
  obtain ⟨s', h1', hcons, hnb, -⟩ := C93_qam h hh
  obtain rfl := Except.ok.inj (s1.symm.trans h1')
  have hm : 2 ≤ s.m := by
    rw [hcons.pow, hnb]
    calc 2 = 2 ^ 1 := rfl
      _ ≤ _ := Nat.pow_le_pow_right (by norm_num) (by omega)
  refine ⟨s, s1, ?_⟩
  intro bufLen memory ch hf hc snr sc Ω _ P b z hd
  have := C125_awgn hcons hm bufLen memory hf hc snr sc hd
  rwa [H _ (Real.rpow_pos_of_pos (by norm_num) _)] at this

/-- 16-QAM at 20 dB: the formula is not void. -/
example : ∃ s, qamModem 16 = .ok s ∧ bitErrorProb s.constellation s.nbits (Real.sqrt (s.Es / (2 * 100))) =
    3 / 4 * qFunction (Real.sqrt 20) + 1 / 2 * qFunction (3 * Real.sqrt 20) - 1 / 4 * qFunction (5 * Real.sqrt 20) := by
  obtain ⟨s, h1, h2⟩ := C141_qam16
  refine ⟨s, h1, ?_⟩
  rw [h2 100 (by norm_num), show (100 : ℝ) / 5 = 20 by norm_num]

/-- QPSK as 4-QAM: the symbol error probability `1 - (1 - Q(√SNR))²`. -/
example : ∃ s, qamModem 4 = .ok s ∧ ∀ x : ℝ, 0 < x → symbolErrorProb s.constellation (Real.sqrt (s.Es / (2 * x))) = 1 - (1 - qFunction (Real.sqrt x)) ^ 2 := by
  obtain ⟨s, h1, h2⟩ := C141_qam_symbols 1 le_rfl
  refine ⟨s, h1, fun x hx => ?_⟩
  rw [h2 x hx, show 3 * x / ((4 : ℝ) ^ 1 - 1) = x by ring]
  norm_num

end Verif
