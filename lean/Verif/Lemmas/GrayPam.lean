import Verif.Props.ModemBer4
/-
The labels of QAM as pairs of Gray codes, and the bits of a Gray code as parities of numbers of thresholds.
-/
namespace Verif
open Finset

theorem gray_testBit (i p : Nat) : (grayCode i).testBit p = (i.testBit p ^^ i.testBit (p + 1)) := by
  unfold grayCode
  rw [Nat.testBit_xor, Nat.testBit_shiftRight, Nat.add_comm 1 p]

/-- Bit `p` of the Gray code of `i` is the parity of the number of thresholds `2^p (2t+1)` up to `i`. -/
theorem gray_bit (i p : Nat) : (grayCode i).testBit p = decide ((i + 2 ^ p) / (2 * 2 ^ p) % 2 = 1) := by
  rw [gray_testBit, Nat.testBit_eq_decide_div_mod_eq, Nat.testBit_eq_decide_div_mod_eq, pow_succ, ← Nat.div_div_eq_div_mul, Nat.mul_comm 2 (2 ^ p), ← Nat.div_div_eq_div_mul,
    Nat.add_div_right _ (Nat.two_pow_pos p)]
  generalize i / 2 ^ p = a
  have h4 : a % 4 < 4 := Nat.mod_lt _ (by decide)
  have e1 : a % 2 = a % 4 % 2 := by omega
  have e2 : a / 2 % 2 = a % 4 / 2 := by omega
  have e3 : (a + 1) / 2 % 2 = ((a % 4 + 1) / 2) % 2 := by omega
  show (decide (a % 2 = 1) ^^ decide (a / 2 % 2 = 1)) = decide ((a + 1) / 2 % 2 = 1)
  rw [e1, e2, e3]
  interval_cases a % 4 <;> rfl

/-- The Gray code of the snake through the grid is the pair of the Gray codes of column and row. -/
theorem gray_snake {h c r : Nat} (hr : r < 2 ^ h) :
    grayCode (c * 2 ^ h + if c % 2 = 0 then r else 2 ^ h - 1 - r) = grayCode c * 2 ^ h + grayCode r := by
  apply Nat.eq_of_testBit_eq
  intro p
  have hx : (if c % 2 = 0 then r else 2 ^ h - 1 - r) < 2 ^ h := by split <;> omega
  rw [gray_testBit, Nat.mul_comm c, Nat.mul_comm (grayCode c), Nat.testBit_two_pow_mul_add _ hx, Nat.testBit_two_pow_mul_add _ hx, Nat.testBit_two_pow_mul_add _ (gray_lt hr)]
  have hbit : ∀ q < h, (if c % 2 = 0 then r else 2 ^ h - 1 - r).testBit q = (r.testBit q ^^ decide (c % 2 = 1)) := by
    intro q hq
    by_cases hc : c % 2 = 0
    · rw [if_pos hc, hc]; simp
    · have hc1 : c % 2 = 1 := by omega
      rw [if_neg hc, hc1, Nat.sub_sub, Nat.add_comm 1 r, Nat.testBit_two_pow_sub_succ hr]
      simp [hq]
  by_cases h1 : p < h
  · rw [if_pos h1, if_pos h1, hbit p h1, gray_testBit]
    by_cases h2 : p + 1 < h
    · rw [if_pos h2, hbit _ h2]
      cases r.testBit p <;> cases r.testBit (p + 1) <;> cases decide (c % 2 = 1) <;> rfl
    · rw [if_neg h2, show p + 1 - h = 0 by omega, Nat.testBit_lt_two_pow (x := r) (i := p + 1) (lt_of_lt_of_le hr (Nat.pow_le_pow_right (by decide) (by omega))), Nat.testBit_zero]
      cases r.testBit p <;> cases decide (c % 2 = 1) <;> rfl
  · rw [if_neg h1, if_neg (by omega), if_neg h1, gray_testBit, show p + 1 - h = p - h + 1 by omega]

/-- `QAMModem(4^h)`: the point in column `c` and row `r` of the grid carries the label made of the Gray codes of `c` and `r`. -/
theorem qam_grid (h : Nat) (hh : 1 ≤ h) :
    ∃ s, qamModem (4 ^ h) = .ok s ∧ s.nbits = 2 * h ∧ s.constellation.length = 4 ^ h ∧ s.Es = 2 * ((4 : ℝ) ^ h - 1) / 3 ∧
      ∀ c < 2 ^ h, ∀ r < 2 ^ h, s.constellation.getD (grayCode c * 2 ^ h + grayCode r) 0 =
        ((2 * (c : ℝ) - 2 ^ h + 1 : ℝ) : ℂ) + ((2 * (r : ℝ) - 2 ^ h + 1 : ℝ) : ℂ) * Complex.I := by
  have h0 : 0 < 2 ^ h := Nat.two_pow_pos h
  have e4 : (4 : Nat) ^ h = 2 ^ (2 * h) := by rw [pow_mul]; rfl
  have e4' : (4 : Nat) ^ h = 2 ^ h * 2 ^ h := by rw [← Nat.mul_pow]
  obtain ⟨s, s1, -, s2, s3, -, -, s4, -⟩ := C65_qam h hh
  have hc : ((List.range (4 ^ h)).map (snakePoint (2 ^ h))).length = 2 ^ (2 * h) := by rw [List.length_map, List.length_range, e4]
  obtain ⟨c', h1, h2, h3⟩ := newModem_gray (b := 2 * h) (by omega) hc
  have hs : s.constellation = c' := by
    rw [qamModem_eq hh] at s1
    have := s1.symm.trans h1
    rw [Except.ok.inj this]
  refine ⟨s, s1, s2, s3, s4, ?_⟩
  intro c hcl r hrl
  have hlt : (if c % 2 = 0 then r else 2 ^ h - 1 - r) < 2 ^ h := by split <;> omega
  set i := c * 2 ^ h + if c % 2 = 0 then r else 2 ^ h - 1 - r with hi
  have hil : i < 4 ^ h := by
    rw [e4']
    have : (c + 1) * 2 ^ h ≤ 2 ^ h * 2 ^ h := Nat.mul_le_mul_right _ hcl
    rw [Nat.succ_mul] at this
    omega
  have hdiv : i / 2 ^ h = c := by rw [hi, Nat.mul_comm, Nat.mul_add_div h0, Nat.div_eq_of_lt hlt, Nat.add_zero]
  have hmod : i % 2 ^ h = if c % 2 = 0 then r else 2 ^ h - 1 - r := by rw [hi, Nat.mul_comm, Nat.mul_add_mod, Nat.mod_eq_of_lt hlt]
  have hrow : snakeRow (2 ^ h) i = r := by
    unfold snakeRow
    rw [hdiv, hmod]
    split <;> omega
  rw [← gray_snake hrl, hs, List.getD_eq_getElem?_getD, h3 i (by rw [← e4]; exact hil), List.getElem?_map, List.getElem?_range hil]
  show snakePoint (2 ^ h) i = _
  unfold snakePoint
  rw [hrow, hdiv]
  push_cast
  ring

/-- The number of thresholds `W (2t+1)` up to `i`. -/
theorem threshold_le {W i t : Nat} (hW : 0 < W) : W * (2 * t + 1) ≤ i ↔ t < (i + W) / (2 * W) := by
  have e : t < (i + W) / (2 * W) ↔ (t + 1) * (2 * W) ≤ i + W := by rw [← Nat.le_div_iff_mul_le (by omega)]; rfl
  rw [e]
  constructor <;> intro h
  · nlinarith
  · nlinarith

theorem alt_sum (f : ℕ → ℝ) {a b K : ℕ} (hab : a ≤ b) (hb : b ≤ K) (P : ℕ → Prop) [DecidablePred P] (hP : ∀ t < K, P t ↔ a ≤ t ∧ t < b) :
    ∑ t ∈ range K, (if P t then f t else 0) = ∑ m ∈ range (b - a), f (a + m) := by
  rw [← sum_filter]
  have : (range K).filter P = Ico a b := by
    ext t
    simp only [mem_filter, mem_range, mem_Ico]
    constructor
    · rintro ⟨h1, h2⟩; exact (hP t h1).1 h2
    · rintro ⟨h1, h2⟩; exact ⟨by omega, (hP t (by omega)).2 ⟨h1, h2⟩⟩
  rw [this, sum_Ico_eq_sum_range]

/-- A bit of the Gray code changes when an odd number of thresholds is crossed; as an alternating sum over the thresholds. -/
theorem gray_error {W K i j : Nat} (hW : 0 < W) (hi : i < 2 * W * K) (hj : j < 2 * W * K) :
    (if (i + W) / (2 * W) % 2 ≠ (j + W) / (2 * W) % 2 then (1 : ℝ) else 0) =
      ∑ t ∈ range K, (if i < W * (2 * t + 1) then (if W * (2 * t + 1) ≤ j then (-1) ^ ((W * (2 * t + 1) - i - 1) / (2 * W)) else 0)
        else (if j < W * (2 * t + 1) then (-1) ^ ((i - W * (2 * t + 1)) / (2 * W)) else 0)) := by
  have hW2 : 0 < 2 * W := by omega
  have hle : ∀ i < 2 * W * K, (i + W) / (2 * W) ≤ K := by
    intro i hi
    rw [Nat.div_le_iff_le_mul_add_pred hW2]
    omega
  set g := (i + W) / (2 * W) with hg
  set g' := (j + W) / (2 * W) with hg'
  have hgi : ∀ t, i < W * (2 * t + 1) ↔ g ≤ t := fun t => by rw [← not_le, threshold_le hW, not_lt]
  have hgj : ∀ t, W * (2 * t + 1) ≤ j ↔ t < g' := fun t => threshold_le hW
  have hgj' : ∀ t, j < W * (2 * t + 1) ↔ g' ≤ t := fun t => by rw [← not_le, hgj, not_lt]
  have hdm := Nat.div_add_mod (i + W) (2 * W)
  rw [← hg] at hdm
  have hml := Nat.mod_lt (i + W) hW2
  have d1 : ∀ t, g ≤ t → (W * (2 * t + 1) - i - 1) / (2 * W) = t - g := by
    intro t ht
    obtain ⟨m, rfl⟩ := Nat.exists_eq_add_of_le ht
    have : W * (2 * (g + m) + 1) - i - 1 = 2 * W * m + (2 * W - 1 - (i + W) % (2 * W)) := by
      have : W * (2 * (g + m) + 1) = 2 * W * g + 2 * W * m + W := by ring
      omega
    rw [this, Nat.mul_add_div hW2, Nat.div_eq_of_lt (by omega)]
    omega
  have d2 : ∀ t, t < g → (i - W * (2 * t + 1)) / (2 * W) = g - 1 - t := by
    intro t ht
    obtain ⟨m, hm⟩ := Nat.exists_eq_add_of_lt ht
    have : i - W * (2 * t + 1) = 2 * W * m + (i + W) % (2 * W) := by
      have h1 : W * (2 * t + 1) = 2 * W * t + W := by ring
      have h2 : 2 * W * g = 2 * W * t + 2 * W * m + 2 * W := by rw [hm]; ring
      omega
    rw [this, Nat.mul_add_div hW2, Nat.div_eq_of_lt (by omega)]
    omega
  have e : ∀ t ∈ range K, (if i < W * (2 * t + 1) then (if W * (2 * t + 1) ≤ j then (-1 : ℝ) ^ ((W * (2 * t + 1) - i - 1) / (2 * W)) else 0)
        else (if j < W * (2 * t + 1) then (-1) ^ ((i - W * (2 * t + 1)) / (2 * W)) else 0)) =
      if g ≤ t then (if t < g' then (-1 : ℝ) ^ (t - g) else 0) else (if g' ≤ t then (-1) ^ (g - 1 - t) else 0) := by
    intro t _
    simp only [hgi, hgj, hgj']
    by_cases h1 : g ≤ t
    · rw [if_pos h1, if_pos h1, d1 t h1]
    · rw [if_neg h1, if_neg h1, d2 t (by omega)]
  rw [sum_congr rfl e]
  have par : ∀ n : ℕ, (if Even n then (0 : ℝ) else 1) = if n % 2 = 1 then 1 else 0 := by
    intro n
    by_cases h : Even n
    · rw [if_pos h, if_neg (by have := Nat.even_iff.1 h; omega)]
    · rw [if_neg h, if_pos (Nat.odd_iff.1 (Nat.not_even_iff_odd.1 h))]
  rcases le_total g g' with hgg | hgg
  · have e2 : ∀ t ∈ range K, (if g ≤ t then (if t < g' then (-1 : ℝ) ^ (t - g) else 0) else (if g' ≤ t then (-1) ^ (g - 1 - t) else 0)) =
        if g ≤ t ∧ t < g' then (-1 : ℝ) ^ (t - g) else 0 := by
      intro t _
      by_cases h1 : g ≤ t
      · simp [h1]
      · rw [if_neg h1, if_neg (by omega), if_neg (by omega)]
    rw [sum_congr rfl e2, alt_sum (fun t => (-1 : ℝ) ^ (t - g)) hgg (hle j hj) _ (fun t _ => Iff.rfl)]
    simp only [Nat.add_sub_cancel_left]
    rw [neg_one_geom_sum, par]
    congr 1
    rw [eq_iff_iff]
    omega
  · have e2 : ∀ t ∈ range K, (if g ≤ t then (if t < g' then (-1 : ℝ) ^ (t - g) else 0) else (if g' ≤ t then (-1) ^ (g - 1 - t) else 0)) =
        if g' ≤ t ∧ t < g then (-1 : ℝ) ^ (g - 1 - t) else 0 := by
      intro t _
      by_cases h1 : g ≤ t
      · rw [if_pos h1, if_neg (by omega), if_neg (by omega)]
      · by_cases h2 : g' ≤ t
        · rw [if_neg h1, if_pos h2, if_pos ⟨h2, by omega⟩]
        · rw [if_neg h1, if_neg h2, if_neg (by omega)]
    rw [sum_congr rfl e2, alt_sum (fun t => (-1 : ℝ) ^ (g - 1 - t)) hgg (hle i hi) _ (fun t _ => Iff.rfl)]
    have e3 : ∀ m ∈ range (g - g'), (-1 : ℝ) ^ (g - 1 - (g' + m)) = (-1) ^ (g - g' - 1 - m) := by
      intro m _
      congr 1
      omega
    rw [sum_congr rfl e3, sum_range_reflect (fun m => (-1 : ℝ) ^ m), neg_one_geom_sum, par]
    congr 1
    rw [eq_iff_iff]
    omega

/-- Summation over all levels: how often each distance to a threshold occurs. -/
theorem gray_levels (f : ℕ → ℝ) {W K : Nat} (hW : 0 < W) :
    ∑ i ∈ range (2 * W * K), ∑ t ∈ range K, (if i < W * (2 * t + 1) then f (W * (2 * t + 1) - i - 1) else f (i - W * (2 * t + 1))) =
      2 * ∑ j ∈ range (2 * W * K), ((K - (j + W) / (2 * W) : ℕ) : ℝ) * f j := by
  rw [sum_comm]
  have hT : ∀ t < K, W * (2 * t + 1) ≤ 2 * W * K := by intro t ht; nlinarith
  have e1 : ∀ t ∈ range K, ∑ i ∈ range (2 * W * K), (if i < W * (2 * t + 1) then f (W * (2 * t + 1) - i - 1) else f (i - W * (2 * t + 1))) =
      ∑ j ∈ range (W * (2 * t + 1)), f j + ∑ j ∈ range (W * (2 * (K - 1 - t) + 1)), f j := by
    intro t ht
    rw [mem_range] at ht
    have hs : 2 * W * K = W * (2 * t + 1) + W * (2 * (K - 1 - t) + 1) := by
      obtain ⟨m, hm⟩ := Nat.exists_eq_add_of_lt ht
      rw [show K - 1 - t = m by omega, hm]; ring
    rw [hs, sum_range_add]
    congr 1
    · rw [← sum_range_reflect]
      refine sum_congr rfl fun i hi => ?_
      rw [mem_range] at hi
      rw [if_pos (by omega)]
      congr 1
      omega
    · refine sum_congr rfl fun i _ => ?_
      rw [if_neg (by omega), Nat.add_sub_cancel_left]
  rw [sum_congr rfl e1, sum_add_distrib, sum_range_reflect (fun t => ∑ j ∈ range (W * (2 * t + 1)), f j), ← two_mul]
  congr 1
  have e2 : ∀ t ∈ range K, ∑ j ∈ range (W * (2 * t + 1)), f j = ∑ j ∈ range (2 * W * K), if j < W * (2 * t + 1) then f j else 0 := by
    intro t ht
    rw [← sum_filter]
    congr 1
    ext j
    simp only [mem_filter, mem_range] at ht ⊢
    have := hT t ht
    omega
  rw [sum_congr rfl e2, sum_comm]
  refine sum_congr rfl fun j _ => ?_
  rw [← sum_filter, sum_const, nsmul_eq_mul]
  congr 2
  have : (range K).filter (fun t => j < W * (2 * t + 1)) = Ico ((j + W) / (2 * W)) K := by
    ext t
    have := threshold_le (i := j) (t := t) hW
    simp only [mem_filter, mem_range, mem_Ico]
    omega
  rw [this, Nat.card_Ico]

end Verif
