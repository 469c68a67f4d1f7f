import Verif.Spec.Rounding
import Mathlib.Data.Int.Log
import Mathlib.Data.Real.Archimedean
import Mathlib.Tactic.Linarith
import Mathlib.Tactic.Positivity
import Mathlib.Tactic.FieldSimp
import Mathlib.Tactic.Ring
import Mathlib.Algebra.Order.Floor.Semifield
/-
Rounding to 53 significant bits (ties away from zero, unbounded exponent) satisfies the contract `IsRounding (2^-53)`.
-/
namespace Verif

/-- Nearest number with 53 significant bits, for a positive number. -/
noncomputable def rnd53Pos (x : ℝ) : ℝ := (⌊x / 2 ^ (Int.log 2 x - 52) + 1 / 2⌋ : ℝ) * 2 ^ (Int.log 2 x - 52)

/-- Nearest number with 53 significant bits. -/
noncomputable def rnd53 (x : ℝ) : ℝ := if x = 0 then 0 else if 0 < x then rnd53Pos x else -rnd53Pos (-x)

theorem rnd53Pos_err {x : ℝ} (hx : 0 < x) : |rnd53Pos x - x| ≤ (2 : ℝ) ^ (-53 : ℤ) * x := by
  have hlow : (2 : ℝ) ^ Int.log 2 x ≤ x := by simpa using Int.zpow_log_le_self (b := 2) (by norm_num) hx
  unfold rnd53Pos
  set e := Int.log 2 x - 52 with he
  have hp : (0 : ℝ) < 2 ^ e := zpow_pos (by norm_num) _
  have h1 := Int.floor_le (x / 2 ^ e + 1 / 2)
  have h2 := Int.lt_floor_add_one (x / 2 ^ e + 1 / 2)
  have hx' : x = x / 2 ^ e * 2 ^ e := by field_simp
  have h3 : |(⌊x / 2 ^ e + 1 / 2⌋ : ℝ) - x / 2 ^ e| ≤ 1 / 2 := by rw [abs_le]; constructor <;> linarith
  have h4 : (⌊x / 2 ^ e + 1 / 2⌋ : ℝ) * 2 ^ e - x = ((⌊x / 2 ^ e + 1 / 2⌋ : ℝ) - x / 2 ^ e) * 2 ^ e := by
    rw [sub_mul, ← hx']
  rw [h4, abs_mul, abs_of_pos hp]
  have h5 : (2 : ℝ) ^ e = 2 ^ Int.log 2 x * 2 ^ (-52 : ℤ) := by rw [he, sub_eq_add_neg, zpow_add₀ (by norm_num)]
  have h6 : (2 : ℝ) ^ (-53 : ℤ) = 2 ^ (-52 : ℤ) * (1 / 2) := by norm_num
  calc _ ≤ 1 / 2 * (2 : ℝ) ^ e := mul_le_mul_of_nonneg_right h3 hp.le
    _ = 2 ^ (-53 : ℤ) * 2 ^ Int.log 2 x := by rw [h5, h6]; ring
    _ ≤ _ := mul_le_mul_of_nonneg_left hlow (by positivity)

theorem rnd53Pos_mem {x : ℝ} (hx : 0 < x) : (2 : ℝ) ^ Int.log 2 x ≤ rnd53Pos x ∧ rnd53Pos x ≤ 2 ^ (Int.log 2 x + 1) := by
  have hlow : (2 : ℝ) ^ Int.log 2 x ≤ x := by simpa using Int.zpow_log_le_self (b := 2) (by norm_num) hx
  have hup : x < (2 : ℝ) ^ (Int.log 2 x + 1) := by simpa using Int.lt_zpow_succ_log_self (b := 2) (by norm_num) x
  unfold rnd53Pos
  set e := Int.log 2 x - 52 with he
  have hp : (0 : ℝ) < 2 ^ e := zpow_pos (by norm_num) _
  have h5 : (2 : ℝ) ^ Int.log 2 x = 2 ^ (52 : ℕ) * 2 ^ e := by
    rw [← zpow_natCast, ← zpow_add₀ (by norm_num)]; congr 1; rw [he]; push_cast; ring
  have h6 : (2 : ℝ) ^ (Int.log 2 x + 1) = 2 ^ (53 : ℕ) * 2 ^ e := by
    rw [← zpow_natCast, ← zpow_add₀ (by norm_num)]; congr 1; rw [he]; push_cast; ring
  rw [h5, h6]
  rw [h5] at hlow
  rw [h6] at hup
  constructor
  · refine mul_le_mul_of_nonneg_right ?_ hp.le
    have : (2 ^ (52 : ℕ) : ℝ) ≤ x / 2 ^ e := (le_div_iff₀ hp).2 hlow
    have h : (((2 ^ 52 : ℤ)) : ℝ) ≤ x / 2 ^ e + 1 / 2 := by push_cast; linarith
    have := Int.le_floor.2 h
    have h' : (((2 ^ 52 : ℤ)) : ℝ) ≤ (⌊x / 2 ^ e + 1 / 2⌋ : ℝ) := by exact_mod_cast this
    rw [Int.cast_pow] at h'; exact_mod_cast h'
  · refine mul_le_mul_of_nonneg_right ?_ hp.le
    have : x / 2 ^ e < (2 ^ (53 : ℕ) : ℝ) := (div_lt_iff₀ hp).2 hup
    have h : x / 2 ^ e + 1 / 2 < (((2 ^ 53 + 1 : ℤ)) : ℝ) := by push_cast; linarith
    have := Int.floor_lt.2 h
    have h' : (⌊x / 2 ^ e + 1 / 2⌋ : ℝ) ≤ ((2 ^ 53 : ℤ) : ℝ) := by exact_mod_cast (by omega : ⌊x / 2 ^ e + 1 / 2⌋ ≤ 2 ^ 53)
    rw [Int.cast_pow] at h'; exact_mod_cast h'

theorem rnd53Pos_pos {x : ℝ} (hx : 0 < x) : 0 < rnd53Pos x := lt_of_lt_of_le (zpow_pos (by norm_num) _) (rnd53Pos_mem hx).1

theorem rnd53Pos_mono {x y : ℝ} (hx : 0 < x) (hxy : x ≤ y) : rnd53Pos x ≤ rnd53Pos y := by
  have hl : Int.log 2 x ≤ Int.log 2 y := Int.log_mono_right hx hxy
  rcases hl.eq_or_lt with h | h
  · unfold rnd53Pos
    rw [h]
    refine mul_le_mul_of_nonneg_right ?_ (zpow_nonneg (by norm_num) _)
    have : ⌊x / 2 ^ (Int.log 2 y - 52) + 1 / 2⌋ ≤ ⌊y / 2 ^ (Int.log 2 y - 52) + 1 / 2⌋ :=
      Int.floor_mono (by linarith [div_le_div_of_nonneg_right hxy (show (0 : ℝ) ≤ 2 ^ (Int.log 2 y - 52) from zpow_nonneg (by norm_num) _)])
    exact_mod_cast this
  · refine (rnd53Pos_mem hx).2.trans (le_trans ?_ (rnd53Pos_mem (hx.trans_le hxy)).1)
    exact zpow_le_zpow_right₀ (by norm_num) (by omega)

theorem rnd53_isRounding : IsRounding ((2 : ℝ) ^ (-53 : ℤ)) rnd53 where
  mono := by
    intro x y hxy
    unfold rnd53
    rcases lt_trichotomy x 0 with h | h | h
    · rw [if_neg h.ne, if_neg (not_lt.2 h.le)]
      rcases lt_trichotomy y 0 with h' | h' | h'
      · rw [if_neg h'.ne, if_neg (not_lt.2 h'.le)]
        have := rnd53Pos_mono (x := -y) (y := -x) (by linarith) (by linarith)
        linarith
      · rw [if_pos h']
        have := rnd53Pos_pos (x := -x) (by linarith)
        linarith
      · rw [if_neg h'.ne', if_pos h']
        have := rnd53Pos_pos (x := -x) (by linarith)
        have := rnd53Pos_pos h'
        linarith
    · rw [if_pos h]
      rcases (h ▸ hxy).eq_or_lt with h' | h'
      · rw [if_pos h'.symm]
      · rw [if_neg h'.ne', if_pos h']
        exact (rnd53Pos_pos h').le
    · have h' := h.trans_le hxy
      rw [if_neg h.ne', if_pos h, if_neg h'.ne', if_pos h']
      exact rnd53Pos_mono h hxy
  err := by
    intro x
    unfold rnd53
    rcases lt_trichotomy x 0 with h | h | h
    · rw [if_neg h.ne, if_neg (not_lt.2 h.le)]
      have := rnd53Pos_err (x := -x) (by linarith)
      rw [abs_of_neg h]
      rwa [show -rnd53Pos (-x) - x = -(rnd53Pos (-x) - -x) by ring, abs_neg]
    · rw [if_pos h, h]; simp
    · rw [if_neg h.ne', if_pos h, abs_of_pos h]
      exact rnd53Pos_err h

/-- Integers up to `2^53` are not rounded. -/
theorem rnd53_nat (m : ℕ) (hm : m ≤ 2 ^ 53) : rnd53 m = m := by
  unfold rnd53
  rcases Nat.eq_zero_or_pos m with rfl | h0
  · simp
  · have hpos : (0 : ℝ) < m := by exact_mod_cast h0
    rw [if_neg hpos.ne', if_pos hpos]
    unfold rnd53Pos
    rw [Int.log_natCast]
    set l := Nat.log 2 m with hl
    have hlow : 2 ^ l ≤ m := Nat.pow_log_le_self 2 (by omega)
    -- m is a multiple of 2^(l-52)
    obtain ⟨z, hz⟩ : ∃ z : ℤ, (m : ℝ) / 2 ^ ((l : ℤ) - 52) = z := by
      by_cases h : l ≤ 52
      · refine ⟨(m : ℤ) * 2 ^ (52 - l), ?_⟩
        rw [div_eq_mul_inv, ← zpow_neg, neg_sub, show (52 : ℤ) - l = ((52 - l : ℕ) : ℤ) by omega, zpow_natCast]
        push_cast; ring
      · have hl53 : l = 53 := by
          have : l ≤ 53 := by
            rw [hl]
            calc Nat.log 2 m ≤ Nat.log 2 (2 ^ 53) := Nat.log_mono_right hm
              _ = 53 := Nat.log_pow (by norm_num) 53
          omega
        have hm' : m = 2 ^ 53 := le_antisymm hm (hl53 ▸ hlow)
        refine ⟨2 ^ 52, ?_⟩
        rw [hl53, hm']; push_cast; norm_num
    rw [hz]
    have : ⌊(z : ℝ) + 1 / 2⌋ = z := by
      rw [Int.floor_eq_iff]; constructor <;> linarith
    rw [this, ← hz]
    field_simp

/-- It is a genuine rounding: `1/3` is changed. -/
theorem rnd53_third : rnd53 (1 / 3) ≠ 1 / 3 := by
  unfold rnd53
  rw [if_neg (by norm_num), if_pos (by norm_num)]
  unfold rnd53Pos
  have hl : Int.log 2 ((1 : ℝ) / 3) = -2 := by
    apply le_antisymm
    · have := (Int.lt_zpow_iff_log_lt (b := 2) (by norm_num) (x := -1) (r := (1 : ℝ) / 3) (by norm_num)).1 (by norm_num)
      omega
    · exact (Int.zpow_le_iff_le_log (b := 2) (by norm_num) (x := -2) (r := (1 : ℝ) / 3) (by norm_num)).1 (by norm_num)
  rw [hl]
  intro h
  have h2 : (3 : ℝ) * ⌊(1 : ℝ) / 3 / 2 ^ ((-2 : ℤ) - 52) + 1 / 2⌋ = 2 ^ 54 := by
    have e : (2 : ℝ) ^ ((-2 : ℤ) - 52) = 1 / 2 ^ 54 := by norm_num
    rw [e] at h ⊢
    field_simp at h ⊢
    linarith
  have h3 : 3 * ⌊(1 : ℝ) / 3 / 2 ^ ((-2 : ℤ) - 52) + 1 / 2⌋ = 2 ^ 54 := by exact_mod_cast h2
  omega

end Verif
