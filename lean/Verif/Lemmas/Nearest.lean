import Verif.Spec.Nearest
import Verif.Lemmas.Rounding
/-
Rounding to the nearest double: values, relative error, existence.
-/
namespace Verif

variable {fl : ℝ → ℝ}

theorem two_zpow_pos (e : ℤ) : (0 : ℝ) < (2 : ℝ) ^ e := zpow_pos (by norm_num) e

/-- A double of at least the exponent `e` is a multiple of `2^e`; one of a smaller exponent is at most `2^52 2^e`. -/
theorem double_cases {z : ℝ} (hz : IsDouble z) (e : ℤ) : (∃ k : ℤ, z = k * (2 : ℝ) ^ e) ∨ |z| ≤ 2 ^ 52 * (2 : ℝ) ^ e := by
  obtain ⟨m, e', hm, rfl⟩ := hz
  rcases le_or_gt e e' with h | h
  · left
    refine ⟨m * 2 ^ (e' - e).toNat, ?_⟩
    have : (2 : ℝ) ^ e' = (2 : ℝ) ^ (e' - e).toNat * (2 : ℝ) ^ e := by
      rw [← zpow_natCast, ← zpow_add₀ (by norm_num), Int.toNat_of_nonneg (by omega)]
      congr 1; omega
    rw [this]; push_cast; ring
  · right
    rw [abs_mul, abs_of_pos (two_zpow_pos e')]
    have h1 : (|(m : ℝ)|) ≤ 2 ^ 53 := by exact_mod_cast hm
    have h2 : (2 : ℝ) ^ e' ≤ (2 : ℝ) ^ (e - 1) := zpow_le_zpow_right₀ (by norm_num) (by omega)
    calc |(m : ℝ)| * (2 : ℝ) ^ e' ≤ 2 ^ 53 * (2 : ℝ) ^ (e - 1) := mul_le_mul h1 h2 (two_zpow_pos _).le (by positivity)
      _ = 2 ^ 52 * (2 : ℝ) ^ e := by rw [zpow_sub_one₀ (by norm_num)]; ring

/-- The value of a rounded number. -/
theorem fl_eq (h : RoundsNearest fl) {x : ℝ} {m e : ℤ} (h1 : 2 ^ 52 ≤ m) (h2 : m ≤ 2 ^ 53) (hx : |x - m * (2 : ℝ) ^ e| < (2 : ℝ) ^ e / 2)
    (hb : 2 ^ 52 < m ∨ m * (2 : ℝ) ^ e ≤ x) : fl x = m * (2 : ℝ) ^ e := by
  have hy : IsDouble ((m : ℝ) * (2 : ℝ) ^ e) := ⟨m, e, by rw [abs_of_nonneg (by omega)]; exact h2, rfl⟩
  have hn := h.near x _ hy
  have he := two_zpow_pos e
  have hd : |fl x - m * (2 : ℝ) ^ e| < (2 : ℝ) ^ e := by
    have := abs_sub_le (fl x) x (m * (2 : ℝ) ^ e)
    rw [abs_sub_comm (fl x) x] at this
    linarith
  rcases double_cases (h.double x) e with ⟨k, hk⟩ | hs
  · rw [hk] at hd ⊢
    rw [← sub_mul, abs_mul, abs_of_pos he] at hd
    have h3 : |((k : ℝ) - m)| < 1 := by
      by_contra hcon
      push Not at hcon
      nlinarith
    have h4 : |k - m| < 1 := by exact_mod_cast h3
    have : k = m := by rw [Int.abs_lt_one_iff] at h4; omega
    rw [this]
  · have h5 := (abs_le.1 hs).2
    have h6 := (abs_lt.1 hd).1
    rcases hb with hb | hb
    · have h7 : ((2 : ℝ) ^ 52 + 1) ≤ m := by exact_mod_cast hb
      nlinarith
    · have h7 : ((2 : ℝ) ^ 52) ≤ m := by exact_mod_cast h1
      have h8 : fl x ≤ m * (2 : ℝ) ^ e := h5.trans (mul_le_mul_of_nonneg_right h7 he.le)
      rw [abs_of_nonneg (by linarith), abs_of_nonneg (by linarith)] at hn
      linarith

/-- The same with a power of two as denominator. -/
theorem fl_div (h : RoundsNearest fl) {x : ℝ} {m k : ℕ} (h1 : 2 ^ 52 ≤ m) (h2 : m ≤ 2 ^ 53) (hx : |x * 2 ^ k - m| < 1 / 2) (hb : 2 ^ 52 < m ∨ (m : ℝ) ≤ x * 2 ^ k) :
    fl x = m / 2 ^ k := by
  have hk : (0 : ℝ) < 2 ^ k := by positivity
  have e0 : (m : ℝ) / 2 ^ k = ((m : ℤ) : ℝ) * (2 : ℝ) ^ (-(k : ℤ)) := by
    rw [zpow_neg, zpow_natCast]; push_cast; rw [div_eq_mul_inv]
  rw [e0]
  refine fl_eq h (by exact_mod_cast h1) (by exact_mod_cast h2) ?_ ?_
  · rw [← e0, zpow_neg, zpow_natCast]
    have : x - m / 2 ^ k = (x * 2 ^ k - m) / 2 ^ k := by field_simp
    rw [this, abs_div, abs_of_pos hk, div_lt_iff₀ hk, div_mul_eq_mul_div, inv_mul_cancel₀ hk.ne']
    exact hx
  · rcases hb with hb | hb
    · left; exact_mod_cast hb
    · right; rw [← e0, div_le_iff₀ hk]; exact hb

/-- Doubles are not rounded. -/
theorem fl_exact (h : RoundsNearest fl) {y : ℝ} (hy : IsDouble y) : fl y = y := by
  have := h.near y y hy
  rw [sub_self, abs_zero] at this
  have := abs_eq_zero.1 (le_antisymm this (abs_nonneg _))
  linarith

theorem isDouble_div (m : ℤ) (k : ℕ) (hm : |m| ≤ 2 ^ 53) : IsDouble (m / 2 ^ k) :=
  ⟨m, -(k : ℤ), hm, by rw [zpow_neg, zpow_natCast, div_eq_mul_inv]⟩

theorem isDouble_int (m : ℤ) (hm : |m| ≤ 2 ^ 53) : IsDouble m := ⟨m, 0, hm, by simp⟩

theorem rnd53Pos_double {x : ℝ} (hx : 0 < x) : IsDouble (rnd53Pos x) := by
  obtain ⟨-, h2⟩ := rnd53Pos_mem hx
  refine ⟨⌊x / 2 ^ (Int.log 2 x - 52) + 1 / 2⌋, Int.log 2 x - 52, ?_, rfl⟩
  have hp := two_zpow_pos (Int.log 2 x - 52)
  have h0 : 0 ≤ ⌊x / 2 ^ (Int.log 2 x - 52) + 1 / 2⌋ := Int.floor_nonneg.2 (by positivity)
  rw [abs_of_nonneg h0]
  unfold rnd53Pos at h2
  have e : (2 : ℝ) ^ (Int.log 2 x + 1) = 2 ^ 53 * (2 : ℝ) ^ (Int.log 2 x - 52) := by
    rw [← zpow_natCast, ← zpow_add₀ (by norm_num)]; congr 1; push_cast; ring
  rw [e] at h2
  have := le_of_mul_le_mul_right h2 hp
  exact_mod_cast this

theorem rnd53Pos_near {x : ℝ} (hx : 0 < x) {z : ℝ} (hz : IsDouble z) : |x - rnd53Pos x| ≤ |x - z| := by
  set q := Int.log 2 x - 52 with hq
  have hp := two_zpow_pos q
  -- no multiple of `2^q` is closer
  have hmul : ∀ k : ℤ, |x - rnd53Pos x| ≤ |x - k * (2 : ℝ) ^ q| := by
    intro k
    have e1 : ∀ j : ℤ, x - j * (2 : ℝ) ^ q = (x / 2 ^ q - j) * 2 ^ q := fun j => by field_simp
    unfold rnd53Pos
    rw [← hq, e1, e1, abs_mul, abs_mul]
    refine mul_le_mul_of_nonneg_right ?_ (abs_nonneg _)
    set y := x / 2 ^ q
    have f1 := Int.floor_le (y + 1 / 2)
    have f2 := Int.lt_floor_add_one (y + 1 / 2)
    set r := ⌊y + 1 / 2⌋
    have hr : |y - r| ≤ 1 / 2 := abs_le.2 ⟨by linarith, by linarith⟩
    by_cases hk : k = r
    · rw [hk]
    · refine hr.trans ?_
      have h1 : (1 : ℝ) ≤ |(k : ℝ) - r| := by
        have : 1 ≤ |k - r| := Int.one_le_abs (sub_ne_zero.2 hk)
        exact_mod_cast this
      have h2 := abs_sub_le (k : ℝ) y r
      rw [abs_sub_comm (k : ℝ) y] at h2
      linarith
  rcases double_cases hz q with ⟨k, rfl⟩ | hs
  · exact hmul k
  · refine (hmul (2 ^ 52)).trans ?_
    have hlow : (2 : ℝ) ^ 52 * (2 : ℝ) ^ q ≤ x := by
      have := Int.zpow_log_le_self (b := 2) (by norm_num) hx
      have e : (2 : ℝ) ^ 52 * (2 : ℝ) ^ q = (2 : ℝ) ^ Int.log 2 x := by
        rw [hq, ← zpow_natCast, ← zpow_add₀ (by norm_num)]; congr 1; push_cast; ring
      rw [e]; exact_mod_cast this
    have hz2 := (abs_le.1 hs).2
    push_cast
    rw [abs_of_nonneg (by linarith), abs_of_nonneg (by linarith)]
    linarith

theorem isDouble_neg {y : ℝ} (h : IsDouble y) : IsDouble (-y) := by
  obtain ⟨m, e, hm, rfl⟩ := h
  exact ⟨-m, e, by rwa [abs_neg], by push_cast; ring⟩

/-- Rounding to nearest exists. -/
theorem rnd53_nearest : RoundsNearest rnd53 where
  double := by
    intro x
    unfold rnd53
    rcases lt_trichotomy x 0 with hx | hx | hx
    · rw [if_neg hx.ne, if_neg (not_lt.2 hx.le)]
      exact isDouble_neg (rnd53Pos_double (by linarith))
    · rw [if_pos hx]; exact ⟨0, 0, by norm_num, by simp⟩
    · rw [if_neg hx.ne', if_pos hx]; exact rnd53Pos_double hx
  near := by
    intro x y hy
    unfold rnd53
    rcases lt_trichotomy x 0 with hx | hx | hx
    · rw [if_neg hx.ne, if_neg (not_lt.2 hx.le)]
      have := rnd53Pos_near (x := -x) (by linarith) (isDouble_neg hy)
      rw [← abs_neg (x - _), ← abs_neg (x - y)]
      convert this using 2 <;> ring
    · rw [if_pos hx, hx, sub_zero, abs_zero]; exact abs_nonneg _
    · rw [if_neg hx.ne', if_pos hx]; exact rnd53Pos_near hx hy

/-- Relative error. -/
theorem fl_err (h : RoundsNearest fl) (x : ℝ) : |fl x - x| ≤ (2 : ℝ) ^ (-53 : ℤ) * |x| := by
  refine le_trans ?_ (rnd53_isRounding.err x)
  rw [abs_sub_comm, abs_sub_comm (rnd53 x)]
  exact h.near x _ (rnd53_nearest.double x)

end Verif
