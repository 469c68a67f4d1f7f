import Verif.Model.Float53
import Mathlib.Tactic.Linarith
import Mathlib.Tactic.Ring
import Mathlib.Tactic.FieldSimp
import Mathlib.Tactic.Positivity
import Mathlib.Tactic.NormNum
import Mathlib.Data.Int.Log
import Mathlib.Algebra.Order.Round
/-
Rounding to nearest: gaps between floating point numbers, uniqueness, existence, exactness of small integers.
-/
namespace Verif

theorem zpow_sub_nat {e f : ℤ} (h : f ≤ e) : (2 : ℚ) ^ e = ((2 ^ (e - f).toNat : ℕ) : ℚ) * 2 ^ f := by
  push_cast
  rw [← zpow_natCast, ← zpow_add₀ (by norm_num), Int.toNat_of_nonneg (by omega)]
  congr 1; ring

/-- The gap below a floating point number: relative size at least `2^-p`. -/
theorem float_gap {p : ℕ} {a z : ℚ} (ha : IsFloat p a) (hz : IsFloat p z) (h : z < a) : a / 2 ^ p ≤ a - z := by
  obtain ⟨A, f, hA, rfl⟩ := ha
  obtain ⟨m, e, hm, rfl⟩ := hz
  have hf : (0 : ℚ) < 2 ^ f := zpow_pos (by norm_num) _
  have he : (0 : ℚ) < 2 ^ e := zpow_pos (by norm_num) _
  have hP : (0 : ℚ) < 2 ^ p := by positivity
  have hAq : (A : ℚ) < 2 ^ p := by exact_mod_cast hA
  rw [div_le_iff₀ hP]
  rcases le_total f e with hfe | hfe
  · rw [zpow_sub_nat hfe] at h ⊢
    rw [← mul_assoc] at h ⊢
    rw [mul_lt_mul_iff_left₀ hf] at h
    have h1 : ((m * 2 ^ (e - f).toNat : ℕ) : ℚ) + 1 ≤ A := by
      have : m * 2 ^ (e - f).toNat < A := by exact_mod_cast h
      exact_mod_cast this
    push_cast at h1 ⊢
    have : (A : ℚ) * 2 ^ f ≤ 1 * 2 ^ f * 2 ^ p := by
      rw [one_mul, mul_comm]; exact mul_le_mul_of_nonneg_left hAq.le hf.le
    refine this.trans (mul_le_mul_of_nonneg_right ?_ hP.le)
    rw [← sub_mul]
    exact mul_le_mul_of_nonneg_right (by linarith) hf.le
  · rw [zpow_sub_nat hfe] at h ⊢
    rw [← mul_assoc] at h ⊢
    rw [mul_lt_mul_iff_left₀ he] at h
    have h1 : (m : ℚ) + 1 ≤ ((A * 2 ^ (f - e).toNat : ℕ) : ℚ) := by
      have : m < A * 2 ^ (f - e).toNat := by exact_mod_cast h
      exact_mod_cast this
    rw [← Nat.cast_mul]
    set B : ℚ := ((A * 2 ^ (f - e).toNat : ℕ) : ℚ) with hB
    have hm' : (m : ℚ) + 1 ≤ 2 ^ p := by
      have : m + 1 ≤ 2 ^ p := hm
      exact_mod_cast this
    have hP1 : (1 : ℚ) ≤ 2 ^ p := one_le_pow₀ (by norm_num)
    rw [← sub_mul, mul_right_comm]
    apply mul_le_mul_of_nonneg_right _ he.le
    rcases le_total B (2 ^ p) with hb | hb
    · nlinarith
    · nlinarith

theorem IsFloat.mono {p q : ℕ} (h : p ≤ q) {a : ℚ} (ha : IsFloat p a) : IsFloat q a := by
  obtain ⟨m, e, hm, rfl⟩ := ha
  exact ⟨m, e, lt_of_lt_of_le hm (Nat.pow_le_pow_right (by norm_num) h), rfl⟩

theorem isFloat_nat {p v : ℕ} (h : v < 2 ^ p) : IsFloat p (v : ℚ) := ⟨v, 0, h, by simp⟩

/-- If the exact result is at most a relative `2^-54` below the positive integer `v < 2^51`, or less than `1/2` above
it, the rounded result truncates to `v`. -/
theorem rounds_floor {v : ℕ} (hv : v < 2 ^ 51) {x y : ℚ} (h1 : (v : ℚ) * (1 - 1 / 2 ^ 54) ≤ x) (h2 : x < v + 1 / 2)
    (hr : Rounds x y) : ⌊y⌋₊ = v := by
  have hf52 : IsFloat 52 (v : ℚ) := isFloat_nat (by omega)
  have hf53 : IsFloat 53 (v : ℚ) := hf52.mono (by norm_num)
  have hv0 : (0 : ℚ) ≤ v := Nat.cast_nonneg _
  have hge : (v : ℚ) ≤ y := by
    by_contra hlt
    rw [not_le] at hlt
    have g1 := float_gap hf53 hr.1 hlt
    rcases hr.2 _ hf53 with h | h | ⟨h, hy⟩
    · exact absurd h hlt.ne'
    · rcases le_total x v with hx | hx
      · rw [abs_of_nonpos (a := x - v) (by linarith)] at h
        have := neg_abs_le (x - y)
        have := le_abs_self (x - y)
        have e : (v : ℚ) / 2 ^ 53 = v / 2 ^ 54 + v / 2 ^ 54 := by ring
        have : (v : ℚ) * (1 - 1 / 2 ^ 54) = v - v / 2 ^ 54 := by ring
        linarith
      · rw [abs_of_nonneg (a := x - v) (by linarith), abs_of_nonneg (by linarith)] at h
        linarith
    · have g2 := float_gap hf52 hy hlt
      have hvpos : (0 : ℚ) < v := by
        obtain ⟨m, e, -, rfl⟩ := hy
        exact lt_of_le_of_lt (mul_nonneg (Nat.cast_nonneg _) (zpow_pos (by norm_num) _).le) hlt
      have e54 : (v : ℚ) * (1 - 1 / 2 ^ 54) = v - v / 2 ^ 54 := by ring
      have e52 : (v : ℚ) / 2 ^ 52 = 4 * (v / 2 ^ 54) := by ring
      have hp : 0 < (v : ℚ) / 2 ^ 54 := by positivity
      rcases le_total x v with hx | hx
      · rw [abs_of_nonpos (a := x - v) (by linarith)] at h
        have := le_abs_self (x - y)
        linarith
      · rw [abs_of_nonneg (a := x - v) (by linarith), abs_of_nonneg (by linarith)] at h
        linarith
  have hlt : y < v + 1 := by
    have hup : |x - y| ≤ |x - v| := by
      rcases hr.2 _ hf53 with h | h | ⟨h, -⟩
      · rw [h]
      · exact h.le
      · exact h.le
    have a1 := neg_abs_le (x - y)
    have hsm : (v : ℚ) / 2 ^ 54 ≤ 1 / 8 := by
      have : (v : ℚ) < 2 ^ 51 := by exact_mod_cast hv
      rw [div_le_iff₀ (by norm_num)]; norm_num at this ⊢; linarith
    have e54 : (v : ℚ) * (1 - 1 / 2 ^ 54) = v - v / 2 ^ 54 := by ring
    rcases le_total x v with hx | hx
    · rw [abs_of_nonpos (a := x - v) (by linarith)] at hup
      linarith
    · rw [abs_of_nonneg (a := x - v) (by linarith)] at hup
      linarith
  rw [Nat.floor_eq_iff (by linarith)]
  exact ⟨hge, hlt⟩

/-- A normalised float within half a unit of `x` is the rounding of `x`. -/
theorem rounds_unique {m : ℕ} {e : ℤ} (h1 : 2 ^ 52 < m) (h2 : m < 2 ^ 53) {x : ℚ} (h : |x - m * 2 ^ e| < 2 ^ e / 2) {y : ℚ}  :
    Rounds x y ↔ y = m * 2 ^ e := by
  have he : (0 : ℚ) < 2 ^ e := zpow_pos (by norm_num) _
  have hy0 : IsFloat 53 ((m : ℚ) * 2 ^ e) := ⟨m, e, h2, rfl⟩
  -- other floats are at least one unit away
  have key : ∀ z, IsFloat 53 z → z ≠ m * 2 ^ e → 2 ^ e ≤ |m * 2 ^ e - z| := by
    rintro z ⟨a, f, ha, rfl⟩ hne
    rcases le_or_gt e f with hef | hef
    · rw [zpow_sub_nat hef, ← mul_assoc, ← Nat.cast_mul, ← sub_mul, abs_mul, abs_of_pos he] at *
      have hne' : ((m : ℤ) - ((a * 2 ^ (f - e).toNat : ℕ) : ℤ)) ≠ 0 := by
        intro h0
        apply hne
        have : ((m : ℤ) : ℚ) = (((a * 2 ^ (f - e).toNat : ℕ) : ℤ) : ℚ) := by rw [sub_eq_zero.1 h0]
        simp only [Int.cast_natCast] at this
        rw [this]
      have : (1 : ℚ) ≤ |(m : ℚ) - ((a * 2 ^ (f - e).toNat : ℕ) : ℚ)| := by
        have := Int.one_le_abs hne'
        exact_mod_cast this
      nlinarith
    · have hf : (0 : ℚ) < 2 ^ f := zpow_pos (by norm_num) _
      have h3 : (2 : ℚ) ^ f ≤ 2 ^ e / 2 := by
        have : (2 : ℚ) ^ (f + 1) ≤ 2 ^ e := zpow_le_zpow_right₀ (by norm_num) (by omega)
        rw [zpow_add_one₀ (by norm_num)] at this
        linarith
      have ha' : (a : ℚ) ≤ 2 ^ 53 := by exact_mod_cast ha.le
      have hm' : (2 : ℚ) ^ 52 + 1 ≤ m := by exact_mod_cast h1
      have : (a : ℚ) * 2 ^ f ≤ 2 ^ 52 * 2 ^ e := by
        calc (a : ℚ) * 2 ^ f ≤ 2 ^ 53 * (2 ^ e / 2) := by
              exact mul_le_mul ha' h3 hf.le (by norm_num)
          _ = _ := by ring
      have h5 : (2 ^ 52 + 1) * 2 ^ e ≤ (m : ℚ) * 2 ^ e := mul_le_mul_of_nonneg_right hm' he.le
      refine le_trans ?_ (le_abs_self _)
      linarith
  have key2 : ∀ z, IsFloat 53 z → z ≠ m * 2 ^ e → |x - m * 2 ^ e| < |x - z| := by
    intro z hz hne
    have := key z hz hne
    have h4 : |(m : ℚ) * 2 ^ e - z| ≤ |x - m * 2 ^ e| + |x - z| := by
      have := abs_sub_le ((m : ℚ) * 2 ^ e) x z
      rwa [abs_sub_comm ((m : ℚ) * 2 ^ e) x] at this
    linarith
  constructor
  · intro hr
    by_contra hne
    have k := key2 y hr.1 hne
    rcases hr.2 _ hy0 with h | h | ⟨h, -⟩
    · exact hne h.symm
    · linarith
    · linarith
  · rintro rfl
    refine ⟨hy0, fun z hz => ?_⟩
    by_cases hne : z = m * 2 ^ e
    · exact Or.inl hne
    · exact Or.inr (Or.inl (key2 z hz hne))

/-- A number that is itself a double is its own rounding. -/
theorem rounds_self {x : ℚ} (h : IsFloat 53 x) {y : ℚ} : Rounds x y ↔ y = x := by
  constructor
  · intro hr
    rcases hr.2 x h with h | h | ⟨h, -⟩
    · exact h.symm
    · rw [sub_self, abs_zero] at h
      exact absurd h (not_lt.2 (abs_nonneg _))
    · rw [sub_self, abs_zero, abs_eq_zero, sub_eq_zero] at h
      exact h.symm
  · rintro rfl
    refine ⟨h, fun z hz => ?_⟩
    by_cases hne : z = y
    · exact Or.inl hne
    · right; left
      rw [sub_self, abs_zero]
      exact abs_pos.2 (sub_ne_zero.2 (Ne.symm hne))

/-- Nearest integer, ties to even. -/
theorem exists_round_even (x : ℚ) : ∃ m : ℤ, ∀ j : ℤ, j = m ∨ |x - m| < |x - j| ∨ |x - m| = |x - j| ∧ 2 ∣ m := by
  have hfl := Int.floor_le x
  have hlt := Int.lt_floor_add_one x
  set a := ⌊x⌋ with ha
  -- distances to integers on both sides
  have hlo : ∀ j : ℤ, j < a → x - a + 1 ≤ |x - j| := by
    intro j hj
    have : (j : ℚ) + 1 ≤ a := by exact_mod_cast hj
    exact le_trans (by linarith) (le_abs_self _)
  have hhi : ∀ j : ℤ, a + 1 < j → a + 1 - x + 1 ≤ |x - j| := by
    intro j hj
    have : (a : ℚ) + 1 + 1 ≤ j := by exact_mod_cast hj
    exact le_trans (by linarith) (neg_le_abs _)
  have d0 : |x - a| = x - a := abs_of_nonneg (by linarith)
  have d1 : |x - ((a + 1 : ℤ) : ℚ)| = a + 1 - x := by
    push_cast
    rw [abs_of_neg (by linarith)]; ring
  rcases lt_trichotomy (x - a) (1 / 2) with h | h | h
  · refine ⟨a, fun j => ?_⟩
    rcases lt_trichotomy j a with hj | hj | hj
    · right; left; have := hlo j hj; linarith
    · exact Or.inl hj
    · right; left
      rcases eq_or_lt_of_le (show a + 1 ≤ j from hj) with hj | hj
      · rw [← hj, d0, d1]; linarith
      · have := hhi j hj; linarith
  · by_cases h2 : (2 : ℤ) ∣ a
    · refine ⟨a, fun j => ?_⟩
      rcases lt_trichotomy j a with hj | hj | hj
      · right; left; have := hlo j hj; linarith
      · exact Or.inl hj
      · right
        rcases eq_or_lt_of_le (show a + 1 ≤ j from hj) with hj | hj
        · right; exact ⟨by rw [← hj, d0, d1]; linarith, h2⟩
        · left; have := hhi j hj; linarith
    · have h2' : (2 : ℤ) ∣ a + 1 := by omega
      refine ⟨a + 1, fun j => ?_⟩
      rcases lt_trichotomy j (a + 1) with hj | hj | hj
      · right
        rcases eq_or_lt_of_le (show j ≤ a by omega) with hj | hj
        · right; exact ⟨by rw [hj, d0, d1]; linarith, h2'⟩
        · left; have := hlo j hj; rw [d1]; linarith
      · exact Or.inl hj
      · right; left; have := hhi j hj; rw [d1]; linarith
  · refine ⟨a + 1, fun j => ?_⟩
    rcases lt_trichotomy j (a + 1) with hj | hj | hj
    · right; left
      rcases eq_or_lt_of_le (show j ≤ a by omega) with hj | hj
      · rw [hj, d0, d1]; linarith
      · have := hlo j hj; rw [d1]; linarith
    · exact Or.inl hj
    · right; left; have := hhi j hj; rw [d1]; linarith

/-- Every positive rational has a rounding. -/
theorem exists_rounds {x : ℚ} (hx : 0 < x) : ∃ y, Rounds x y := by
  set e : ℤ := Int.log 2 x - 52 with he'
  have he : (0 : ℚ) < 2 ^ e := zpow_pos (by norm_num) _
  have b1 : (2 : ℚ) ^ 52 * 2 ^ e ≤ x := by
    have := Int.zpow_log_le_self (b := 2) (by norm_num) hx
    rw [← zpow_natCast, ← zpow_add₀ (by norm_num), show ((52 : ℕ) : ℤ) + e = Int.log 2 x by rw [he']; push_cast; ring]
    exact_mod_cast this
  have b2 : x < (2 : ℚ) ^ 53 * 2 ^ e := by
    have := Int.lt_zpow_succ_log_self (b := 2) (by norm_num) x
    rw [← zpow_natCast, ← zpow_add₀ (by norm_num), show ((53 : ℕ) : ℤ) + e = Int.log 2 x + 1 by rw [he']; push_cast; ring]
    exact_mod_cast this
  obtain ⟨m, hm⟩ := exists_round_even (x / 2 ^ e)
  have c1 : (2 : ℚ) ^ 52 ≤ x / 2 ^ e := by rwa [le_div_iff₀ he]
  have c2 : x / 2 ^ e < (2 : ℚ) ^ 53 := by rwa [div_lt_iff₀ he]
  have hle : ∀ j : ℤ, |x / 2 ^ e - m| ≤ |x / 2 ^ e - j| := by
    intro j
    rcases hm j with h | h | h
    · rw [h]
    · exact h.le
    · exact h.1.le
  have m1 : (2 : ℤ) ^ 52 ≤ m := by
    by_contra hc
    rw [not_le] at hc
    have h1 : (m : ℚ) < 2 ^ 52 := by exact_mod_cast hc
    have h2 := hle (2 ^ 52)
    push_cast at h2
    rw [abs_of_nonneg (by linarith), abs_of_nonneg (by linarith)] at h2
    linarith
  have m2 : m ≤ (2 : ℤ) ^ 53 := by
    by_contra hc
    rw [not_le] at hc
    have h1 : (2 : ℚ) ^ 53 < m := by exact_mod_cast hc
    have h2 := hle (2 ^ 53)
    push_cast at h2
    rw [abs_of_neg (by linarith), abs_of_neg (by linarith)] at h2
    linarith
  -- integer multiples of 2^e
  have scale : ∀ j : ℚ, |x - j * 2 ^ e| = |x / 2 ^ e - j| * 2 ^ e := by
    intro j
    rw [← abs_of_pos he, ← abs_mul, abs_of_pos he, sub_mul, div_mul_cancel₀ _ he.ne']
  have hfl : ∀ p, 52 ≤ p → (p = 52 → (2 : ℤ) ∣ m) → IsFloat p ((m : ℚ) * 2 ^ e) := by
    intro p hp h52
    rcases eq_or_lt_of_le m2 with h | h
    · refine ⟨1, 53 + e, Nat.one_lt_two_pow (by omega), ?_⟩
      rw [h, zpow_add₀ (by norm_num)]
      push_cast
      norm_num
    · rcases eq_or_lt_of_le hp with hp' | hp'
      · obtain ⟨c, hc⟩ := h52 hp'.symm
        refine ⟨c.toNat, e + 1, ?_, ?_⟩
        · rw [← hp']
          have : c < 2 ^ 52 := by omega
          omega
        · have hcn : ((c.toNat : ℕ) : ℚ) = (c : ℚ) := by
            have : ((c.toNat : ℕ) : ℤ) = c := Int.toNat_of_nonneg (by omega)
            exact_mod_cast congrArg (Int.cast (R := ℚ)) this
          rw [hcn, hc, zpow_add_one₀ (by norm_num)]
          push_cast; ring
      · refine ⟨m.toNat, e, ?_, ?_⟩
        · have : (2 : ℕ) ^ 53 ≤ 2 ^ p := Nat.pow_le_pow_right (by norm_num) hp'
          have h3 : m.toNat < 2 ^ 53 := by omega
          omega
        · have : ((m.toNat : ℕ) : ℤ) = m := Int.toNat_of_nonneg (by omega)
          have h2 : ((m.toNat : ℕ) : ℚ) = (m : ℚ) := by exact_mod_cast congrArg (Int.cast (R := ℚ)) this
          rw [h2]
  refine ⟨m * 2 ^ e, hfl 53 (by norm_num) (by norm_num), ?_⟩
  rintro z ⟨a, f, ha, rfl⟩
  rcases le_or_gt e f with hef | hef
  · rw [zpow_sub_nat hef, ← mul_assoc, ← Nat.cast_mul, scale, scale]
    rcases hm ((a * 2 ^ (f - e).toNat : ℕ) : ℤ) with h | h | h
    · left
      rw [← h]; simp
    · right; left
      simp only [Int.cast_natCast] at h
      exact mul_lt_mul_of_pos_right h he
    · right; right
      simp only [Int.cast_natCast] at h
      exact ⟨by rw [h.1], hfl 52 le_rfl (fun _ => h.2)⟩
  · right; left
    have hf : (0 : ℚ) < 2 ^ f := zpow_pos (by norm_num) _
    have h3 : (2 : ℚ) ^ f ≤ 2 ^ e / 2 := by
      have : (2 : ℚ) ^ (f + 1) ≤ 2 ^ e := zpow_le_zpow_right₀ (by norm_num) (by omega)
      rw [zpow_add_one₀ (by norm_num)] at this
      linarith
    have ha' : (a : ℚ) + 1 ≤ 2 ^ 53 := by exact_mod_cast ha
    have h4 : (a : ℚ) * 2 ^ f < 2 ^ 52 * 2 ^ e := by
      calc (a : ℚ) * 2 ^ f < 2 ^ 53 * 2 ^ f := mul_lt_mul_of_pos_right (by linarith) hf
        _ ≤ 2 ^ 53 * (2 ^ e / 2) := mul_le_mul_of_nonneg_left h3 (by norm_num)
        _ = _ := by ring
    have h5 := hle (2 ^ 52)
    push_cast at h5
    have h6 : |x - m * 2 ^ e| ≤ |x - 2 ^ 52 * 2 ^ e| := by
      rw [scale, scale]; exact mul_le_mul_of_nonneg_right h5 he.le
    rw [abs_of_nonneg (a := x - 2 ^ 52 * 2 ^ e) (by linarith)] at h6
    refine lt_of_le_of_lt h6 (lt_of_lt_of_le ?_ (le_abs_self _))
    linarith

end Verif
