import Verif.Model.Links
import Verif.Lemmas.Float53
import Mathlib.Data.Nat.Log
/-
Slice-wise filling of arrays; exactness of the rounded quotient in the buffer length.
-/
namespace Verif

theorem npSliceAssign_block {α : Type} (pre post v : List α) (lo hi : Nat) (h1 : pre.length = lo) (h2 : hi = lo + v.length)
    (h3 : v.length ≤ post.length) : npSliceAssign (pre ++ post) lo hi v = .ok (pre ++ v ++ post.drop v.length) := by
  simp only [npSliceAssign]
  have e1 : min lo (pre ++ post).length = pre.length := by simp; omega
  have e2 : min hi (pre ++ post).length = pre.length + v.length := by simp; omega
  rw [e1, e2, if_pos (by omega), List.take_left', List.drop_append]
  · simp
  · rfl

theorem fold_slices {α : Type} (size : Nat) (g : List α → Nat → Py (List α)) (r : Nat → List α) (m : Nat) (buf : List α)
    (hb : m * size ≤ buf.length) (hl : ∀ i < m, (r i).length = size)
    (hg : ∀ i < m, ∀ a, g a i = npSliceAssign a (i * size) ((i + 1) * size) (r i)) :
    (List.range m).foldlM g buf = .ok ((List.range m).flatMap r ++ buf.drop (m * size)) := by
  have flen : ∀ k ≤ m, ((List.range k).flatMap r).length = k * size := by
    intro k hk
    induction k with
    | zero => simp
    | succ k ih =>
      rw [List.range_succ, List.flatMap_append, List.length_append, ih (by omega)]
      simp [hl k (by omega), Nat.succ_mul]
  have key : ∀ k ≤ m, (List.range k).foldlM g buf = .ok ((List.range k).flatMap r ++ buf.drop (k * size)) := by
    intro k hk
    induction k with
    | zero => simp; rfl
    | succ k ih =>
      rw [List.range_succ, List.foldlM_append, ih (by omega)]
      have hlk := hl k (by omega)
      have hle : (k + 1) * size ≤ buf.length := le_trans (Nat.mul_le_mul_right _ hk) hb
      rw [Nat.succ_mul] at hle
      have := npSliceAssign_block ((List.range k).flatMap r) (buf.drop (k * size)) (r k) (k * size) ((k + 1) * size)
        (flen k (by omega)) (by rw [hlk, Nat.succ_mul]) (by rw [hlk, List.length_drop]; omega)
      show List.foldlM g _ [k] = _
      simp only [List.foldlM_cons, List.foldlM_nil]
      rw [hg k (by omega), this]
      simp only [bind, Except.bind, pure, Except.pure]
      rw [List.drop_drop, hlk, List.flatMap_append]
      simp [Nat.succ_mul]
  exact key m le_rfl

/-- If the exact quotient is within a relative `2^-54` of the integer `v < 2^51` (in the form that a quotient by a slightly
wrong rate takes), the rounded quotient is `v`. -/
theorem rounds_exact {v : ℕ} (hv : v < 2 ^ 51) {x y : ℚ} (h1 : (v : ℚ) * (1 - 1 / 2 ^ 54) ≤ x) (h2 : x * (1 - 1 / 2 ^ 54) ≤ v)
    (hr : Rounds x y) : y = v := by
  rcases Nat.eq_zero_or_pos v with rfl | hpos
  · have hx : x = 0 := by norm_num at h1 h2; linarith
    rw [hx] at hr
    have := (rounds_self (x := 0) ⟨0, 0, by norm_num, by simp⟩).1 hr
    simpa using this
  have hvq : (1 : ℚ) ≤ v := by exact_mod_cast hpos
  have hvq2 : (v : ℚ) < 2 ^ 51 := by exact_mod_cast hv
  have hlow : (v : ℚ) ≤ y := by
    have := rounds_floor hv h1 (by
      have hv3 : (v : ℚ) ≤ 2251799813685248 := by exact_mod_cast hv.le
      norm_num at h2 ⊢; linarith) hr
    have hy : 0 ≤ y := by
      obtain ⟨⟨m, e, -, rfl⟩, -⟩ := hr
      exact mul_nonneg (Nat.cast_nonneg _) (zpow_pos (by norm_num) _).le
    rw [← this]
    exact Nat.floor_le hy
  refine le_antisymm ?_ hlow
  by_contra hgt
  rw [not_le] at hgt
  -- the exponent of v
  set j := Nat.log 2 v with hj
  have j1 : 2 ^ j ≤ v := Nat.pow_log_le_self 2 hpos.ne'
  have j2 : v < 2 ^ (j + 1) := Nat.lt_pow_succ_log_self (by norm_num) v
  have j3 : j < 51 := (Nat.pow_lt_pow_iff_right (by norm_num)).1 (lt_of_le_of_lt j1 hv)
  have j1q : (2 : ℚ) ^ j ≤ v := by exact_mod_cast j1
  have j2q : (v : ℚ) + 1 ≤ 2 ^ j * 2 := by
    have : v + 1 ≤ 2 ^ j * 2 := by rw [pow_succ] at j2; omega
    exact_mod_cast this
  -- the gap above v
  have gap : (2 : ℚ) ^ ((j : ℤ) - 52) ≤ y - v := by
    obtain ⟨⟨a, f, ha, rfl⟩, -⟩ := hr
    have hf0 : (0 : ℚ) < 2 ^ f := zpow_pos (by norm_num) _
    have hf : (j : ℤ) - 52 ≤ f := by
      by_contra hc
      rw [not_le] at hc
      have h3 : (2 : ℚ) ^ f ≤ 2 ^ ((j : ℤ) - 53) := zpow_le_zpow_right₀ (by norm_num) (by omega)
      have haq : (a : ℚ) ≤ 2 ^ 53 := by exact_mod_cast ha.le
      have : (a : ℚ) * 2 ^ f ≤ 2 ^ 53 * 2 ^ ((j : ℤ) - 53) := mul_le_mul haq h3 hf0.le (by norm_num)
      have e : (2 : ℚ) ^ 53 * 2 ^ ((j : ℤ) - 53) = 2 ^ j := by
        rw [← zpow_natCast, ← zpow_natCast, ← zpow_add₀ (by norm_num)]; congr 1; push_cast; ring
      rw [e] at this
      linarith
    have hg0 : (0 : ℚ) < 2 ^ ((j : ℤ) - 52) := zpow_pos (by norm_num) _
    have e1 : (v : ℚ) = ((v * 2 ^ (52 - j) : ℕ) : ℚ) * 2 ^ ((j : ℤ) - 52) := by
      push_cast
      rw [mul_assoc, ← zpow_natCast, ← zpow_add₀ (by norm_num)]
      rw [show ((52 - j : ℕ) : ℤ) + ((j : ℤ) - 52) = 0 by omega]
      simp
    rw [zpow_sub_nat hf, ← mul_assoc, ← Nat.cast_mul] at hgt ⊢
    rw [e1] at hgt ⊢
    rw [mul_lt_mul_iff_left₀ hg0] at hgt
    rw [← sub_mul]
    have : ((v * 2 ^ (52 - j) : ℕ) : ℚ) + 1 ≤ ((a * 2 ^ (f - ((j : ℤ) - 52)).toNat : ℕ) : ℚ) := by
      have : v * 2 ^ (52 - j) < a * 2 ^ (f - ((j : ℤ) - 52)).toNat := by exact_mod_cast hgt
      exact_mod_cast this
    nlinarith
  have e53 : (2 : ℚ) ^ ((j : ℤ) - 52) = 2 ^ j / 2 ^ 52 := by
    rw [zpow_sub₀ (by norm_num)]; norm_num
  rw [e53] at gap
  -- x is less than half the gap above v
  have hxv : 2 * (x - v) < 2 ^ j / 2 ^ 52 := by
    have hj52 : (2 : ℚ) ^ j ≤ 2 ^ 51 := pow_le_pow_right₀ (by norm_num) (by omega)
    have e : (2 : ℚ) ^ j / 2 ^ 52 = 4 * (2 ^ j / 2 ^ 54) := by ring
    norm_num at h2 e gap hj52 ⊢
    linarith
  have hup : |x - y| ≤ |x - v| := by
    rcases hr.2 _ (isFloat_nat (p := 53) (v := v) (by omega)) with h | h | ⟨h, -⟩
    · rw [h]
    · exact h.le
    · exact h.le
  have a1 := neg_abs_le (x - y)
  rcases le_total x v with hx | hx
  · rw [abs_of_nonpos (a := x - v) (by linarith), abs_of_nonpos (by linarith)] at hup
    linarith
  · rw [abs_of_nonneg (a := x - v) (by linarith)] at hup
    linarith

end Verif
