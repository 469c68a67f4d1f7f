import Verif.Model.Utilities
import Mathlib.Data.Nat.Bitwise
import Mathlib.Tactic.Ring
import Mathlib.Tactic.Positivity
import Mathlib.Tactic.Linarith
import Mathlib.Algebra.BigOperators.Group.List.Basic
/- Helper lemmas about bit conversions. -/
namespace Verif

/-- MSB-first bits of `n`. -/
def toBits (w n : Nat) : List Nat := (List.range w).map (fun j => n / 2 ^ (w - 1 - j) % 2)

/-- What `decimal2bitarray` leaves in the array for `n < 2^(2w)`. -/
def foldBits (w n : Nat) : List Nat :=
  (List.range w).map (fun j => (n.testBit (w - 1 - j) || n.testBit (w + (w - 1 - j))).toNat)

@[simp] theorem toBits_length (w n : Nat) : (toBits w n).length = w := by simp [toBits]
@[simp] theorem foldBits_length (w n : Nat) : (foldBits w n).length = w := by simp [foldBits]

theorem foldBits_eq_toBits {w n : Nat} (h : n < 2 ^ w) : foldBits w n = toBits w n := by
  unfold foldBits toBits
  apply List.map_congr_left
  intro j hj
  have h2 : n.testBit (w + (w - 1 - j)) = false :=
    Nat.testBit_lt_two_pow (lt_of_lt_of_le h (Nat.pow_le_pow_right (by decide) (by omega)))
  rw [h2, Bool.or_false, Nat.toNat_testBit]

theorem mod_two_pow_succ_of_testBit_false {n p : Nat} (h : n.testBit p = false) :
    n % 2 ^ (p + 1) = n % 2 ^ p := by
  apply Nat.eq_of_testBit_eq
  intro j
  simp only [Nat.testBit_mod_two_pow]
  by_cases hj : j = p
  · subst hj; simp [h]
  · by_cases h1 : j < p
    · simp [h1, Nat.lt_succ_of_lt h1]
    · have : ¬ j < p + 1 := by omega
      simp [h1, this]

theorem foldBits_set {n w p : Nat} (h : n.testBit p = true) (hp : p < 2 * w) :
    pySet (foldBits w (n % 2 ^ p)) ((w : Int) - (p : Int) - 1) 1 = .ok (foldBits w (n % 2 ^ (p + 1))) := by
  have key : ∀ q, q < w → (p = w - 1 - q ∨ p = w + (w - 1 - q)) →
      (foldBits w (n % 2 ^ p)).set q 1 = foldBits w (n % 2 ^ (p + 1)) := by
    intro q hq hpq
    apply List.ext_getElem
    · simp
    intro j h1 h2
    simp only [List.length_set, foldBits_length] at h1
    rw [List.getElem_set]
    simp only [foldBits, List.getElem_map, List.getElem_range, Nat.testBit_mod_two_pow]
    split
    · rename_i e; subst e
      rcases hpq with e | e
      · rw [← e]; simp [h]
      · rw [← e]; simp [h]
    · rename_i hne
      have e1 : (decide (w - 1 - j < p) && n.testBit (w - 1 - j)) = (decide (w - 1 - j < p + 1) && n.testBit (w - 1 - j)) := by
        by_cases hjp : w - 1 - j = p
        · exfalso; omega
        · congr 1; simp; omega
      have e2 : (decide (w + (w - 1 - j) < p) && n.testBit (w + (w - 1 - j))) =
          (decide (w + (w - 1 - j) < p + 1) && n.testBit (w + (w - 1 - j))) := by
        by_cases hjp : w + (w - 1 - j) = p
        · exfalso; omega
        · congr 1; simp; omega
      rw [e1, e2]
  unfold pySet pyIdx
  simp only [foldBits_length]
  by_cases hpw : p < w
  · have h0 : (0 : Int) ≤ (w : Int) - p - 1 := by omega
    have h1 : (w : Int) - p - 1 < w := by omega
    simp only [h0, h1, if_true]
    rw [show ((w : Int) - p - 1).toNat = w - 1 - p from by omega, key (w - 1 - p) (by omega) (by omega)]
  · have h0 : ¬ (0 : Int) ≤ (w : Int) - p - 1 := by omega
    have h1 : -(w : Int) ≤ (w : Int) - p - 1 := by omega
    simp only [h0, h1, if_true, if_false]
    rw [show ((w : Int) - p - 1 + w).toNat = 2 * w - 1 - p from by omega, key (2 * w - 1 - p) (by omega) (by omega)]

theorem pySet_far {w p : Nat} {l : List Nat} (hl : l.length = w) (hp : 2 * w ≤ p) :
    pySet l ((w : Int) - (p : Int) - 1) 1 = .error .indexError := by
  unfold pySet pyIdx
  have h0 : ¬ (0 : Int) ≤ (w : Int) - p - 1 := by omega
  have h1 : ¬ -(w : Int) ≤ (w : Int) - p - 1 := by omega
  rw [hl, if_neg h0, if_neg h1]

theorem d2bLoop_spec (n w : Nat) : ∀ fuel p, n < 2 ^ (p + fuel) → n % 2 ^ p < 2 ^ (2 * w) →
    d2bLoop n w (fuel + 1) (2 ^ p) p (foldBits w (n % 2 ^ p)) =
      if n < 2 ^ (2 * w) then .ok (foldBits w n) else .error .indexError := by
  intro fuel
  induction fuel with
  | zero =>
    intro p h hm
    unfold d2bLoop
    simp only [Nat.add_zero] at h
    rw [Nat.mod_eq_of_lt h] at hm ⊢
    simp [hm, Nat.not_le.mpr h]
  | succ fuel ih =>
    intro p h hm
    unfold d2bLoop
    by_cases hle : 2 ^ p ≤ n
    · rw [if_pos hle, Nat.two_pow_and]
      have hs : 2 ^ p <<< 1 = 2 ^ (p + 1) := by simp [Nat.shiftLeft_eq, Nat.pow_succ]
      cases hb : n.testBit p with
      | false =>
        simp only [Bool.toNat_false, Nat.mul_zero, ne_eq, not_true_eq_false, if_false]
        rw [hs, ← mod_two_pow_succ_of_testBit_false hb]
        rw [← mod_two_pow_succ_of_testBit_false hb] at hm
        exact ih (p + 1) (by rw [show p + 1 + fuel = p + (fuel + 1) from by omega]; exact h) hm
      | true =>
        have hne : ¬ (2 ^ p * Bool.toNat true = 0) := by simp
        rw [if_pos hne]
        by_cases hp : p < 2 * w
        · rw [foldBits_set hb hp]
          simp only [hs]
          apply ih (p + 1) (by rw [show p + 1 + fuel = p + (fuel + 1) from by omega]; exact h)
          calc n % 2 ^ (p + 1) < 2 ^ (p + 1) := Nat.mod_lt _ (by positivity)
            _ ≤ 2 ^ (2 * w) := Nat.pow_le_pow_right (by decide) (by omega)
        · rw [pySet_far (by simp) (by omega)]
          have : ¬ n < 2 ^ (2 * w) := by
            have := Nat.pow_le_pow_right (n := 2) (by decide) (show 2 * w ≤ p by omega)
            omega
          simp [this]
    · rw [if_neg hle]
      have hlt : n < 2 ^ p := by omega
      rw [Nat.mod_eq_of_lt hlt] at hm ⊢
      simp [hm]

theorem foldBits_zero (w : Nat) : foldBits w 0 = List.replicate w 0 := by
  simp [foldBits]

/-- Complete description of `decimal2bitarray`. -/
theorem decimal2bitarray_eq (n w : Nat) : decimal2bitarray n w =
    if n < 2 ^ (2 * w) then .ok (foldBits w n) else .error .indexError := by
  unfold decimal2bitarray
  have := d2bLoop_spec n w (n + 1) 0 (by
    calc n < n + 1 := by omega
      _ < 2 ^ (n + 1) := Nat.lt_two_pow_self
      _ = 2 ^ (0 + (n + 1)) := by simp) (by simp [Nat.mod_one])
  simpa [Nat.mod_one, foldBits_zero] using this

theorem decimal2bitarray_ok {n w : Nat} (h : n < 2 ^ w) : decimal2bitarray n w = .ok (toBits w n) := by
  rw [decimal2bitarray_eq, if_pos, foldBits_eq_toBits h]
  exact lt_of_lt_of_le h (Nat.pow_le_pow_right (by decide) (by omega))

theorem dec2bitarray_ok {n w : Nat} (h : n < 2 ^ w) : dec2bitarray n w = .ok (toBits w n) :=
  decimal2bitarray_ok h

theorem foldl_add_eq_sum (l : List Nat) (f : Nat → Nat) (a : Nat) :
    l.foldl (fun s i => s + f i) a = a + (l.map f).sum := by
  induction l generalizing a with
  | nil => simp
  | cons x l ih => simp [ih, Nat.add_assoc]

theorem bitarray2dec_eq_sum (b : List Nat) :
    bitarray2dec b = ((List.range b.length).map (fun i => b.getD i 0 * 2 ^ (b.length - 1 - i))).sum := by
  unfold bitarray2dec; rw [foldl_add_eq_sum]; simp

@[simp] theorem bitarray2dec_nil : bitarray2dec [] = 0 := rfl

theorem bitarray2dec_cons (x : Nat) (b : List Nat) :
    bitarray2dec (x :: b) = x * 2 ^ b.length + bitarray2dec b := by
  rw [bitarray2dec_eq_sum, bitarray2dec_eq_sum, List.length_cons, List.range_succ_eq_map]
  simp only [List.map_cons, List.map_map, List.sum_cons, List.getD_cons_zero, Nat.add_sub_cancel, Nat.sub_zero]
  congr 2
  apply List.map_congr_left
  intro i _
  simp only [Function.comp, List.getD_cons_succ]
  rw [show b.length - (i + 1) = b.length - 1 - i from by omega]

theorem bitarray2dec_append (a b : List Nat) :
    bitarray2dec (a ++ b) = bitarray2dec a * 2 ^ b.length + bitarray2dec b := by
  induction a with
  | nil => simp
  | cons x a ih =>
    rw [List.cons_append, bitarray2dec_cons, bitarray2dec_cons, ih, List.length_append, pow_add]; ring

theorem bitarray2dec_lt {b : List Nat} (h : ∀ x ∈ b, x < 2) : bitarray2dec b < 2 ^ b.length := by
  induction b with
  | nil => simp
  | cons x b ih =>
    have h1 := ih (fun y hy => h y (List.mem_cons_of_mem _ hy))
    have h2 := h x (by simp)
    rw [bitarray2dec_cons, List.length_cons, pow_succ]
    have : x * 2 ^ b.length ≤ 1 * 2 ^ b.length := Nat.mul_le_mul_right _ (by omega)
    omega

theorem toBits_succ (w n : Nat) : toBits (w + 1) n = n / 2 ^ w % 2 :: toBits w n := by
  unfold toBits
  rw [List.range_succ_eq_map]
  simp only [List.map_cons, List.map_map, Nat.add_sub_cancel, Nat.sub_zero]
  congr 1
  apply List.map_congr_left
  intro j _
  simp only [Function.comp]
  rw [show w - (j + 1) = w - 1 - j from by omega]

theorem toBits_zero (n : Nat) : toBits 0 n = [] := rfl

theorem toBits_lt_two {w n x : Nat} (h : x ∈ toBits w n) : x < 2 := by
  simp only [toBits, List.mem_map] at h
  obtain ⟨j, _, rfl⟩ := h
  exact Nat.mod_lt _ (by decide)

theorem toBits_mod (w n : Nat) : toBits w (n % 2 ^ w) = toBits w n := by
  unfold toBits
  apply List.map_congr_left
  intro j hj
  rw [List.mem_range] at hj
  rw [← Nat.toNat_testBit, ← Nat.toNat_testBit, Nat.testBit_mod_two_pow]
  simp [show w - 1 - j < w by omega]

theorem bitarray2dec_toBits_mod (w n : Nat) : bitarray2dec (toBits w n) = n % 2 ^ w := by
  induction w with
  | zero => simp [toBits_zero, Nat.mod_one]
  | succ w ih =>
    rw [toBits_succ, bitarray2dec_cons, ih, toBits_length, Nat.mod_pow_succ]
    ring

theorem bitarray2dec_toBits {w n : Nat} (h : n < 2 ^ w) : bitarray2dec (toBits w n) = n := by
  rw [bitarray2dec_toBits_mod, Nat.mod_eq_of_lt h]

theorem toBits_bitarray2dec {b : List Nat} (h : ∀ x ∈ b, x < 2) : toBits b.length (bitarray2dec b) = b := by
  induction b with
  | nil => rfl
  | cons x b ih =>
    have h1 := fun y hy => h y (List.mem_cons_of_mem x hy)
    have h2 := h x (by simp)
    have h3 := bitarray2dec_lt h1
    rw [bitarray2dec_cons, List.length_cons, toBits_succ]
    congr 1
    · rw [Nat.mul_comm, Nat.mul_add_div (by positivity), Nat.div_eq_of_lt h3]
      simp; omega
    · rw [← toBits_mod, Nat.mul_add_mod', toBits_mod, ih h1]

end Verif
