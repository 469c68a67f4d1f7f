import Verif.Model.GFields
import Verif.Lemmas.Lists
import Verif.Lemmas.Utilities
import Mathlib.Algebra.Polynomial.Basic
import Mathlib.Algebra.Polynomial.Coeff
import Mathlib.Algebra.Polynomial.Degree.Defs
import Mathlib.Algebra.Polynomial.Degree.Lemmas
import Mathlib.Algebra.Polynomial.Div
import Mathlib.Algebra.Polynomial.FieldDivision
import Mathlib.Data.ZMod.Basic
import Mathlib.Algebra.Field.ZMod
import Mathlib.Algebra.CharP.Two
import Mathlib.Data.Nat.Bitwise
import Mathlib.Tactic.Ring
import Mathlib.Tactic.Linarith
/- Integers as polynomials over GF(2). -/
namespace Verif

open Polynomial

/-- The binary polynomial of an integer: coefficient `i` is bit `i`. -/
noncomputable def toPoly (n : Nat) : (ZMod 2)[X] :=
  ∑ i ∈ Finset.range n, if n.testBit i then X ^ i else 0

theorem testBit_lt_self {n i : Nat} (h : n.testBit i = true) : i < n := by
  have h1 : 2 ^ i ≤ n := Nat.ge_two_pow_of_testBit h
  exact lt_of_lt_of_le Nat.lt_two_pow_self h1

theorem toPoly_coeff (n i : Nat) : (toPoly n).coeff i = if n.testBit i then 1 else 0 := by
  unfold toPoly
  rw [finsetSum_coeff]
  have : ∀ b ∈ Finset.range n, (if n.testBit b then (X : (ZMod 2)[X]) ^ b else 0).coeff i =
      if b = i then (if n.testBit i then 1 else 0) else 0 := by
    intro b _
    by_cases hb : b = i
    · subst hb
      split <;> simp
    · rw [if_neg hb]
      split
      · rw [coeff_X_pow, if_neg (Ne.symm hb)]
      · simp
  rw [Finset.sum_congr rfl this, Finset.sum_ite_eq']
  split
  · rfl
  · rename_i h
    have : n.testBit i = false := by
      by_contra hc
      rw [Bool.not_eq_false] at hc
      exact h (Finset.mem_range.2 (testBit_lt_self hc))
    simp [this]

theorem toPoly_inj {a b : Nat} (h : toPoly a = toPoly b) : a = b := by
  apply Nat.eq_of_testBit_eq
  intro i
  have := congrArg (fun p => p.coeff i) h
  simp only [toPoly_coeff] at this
  cases ha : a.testBit i <;> cases hb : b.testBit i <;> simp_all

@[simp] theorem toPoly_zero : toPoly 0 = 0 := by ext i; simp [toPoly_coeff]

@[simp] theorem toPoly_one : toPoly 1 = 1 := by
  ext i
  rw [toPoly_coeff, coeff_one]
  have : (1 : Nat).testBit i = decide (0 = i) := by
    have := Nat.testBit_two_pow (n := 0) (m := i)
    simpa using this
  simp [this, eq_comm]

theorem toPoly_two : toPoly 2 = X := by
  ext i
  rw [toPoly_coeff, coeff_X]
  have : (2 : Nat).testBit i = decide (1 = i) := by
    have := Nat.testBit_two_pow (n := 1) (m := i)
    simpa using this
  simp [this]

theorem toPoly_xor (a b : Nat) : toPoly (a ^^^ b) = toPoly a + toPoly b := by
  ext i
  rw [coeff_add, toPoly_coeff, toPoly_coeff, toPoly_coeff, Nat.testBit_xor]
  cases a.testBit i <;> cases b.testBit i <;> simp <;> decide

theorem toPoly_shiftLeft (a k : Nat) : toPoly (a <<< k) = toPoly a * X ^ k := by
  ext i
  rw [coeff_mul_X_pow', toPoly_coeff, Nat.testBit_shiftLeft]
  by_cases h : k ≤ i
  · simp [h, toPoly_coeff]
  · simp [h]

theorem toPoly_degree_lt {n k : Nat} : (toPoly n).degree < k ↔ n < 2 ^ k := by
  rw [degree_lt_iff_coeff_zero]
  constructor
  · intro h
    apply Nat.lt_pow_two_of_testBit
    intro i hi
    have := h i hi
    rw [toPoly_coeff] at this
    cases hb : n.testBit i <;> simp_all
  · intro h i hi
    rw [toPoly_coeff, Nat.testBit_eq_false_of_lt (lt_of_lt_of_le h (Nat.pow_le_pow_right (by omega) hi))]
    simp

theorem toPoly_eq_zero {n : Nat} : toPoly n = 0 ↔ n = 0 := by
  constructor
  · intro h; apply toPoly_inj; simp [h]
  · rintro rfl; simp

theorem toPoly_natDegree {n : Nat} (h : n ≠ 0) : (toPoly n).natDegree = n.log2 := by
  apply natDegree_eq_of_le_of_coeff_ne_zero
  · rw [natDegree_le_iff_degree_le, ← Order.lt_succ_iff]
    have : (toPoly n).degree < ((n.log2 + 1 : Nat) : WithBot Nat) := toPoly_degree_lt.2 Nat.lt_log2_self
    rw [degree_lt_iff_coeff_zero] at this
    rw [Order.lt_succ_iff, degree_le_iff_coeff_zero]
    intro i hi
    exact this i (by have : n.log2 < i := by exact_mod_cast hi
                     omega)
  · rw [toPoly_coeff, Nat.testBit_log2 h]; simp

theorem toPoly_monic {n : Nat} (h : n ≠ 0) : (toPoly n).Monic := by
  unfold Monic leadingCoeff
  rw [toPoly_natDegree h, toPoly_coeff, Nat.testBit_log2 h]; simp

/-- Every binary polynomial is the polynomial of an integer. -/
theorem exists_toPoly (p : (ZMod 2)[X]) : ∃ n, toPoly n = p := by
  induction p using Polynomial.induction_on' with
  | add p q hp hq =>
    obtain ⟨a, rfl⟩ := hp
    obtain ⟨b, rfl⟩ := hq
    exact ⟨a ^^^ b, toPoly_xor a b⟩
  | monomial n a =>
    have : a = 0 ∨ a = 1 := by revert a; decide
    rcases this with rfl | rfl
    · exact ⟨0, by simp⟩
    · refine ⟨1 <<< n, ?_⟩
      rw [toPoly_shiftLeft, toPoly_one, one_mul, X_pow_eq_monomial]

/-! ### polydivide -/

theorem binLen_ge_iff (a b : Nat) : binLen a ≥ binLen b ↔ Nat.log2 b ≤ Nat.log2 a := by unfold binLen; omega

theorem polydivide_shift (x y : Nat) :
    (if binLen x > binLen y then y <<< (binLen x - binLen y) else y) = y <<< (Nat.log2 x - Nat.log2 y) := by
  unfold binLen
  split
  · congr 1; omega
  · rw [show x.log2 - y.log2 = 0 by omega]; rfl

theorem log2_shiftLeft {y : Nat} (hy : y ≠ 0) (k : Nat) : Nat.log2 (y <<< k) = Nat.log2 y + k := by
  have h1 : toPoly (y <<< k) = toPoly y * X ^ k := toPoly_shiftLeft y k
  have h2 : y <<< k ≠ 0 := by
    rw [Nat.shiftLeft_eq]; positivity
  rw [← toPoly_natDegree h2, ← toPoly_natDegree hy, h1, natDegree_mul_X_pow _ (by rwa [Ne, toPoly_eq_zero])]

/-- cancelling the leading bit lowers the bit length -/
theorem log2_xor_lt {x d : Nat} (hx : 1 ≤ Nat.log2 x) (h : Nat.log2 x = Nat.log2 d) :
    Nat.log2 (x ^^^ d) < Nat.log2 x := by
  have hx0 : x ≠ 0 := by rintro rfl; simp at hx
  have hd0 : d ≠ 0 := by rintro rfl; simp at h; omega
  have hb : (x ^^^ d) < 2 ^ Nat.log2 x := by
    apply Nat.lt_pow_two_of_testBit
    intro i hi
    rw [Nat.testBit_xor]
    rcases Nat.eq_or_lt_of_le hi with e | e
    · subst e
      rw [Nat.testBit_log2 hx0, h, Nat.testBit_log2 hd0]; rfl
    · have hxi : x.testBit i = false := Nat.testBit_eq_false_of_lt (lt_of_lt_of_le Nat.lt_log2_self (Nat.pow_le_pow_right (by omega) e))
      have hdi : d.testBit i = false := Nat.testBit_eq_false_of_lt (lt_of_lt_of_le (Nat.lt_log2_self (n := d)) (Nat.pow_le_pow_right (by omega) (by omega)))
      rw [hxi, hdi]; rfl
  by_cases h0 : x ^^^ d = 0
  · rw [h0]; simp; omega
  · exact (Nat.log2_lt h0).2 hb

/-- Once the dividend is at least as long as the divisor, the loop strictly shortens it. -/
theorem polydivideLoop_main {y : Nat} (hy : 2 ≤ y) : ∀ (fuel x : Nat), Nat.log2 x < fuel + Nat.log2 y → 
    ∃ r, polydivideLoop (fuel + 1) x y x = .ok r ∧ Nat.log2 r < Nat.log2 y ∧ ∃ q, toPoly x = toPoly y * q + toPoly r := by
  have hy1 : 1 ≤ Nat.log2 y := (Nat.le_log2 (by omega)).2 hy
  have hy0 : y ≠ 0 := by omega
  intro fuel
  induction fuel with
  | zero =>
    intro x hx
    rw [polydivideLoop, if_neg (by rw [binLen_ge_iff]; omega)]
    exact ⟨x, rfl, by omega, 0, by simp⟩
  | succ fuel ih =>
    intro x hx
    rw [polydivideLoop]
    by_cases hc : binLen x ≥ binLen y
    · rw [if_pos hc, polydivide_shift]
      rw [binLen_ge_iff] at hc
      have hd : Nat.log2 (y <<< (x.log2 - y.log2)) = x.log2 := by rw [log2_shiftLeft hy0]; omega
      have hlt := log2_xor_lt (by omega) hd.symm
      obtain ⟨r, h1, h2, q, h3⟩ := ih (x ^^^ y <<< (x.log2 - y.log2)) (by omega)
      refine ⟨r, h1, h2, q + X ^ (x.log2 - y.log2), ?_⟩
      rw [toPoly_xor, toPoly_shiftLeft] at h3
      have : toPoly x = toPoly y * q + toPoly r + toPoly y * X ^ (x.log2 - y.log2) := by
        rw [← h3, add_assoc, CharTwo.add_self_eq_zero, add_zero]
      rw [this]; ring
    · rw [if_neg hc]
      rw [binLen_ge_iff] at hc
      exact ⟨x, rfl, by omega, 0, by simp⟩

/-- `polydivide` terminates for `y ≥ 2`, whatever fuel beyond the bit length is given. -/
theorem polydivideFuel_spec {y : Nat} (hy : 2 ≤ y) (x fuel : Nat) (hf : Nat.log2 x + 4 ≤ fuel) :
    ∃ r, polydivideFuel fuel x y = .ok r ∧ Nat.log2 r < Nat.log2 y ∧ ∃ q, toPoly x = toPoly y * q + toPoly r := by
  have hy0 : y ≠ 0 := by omega
  have hy1 : 1 ≤ Nat.log2 y := (Nat.le_log2 (by omega)).2 hy
  obtain ⟨f, rfl⟩ : ∃ f, fuel = f + 2 := ⟨fuel - 2, by omega⟩
  unfold polydivideFuel
  rw [polydivideLoop, if_pos le_rfl, polydivide_shift]
  by_cases hc : Nat.log2 y ≤ Nat.log2 x
  · have hd : Nat.log2 (y <<< (x.log2 - y.log2)) = x.log2 := by rw [log2_shiftLeft hy0]; omega
    have hlt := log2_xor_lt (by omega) hd.symm
    obtain ⟨r, h1, h2, q, h3⟩ := polydivideLoop_main hy f (x ^^^ y <<< (x.log2 - y.log2)) (by omega)
    refine ⟨r, h1, h2, q + X ^ (x.log2 - y.log2), ?_⟩
    rw [toPoly_xor, toPoly_shiftLeft] at h3
    have : toPoly x = toPoly y * q + toPoly r + toPoly y * X ^ (x.log2 - y.log2) := by
      rw [← h3, add_assoc, CharTwo.add_self_eq_zero, add_zero]
    rw [this]; ring
  · -- dividend shorter than the divisor: it is first made as long, then reduced back
    rw [show x.log2 - y.log2 = 0 by omega, Nat.shiftLeft_zero]
    have hxy : Nat.log2 (x ^^^ y) = Nat.log2 y := by
      have hx : x < 2 ^ Nat.log2 y := by
        by_cases hx0 : x = 0
        · rw [hx0]; positivity
        · exact (Nat.log2_lt hx0).1 (by omega)
      apply le_antisymm
      · have h1 : x ^^^ y < 2 ^ (y.log2 + 1) := Nat.xor_lt_two_pow (lt_trans hx (by
          exact Nat.pow_lt_pow_right (by omega) (by omega))) Nat.lt_log2_self
        by_cases h0 : x ^^^ y = 0
        · rw [h0]; simp
        · have := (Nat.log2_lt h0).2 h1; omega
      · apply (Nat.le_log2 ?_).2
        · apply Nat.ge_two_pow_of_testBit
          rw [Nat.testBit_xor, Nat.testBit_log2 hy0, Nat.testBit_eq_false_of_lt hx]; rfl
        · intro h0
          have : (x ^^^ y).testBit y.log2 = true := by
            rw [Nat.testBit_xor, Nat.testBit_log2 hy0, Nat.testBit_eq_false_of_lt hx]; rfl
          rw [h0] at this; simp at this
    obtain ⟨r, h1, h2, q, h3⟩ := polydivideLoop_main hy f (x ^^^ y) (by omega)
    refine ⟨r, h1, h2, q + 1, ?_⟩
    rw [toPoly_xor] at h3
    have : toPoly x = toPoly y * q + toPoly r + toPoly y := by
      rw [← h3, add_assoc, CharTwo.add_self_eq_zero, add_zero]
    rw [this]; ring

theorem toPoly_modByMonic_unique {y r x : Nat} (hy : y ≠ 0) (h1 : r < 2 ^ Nat.log2 y) {q : (ZMod 2)[X]}
    (h : toPoly x = toPoly y * q + toPoly r) : toPoly x %ₘ toPoly y = toPoly r := by
  have hm := toPoly_monic hy
  refine (div_modByMonic_unique q (toPoly r) hm ⟨by rw [h]; ring, ?_⟩).2
  rw [degree_eq_natDegree (p := toPoly y) (by rwa [Ne, toPoly_eq_zero]), toPoly_natDegree hy]
  exact toPoly_degree_lt.2 h1

theorem log2_lt_iff {r y : Nat} (h : Nat.log2 r < Nat.log2 y) : r < 2 ^ Nat.log2 y := by
  by_cases h0 : r = 0
  · rw [h0]; positivity
  · exact (Nat.log2_lt h0).1 h

theorem polydivide_spec {y : Nat} (hy : 2 ≤ y) (x : Nat) :
    ∃ r, polydivide x y = .ok r ∧ r < 2 ^ Nat.log2 y ∧ toPoly r = toPoly x %ₘ toPoly y := by
  obtain ⟨r, h1, h2, q, h3⟩ := polydivideFuel_spec hy x _ le_rfl
  have h4 := log2_lt_iff h2
  exact ⟨r, h1, h4, (toPoly_modByMonic_unique (by omega) h4 h3).symm⟩

/-! ### convolution -/

/-- polynomial of a coefficient list, highest degree first -/
noncomputable def listPoly (l : List Nat) : (ZMod 2)[X] :=
  ∑ i ∈ Finset.range l.length, C ((l.getD i 0 : Nat) : ZMod 2) * X ^ (l.length - 1 - i)

theorem listPoly_cons (x : Nat) (l : List Nat) : listPoly (x :: l) = C (x : ZMod 2) * X ^ l.length + listPoly l := by
  unfold listPoly
  rw [List.length_cons, Finset.sum_range_succ', add_comm]
  congr 1
  apply Finset.sum_congr rfl
  intro i hi
  have := Finset.mem_range.1 hi
  rw [List.getD_cons_succ]
  congr 2; omega

theorem toPoly_two_pow_add {k b : Nat} (h : b < 2 ^ k) : toPoly (2 ^ k + b) = X ^ k + toPoly b := by
  have : 2 ^ k + b = 2 ^ k ||| b := by
    have := Nat.two_pow_add_eq_or_of_lt h 1
    simpa using this
  rw [this]
  ext i
  rw [coeff_add, toPoly_coeff, toPoly_coeff, coeff_X_pow, Nat.testBit_or, Nat.testBit_two_pow]
  by_cases hk : k = i
  · subst hk
    simp [Nat.testBit_eq_false_of_lt h]
  · simp [hk, Ne.symm hk]

theorem toPoly_bitarray2dec {l : List Nat} (h : ∀ x ∈ l, x < 2) : toPoly (bitarray2dec l) = listPoly l := by
  induction l with
  | nil => simp [bitarray2dec_nil, listPoly]
  | cons x l ih =>
    have hl := ih (fun y hy => h y (by simp [hy]))
    have hlt := bitarray2dec_lt (fun y hy => h y (by simp [hy]) : ∀ y ∈ l, y < 2)
    rw [listPoly_cons, bitarray2dec_cons, ← hl]
    have hx : x = 0 ∨ x = 1 := by have := h x (by simp); omega
    rcases hx with rfl | rfl
    · simp
    · rw [Nat.one_mul, toPoly_two_pow_add hlt]; simp

theorem listPoly_mod (l : List Nat) : listPoly (l.map (· % 2)) = listPoly l := by
  induction l with
  | nil => rfl
  | cons x l ih =>
    rw [List.map_cons, listPoly_cons, listPoly_cons, ih, List.length_map]
    congr 3
    exact ZMod.natCast_mod x 2

theorem sum_antidiag (f : Nat → Nat → (ZMod 2)[X]) (la lb : Nat) (h : ∀ i j, la ≤ i ∨ lb ≤ j → f i j = 0) :
    ∑ k ∈ Finset.range (la + lb - 1), ∑ i ∈ Finset.range (k + 1), f i (k - i) =
      ∑ i ∈ Finset.range la, ∑ j ∈ Finset.range lb, f i j := by
  rw [Finset.sum_sigma', Finset.sum_sigma']
  refine Finset.sum_bij_ne_zero (fun x _ _ => ⟨x.2, x.1 - x.2⟩) ?_ ?_ ?_ ?_
  · rintro ⟨k, i⟩ h1 h2
    simp only [Finset.mem_sigma, Finset.mem_range] at h1 ⊢
    constructor
    · by_contra hc; exact h2 (h i (k - i) (Or.inl (by omega)))
    · by_contra hc; exact h2 (h i (k - i) (Or.inr (by omega)))
  · rintro ⟨k, i⟩ h1 _ ⟨k', i'⟩ h2 _ he
    simp only [Finset.mem_sigma, Finset.mem_range, Sigma.mk.injEq, heq_eq_eq] at h1 h2 he ⊢
    omega
  · rintro ⟨i, j⟩ h1 h2
    simp only [Finset.mem_sigma, Finset.mem_range] at h1
    refine ⟨⟨i + j, i⟩, ?_, ?_, ?_⟩
    · simp only [Finset.mem_sigma, Finset.mem_range]; omega
    · simpa using h2
    · simp
  · rintro ⟨k, i⟩ _ _; rfl

theorem convolve_ok {a b : List Nat} (ha : a ≠ []) (hb : b ≠ []) :
    convolve a b = .ok ((List.range (a.length + b.length - 1)).map (fun k =>
      ((List.range (k + 1)).map (fun i => a.getD i 0 * b.getD (k - i) 0)).sum)) := by
  simp [convolve, ha, hb]

theorem getD_ge {l : List Nat} {i : Nat} (h : l.length ≤ i) : l.getD i 0 = 0 := by
  simp [List.getD_eq_getElem?_getD, h]

theorem listPoly_convolve {a b c : List Nat} (h : convolve a b = .ok c) : listPoly c = listPoly a * listPoly b := by
  by_cases hab : a = [] ∨ b = []
  · simp [convolve, hab] at h
  · rw [not_or] at hab
    rw [convolve_ok hab.1 hab.2] at h
    cases h
    have hla := List.length_pos_iff.2 hab.1
    have hlb := List.length_pos_iff.2 hab.2
    unfold listPoly
    rw [Finset.sum_mul_sum, ← sum_antidiag (fun i j => C ((a.getD i 0 : Nat) : ZMod 2) * X ^ (a.length - 1 - i) *
      (C ((b.getD j 0 : Nat) : ZMod 2) * X ^ (b.length - 1 - j)))]
    · simp only [List.length_map, List.length_range]
      apply Finset.sum_congr rfl
      intro k hk
      have hk' := Finset.mem_range.1 hk
      have e : ((List.range (a.length + b.length - 1)).map (fun k =>
          ((List.range (k + 1)).map (fun i => a.getD i 0 * b.getD (k - i) 0)).sum)).getD k 0 =
          ∑ i ∈ Finset.range (k + 1), a.getD i 0 * b.getD (k - i) 0 := by
        rw [List.getD_eq_getElem?_getD, List.getElem?_map, List.getElem?_range hk', Option.map_some, Option.getD_some]
        rfl
      rw [e, Nat.cast_sum, map_sum, Finset.sum_mul]
      apply Finset.sum_congr rfl
      intro i hi
      have hi' := Finset.mem_range.1 hi
      by_cases h1 : i < a.length
      · by_cases h2 : k - i < b.length
        · rw [show a.length + b.length - 1 - 1 - k = (a.length - 1 - i) + (b.length - 1 - (k - i)) by omega, pow_add,
            Nat.cast_mul, C_mul]
          ring
        · rw [getD_ge (l := b) (by omega)]; simp
      · rw [getD_ge (l := a) (by omega)]; simp
    · intro i j hij
      rcases hij with h1 | h1
      · rw [getD_ge (l := a) h1]; simp
      · rw [getD_ge (l := b) h1]; simp

theorem toPoly_toBits {m a : Nat} (h : a < 2 ^ m) : listPoly (toBits m a) = toPoly a := by
  rw [← toPoly_bitarray2dec (fun x hx => toBits_lt_two hx), bitarray2dec_toBits h]

/-- `polymultiply` on field elements: the residue of the product polynomial. -/
theorem polymultiply_spec {m p x y : Nat} (hm : 1 ≤ m) (hp : Nat.log2 p = m) (hx : x < 2 ^ m) (hy : y < 2 ^ m) :
    ∃ r, polymultiply x y m p = .ok r ∧ r < 2 ^ m ∧ toPoly r = (toPoly x * toPoly y) %ₘ toPoly p := by
  have hp0 : p ≠ 0 := by rintro rfl; simp at hp; omega
  have hp2 : 2 ≤ p := by
    have := Nat.log2_self_le hp0
    rw [hp] at this
    calc 2 = 2 ^ 1 := rfl
      _ ≤ 2 ^ m := Nat.pow_le_pow_right (by omega) hm
      _ ≤ p := this
  unfold polymultiply
  rw [dec2bitarray_ok hx, dec2bitarray_ok hy]
  have ne1 : ∀ a, toBits m a ≠ [] := by
    intro a hc
    have := toBits_length m a
    rw [hc] at this; simp at this; omega
  simp only [bind, Except.bind]
  cases hc : convolve (toBits m x) (toBits m y) with
  | error e => rw [convolve_ok (ne1 x) (ne1 y)] at hc; cases hc
  | ok c =>
    simp only
    obtain ⟨r, h1, h2, h3⟩ := polydivide_spec hp2 (bitarray2dec (c.map (· % 2)))
    refine ⟨r, h1, by rw [← hp]; exact h2, ?_⟩
    rw [h3, toPoly_bitarray2dec, listPoly_mod, listPoly_convolve hc, toPoly_toBits hx, toPoly_toBits hy]
    intro z hz
    obtain ⟨w, _, rfl⟩ := List.mem_map.1 hz
    omega

end Verif
