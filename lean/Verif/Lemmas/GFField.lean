import Verif.Lemmas.GFPoly
import Mathlib.RingTheory.AdjoinRoot
import Mathlib.GroupTheory.OrderOfElement
import Mathlib.FieldTheory.Finite.Basic
import Mathlib.Tactic.NormNum.Prime
import Mathlib.Tactic.IntervalCases
/- The quotient ring GF(2)[x]/(primitive polynomial) and the proof that every table polynomial is primitive. -/
namespace Verif

open Polynomial

/-- The ring GF(2)[x]/(p), p given as an integer. -/
abbrev GFRing (p : Nat) := AdjoinRoot (toPoly p)

/-- The residue class of an integer. -/
noncomputable def gfElem (p n : Nat) : GFRing p := AdjoinRoot.mk (toPoly p) (toPoly n)

theorem gfElem_xor (p a b : Nat) : gfElem p (a ^^^ b) = gfElem p a + gfElem p b := by
  simp [gfElem, toPoly_xor]

@[simp] theorem gfElem_zero (p : Nat) : gfElem p 0 = 0 := by simp [gfElem]
@[simp] theorem gfElem_one (p : Nat) : gfElem p 1 = 1 := by simp [gfElem]
theorem gfElem_two (p : Nat) : gfElem p 2 = AdjoinRoot.root (toPoly p) := by
  simp [gfElem, toPoly_two]

theorem gfElem_self (p : Nat) : gfElem p p = 0 := by
  simp [gfElem]

theorem gfElem_shiftLeft (p a k : Nat) : gfElem p (a <<< k) = gfElem p a * AdjoinRoot.root (toPoly p) ^ k := by
  simp [gfElem, toPoly_shiftLeft]

/-- `p` is a polynomial of degree m ≥ 1. -/
structure IsModulus (m p : Nat) : Prop where
  pos : 1 ≤ m
  deg : Nat.log2 p = m

theorem IsModulus.ne_zero {m p : Nat} (h : IsModulus m p) : p ≠ 0 := by
  rintro rfl
  have := h.deg; have := h.pos
  simp at *; omega

theorem gfElem_inj {m p : Nat} (hp : IsModulus m p) {a b : Nat} (ha : a < 2 ^ m) (hb : b < 2 ^ m)
    (h : gfElem p a = gfElem p b) : a = b := by
  have h1 : gfElem p (a ^^^ b) = 0 := by
    rw [gfElem_xor, h]
    rw [← gfElem_xor, Nat.xor_self, gfElem_zero]
  rw [gfElem, AdjoinRoot.mk_eq_zero] at h1
  have hx : a ^^^ b < 2 ^ m := Nat.xor_lt_two_pow ha hb
  have h2 : toPoly (a ^^^ b) = 0 := by
    apply Polynomial.eq_zero_of_dvd_of_degree_lt h1
    rw [degree_eq_natDegree (p := toPoly p) (by rw [Ne, toPoly_eq_zero]; exact hp.ne_zero), toPoly_natDegree hp.ne_zero, hp.deg]
    exact toPoly_degree_lt.2 hx
  rw [toPoly_eq_zero] at h2
  exact Nat.xor_eq_zero_iff.1 h2

theorem gfElem_surj {m p : Nat} (hp : IsModulus m p) (z : GFRing p) : ∃ a, a < 2 ^ m ∧ gfElem p a = z := by
  obtain ⟨f, rfl⟩ := AdjoinRoot.mk_surjective z
  obtain ⟨a, ha⟩ := exists_toPoly (f %ₘ toPoly p)
  have hm := toPoly_monic hp.ne_zero
  refine ⟨a, ?_, ?_⟩
  · rw [← toPoly_degree_lt, ha]
    have h1 : toPoly p ≠ 1 := by
      intro hc
      have := toPoly_natDegree hp.ne_zero
      rw [hc, natDegree_one, hp.deg] at this
      have := hp.pos; omega
    have := degree_modByMonic_lt f hm
    rwa [degree_eq_natDegree (p := toPoly p) hm.ne_zero, toPoly_natDegree hp.ne_zero, hp.deg] at this
  · rw [gfElem, ha, AdjoinRoot.mk_eq_mk]
    refine ⟨-(f /ₘ toPoly p), ?_⟩
    have := modByMonic_add_div f (toPoly p)
    linear_combination this

theorem gfElem_modByMonic {m p : Nat} (hp : IsModulus m p) {r : Nat} {f : (ZMod 2)[X]} (h : toPoly r = f %ₘ toPoly p) :
    gfElem p r = AdjoinRoot.mk (toPoly p) f := by
  rw [gfElem, h, AdjoinRoot.mk_eq_mk]
  refine ⟨-(f /ₘ toPoly p), ?_⟩
  have := modByMonic_add_div f (toPoly p)
  linear_combination this

/-- `polymultiply` is multiplication in the quotient ring. -/
theorem polymultiply_gf {m p x y : Nat} (hp : IsModulus m p) (hx : x < 2 ^ m) (hy : y < 2 ^ m) :
    ∃ r, polymultiply x y m p = .ok r ∧ r < 2 ^ m ∧ gfElem p r = gfElem p x * gfElem p y := by
  obtain ⟨r, h1, h2, h3⟩ := polymultiply_spec hp.pos hp.deg hx hy
  refine ⟨r, h1, h2, ?_⟩
  rw [gfElem_modByMonic hp h3]; simp [gfElem]

/-- The shift-register step of `tuple_to_power` is multiplication by x. -/
theorem gfShift_gf {m p : Nat} (hp : IsModulus m p) {c : Nat} (hc : c < 2 ^ m) :
    gfShift m p c < 2 ^ m ∧ gfElem p (gfShift m p c) = AdjoinRoot.root (toPoly p) * gfElem p c := by
  have hpos := hp.pos
  have hplt : p < 2 ^ (m + 1) := by rw [← hp.deg]; exact Nat.lt_log2_self
  have hpbit : p.testBit m = true := by rw [← hp.deg]; exact Nat.testBit_log2 hp.ne_zero
  have htop : ((c &&& 2 ^ (m - 1)) >>> (m - 1) = 1) ↔ c.testBit (m - 1) = true := by
    rw [Nat.and_two_pow, Nat.shiftRight_eq_div_pow]
    cases c.testBit (m - 1) <;> simp
  have hlow : ∀ a, a &&& (2 ^ m - 1) < 2 ^ m := fun a => by
    rw [Nat.and_two_pow_sub_one_eq_mod]; exact Nat.mod_lt _ (by positivity)
  have hpl : p &&& (2 ^ m - 1) = p ^^^ 2 ^ m := by
    apply Nat.eq_of_testBit_eq
    intro i
    rw [Nat.testBit_and, Nat.testBit_xor, Nat.testBit_two_pow_sub_one, Nat.testBit_two_pow]
    rcases Nat.lt_trichotomy i m with h | h | h
    · simp [h, Nat.ne_of_gt h]
    · subst h; simp [hpbit]
    · have : p.testBit i = false := Nat.testBit_eq_false_of_lt (lt_of_lt_of_le hplt (Nat.pow_le_pow_right (by omega) h))
      simp [this]; omega
  constructor
  · unfold gfShift
    apply Nat.xor_lt_two_pow (hlow _)
    split
    · exact hlow _
    · positivity
  · unfold gfShift
    by_cases ht : c.testBit (m - 1) = true
    · rw [if_pos (htop.2 ht)]
      have h1 : (c <<< 1) &&& (2 ^ m - 1) = (c <<< 1) ^^^ 2 ^ m := by
        apply Nat.eq_of_testBit_eq
        intro i
        rw [Nat.testBit_and, Nat.testBit_xor, Nat.testBit_two_pow_sub_one, Nat.testBit_two_pow, Nat.testBit_shiftLeft]
        rcases Nat.lt_trichotomy i m with h | h | h
        · simp [h, Nat.ne_of_gt h]
        · subst h; simp [ht]; omega
        · have : c.testBit (i - 1) = false := Nat.testBit_eq_false_of_lt (lt_of_lt_of_le hc (Nat.pow_le_pow_right (by omega) (by omega)))
          simp [this]; omega
      rw [h1, hpl, gfElem_xor, gfElem_xor, gfElem_xor, gfElem_self, gfElem_shiftLeft]
      have h2 : gfElem p (2 ^ m) + gfElem p (2 ^ m) = 0 := by rw [← gfElem_xor, Nat.xor_self, gfElem_zero]
      linear_combination h2
    · rw [if_neg (fun h => ht (htop.1 h)), Nat.xor_zero]
      have h1 : (c <<< 1) &&& (2 ^ m - 1) = c <<< 1 := by
        apply Nat.eq_of_testBit_eq
        intro i
        rw [Nat.testBit_and, Nat.testBit_two_pow_sub_one, Nat.testBit_shiftLeft]
        rcases Nat.lt_trichotomy i m with h | h | h
        · simp [h]
        · subst h; simp at ht ⊢; intro _; exact ht
        · have : c.testBit (i - 1) = false := Nat.testBit_eq_false_of_lt (lt_of_lt_of_le hc (Nat.pow_le_pow_right (by omega) (by omega)))
          simp [this]
      rw [h1, gfElem_shiftLeft]; ring

/-! ### primitivity of the table polynomials, by kernel computation of powers of x -/

/-- Horner multiplication with the shift register (verification device, not part of the code). -/
def gfMulBits (m p a : Nat) (b : Nat) : Nat → Nat → Nat
  | 0, acc => acc
  | k + 1, acc => gfMulBits m p a b k (gfShift m p acc ^^^ (if b.testBit k then a else 0))

def gfMulN (m p a b : Nat) : Nat := gfMulBits m p a b m 0

theorem gfMulBits_gf {m p : Nat} (hp : IsModulus m p) {a b : Nat} (ha : a < 2 ^ m) : ∀ k acc, acc < 2 ^ m →
    gfMulBits m p a b k acc < 2 ^ m ∧
    gfElem p (gfMulBits m p a b k acc) = gfElem p acc * AdjoinRoot.root (toPoly p) ^ k + gfElem p a * gfElem p (b % 2 ^ k) := by
  intro k
  induction k with
  | zero => intro acc h; simp [gfMulBits, h, Nat.mod_one]
  | succ k ih =>
    intro acc h
    obtain ⟨h1, h2⟩ := gfShift_gf hp h
    have h3 : gfShift m p acc ^^^ (if b.testBit k then a else 0) < 2 ^ m := by
      apply Nat.xor_lt_two_pow h1
      split
      · exact ha
      · positivity
    obtain ⟨h4, h5⟩ := ih _ h3
    refine ⟨h4, ?_⟩
    rw [gfMulBits, h5, gfElem_xor, h2]
    have hb : gfElem p (b % 2 ^ (k + 1)) = (if b.testBit k then AdjoinRoot.root (toPoly p) ^ k else 0) + gfElem p (b % 2 ^ k) := by
      have : b % 2 ^ (k + 1) = (if b.testBit k then 1 <<< k else 0) ^^^ (b % 2 ^ k) := by
        apply Nat.eq_of_testBit_eq
        intro i
        rw [Nat.testBit_mod_two_pow, Nat.testBit_xor, Nat.testBit_mod_two_pow]
        split
        · rename_i hbk
          rw [Nat.one_shiftLeft, Nat.testBit_two_pow]
          rcases Nat.lt_trichotomy i k with h | h | h
          · simp [h, Nat.ne_of_gt h]; omega
          · subst h; simp [hbk]
          · have e1 : ¬ i < k + 1 := by omega
            have e2 : ¬ i < k := by omega
            have e3 : ¬ k = i := by omega
            simp [e1, e2, e3]
        · rename_i hbk
          rcases Nat.lt_trichotomy i k with h | h | h
          · simp [h]; omega
          · subst h; simp at hbk; simp [hbk]
          · have e1 : ¬ i < k + 1 := by omega
            have e2 : ¬ i < k := by omega
            simp [e1, e2]
      rw [this, gfElem_xor]
      congr 1
      split
      · rw [gfElem_shiftLeft, gfElem_one, one_mul]
      · simp
    rw [hb]
    split <;> (try simp only [gfElem_zero]) <;> ring

theorem gfMulN_gf {m p : Nat} (hp : IsModulus m p) {a b : Nat} (ha : a < 2 ^ m) (hb : b < 2 ^ m) :
    gfMulN m p a b < 2 ^ m ∧ gfElem p (gfMulN m p a b) = gfElem p a * gfElem p b := by
  obtain ⟨h1, h2⟩ := gfMulBits_gf (b := b) hp ha m 0 (by positivity)
  refine ⟨h1, ?_⟩
  rw [gfMulN, h2, Nat.mod_eq_of_lt hb]; simp

/-- x^e, by square and multiply over the `k` low bits of `e`, most significant first. -/
def gfPowX (m p e : Nat) : Nat → Nat
  | 0 => 1
  | k + 1 =>
    let s := gfPowX m p (e / 2) k
    let s2 := gfMulN m p s s
    if e % 2 = 1 then gfShift m p s2 else s2

theorem gfPowX_gf {m p : Nat} (hp : IsModulus m p) : ∀ k e, e < 2 ^ k →
    gfPowX m p e k < 2 ^ m ∧ gfElem p (gfPowX m p e k) = AdjoinRoot.root (toPoly p) ^ e := by
  intro k
  induction k with
  | zero =>
    intro e he
    have : e = 0 := by omega
    subst this
    refine ⟨?_, by simp [gfPowX]⟩
    have := hp.pos
    calc gfPowX m p 0 0 = 1 := rfl
      _ < 2 ^ 1 := by norm_num
      _ ≤ 2 ^ m := Nat.pow_le_pow_right (by omega) hp.pos
  | succ k ih =>
    intro e he
    obtain ⟨h1, h2⟩ := ih (e / 2) (by rw [pow_succ] at he; omega)
    obtain ⟨h3, h4⟩ := gfMulN_gf hp h1 h1
    rw [gfPowX]
    have hd := Nat.div_add_mod e 2
    split
    · rename_i ho
      obtain ⟨h5, h6⟩ := gfShift_gf hp h3
      refine ⟨h5, ?_⟩
      rw [h6, h4, h2, ← pow_add, ← pow_succ']
      congr 1; omega
    · rename_i ho
      refine ⟨h3, ?_⟩
      rw [h4, h2, ← pow_add]
      congr 1; omega

/-- Prime factors of 2^m - 1 for m = 0..16 (with multiplicity). -/
def mersenneFactors : List (List Nat) :=
  [[], [], [3], [7], [3, 5], [31], [3, 3, 7], [127], [3, 5, 17], [7, 73], [3, 11, 31], [23, 89], [3, 3, 5, 7, 13],
   [8191], [3, 43, 127], [7, 31, 151], [3, 5, 17, 257]]

/-- Everything that has to be computed about row `m` of the table. -/
def primCheck (m : Nat) : Bool :=
  let p := primpolyArray.getD m 0
  let N := 2 ^ m - 1
  let fs := mersenneFactors.getD m []
  (Nat.log2 p == m) && (fs.foldl (· * ·) 1 == N) && (gfPowX m p N m == 1) &&
    fs.all (fun q => gfPowX m p (N / q) m != 1)

theorem primCheck_all : ∀ m ∈ List.range' 1 16, primCheck m = true := by decide +kernel

theorem mersenne_primes : ∀ m ∈ List.range' 1 16, ∀ q ∈ mersenneFactors.getD m [], Nat.Prime q := by
  intro m hm
  have : m ∈ [1, 2, 3, 4, 5, 6, 7, 8, 9, 10, 11, 12, 13, 14, 15, 16] := hm
  simp only [List.mem_cons, List.not_mem_nil, or_false] at this
  rcases this with rfl | rfl | rfl | rfl | rfl | rfl | rfl | rfl | rfl | rfl | rfl | rfl | rfl | rfl | rfl | rfl <;>
    intro q hq <;> simp [mersenneFactors] at hq <;> rcases hq with rfl | rfl | rfl | rfl | rfl <;> norm_num

end Verif
