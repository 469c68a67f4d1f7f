import Verif.Lemmas.GFField
import Mathlib.RingTheory.SimpleModule.Basic
import Mathlib.Tactic.Linarith
/- Every table polynomial is primitive, hence GF(2)[x]/(p) is a field generated by x. -/
namespace Verif

open Polynomial

/-- m and p form a row 1..16 of the table. -/
structure TableRow (m p : Nat) : Prop where
  pos : 1 ≤ m
  le : m ≤ 16
  eq : primpolyArray.getD m 0 = p

theorem TableRow.mem {m p : Nat} (h : TableRow m p) : m ∈ List.range' 1 16 := by
  rw [List.mem_range'_1]; have := h.pos; have := h.le; omega

theorem TableRow.check {m p : Nat} (h : TableRow m p) :
    Nat.log2 p = m ∧ (mersenneFactors.getD m []).foldl (· * ·) 1 = 2 ^ m - 1 ∧ gfPowX m p (2 ^ m - 1) m = 1 ∧
    ∀ q ∈ mersenneFactors.getD m [], gfPowX m p ((2 ^ m - 1) / q) m ≠ 1 := by
  have := primCheck_all m h.mem
  simp only [primCheck, h.eq, Bool.and_eq_true, beq_iff_eq, List.all_eq_true, bne_iff_ne] at this
  exact ⟨this.1.1.1, this.1.1.2, this.1.2, this.2⟩

theorem TableRow.isModulus {m p : Nat} (h : TableRow m p) : IsModulus m p := ⟨h.pos, h.check.1⟩

theorem foldl_mul_eq_prod (l : List Nat) : l.foldl (· * ·) 1 = l.prod := by
  rw [List.prod_eq_foldl]

theorem gfElem_one_lt {m p : Nat} (h : IsModulus m p) : 1 < 2 ^ m :=
  lt_of_lt_of_le (by norm_num) (Nat.pow_le_pow_right (by norm_num : 0 < 2) h.pos)

theorem TableRow.orderOf_root {m p : Nat} (h : TableRow m p) :
    orderOf (AdjoinRoot.root (toPoly p)) = 2 ^ m - 1 := by
  obtain ⟨h1, h2, h3, h4⟩ := h.check
  have hp := h.isModulus
  have hlt := gfElem_one_lt hp
  apply orderOf_eq_of_pow_and_pow_div_prime (by omega)
  · have := (gfPowX_gf hp m (2 ^ m - 1) (by omega)).2
    rw [h3] at this
    rw [← this, gfElem_one]
  · intro q hq hd
    rw [foldl_mul_eq_prod] at h2
    rw [← h2, (Nat.prime_iff.1 hq).dvd_prod_iff] at hd
    obtain ⟨a, ha, hqa⟩ := hd
    have hqa' : q = a := (Nat.prime_dvd_prime_iff_eq hq (mersenne_primes m h.mem a ha)).1 hqa
    subst hqa'
    have hlt2 : (2 ^ m - 1) / q < 2 ^ m := lt_of_le_of_lt (Nat.div_le_self _ _) (by omega)
    obtain ⟨h5, h6⟩ := gfPowX_gf hp m _ hlt2
    intro hc
    apply h4 q ha
    apply gfElem_inj hp h5 hlt
    rw [h6, gfElem_one, hc]

theorem gfElem_eq_zero {m p a : Nat} (hp : IsModulus m p) (ha : a < 2 ^ m) : gfElem p a = 0 ↔ a = 0 := by
  constructor
  · intro h
    apply gfElem_inj hp ha (by positivity)
    simpa using h
  · rintro rfl; simp

open Classical in
/-- The value of x^i as an integer below 2^m. -/
noncomputable def gfExp (m p : Nat) (i : Nat) : Nat :=
  if h : IsModulus m p then Classical.choose (gfElem_surj h (AdjoinRoot.root (toPoly p) ^ i)) else 0

theorem gfExp_spec {m p : Nat} (hp : IsModulus m p) (i : Nat) :
    gfExp m p i < 2 ^ m ∧ gfElem p (gfExp m p i) = AdjoinRoot.root (toPoly p) ^ i := by
  unfold gfExp
  rw [dif_pos hp]
  exact Classical.choose_spec (gfElem_surj hp (AdjoinRoot.root (toPoly p) ^ i))

/-- In a table field every non-zero element is a power of x. -/
theorem TableRow.exists_pow {m p : Nat} (h : TableRow m p) {a : Nat} (ha : a < 2 ^ m) (ha0 : a ≠ 0) :
    ∃ i, i < 2 ^ m - 1 ∧ gfElem p a = AdjoinRoot.root (toPoly p) ^ i := by
  have hp := h.isModulus
  have hlt := gfElem_one_lt hp
  have hord := h.orderOf_root
  have hu : ∀ i, gfExp m p i ≠ 0 := by
    intro i hi
    have h1 := (gfExp_spec hp i).2
    rw [hi, gfElem_zero] at h1
    have h2 : AdjoinRoot.root (toPoly p) ^ (i * (2 ^ m - 1)) = 1 := by
      rw [← hord, mul_comm, pow_mul, pow_orderOf_eq_one, one_pow]
    rw [pow_mul, ← h1, zero_pow (by omega)] at h2
    have h3 : gfElem p 0 = gfElem p 1 := by simpa using h2
    have := gfElem_inj hp (by positivity) hlt h3
    omega
  have hmaps : Set.MapsTo (gfExp m p) (Finset.range (2 ^ m - 1)) ((Finset.range (2 ^ m)).erase 0) := by
    intro i _
    simp only [Finset.coe_erase, Finset.coe_range, Set.mem_sdiff, Set.mem_Iio, Set.mem_singleton_iff]
    exact ⟨(gfExp_spec hp i).1, hu i⟩
  have hinj : Set.InjOn (gfExp m p) (Finset.range (2 ^ m - 1)) := by
    intro i hi j hj hij
    simp only [Finset.coe_range, Set.mem_Iio] at hi hj
    have := congrArg (gfElem p) hij
    rw [(gfExp_spec hp i).2, (gfExp_spec hp j).2] at this
    rw [← hord] at hi hj
    exact pow_injOn_Iio_orderOf hi hj this
  have hcard : ((Finset.range (2 ^ m)).erase 0).card ≤ (Finset.range (2 ^ m - 1)).card := by
    rw [Finset.card_erase_of_mem (by simp)]; simp
  have hsurj := Finset.surjOn_of_injOn_of_card_le (gfExp m p) hmaps hinj hcard
  have : a ∈ (((Finset.range (2 ^ m)).erase 0 : Finset Nat) : Set Nat) := by
    simp [ha, ha0]
  obtain ⟨i, hi, rfl⟩ := hsurj this
  simp at hi
  exact ⟨i, hi, (gfExp_spec hp i).2⟩

theorem TableRow.isField {m p : Nat} (h : TableRow m p) : IsField (GFRing p) := by
  have hp := h.isModulus
  have hlt := gfElem_one_lt hp
  refine ⟨⟨0, 1, ?_⟩, mul_comm, ?_⟩
  · intro hc
    have h3 : gfElem p 0 = gfElem p 1 := by simpa using hc
    have := gfElem_inj hp (by positivity) hlt h3
    omega
  · intro z hz
    obtain ⟨a, ha, rfl⟩ := gfElem_surj hp z
    have ha0 : a ≠ 0 := by rintro rfl; exact hz (by simp)
    obtain ⟨i, hi, he⟩ := h.exists_pow ha ha0
    refine ⟨AdjoinRoot.root (toPoly p) ^ (2 ^ m - 1 - i), ?_⟩
    rw [he, ← pow_add, show i + (2 ^ m - 1 - i) = 2 ^ m - 1 by omega, ← h.orderOf_root, pow_orderOf_eq_one]

theorem TableRow.irreducible {m p : Nat} (h : TableRow m p) : Irreducible (toPoly p) := by
  have hf := h.isField
  have hne : toPoly p ≠ 0 := by rw [Ne, toPoly_eq_zero]; exact h.isModulus.ne_zero
  have : (Ideal.span {toPoly p}).IsMaximal := Ideal.Quotient.maximal_of_isField _ hf
  have hpr := this.isPrime
  rw [Ideal.span_singleton_prime hne] at hpr
  exact hpr.irreducible

end Verif
