import Verif.Model.Modulation
import Verif.Lemmas.Utilities
import Verif.Lemmas.Lists
import Verif.Props.Utilities
import Mathlib.Data.List.Sort
import Mathlib.Data.List.NodupEquivFin
import Mathlib.Tactic.IntervalCases
/-
Gray code lemmas.
-/
namespace Verif

theorem gray_xor (x y : Nat) : grayCode (x ^^^ y) = grayCode x ^^^ grayCode y := by
  unfold grayCode
  rw [Nat.shiftRight_xor_distrib]
  ac_rfl

theorem gray_ones (t : Nat) : grayCode (2 ^ (t + 1) - 1) = 2 ^ t := by
  apply Nat.eq_of_testBit_eq
  intro i
  unfold grayCode
  rw [Nat.testBit_xor, Nat.testBit_shiftRight, Nat.testBit_two_pow_sub_one, Nat.testBit_two_pow_sub_one, Nat.testBit_two_pow]
  rcases lt_trichotomy i t with h | h | h
  · rw [decide_eq_true (by omega), decide_eq_true (by omega), decide_eq_false (by omega)]; rfl
  · subst h; rw [decide_eq_true (by omega), decide_eq_false (by omega), decide_eq_true rfl]; rfl
  · rw [decide_eq_false (by omega), decide_eq_false (by omega), decide_eq_false (by omega)]; rfl

theorem xor_two_mul (a b p q : Nat) (hp : p < 2) (hq : q < 2) : (2 * a + p) ^^^ (2 * b + q) = 2 * (a ^^^ b) + (p ^^^ q) := by
  have h1 : ((2 * a + p) ^^^ (2 * b + q)) / 2 = a ^^^ b := by
    rw [Nat.xor_div_two]; congr 1 <;> omega
  have h2 : ((2 * a + p) ^^^ (2 * b + q)) % 2 = p ^^^ q := by
    rw [Nat.xor_mod_two_eq]
    interval_cases p <;> interval_cases q <;> simp <;> omega
  omega

theorem xor_succ (i : Nat) : ∃ t, i ^^^ (i + 1) = 2 ^ (t + 1) - 1 := by
  induction i using Nat.strong_induction_on with
  | _ i ih =>
    rcases Nat.even_or_odd' i with ⟨k, rfl | rfl⟩
    · refine ⟨0, ?_⟩
      have := xor_two_mul k k 0 1 (by decide) (by decide)
      simpa using this
    · obtain ⟨t, ht⟩ := ih k (by omega)
      refine ⟨t + 1, ?_⟩
      have := xor_two_mul k (k + 1) 1 0 (by decide) (by decide)
      rw [ht] at this
      have e : 2 * k + 1 + 1 = 2 * (k + 1) + 0 := by ring
      rw [e, this, pow_succ 2 (t + 1)]
      have := Nat.one_le_two_pow (n := t + 1)
      simp; omega

theorem gray_eq_zero {x : Nat} (h : grayCode x = 0) : x = 0 := by
  unfold grayCode at h
  have h2 : x = x >>> 1 := by
    have := congrArg (· ^^^ (x >>> 1)) h
    simpa [Nat.xor_assoc] using this
  rw [Nat.shiftRight_one] at h2
  omega

theorem gray_inj {x y : Nat} (h : grayCode x = grayCode y) : x = y := by
  have : grayCode (x ^^^ y) = 0 := by rw [gray_xor, h, Nat.xor_self]
  exact Nat.xor_eq_zero_iff.1 (gray_eq_zero this)

theorem gray_lt {b x : Nat} (h : x < 2 ^ b) : grayCode x < 2 ^ b :=
  Nat.xor_lt_two_pow h (by rw [Nat.shiftRight_one]; omega)

theorem gray_perm (b : Nat) : ((List.range (2 ^ b)).map grayCode).Perm (List.range (2 ^ b)) := by
  apply List.Subperm.perm_of_length_le
  · apply List.subperm_of_subset
    · exact List.Nodup.map (fun _ _ => gray_inj) List.nodup_range
    · intro x hx
      rw [List.mem_map] at hx
      obtain ⟨i, hi, rfl⟩ := hx
      rw [List.mem_range] at *
      exact gray_lt hi
  · simp

/-- Sorting by the key inverts a permutation. -/
theorem argsortNat_inv {l : List Nat} (h : l.Perm (List.range l.length)) :
    (argsortNat l).length = l.length ∧ (∀ p ∈ argsortNat l, p < l.length) ∧
      (argsortNat l).map (fun p => l.getD p 0) = List.range l.length := by
  have hp : (argsortNat l).Perm (List.range l.length) := List.mergeSort_perm _ _
  refine ⟨by rw [hp.length_eq, List.length_range], fun p hp' => by simpa using hp.subset hp', ?_⟩
  have h1 : ((argsortNat l).map (fun p => l.getD p 0)).Perm (List.range l.length) := by
    refine (hp.map _).trans ?_
    have : (List.range l.length).map (fun p => l.getD p 0) = l := by
      apply List.ext_getElem (by simp)
      intro i h1 h2
      rw [List.getElem_map, List.getElem_range, List.getD_eq_getElem _ _ h2]
    rw [this]
    exact h
  have hs : ((argsortNat l).map (fun p => l.getD p 0)).Pairwise (· ≤ ·) := by
    rw [List.pairwise_map]
    have := List.pairwise_mergeSort (le := fun a b => decide (l.getD a 0 ≤ l.getD b 0)) (l := List.range l.length)
      (by intro a b c; simp only [decide_eq_true_eq]; omega) (by intro a b; simp only [Bool.or_eq_true, decide_eq_true_eq]; omega)
    simpa [argsortNat] using this
  exact h1.eq_of_pairwise (fun a b _ _ => le_antisymm) hs List.pairwise_le_range

theorem exactLog2_pow (b : Nat) : exactLog2 (2 ^ b) = some b := by
  unfold exactLog2
  rw [Nat.log2_two_pow, if_pos rfl]

theorem exactLog2_eq {n b : Nat} (h : exactLog2 n = some b) : n = 2 ^ b := by
  unfold exactLog2 at h
  split at h
  · rename_i e; cases h; exact e.symm
  · cases h

theorem exactLog2_none {n : Nat} (h : ∀ b, n ≠ 2 ^ b) : exactLog2 n = none := by
  unfold exactLog2
  rw [if_neg]
  intro e
  exact h _ e.symm

theorem graySequence_pow {b : Nat} (hb : 1 ≤ b) : graySequence (2 ^ b) = .ok ((List.range (2 ^ b)).map grayCode) := by
  obtain ⟨c, rfl⟩ : ∃ c, b = c + 1 := ⟨b - 1, by omega⟩
  unfold graySequence
  rw [if_neg (by positivity), exactLog2_pow]

/-- The reordered constellation: point `i` gets label `gray i`. -/
theorem grayReorder_spec {c : List ℂ} {b : Nat} (hb : 1 ≤ b) (hc : c.length = 2 ^ b) :
    ∃ c', grayReorder c = .ok c' ∧ c'.length = 2 ^ b ∧ ∀ i < 2 ^ b, c'[grayCode i]? = c[i]? := by
  have hs := graySequence_pow hb
  set seq := (List.range (2 ^ b)).map grayCode with hseq
  have hl : seq.length = 2 ^ b := by simp [hseq]
  obtain ⟨h1, h2, h3⟩ := argsortNat_inv (l := seq) (by rw [hl]; exact gray_perm b)
  refine ⟨(argsortNat seq).map fun i => c.getD i 0, ?_, by rw [List.length_map, h1, hl], ?_⟩
  · unfold grayReorder
    rw [hc, hs]
    exact mapM_ok (f := fun i : Nat => pyGet c (i : Int)) (g := fun i => c.getD i 0) _ (by
      intro i hi
      have := h2 i hi
      rw [pyGet_ok (by omega), List.getD_eq_getElem _ _ (by omega)])
  · intro i hi
    have hg := gray_lt hi
    have hlt : grayCode i < (argsortNat seq).length := by rw [h1, hl]; exact hg
    rw [List.getElem?_map, List.getElem?_eq_getElem hlt, Option.map_some]
    have hk : seq.getD (argsortNat seq)[grayCode i] 0 = grayCode i := by
      have := congrArg (fun l => l.getD (grayCode i) 0) h3
      rw [List.getD_eq_getElem _ _ (by simpa using hlt), List.getElem_map,
        List.getD_eq_getElem (List.range seq.length) _ (by simpa [hl] using hg), List.getElem_range] at this
      exact this
    have hm := h2 _ (List.getElem_mem hlt)
    have : (argsortNat seq)[grayCode i] = i := by
      rw [List.getD_eq_getElem _ _ hm] at hk
      have e : seq[(argsortNat seq)[grayCode i]] = grayCode (argsortNat seq)[grayCode i] := by simp [hseq]
      rw [e] at hk
      exact gray_inj hk
    rw [this, List.getElem?_eq_getElem (by omega), List.getD_eq_getElem _ _ (by omega)]

/-- Labels whose xor is a power of two differ in exactly one bit. -/
theorem diffCount_toBits {b x y p : Nat} (hp : p < b) (h : x ^^^ y = 2 ^ p) : diffCount (toBits b x) (toBits b y) = 1 := by
  have hbit : ∀ i, (x / 2 ^ i % 2 = y / 2 ^ i % 2) ↔ i ≠ p := by
    intro i
    have := congrArg (fun z => z.testBit i) h
    simp only [Nat.testBit_xor, Nat.testBit_two_pow] at this
    rw [← Nat.toNat_testBit, ← Nat.toNat_testBit]
    by_cases e : p = i
    · subst e
      simp only [decide_true] at this
      cases hx : x.testBit p <;> cases hy : y.testBit p <;> simp_all
    · have e' : i ≠ p := fun h => e h.symm
      simp only [e, decide_false] at this
      cases hx : x.testBit i <;> cases hy : y.testBit i <;> simp_all
  have hz : ∀ b ≤ p, diffCount (toBits b x) (toBits b y) = 0 := by
    intro b
    induction b with
    | zero => intro _; rfl
    | succ b ih =>
      intro hb
      rw [toBits_succ, toBits_succ, diffCount, ih (by omega), if_pos ((hbit b).2 (by omega))]
  induction b with
  | zero => omega
  | succ b ih =>
    rw [toBits_succ, toBits_succ, diffCount]
    by_cases e : b = p
    · rw [hz b (by omega), if_neg (by rw [hbit]; simpa using e)]
    · rw [ih (by omega), if_pos ((hbit b).2 e)]

theorem xor_lt_of_ones {i j b t : Nat} (hi : i < 2 ^ b) (hj : j < 2 ^ b) (h : i ^^^ j = 2 ^ (t + 1) - 1) : t < b := by
  by_contra hc
  have h1 := Nat.xor_lt_two_pow hi hj
  rw [h] at h1
  have : 2 ^ (b + 1) ≤ 2 ^ (t + 1) := Nat.pow_le_pow_right (by decide) (by omega)
  rw [pow_succ] at this
  have := Nat.one_le_two_pow (n := b)
  omega

/-- If `i` and `j` differ exactly in their low bits (down to 0), their Gray codes differ in one bit. -/
theorem gray_adjacent {i j b t : Nat} (hi : i < 2 ^ b) (hj : j < 2 ^ b) (h : i ^^^ j = 2 ^ (t + 1) - 1) :
    diffCount (toBits b (grayCode i)) (toBits b (grayCode j)) = 1 := by
  apply diffCount_toBits (p := t) (xor_lt_of_ones hi hj h)
  rw [← gray_xor, h, gray_ones]

theorem gray_succ {i b : Nat} (h : i + 1 < 2 ^ b) :
    diffCount (toBits b (grayCode i)) (toBits b (grayCode (i + 1))) = 1 := by
  obtain ⟨t, ht⟩ := xor_succ i
  exact gray_adjacent (by omega) h ht

theorem gray_wrap {b : Nat} (hb : 1 ≤ b) :
    diffCount (toBits b (grayCode (2 ^ b - 1))) (toBits b (grayCode 0)) = 1 := by
  obtain ⟨c, rfl⟩ : ∃ c, b = c + 1 := ⟨b - 1, by omega⟩
  have := Nat.one_le_two_pow (n := c + 1)
  exact gray_adjacent (t := c) (by omega) (by omega) (by rw [Nat.xor_zero])

end Verif
