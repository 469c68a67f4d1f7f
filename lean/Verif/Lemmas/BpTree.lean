import Verif.Props.LdpcSpc
import Mathlib.Data.Finset.Powerset
/-
Sums over the codewords of a cycle-free code: elimination of a check that shares only one variable with the other checks.
-/
namespace Verif

open Finset

/-- Sum over the words `S ⊆ V` that satisfy the checks `A` (`N c` are the variables of check `c`) and whose bit `v` is `b`. -/
noncomputable def wordSum (N : Nat → Finset Nat) (A V : Finset Nat) (a : Nat → ℝ) (v : Nat) (b : Bool) : ℝ :=
  ∑ S ∈ V.powerset, if (∀ c ∈ A, Even (N c ∩ S).card) ∧ (decide (v ∈ S) = b) then ∏ i ∈ S, a i else 0

/-- Even (odd) words over `U`. -/
noncomputable def parSum (U : Finset Nat) (a : Nat → ℝ) (odd : Bool) : ℝ :=
  ∑ S ∈ U.powerset, if (decide (Even S.card) = !odd) then ∏ i ∈ S, a i else 0

theorem parSum_eq (U : Finset Nat) (a : Nat → ℝ) :
    parSum U a false = (∏ i ∈ U, (1 + a i) + ∏ i ∈ U, (1 - a i)) / 2 ∧
    parSum U a true = (∏ i ∈ U, (1 + a i) - ∏ i ∈ U, (1 - a i)) / 2 := by
  obtain ⟨h1, h2⟩ := sum_even_odd U a
  constructor
  · rw [← h1, Finset.sum_filter]
    unfold parSum
    refine Finset.sum_congr rfl fun S _ => ?_
    by_cases h : Even S.card <;> simp [h]
  · rw [← h2, Finset.sum_filter]
    unfold parSum
    refine Finset.sum_congr rfl fun S _ => ?_
    by_cases h : Even S.card <;> simp [h]

theorem parSum_pos {U : Finset Nat} {a : Nat → ℝ} (ha : ∀ i, 0 < a i) : 0 < parSum U a false ∧ (U.Nonempty → 0 < parSum U a true) := by
  constructor
  · unfold parSum
    refine Finset.sum_pos' (fun S _ => ?_) ⟨∅, by simp, by simp⟩
    split
    · exact (Finset.prod_pos fun i _ => ha i).le
    · exact le_rfl
  · rintro ⟨u, hu⟩
    unfold parSum
    refine Finset.sum_pos' (fun S _ => ?_) ⟨{u}, by simpa using hu, by simpa using ha u⟩
    split
    · exact (Finset.prod_pos fun i _ => ha i).le
    · exact le_rfl

/-- Splitting the words over `V` into their parts in `V \ U` and in `U`. -/
theorem sum_powerset_split {U V : Finset Nat} (h : U ⊆ V) (g : Finset Nat → ℝ) :
    ∑ S ∈ V.powerset, g S = ∑ S1 ∈ (V \ U).powerset, ∑ S2 ∈ U.powerset, g (S1 ∪ S2) := by
  rw [← Finset.sum_product']
  refine Finset.sum_nbij' (fun S => (S \ U, S ∩ U)) (fun p => p.1 ∪ p.2) ?_ ?_ ?_ ?_ ?_
  · intro S hS
    simp only [mem_powerset, mem_product] at hS ⊢
    exact ⟨Finset.sdiff_subset_sdiff hS le_rfl, inter_subset_right⟩
  · intro p hp
    simp only [mem_powerset, mem_product] at hp ⊢
    exact Finset.union_subset (hp.1.trans sdiff_subset) (hp.2.trans h)
  · intro S _
    exact Finset.sdiff_union_inter S U
  · intro p hp
    simp only [mem_powerset, mem_product] at hp
    have hd : Disjoint p.1 U := Finset.disjoint_of_subset_left hp.1 Finset.sdiff_disjoint
    refine Prod.ext ?_ ?_
    · show (p.1 ∪ p.2) \ U = p.1
      rw [Finset.union_sdiff_distrib, Finset.sdiff_eq_empty_iff_subset.2 hp.2, Finset.union_empty, Finset.sdiff_eq_self_of_disjoint hd]
    · show (p.1 ∪ p.2) ∩ U = p.2
      rw [Finset.union_inter_distrib_right, Finset.disjoint_iff_inter_eq_empty.1 hd, Finset.empty_union, Finset.inter_eq_left.2 hp.2]
  · intro S _
    rw [Finset.sdiff_union_inter]

section
variable {N : Nat → Finset Nat} {A V U : Finset Nat} {a : Nat → ℝ} {c v0 : Nat}

/-- The parity condition of the eliminated check on a split word. -/
theorem split_checks (hv0 : v0 ∉ U) (hN : N c = insert v0 U) (hfresh : ∀ c' ∈ A, Disjoint (N c') U) {S1 S2 : Finset Nat}
    (h1 : S1 ⊆ V \ U) (h2 : S2 ⊆ U) :
    (∀ c' ∈ insert c A, Even (N c' ∩ (S1 ∪ S2)).card) ↔
      (∀ c' ∈ A, Even (N c' ∩ S1).card) ∧ (decide (Even S2.card) = !decide (v0 ∈ S1)) := by
  have hd1 : Disjoint S1 U := Finset.disjoint_of_subset_left h1 Finset.sdiff_disjoint
  have hold : ∀ c' ∈ A, N c' ∩ (S1 ∪ S2) = N c' ∩ S1 := by
    intro c' hc'
    rw [Finset.inter_union_distrib_left, Finset.disjoint_iff_inter_eq_empty.1 (Finset.disjoint_of_subset_right h2 (hfresh c' hc')),
      Finset.union_empty]
  have hnew : Even (N c ∩ (S1 ∪ S2)).card ↔ (decide (Even S2.card) = !decide (v0 ∈ S1)) := by
    have e : N c ∩ (S1 ∪ S2) = (if v0 ∈ S1 then {v0} else ∅) ∪ S2 := by
      ext i
      rw [hN]
      simp only [mem_inter, mem_insert, mem_union]
      constructor
      · rintro ⟨rfl | hi, hS | hS⟩
        · left; rw [if_pos hS]; simp
        · right; exact hS
        · exact absurd hi (Finset.disjoint_left.1 hd1 hS)
        · right; exact hS
      · rintro (hi | hi)
        · by_cases h : v0 ∈ S1
          · rw [if_pos h, mem_singleton] at hi
            subst hi
            exact ⟨Or.inl rfl, Or.inl h⟩
          · rw [if_neg h] at hi; simp at hi
        · exact ⟨Or.inr (h2 hi), Or.inr hi⟩
    rw [e]
    by_cases h : v0 ∈ S1
    · rw [if_pos h, Finset.card_union_of_disjoint (by simpa using fun h' => hv0 (h2 h'))]
      by_cases hE : Even S2.card
      · simp [h, hE, Nat.even_add]
      · simp [h, hE, Nat.even_add]
    · rw [if_neg h]
      by_cases hE : Even S2.card
      · simp [h, hE]
      · simp [h, hE]
  constructor
  · intro h
    exact ⟨fun c' hc' => by rw [← hold c' hc']; exact h c' (mem_insert_of_mem hc'), hnew.1 (h c (mem_insert_self _ _))⟩
  · rintro ⟨h, h'⟩ c' hc'
    rcases mem_insert.1 hc' with rfl | hc'
    · exact hnew.2 h'
    · rw [hold c' hc']; exact h c' hc'

/-- Old variables: eliminating the check multiplies the weight of `v0`. -/
theorem wordSum_old (hU : U ⊆ V) (hv0 : v0 ∉ U) (hN : N c = insert v0 U) (hfresh : ∀ c' ∈ A, Disjoint (N c') U) {v : Nat}
    (hv : v ∉ U) (b : Bool) (hE : parSum U a false ≠ 0) :
    wordSum N (insert c A) V a v b =
      parSum U a false * wordSum N A (V \ U) (Function.update a v0 (a v0 * (parSum U a true / parSum U a false))) v b := by
  unfold wordSum
  rw [sum_powerset_split hU, Finset.mul_sum]
  refine Finset.sum_congr rfl fun S1 h1 => ?_
  rw [mem_powerset] at h1
  have hd1 : Disjoint S1 U := Finset.disjoint_of_subset_left h1 Finset.sdiff_disjoint
  by_cases hcw : (∀ c' ∈ A, Even (N c' ∩ S1).card) ∧ decide (v ∈ S1) = b
  · rw [if_pos hcw]
    have : ∀ S2 ∈ U.powerset, (if (∀ c' ∈ insert c A, Even (N c' ∩ (S1 ∪ S2)).card) ∧ decide (v ∈ S1 ∪ S2) = b then ∏ i ∈ S1 ∪ S2, a i
        else 0) = (∏ i ∈ S1, a i) * (if decide (Even S2.card) = !decide (v0 ∈ S1) then ∏ i ∈ S2, a i else 0) := by
      intro S2 h2
      rw [mem_powerset] at h2
      have hm : (v ∈ S1 ∪ S2) ↔ v ∈ S1 := by
        rw [mem_union]
        exact ⟨fun h => h.elim id fun h => absurd (h2 h) hv, Or.inl⟩
      have hsc := split_checks (A := A) hv0 hN hfresh h1 h2
      simp only [hm, hsc]
      by_cases hp : decide (Even S2.card) = !decide (v0 ∈ S1)
      · rw [if_pos ⟨⟨hcw.1, hp⟩, hcw.2⟩, if_pos hp, Finset.prod_union (Finset.disjoint_of_subset_right h2 hd1)]
      · rw [if_neg (fun h => hp h.1.2), if_neg hp, mul_zero]
    rw [Finset.sum_congr rfl this, ← Finset.mul_sum]
    change _ * parSum U a (decide (v0 ∈ S1)) = _
    by_cases h : v0 ∈ S1
    · rw [decide_eq_true h, ← Finset.mul_prod_erase _ _ h, ← Finset.mul_prod_erase _ _ h, Function.update_self,
        Finset.prod_congr rfl (f := Function.update a v0 _) (g := a) (fun i hi => Function.update_of_ne (Finset.ne_of_mem_erase hi) _ _)]
      field_simp
    · rw [decide_eq_false h, Finset.prod_congr rfl (f := Function.update a v0 _) (g := a)
        (fun i hi => Function.update_of_ne (by rintro rfl; exact h hi) _ _)]
      ring
  · rw [if_neg hcw, mul_zero]
    refine Finset.sum_eq_zero fun S2 h2 => ?_
    rw [mem_powerset] at h2
    have hm : (v ∈ S1 ∪ S2) ↔ v ∈ S1 := by
      rw [mem_union]
      exact ⟨fun h => h.elim id fun h => absurd (h2 h) hv, Or.inl⟩
    rw [if_neg]
    rintro ⟨h, h'⟩
    rw [split_checks hv0 hN hfresh h1 h2] at h
    simp only [hm] at h'
    exact hcw ⟨h.1, h'⟩

/-- Fresh variables. -/
theorem wordSum_new (hU : U ⊆ V) (hv0 : v0 ∉ U) (hN : N c = insert v0 U) (hfresh : ∀ c' ∈ A, Disjoint (N c') U) {u : Nat}
    (hu : u ∈ U) :
    wordSum N (insert c A) V a u false = wordSum N A (V \ U) a v0 false * parSum (U.erase u) a false +
        wordSum N A (V \ U) a v0 true * parSum (U.erase u) a true ∧
    wordSum N (insert c A) V a u true = a u * (wordSum N A (V \ U) a v0 false * parSum (U.erase u) a true +
        wordSum N A (V \ U) a v0 true * parSum (U.erase u) a false) := by
  have inner : ∀ (p b : Bool), (∑ S2 ∈ U.powerset, if (decide (Even S2.card) = !p) ∧ decide (u ∈ S2) = b then ∏ i ∈ S2, a i else 0) =
      if b then a u * parSum (U.erase u) a (!p) else parSum (U.erase u) a p := by
    intro p b
    rw [show U = insert u (U.erase u) from (Finset.insert_erase hu).symm, Finset.sum_powerset_insert (Finset.notMem_erase u U),
      Finset.erase_insert (Finset.notMem_erase u U)]
    have hnot : ∀ S ∈ (U.erase u).powerset, u ∉ S := fun S hS h => Finset.notMem_erase u U (mem_powerset.1 hS h)
    cases b
    · simp only [Bool.false_eq_true, if_false]
      unfold parSum
      rw [← add_zero (∑ S ∈ (U.erase u).powerset, if decide (Even S.card) = !p then ∏ i ∈ S, a i else (0 : ℝ))]
      congr 1
      · refine Finset.sum_congr rfl fun S hS => ?_
        simp [hnot S hS]
      · refine Finset.sum_eq_zero fun S hS => ?_
        simp
    · simp only [if_true]
      unfold parSum
      rw [Finset.mul_sum, ← zero_add (∑ S ∈ (U.erase u).powerset, a u * if decide (Even S.card) = !(!p) then ∏ i ∈ S, a i else (0 : ℝ))]
      congr 1
      · refine Finset.sum_eq_zero fun S hS => ?_
        simp [hnot S hS]
      · refine Finset.sum_congr rfl fun S hS => ?_
        rw [Finset.card_insert_of_notMem (hnot S hS), Finset.prod_insert (hnot S hS)]
        by_cases hE : Even S.card <;> cases p <;> simp [hE, Nat.even_add_one]
  have outer : ∀ b, wordSum N (insert c A) V a u b = ∑ S1 ∈ (V \ U).powerset, if (∀ c' ∈ A, Even (N c' ∩ S1).card) then
      (∏ i ∈ S1, a i) * (if b then a u * parSum (U.erase u) a (!decide (v0 ∈ S1)) else parSum (U.erase u) a (decide (v0 ∈ S1))) else 0 := by
    intro b
    unfold wordSum
    rw [sum_powerset_split hU]
    refine Finset.sum_congr rfl fun S1 h1 => ?_
    rw [mem_powerset] at h1
    have hd1 : Disjoint S1 U := Finset.disjoint_of_subset_left h1 Finset.sdiff_disjoint
    have hu1 : u ∉ S1 := fun h => Finset.disjoint_left.1 hd1 h hu
    by_cases hcw : ∀ c' ∈ A, Even (N c' ∩ S1).card
    · rw [if_pos hcw, ← inner, Finset.mul_sum]
      refine Finset.sum_congr rfl fun S2 h2 => ?_
      rw [mem_powerset] at h2
      have hsc := split_checks (A := A) hv0 hN hfresh h1 h2
      have hm : (u ∈ S1 ∪ S2) ↔ u ∈ S2 := by
        rw [mem_union]
        exact ⟨fun h => h.elim (fun h => absurd h hu1) id, Or.inr⟩
      simp only [hm, hsc]
      by_cases hp : (decide (Even S2.card) = !decide (v0 ∈ S1)) ∧ decide (u ∈ S2) = b
      · rw [if_pos ⟨⟨hcw, hp.1⟩, hp.2⟩, if_pos hp, Finset.prod_union (Finset.disjoint_of_subset_right h2 hd1)]
      · rw [if_neg (fun h => hp ⟨h.1.2, h.2⟩), if_neg hp, mul_zero]
    · rw [if_neg hcw]
      refine Finset.sum_eq_zero fun S2 h2 => ?_
      rw [mem_powerset] at h2
      rw [if_neg]
      rintro ⟨h, _⟩
      rw [split_checks hv0 hN hfresh h1 h2] at h
      exact hcw h.1
  constructor
  · rw [outer false]
    unfold wordSum
    rw [Finset.sum_mul, Finset.sum_mul, ← Finset.sum_add_distrib]
    refine Finset.sum_congr rfl fun S1 _ => ?_
    by_cases hcw : ∀ c' ∈ A, Even (N c' ∩ S1).card
    · by_cases h : v0 ∈ S1 <;> simp [hcw, h]
    · simp [hcw]
  · rw [outer true]
    unfold wordSum
    rw [Finset.sum_mul, Finset.sum_mul, ← Finset.sum_add_distrib, Finset.mul_sum]
    refine Finset.sum_congr rfl fun S1 _ => ?_
    by_cases hcw : ∀ c' ∈ A, Even (N c' ∩ S1).card
    · by_cases h : v0 ∈ S1
      · simp [hcw, h]; ring
      · simp [hcw, h]; ring
    · simp [hcw]

end

end Verif
