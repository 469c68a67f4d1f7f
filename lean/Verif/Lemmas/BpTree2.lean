import Verif.Lemmas.BpTree
/-
Belief propagation on a cycle-free code computes the exact posteriors.
-/
namespace Verif

open Finset

/-- Message of a check, before limiting. -/
noncomputable def checkMsg (T : Finset Nat) (x : Nat → ℝ) : ℝ := 2 * Real.artanh (∏ u ∈ T, Real.tanh (x u / 2))

/-- Exact a posteriori LLR of bit `v` among the words over `V` that satisfy the checks `A`. -/
noncomputable def postLlr (N : Nat → Finset Nat) (A V : Finset Nat) (llr : Nat → ℝ) (v : Nat) : ℝ :=
  Real.log (wordSum N A V (fun i => Real.exp (-llr i)) v false / wordSum N A V (fun i => Real.exp (-llr i)) v true)

/-- Every non-empty set of checks contains one that shares at most one variable with the others. -/
def Leafy (N : Nat → Finset Nat) (A : Finset Nat) : Prop :=
  ∀ B ⊆ A, B.Nonempty → ∃ c ∈ B, ∃ v0 ∈ N c, ∀ v ∈ N c, v ≠ v0 → ∀ c' ∈ B, c' ≠ c → v ∉ N c'

theorem checkMsg_congr {T : Finset Nat} {x y : Nat → ℝ} (h : ∀ u ∈ T, x u = y u) : checkMsg T x = checkMsg T y := by
  unfold checkMsg
  rw [Finset.prod_congr rfl fun u hu => by rw [h u hu]]

theorem abs_tanh_lt' (x : ℝ) : |Real.tanh x| < 1 := abs_tanh_lt x

theorem abs_prod_tanh_lt {T : Finset Nat} (hT : T.Nonempty) (x : Nat → ℝ) : |∏ u ∈ T, Real.tanh (x u / 2)| < 1 := by
  induction hT using Finset.Nonempty.cons_induction with
  | singleton a => simpa using abs_tanh_lt' _
  | cons a s ha hs ih =>
    rw [Finset.prod_cons, abs_mul]
    nlinarith [abs_nonneg (Real.tanh (x a / 2)), abs_nonneg (∏ u ∈ s, Real.tanh (x u / 2)), abs_tanh_lt' (x a / 2)]

/-- `2 artanh ρ = log ((1 + ρ) / (1 - ρ))`. -/
theorem two_artanh {ρ : ℝ} (h : |ρ| < 1) : 2 * Real.artanh ρ = Real.log ((1 + ρ) / (1 - ρ)) := by
  rw [abs_lt] at h
  rw [Real.artanh_eq_half_log ⟨h.1.le, h.2.le⟩]
  ring

/-- `∏ tanh` in terms of even and odd words. -/
theorem prod_tanh_parSum (U : Finset Nat) (llr : Nat → ℝ) :
    ∏ u ∈ U, Real.tanh (llr u / 2) = (parSum U (fun i => Real.exp (-llr i)) false - parSum U (fun i => Real.exp (-llr i)) true) /
      (parSum U (fun i => Real.exp (-llr i)) false + parSum U (fun i => Real.exp (-llr i)) true) := by
  obtain ⟨h1, h2⟩ := parSum_eq U (fun i => Real.exp (-llr i))
  rw [h1, h2]
  have : ∏ u ∈ U, Real.tanh (llr u / 2) = (∏ i ∈ U, (1 - Real.exp (-llr i))) / ∏ i ∈ U, (1 + Real.exp (-llr i)) := by
    rw [← Finset.prod_div_distrib]
    exact Finset.prod_congr rfl fun u _ => tanh_half _
  rw [this]
  congr 1 <;> ring

theorem checkMsg_parSum {U : Finset Nat} (hU : U.Nonempty) (llr : Nat → ℝ) :
    Real.exp (-checkMsg U llr) = parSum U (fun i => Real.exp (-llr i)) true / parSum U (fun i => Real.exp (-llr i)) false := by
  unfold checkMsg
  have hE := (parSum_pos (U := U) (a := fun i => Real.exp (-llr i)) fun i => Real.exp_pos _).1
  have hO := (parSum_pos (U := U) (a := fun i => Real.exp (-llr i)) fun i => Real.exp_pos _).2 hU
  rw [two_artanh (abs_prod_tanh_lt hU _), prod_tanh_parSum]
  set E := parSum U (fun i => Real.exp (-llr i)) false
  set O := parSum U (fun i => Real.exp (-llr i)) true
  have : (1 + (E - O) / (E + O)) / (1 - (E - O) / (E + O)) = E / O := by
    have h : E + O ≠ 0 := by linarith
    have h1 : 1 + (E - O) / (E + O) = 2 * E / (E + O) := by field_simp; ring
    have h2 : 1 - (E - O) / (E + O) = 2 * O / (E + O) := by field_simp; ring
    rw [h1, h2]
    field_simp
  rw [this, Real.exp_neg, Real.exp_log (div_pos hE hO), inv_div]

/-- Positivity of the sums. -/
theorem wordSum_pos {N : Nat → Finset Nat} : ∀ (n : Nat) (A V : Finset Nat), A.card = n → Leafy N A →
    (∀ c ∈ A, N c ⊆ V ∧ 2 ≤ (N c).card) → ∀ (a : Nat → ℝ), (∀ i, 0 < a i) → ∀ v ∈ V, ∀ b, 0 < wordSum N A V a v b := by
  intro n
  induction n with
  | zero =>
    intro A V hA _ _ a ha v hv b
    rw [Finset.card_eq_zero] at hA
    subst hA
    unfold wordSum
    refine Finset.sum_pos' (fun S _ => ?_) ⟨if b then {v} else ∅, ?_, ?_⟩
    · split
      · exact (Finset.prod_pos fun i _ => ha i).le
      · exact le_rfl
    · cases b <;> simp [hv]
    · cases b <;> simp [ha]
  | succ n ih =>
    intro A V hA hL hN a ha v hv b
    obtain ⟨c, hc, v0, hv0, hfr⟩ := hL A subset_rfl (Finset.card_pos.1 (by omega))
    set U := (N c).erase v0 with hUdef
    set A' := A.erase c with hA'
    have hAins : insert c A' = A := Finset.insert_erase hc
    have hNc : N c = insert v0 U := (Finset.insert_erase hv0).symm
    have hv0U : v0 ∉ U := Finset.notMem_erase _ _
    have hfresh : ∀ c' ∈ A', Disjoint (N c') U := by
      intro c' hc'
      rw [Finset.disjoint_right]
      intro u hu
      exact hfr u (Finset.mem_of_mem_erase hu) (Finset.ne_of_mem_erase hu) c' (Finset.mem_of_mem_erase hc') (Finset.ne_of_mem_erase hc')
    have hUV : U ⊆ V := (Finset.erase_subset _ _).trans (hN c hc).1
    have hUne : U.Nonempty := by
      rw [← Finset.card_pos, hUdef, Finset.card_erase_of_mem hv0]
      have := (hN c hc).2
      omega
    have hE := (parSum_pos (U := U) ha).1
    have hO := (parSum_pos (U := U) ha).2 hUne
    have hcard : A'.card = n := by rw [hA', Finset.card_erase_of_mem hc, hA]; rfl
    have hL' : Leafy N A' := fun B hB hne => hL B (hB.trans (Finset.erase_subset _ _)) hne
    have hN' : ∀ c' ∈ A', N c' ⊆ V \ U ∧ 2 ≤ (N c').card := by
      intro c' hc'
      refine ⟨?_, (hN c' (Finset.mem_of_mem_erase hc')).2⟩
      intro u hu
      rw [mem_sdiff]
      exact ⟨(hN c' (Finset.mem_of_mem_erase hc')).1 hu, Finset.disjoint_left.1 (hfresh c' hc') hu⟩
    have hv0V : v0 ∈ V \ U := by rw [mem_sdiff]; exact ⟨(hN c hc).1 hv0, hv0U⟩
    rw [← hAins]
    by_cases hvU : v ∈ U
    · obtain ⟨e1, e2⟩ := wordSum_new (A := A') (a := a) hUV hv0U hNc hfresh hvU
      have p0 := ih A' (V \ U) hcard hL' hN' a ha v0 hv0V false
      have p1 := ih A' (V \ U) hcard hL' hN' a ha v0 hv0V true
      have q0 := (parSum_pos (U := U.erase v) ha).1
      have q1 : 0 ≤ parSum (U.erase v) a true := by
        unfold parSum
        refine Finset.sum_nonneg fun S _ => ?_
        split
        · exact (Finset.prod_pos fun i _ => ha i).le
        · exact le_rfl
      cases b
      · rw [e1]; positivity
      · rw [e2]
        have := ha v
        positivity
    · rw [wordSum_old (A := A') hUV hv0U hNc hfresh hvU b hE.ne']
      refine mul_pos hE (ih A' (V \ U) hcard hL' hN' _ ?_ v (by rw [mem_sdiff]; exact ⟨hv, hvU⟩) b)
      intro i
      by_cases hi : i = v0
      · subst hi
        rw [Function.update_self]
        exact mul_pos (ha _) (div_pos hO hE)
      · rw [Function.update_of_ne hi]
        exact ha i

/-- Without checks. -/
theorem postLlr_empty {N : Nat → Finset Nat} {V : Finset Nat} (llr : Nat → ℝ) {v : Nat} (hv : v ∈ V) : postLlr N ∅ V llr v = llr v := by
  unfold postLlr
  set a : Nat → ℝ := fun i => Real.exp (-llr i) with ha
  have h0 : wordSum N ∅ V a v false = ∑ S ∈ (V.erase v).powerset, ∏ i ∈ S, a i := by
    unfold wordSum
    rw [show V = insert v (V.erase v) from (Finset.insert_erase hv).symm, Finset.sum_powerset_insert (Finset.notMem_erase v V),
      Finset.erase_insert (Finset.notMem_erase v V)]
    rw [← add_zero (∑ S ∈ (V.erase v).powerset, ∏ i ∈ S, a i)]
    congr 1
    · refine Finset.sum_congr rfl fun S hS => ?_
      have : v ∉ S := fun h => Finset.notMem_erase v V (mem_powerset.1 hS h)
      simp [this]
    · exact Finset.sum_eq_zero fun S hS => by simp
  have h1 : wordSum N ∅ V a v true = a v * ∑ S ∈ (V.erase v).powerset, ∏ i ∈ S, a i := by
    unfold wordSum
    rw [show V = insert v (V.erase v) from (Finset.insert_erase hv).symm, Finset.sum_powerset_insert (Finset.notMem_erase v V),
      Finset.erase_insert (Finset.notMem_erase v V)]
    rw [Finset.mul_sum, ← zero_add (∑ S ∈ (V.erase v).powerset, a v * ∏ i ∈ S, a i)]
    congr 1
    · refine Finset.sum_eq_zero fun S hS => ?_
      have : v ∉ S := fun h => Finset.notMem_erase v V (mem_powerset.1 hS h)
      simp [this]
    · refine Finset.sum_congr rfl fun S hS => ?_
      have : v ∉ S := fun h => Finset.notMem_erase v V (mem_powerset.1 hS h)
      simp [Finset.prod_insert this]
  have hpos : 0 < ∑ S ∈ (V.erase v).powerset, ∏ i ∈ S, a i :=
    Finset.sum_pos (fun S _ => Finset.prod_pos fun i _ => Real.exp_pos _) ⟨∅, by simp⟩
  rw [h0, h1]
  have : (∑ S ∈ (V.erase v).powerset, ∏ i ∈ S, a i) / (a v * ∑ S ∈ (V.erase v).powerset, ∏ i ∈ S, a i) = Real.exp (llr v) := by
    have : a v = (Real.exp (llr v))⁻¹ := by rw [ha]; simp only [Real.exp_neg]
    rw [this]
    have := Real.exp_pos (llr v)
    field_simp
  rw [this, Real.log_exp]

section
variable {N : Nat → Finset Nat} {A V U : Finset Nat} {llr : Nat → ℝ} {c v0 : Nat}

theorem postLlr_old (hU : U ⊆ V) (hUne : U.Nonempty) (hv0 : v0 ∉ U) (hN : N c = insert v0 U) (hfresh : ∀ c' ∈ A, Disjoint (N c') U) {v : Nat}
    (hv : v ∉ U) :
    postLlr N (insert c A) V llr v = postLlr N A (V \ U) (Function.update llr v0 (llr v0 + checkMsg U llr)) v := by
  unfold postLlr
  have hE := (parSum_pos (U := U) (a := fun i => Real.exp (-llr i)) fun i => Real.exp_pos _).1
  have hfun : (fun i => Real.exp (-(Function.update llr v0 (llr v0 + checkMsg U llr)) i)) =
      Function.update (fun i => Real.exp (-llr i)) v0 (Real.exp (-llr v0) *
        (parSum U (fun i => Real.exp (-llr i)) true / parSum U (fun i => Real.exp (-llr i)) false)) := by
    funext i
    by_cases hi : i = v0
    · subst hi
      rw [Function.update_self, Function.update_self, neg_add, Real.exp_add, checkMsg_parSum hUne]
    · rw [Function.update_of_ne hi, Function.update_of_ne hi]
  rw [wordSum_old (A := A) hU hv0 hN hfresh hv false hE.ne', wordSum_old (A := A) hU hv0 hN hfresh hv true hE.ne', hfun,
    mul_div_mul_left _ _ hE.ne']

theorem postLlr_new (hU : U ⊆ V) (hv0 : v0 ∉ U) (hN : N c = insert v0 U) (hfresh : ∀ c' ∈ A, Disjoint (N c') U) {u : Nat}
    (hu : u ∈ U) (p0 : 0 < wordSum N A (V \ U) (fun i => Real.exp (-llr i)) v0 false)
    (p1 : 0 < wordSum N A (V \ U) (fun i => Real.exp (-llr i)) v0 true) :
    postLlr N (insert c A) V llr u = llr u +
      checkMsg ((N c).erase u) (Function.update llr v0 (postLlr N A (V \ U) llr v0)) := by
  have hne : v0 ≠ u := by rintro rfl; exact hv0 hu
  have hT : (N c).erase u = insert v0 (U.erase u) := by
    rw [hN, Finset.erase_insert_of_ne hne]
  obtain ⟨e1, e2⟩ := wordSum_new (A := A) (a := fun i => Real.exp (-llr i)) hU hv0 hN hfresh hu
  have hz : Real.tanh (postLlr N A (V \ U) llr v0 / 2) =
      (wordSum N A (V \ U) (fun i => Real.exp (-llr i)) v0 false - wordSum N A (V \ U) (fun i => Real.exp (-llr i)) v0 true) /
      (wordSum N A (V \ U) (fun i => Real.exp (-llr i)) v0 false + wordSum N A (V \ U) (fun i => Real.exp (-llr i)) v0 true) := by
    rw [tanh_half]
    unfold postLlr
    rw [Real.exp_neg, Real.exp_log (div_pos p0 p1)]
    field_simp
  have hE := (parSum_pos (U := U.erase u) (a := fun i => Real.exp (-llr i)) fun i => Real.exp_pos _).1
  have hO : 0 ≤ parSum (U.erase u) (fun i => Real.exp (-llr i)) true := by
    unfold parSum
    refine Finset.sum_nonneg fun S _ => ?_
    split
    · exact (Finset.prod_pos fun i _ => Real.exp_pos _).le
    · exact le_rfl
  have hau := Real.exp_pos (llr u)
  unfold checkMsg
  rw [two_artanh (abs_prod_tanh_lt (by rw [hT]; exact ⟨v0, mem_insert_self _ _⟩) _), hT,
    Finset.prod_insert (fun h => hv0 (Finset.mem_of_mem_erase h)), Function.update_self, hz,
    Finset.prod_congr rfl (g := fun w => Real.tanh (llr w / 2)) (fun w hw => by
      rw [Function.update_of_ne (by rintro rfl; exact hv0 (Finset.mem_of_mem_erase hw))]), prod_tanh_parSum]
  unfold postLlr at *
  rw [e1, e2]
  set Z0 := wordSum N A (V \ U) (fun i => Real.exp (-llr i)) v0 false
  set Z1 := wordSum N A (V \ U) (fun i => Real.exp (-llr i)) v0 true
  set E := parSum (U.erase u) (fun i => Real.exp (-llr i)) false
  set O := parSum (U.erase u) (fun i => Real.exp (-llr i)) true
  have hZ : Z0 + Z1 ≠ 0 := by linarith
  have hEO : E + O ≠ 0 := by linarith
  have n1 : 0 < Z0 * E + Z1 * O := by positivity
  have n2 : 0 < Z0 * O + Z1 * E := by positivity
  have k1 : 1 + (Z0 - Z1) / (Z0 + Z1) * ((E - O) / (E + O)) = 2 * (Z0 * E + Z1 * O) / ((Z0 + Z1) * (E + O)) := by
    field_simp; ring
  have k2 : 1 - (Z0 - Z1) / (Z0 + Z1) * ((E - O) / (E + O)) = 2 * (Z0 * O + Z1 * E) / ((Z0 + Z1) * (E + O)) := by
    field_simp; ring
  rw [k1, k2]
  have k3 : 2 * (Z0 * E + Z1 * O) / ((Z0 + Z1) * (E + O)) / (2 * (Z0 * O + Z1 * E) / ((Z0 + Z1) * (E + O))) =
      (Z0 * E + Z1 * O) / (Z0 * O + Z1 * E) := by
    field_simp
  rw [k3, Real.exp_neg]
  have k4 : (Z0 * E + Z1 * O) / ((Real.exp (llr u))⁻¹ * (Z0 * O + Z1 * E)) = Real.exp (llr u) * ((Z0 * E + Z1 * O) / (Z0 * O + Z1 * E)) := by
    field_simp
  rw [k4, Real.log_mul hau.ne' (div_pos n1 n2).ne', Real.log_exp]

end

end Verif
