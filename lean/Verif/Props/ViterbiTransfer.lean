import Verif.Props.ViterbiNoise
/-
C126: closed forms of the union bound.  A potential on the states of the trellis (a solution, or super-solution, of the equations of the transfer function) bounds the sums over all error events.
-/
namespace Verif
open Finset

/-- Number of ones on the branch that leaves state `s` with input `u`. -/
def branchWeight (t : Trellis) (s u : Nat) : Nat := (toBits t.n (t.out s u)).sum

/-- The sum of `x ^ weight`, times `f v`, over the paths of `ℓ` steps from state `s` that avoid state 0 before their end and end in a state satisfying `good`. -/
noncomputable def pathSum (t : Trellis) (x : ℝ) (good : Nat → Prop) (f : List Nat → ℝ) (ℓ s : Nat) : ℝ :=
  open Classical in ∑ v ∈ (allInputs t ℓ).filter (fun v => (∀ j < ℓ, t.runState s (v.take j) ≠ 0) ∧ good (t.runState s v)), x ^ (t.runOut s v).sum * f v

theorem allInputs_succ (t : Trellis) (ℓ : Nat) : allInputs t (ℓ + 1) = (range (2 ^ t.k) ×ˢ allInputs t ℓ).image fun p => p.1 :: p.2 := by
  ext v
  simp only [mem_image, mem_product, mem_range, mem_allInputs, Prod.exists]
  constructor
  · rintro ⟨hl, hv⟩
    cases v with
    | nil => simp at hl
    | cons u v =>
      exact ⟨u, v, ⟨hv u List.mem_cons_self, by simpa using hl, fun y hy => hv y (List.mem_cons_of_mem _ hy)⟩, rfl⟩
  · rintro ⟨u, v, ⟨hu, hl, hv⟩, rfl⟩
    refine ⟨by simp [hl], ?_⟩
    intro y hy
    rcases List.mem_cons.1 hy with rfl | hy
    · exact hu
    · exact hv y hy

theorem sum_allInputs_succ (t : Trellis) (ℓ : Nat) (F : List Nat → ℝ) : ∑ v ∈ allInputs t (ℓ + 1), F v = ∑ u ∈ range (2 ^ t.k), ∑ v ∈ allInputs t ℓ, F (u :: v) := by
  rw [allInputs_succ, sum_image, sum_product]
  rintro ⟨a, b⟩ _ ⟨c, d⟩ _ h
  simpa using h

theorem allInputs_zero (t : Trellis) : allInputs t 0 = {[]} := by
  ext v
  simp only [mem_allInputs, IsInput, mem_singleton]
  constructor
  · rintro ⟨h, -⟩; exact List.length_eq_zero_iff.1 h
  · rintro rfl; simp

theorem pathSum_zero (t : Trellis) (x : ℝ) (good : Nat → Prop) (f : List Nat → ℝ) (s : Nat) [Decidable (good s)] : pathSum t x good f 0 s = if good s then f [] else 0 := by
  unfold pathSum
  rw [allInputs_zero, sum_filter, sum_singleton]
  simp [Trellis.runState, Trellis.runOut]

theorem pathSum_succ (t : Trellis) (x : ℝ) (good : Nat → Prop) (f : List Nat → ℝ) (ℓ s : Nat) (hs : s ≠ 0) :
    pathSum t x good f (ℓ + 1) s = ∑ u ∈ range (2 ^ t.k), x ^ branchWeight t s u * pathSum t x good (fun v => f (u :: v)) ℓ (t.next s u) := by
  classical
  unfold pathSum
  rw [sum_filter, sum_allInputs_succ]
  apply sum_congr rfl
  intro u _
  rw [sum_filter, mul_sum]
  apply sum_congr rfl
  intro v _
  have e1 : (∀ j < ℓ + 1, t.runState s ((u :: v).take j) ≠ 0) ↔ ∀ j < ℓ, t.runState (t.next s u) (v.take j) ≠ 0 := by
    constructor
    · intro h j hj
      have := h (j + 1) (by omega)
      simpa [Trellis.runState] using this
    · intro h j hj
      cases j with
      | zero => simpa [Trellis.runState] using hs
      | succ j => have := h j (by omega); simpa [Trellis.runState] using this
  have e2 : t.runState s (u :: v) = t.runState (t.next s u) v := rfl
  simp only [e1, e2]
  split
  · rw [Trellis.runOut, List.sum_append, pow_add, ← mul_assoc]; rfl
  · rw [mul_zero]

theorem pathSum_stop (t : Trellis) (x : ℝ) (good : Nat → Prop) (f : List Nat → ℝ) (ℓ : Nat) : pathSum t x good f (ℓ + 1) 0 = 0 := by
  classical
  unfold pathSum
  apply sum_eq_zero
  intro v hv
  exact absurd (by simp [Trellis.runState]) ((mem_filter.1 hv).2.1 0 (by omega))

/-- The sum over error events. -/
theorem errorEvents_sum (t : Trellis) (x : ℝ) (good : Nat → Prop) (f : List Nat → ℝ) (ℓ : Nat) [DecidablePred fun v => good (t.runState 0 v)] :
    ∑ v ∈ (errorEvents t (ℓ + 1)).filter (fun v => good (t.runState 0 v)), x ^ codeWeight t v * f v =
      ∑ u ∈ (range (2 ^ t.k)).erase 0, x ^ branchWeight t 0 u * pathSum t x good (fun v => f (u :: v)) ℓ (t.next 0 u) := by
  classical
  have e : (errorEvents t (ℓ + 1)).filter (fun v => good (t.runState 0 v)) = (allInputs t (ℓ + 1)).filter (fun v => Leaves t (ℓ + 1) v ∧ good (t.runState 0 v)) := by
    unfold errorEvents; rw [filter_filter]
  rw [e, sum_filter, sum_allInputs_succ]
  refine Eq.trans (sum_erase (s := range (2 ^ t.k)) (a := 0) (f := fun u => ∑ v ∈ allInputs t ℓ,
    if Leaves t (ℓ + 1) (u :: v) ∧ good (t.runState 0 (u :: v)) then x ^ codeWeight t (u :: v) * f (u :: v) else 0) ?_).symm ?_
  rotate_left
  · apply sum_congr rfl
    intro u hu
    rw [mem_erase, mem_range] at hu
    unfold pathSum
    rw [sum_filter, mul_sum]
    apply sum_congr rfl
    intro v hv
    rw [mem_allInputs] at hv
    have e1 : Leaves t (ℓ + 1) (u :: v) ↔ ∀ j < ℓ, t.runState (t.next 0 u) (v.take j) ≠ 0 := by
      constructor
      · intro h j hj
        have := h.away (j + 1) (by omega) (by omega)
        simpa [Trellis.runState] using this
      · intro h
        refine ⟨⟨by simp [hv.1], ?_⟩, by simpa using hu.1, ?_⟩
        · intro y hy
          rcases List.mem_cons.1 hy with rfl | hy
          · exact hu.2
          · exact hv.2 y hy
        · intro j h0 hj
          obtain ⟨j, rfl⟩ : ∃ i, j = i + 1 := ⟨j - 1, by omega⟩
          have := h j (by omega)
          simpa [Trellis.runState] using this
    have e2 : t.runState 0 (u :: v) = t.runState (t.next 0 u) v := rfl
    simp only [e1, e2]
    split
    · unfold codeWeight
      rw [Trellis.runOut, List.sum_append, pow_add, ← mul_assoc]; rfl
    · rw [mul_zero]
  · apply sum_eq_zero
    intro v _
    rw [if_neg]
    rintro ⟨h, -⟩
    exact h.first (by simp)

/-! ### Potentials -/

theorem pathSum_nonneg (t : Trellis) {x : ℝ} (hx : 0 ≤ x) (good : Nat → Prop) {f : List Nat → ℝ} (hf : ∀ v, 0 ≤ f v) (ℓ s : Nat) : 0 ≤ pathSum t x good f ℓ s :=
  sum_nonneg fun v _ => mul_nonneg (pow_nonneg hx _) (hf v)

/-- Sums over the paths that return to state 0: a potential `R` with `R 0 = 1` and `Σ_u x ^ weight * R (next s u) ≤ R s` elsewhere. -/
theorem return_le {t : Trellis} (hw : t.WF) {x : ℝ} (hx : 0 ≤ x) {R : Nat → ℝ} (hR0 : 1 ≤ R 0) (hRn : ∀ s < 2 ^ t.M, 0 ≤ R s)
    (hR : ∀ s < 2 ^ t.M, s ≠ 0 → ∑ u ∈ range (2 ^ t.k), x ^ branchWeight t s u * R (t.next s u) ≤ R s) (L : Nat) :
    ∀ s < 2 ^ t.M, ∑ ℓ ∈ range L, pathSum t x (· = 0) (fun _ => 1) ℓ s ≤ R s := by
  induction L with
  | zero => intro s hs; simpa using hRn s hs
  | succ L ih =>
    intro s hs
    rw [sum_range_succ', pathSum_zero]
    by_cases h0 : s = 0
    · subst h0
      simp only [pathSum_stop, sum_const_zero, if_true, zero_add]
      exact hR0
    · rw [if_neg h0, add_zero, sum_congr rfl (fun ℓ _ => pathSum_succ t x (· = 0) (fun _ => 1) ℓ s h0), sum_comm]
      refine le_trans (sum_le_sum fun u hu => ?_) (hR s hs h0)
      rw [← mul_sum]
      exact mul_le_mul_of_nonneg_left (ih _ (hw.next_lt hs (mem_range.1 hu))) (pow_nonneg hx _)

/-- The same weighted with the number of groups `u` of the path, each counted `g u` times. -/
theorem return_weight_le {t : Trellis} (hw : t.WF) {x : ℝ} (hx : 0 ≤ x) {R H : Nat → ℝ} {g : Nat → ℝ} (hg : ∀ u, 0 ≤ g u) (hR0 : 1 ≤ R 0) (hRn : ∀ s < 2 ^ t.M, 0 ≤ R s)
    (hR : ∀ s < 2 ^ t.M, s ≠ 0 → ∑ u ∈ range (2 ^ t.k), x ^ branchWeight t s u * R (t.next s u) ≤ R s) (hHn : ∀ s < 2 ^ t.M, 0 ≤ H s)
    (hH : ∀ s < 2 ^ t.M, s ≠ 0 → ∑ u ∈ range (2 ^ t.k), x ^ branchWeight t s u * (g u * R (t.next s u) + H (t.next s u)) ≤ H s) (L : Nat) :
    ∀ s < 2 ^ t.M, ∑ ℓ ∈ range L, pathSum t x (· = 0) (fun v => (v.map g).sum) ℓ s ≤ H s := by
  induction L with
  | zero => intro s hs; simpa using hHn s hs
  | succ L ih =>
    intro s hs
    rw [sum_range_succ', pathSum_zero]
    by_cases h0 : s = 0
    · subst h0
      simp only [pathSum_stop, sum_const_zero, if_true, zero_add]
      simpa using hHn 0 hs
    · rw [if_neg h0, add_zero, sum_congr rfl (fun ℓ _ => pathSum_succ t x (· = 0) (fun v => (v.map g).sum) ℓ s h0), sum_comm]
      refine le_trans (sum_le_sum fun u hu => ?_) (hH s hs h0)
      rw [← mul_sum]
      refine mul_le_mul_of_nonneg_left ?_ (pow_nonneg hx _)
      have hn := hw.next_lt hs (mem_range.1 hu)
      have e : ∀ ℓ s', pathSum t x (· = 0) (fun v => ((u :: v).map g).sum) ℓ s' = g u * pathSum t x (· = 0) (fun _ => 1) ℓ s' + pathSum t x (· = 0) (fun v => (v.map g).sum) ℓ s' := by
        intro ℓ s'
        unfold pathSum
        rw [mul_sum, ← sum_add_distrib]
        apply sum_congr rfl
        intro v _
        simp only [List.map_cons, List.sum_cons]; ring
      rw [sum_congr rfl (fun ℓ _ => e ℓ _), sum_add_distrib, ← mul_sum]
      exact add_le_add (mul_le_mul_of_nonneg_left (return_le hw hx hR0 hRn hR L _ hn) (hg u)) (ih _ hn)

/-- The potential of the paths that have not returned after at least `m` steps, from a potential `G` of all paths that have not returned. -/
noncomputable def openPot (t : Trellis) (x : ℝ) (G : Nat → ℝ) : Nat → Nat → ℝ
  | 0, s => if s = 0 then 0 else G s
  | m + 1, s => if s = 0 then 0 else ∑ u ∈ range (2 ^ t.k), x ^ branchWeight t s u * openPot t x G m (t.next s u)

theorem open_le {t : Trellis} (hw : t.WF) {x : ℝ} (hx : 0 ≤ x) {G : Nat → ℝ} (hGn : ∀ s < 2 ^ t.M, 0 ≤ G s)
    (hG : ∀ s < 2 ^ t.M, s ≠ 0 → 1 + ∑ u ∈ range (2 ^ t.k), x ^ branchWeight t s u * openPot t x G 0 (t.next s u) ≤ G s) (m L : Nat) :
    ∀ s < 2 ^ t.M, ∑ ℓ ∈ range L, pathSum t x (· ≠ 0) (fun _ => 1) (m + ℓ) s ≤ openPot t x G m s := by
  induction m generalizing L with
  | zero =>
    induction L with
    | zero =>
      intro s hs
      rw [openPot]
      split
      · simp
      · simpa using hGn s hs
    | succ L ih =>
      intro s hs
      rw [sum_range_succ', openPot]
      simp only [Nat.zero_add] at ih ⊢
      rw [pathSum_zero]
      by_cases h0 : s = 0
      · subst h0
        simp only [pathSum_stop, sum_const_zero]
        simp
      · rw [if_pos h0, if_neg h0, sum_congr rfl (fun ℓ _ => pathSum_succ t x (· ≠ 0) (fun _ => 1) ℓ s h0), sum_comm, add_comm]
        refine le_trans (add_le_add_right (sum_le_sum fun u hu => ?_) _) (hG s hs h0)
        rw [← mul_sum]
        exact mul_le_mul_of_nonneg_left (ih _ (hw.next_lt hs (mem_range.1 hu))) (pow_nonneg hx _)
  | succ m ih =>
    intro s hs
    rw [openPot]
    by_cases h0 : s = 0
    · subst h0
      have : ∀ ℓ, m + 1 + ℓ = (m + ℓ) + 1 := fun ℓ => by omega
      simp only [this, pathSum_stop, sum_const_zero, if_true]
      exact le_rfl
    · have : ∀ ℓ, m + 1 + ℓ = (m + ℓ) + 1 := fun ℓ => by omega
      simp only [this]
      rw [if_neg h0, sum_congr rfl (fun ℓ _ => pathSum_succ t x (· ≠ 0) (fun _ => 1) (m + ℓ) s h0), sum_comm]
      refine sum_le_sum fun u hu => ?_
      rw [← mul_sum]
      exact mul_le_mul_of_nonneg_left (ih L _ (hw.next_lt hs (mem_range.1 hu))) (pow_nonneg hx _)

/-! ### Closed forms -/

theorem errorEvents_zero (t : Trellis) : errorEvents t 0 = ∅ := by
  ext v
  simp only [mem_errorEvents, notMem_empty, iff_false]
  intro h
  have := List.length_eq_zero_iff.1 h.input.1
  subst this
  exact h.first (by simp)

/-- All error events that have returned to state 0. -/
theorem return_events_le {t : Trellis} (hw : t.WF) {x : ℝ} (hx : 0 ≤ x) {R : Nat → ℝ} (hR0 : 1 ≤ R 0) (hRn : ∀ s < 2 ^ t.M, 0 ≤ R s)
    (hR : ∀ s < 2 ^ t.M, s ≠ 0 → ∑ u ∈ range (2 ^ t.k), x ^ branchWeight t s u * R (t.next s u) ≤ R s) (L : Nat) :
    ∑ ℓ ∈ range L, ∑ v ∈ (errorEvents t ℓ).filter (fun v => t.runState 0 v = 0), x ^ codeWeight t v ≤
      ∑ u ∈ (range (2 ^ t.k)).erase 0, x ^ branchWeight t 0 u * R (t.next 0 u) := by
  cases L with
  | zero =>
    rw [range_zero, sum_empty]
    exact sum_nonneg fun u hu => mul_nonneg (pow_nonneg hx _) (hRn _ (hw.next_lt (Nat.two_pow_pos _) (mem_range.1 (mem_erase.1 hu).2)))
  | succ L =>
    rw [sum_range_succ', errorEvents_zero]
    simp only [filter_empty, sum_empty, add_zero]
    have e := fun ℓ => errorEvents_sum t x (· = 0) (fun _ => 1) ℓ
    simp only [mul_one] at e
    rw [sum_congr rfl (fun ℓ _ => e ℓ), sum_comm]
    refine sum_le_sum fun u hu => ?_
    rw [← mul_sum]
    exact mul_le_mul_of_nonneg_left (return_le hw hx hR0 hRn hR L _ (hw.next_lt (Nat.two_pow_pos _) (mem_range.1 (mem_erase.1 hu).2))) (pow_nonneg hx _)

/-- The same, weighted with the groups of the event. -/
theorem return_events_weight_le {t : Trellis} (hw : t.WF) {x : ℝ} (hx : 0 ≤ x) {R H : Nat → ℝ} {g : Nat → ℝ} (hg : ∀ u, 0 ≤ g u) (hR0 : 1 ≤ R 0) (hRn : ∀ s < 2 ^ t.M, 0 ≤ R s)
    (hR : ∀ s < 2 ^ t.M, s ≠ 0 → ∑ u ∈ range (2 ^ t.k), x ^ branchWeight t s u * R (t.next s u) ≤ R s) (hHn : ∀ s < 2 ^ t.M, 0 ≤ H s)
    (hH : ∀ s < 2 ^ t.M, s ≠ 0 → ∑ u ∈ range (2 ^ t.k), x ^ branchWeight t s u * (g u * R (t.next s u) + H (t.next s u)) ≤ H s) (L : Nat) :
    ∑ ℓ ∈ range L, ∑ v ∈ (errorEvents t ℓ).filter (fun v => t.runState 0 v = 0), x ^ codeWeight t v * (v.map g).sum ≤
      ∑ u ∈ (range (2 ^ t.k)).erase 0, x ^ branchWeight t 0 u * (g u * R (t.next 0 u) + H (t.next 0 u)) := by
  have hnext : ∀ u ∈ (range (2 ^ t.k)).erase 0, t.next 0 u < 2 ^ t.M := fun u hu => hw.next_lt (Nat.two_pow_pos _) (mem_range.1 (mem_erase.1 hu).2)
  cases L with
  | zero =>
    rw [range_zero, sum_empty]
    exact sum_nonneg fun u hu => mul_nonneg (pow_nonneg hx _) (add_nonneg (mul_nonneg (hg u) (hRn _ (hnext u hu))) (hHn _ (hnext u hu)))
  | succ L =>
    rw [sum_range_succ', errorEvents_zero]
    simp only [filter_empty, sum_empty, add_zero]
    have e := fun ℓ => errorEvents_sum t x (· = 0) (fun v => (v.map g).sum) ℓ
    rw [sum_congr rfl (fun ℓ _ => e ℓ), sum_comm]
    refine sum_le_sum fun u hu => ?_
    rw [← mul_sum]
    refine mul_le_mul_of_nonneg_left ?_ (pow_nonneg hx _)
    have e : ∀ ℓ s', pathSum t x (· = 0) (fun v => ((u :: v).map g).sum) ℓ s' = g u * pathSum t x (· = 0) (fun _ => 1) ℓ s' + pathSum t x (· = 0) (fun v => (v.map g).sum) ℓ s' := by
      intro ℓ s'
      unfold pathSum
      rw [mul_sum, ← sum_add_distrib]
      apply sum_congr rfl
      intro v _
      simp only [List.map_cons, List.sum_cons]; ring
    rw [sum_congr rfl (fun ℓ _ => e ℓ _), sum_add_distrib, ← mul_sum]
    exact add_le_add (mul_le_mul_of_nonneg_left (return_le hw hx hR0 hRn hR L _ (hnext u hu)) (hg u))
      (return_weight_le hw hx hg hR0 hRn hR hHn hH L _ (hnext u hu))

/-- Potential of the error events that have not returned to state 0 after at least `m + 1` steps. -/
noncomputable def openBound (t : Trellis) (x : ℝ) (G : Nat → ℝ) (m : Nat) : ℝ :=
  ∑ u ∈ (range (2 ^ t.k)).erase 0, x ^ branchWeight t 0 u * openPot t x G m (t.next 0 u)

theorem open_events_le {t : Trellis} (hw : t.WF) {x : ℝ} (hx : 0 ≤ x) {G : Nat → ℝ} (hGn : ∀ s < 2 ^ t.M, 0 ≤ G s)
    (hG : ∀ s < 2 ^ t.M, s ≠ 0 → 1 + ∑ u ∈ range (2 ^ t.k), x ^ branchWeight t s u * openPot t x G 0 (t.next s u) ≤ G s) (m L : Nat) :
    ∑ ℓ ∈ range L, ∑ v ∈ (errorEvents t (m + 1 + ℓ)).filter (fun v => t.runState 0 v ≠ 0), x ^ codeWeight t v ≤ openBound t x G m := by
  have e := fun ℓ => errorEvents_sum t x (· ≠ 0) (fun _ => 1) ℓ
  simp only [mul_one] at e
  have e' : ∀ ℓ, m + 1 + ℓ = (m + ℓ) + 1 := fun ℓ => by omega
  simp only [e']
  rw [sum_congr rfl (fun ℓ _ => e (m + ℓ)), sum_comm]
  refine sum_le_sum fun u hu => ?_
  rw [← mul_sum]
  exact mul_le_mul_of_nonneg_left (open_le hw hx hGn hG m L _ (hw.next_lt (Nat.two_pow_pos _) (mem_range.1 (mem_erase.1 hu).2))) (pow_nonneg hx _)

/-- Sum of the open error events over a finite set of lengths of at least `m + 1`. -/
theorem open_lengths_le {t : Trellis} (hw : t.WF) {x : ℝ} (hx : 0 ≤ x) {G : Nat → ℝ} (hGn : ∀ s < 2 ^ t.M, 0 ≤ G s)
    (hG : ∀ s < 2 ^ t.M, s ≠ 0 → 1 + ∑ u ∈ range (2 ^ t.k), x ^ branchWeight t s u * openPot t x G 0 (t.next s u) ≤ G s) (m : Nat) (S : Finset Nat) (hS : ∀ ℓ ∈ S, m + 1 ≤ ℓ) :
    ∑ ℓ ∈ S, ∑ v ∈ (errorEvents t ℓ).filter (fun v => t.runState 0 v ≠ 0), x ^ codeWeight t v ≤ openBound t x G m := by
  obtain ⟨B, hB⟩ : ∃ B, ∀ ℓ ∈ S, ℓ < B := ⟨S.sup id + 1, fun ℓ h => Nat.lt_succ_of_le (le_sup (f := id) h)⟩
  refine le_trans ?_ (open_events_le hw hx hGn hG m B)
  have : ∑ ℓ ∈ range B, ∑ v ∈ (errorEvents t (m + 1 + ℓ)).filter (fun v => t.runState 0 v ≠ 0), x ^ codeWeight t v =
      ∑ ℓ ∈ (range B).image (m + 1 + ·), ∑ v ∈ (errorEvents t ℓ).filter (fun v => t.runState 0 v ≠ 0), x ^ codeWeight t v :=
    by rw [sum_image (fun a _ b _ h => by simpa using h)]
  rw [this]
  refine sum_le_sum_of_subset_of_nonneg ?_ (fun _ _ _ => sum_nonneg fun _ _ => pow_nonneg hx _)
  intro ℓ hℓ
  exact mem_image.2 ⟨ℓ - (m + 1), mem_range.2 (by have := hB ℓ hℓ; omega), by have := hS ℓ hℓ; omega⟩

/-- The union bound for a block, in closed form. -/
theorem unionBound_le {t : Trellis} (hw : t.WF) {x : ℝ} (hx : 0 ≤ x) {R G : Nat → ℝ} (hR0 : 1 ≤ R 0) (hRn : ∀ s < 2 ^ t.M, 0 ≤ R s)
    (hR : ∀ s < 2 ^ t.M, s ≠ 0 → ∑ u ∈ range (2 ^ t.k), x ^ branchWeight t s u * R (t.next s u) ≤ R s) (hGn : ∀ s < 2 ^ t.M, 0 ≤ G s)
    (hG : ∀ s < 2 ^ t.M, s ≠ 0 → 1 + ∑ u ∈ range (2 ^ t.k), x ^ branchWeight t s u * openPot t x G 0 (t.next s u) ≤ G s)
    {q : Nat → ℝ} (hq : ∀ d, q d ≤ x ^ d) {T tb K m : Nat} (htb : 2 ≤ tb) (hK : K + m ≤ T) :
    unionBound t q T tb K ≤ K * (∑ u ∈ (range (2 ^ t.k)).erase 0, x ^ branchWeight t 0 u * R (t.next 0 u) + openBound t x G (tb - 2)) + openBound t x G m := by
  classical
  set ret : Nat → ℝ := fun ℓ => ∑ v ∈ (errorEvents t ℓ).filter (fun v => t.runState 0 v = 0), x ^ codeWeight t v with hret
  set opn : Nat → ℝ := fun ℓ => ∑ v ∈ (errorEvents t ℓ).filter (fun v => t.runState 0 v ≠ 0), x ^ codeWeight t v with hopn
  have hsplit : ∀ a ℓ, ∑ v ∈ (errorEvents t ℓ).filter (fun v => t.runState 0 v = 0 ∨ tb ≤ ℓ + 1 ∨ a + ℓ = T), q (codeWeight t v) ≤
      ret ℓ + ((if tb ≤ ℓ + 1 then opn ℓ else 0) + if a + ℓ = T then opn ℓ else 0) := by
    intro a ℓ
    refine le_trans (sum_le_sum fun v _ => hq _) ?_
    have hon : 0 ≤ opn ℓ := sum_nonneg fun _ _ => pow_nonneg hx _
    by_cases hc : tb ≤ ℓ + 1 ∨ a + ℓ = T
    · have e : (errorEvents t ℓ).filter (fun v => t.runState 0 v = 0 ∨ tb ≤ ℓ + 1 ∨ a + ℓ = T) = errorEvents t ℓ := filter_true_of_mem fun v _ => Or.inr hc
      rw [e, ← sum_filter_add_sum_filter_not (errorEvents t ℓ) (fun v => t.runState 0 v = 0)]
      refine add_le_add le_rfl ?_
      rcases hc with h | h
      · rw [if_pos h]
        refine le_add_of_nonneg_right ?_
        split
        · exact hon
        · exact le_rfl
      · rw [if_pos h]
        refine le_add_of_nonneg_left ?_
        split
        · exact hon
        · exact le_rfl
    · have e : (errorEvents t ℓ).filter (fun v => t.runState 0 v = 0 ∨ tb ≤ ℓ + 1 ∨ a + ℓ = T) = (errorEvents t ℓ).filter (fun v => t.runState 0 v = 0) :=
        filter_congr fun v _ => by simp [hc]
      rw [e]
      push Not at hc
      rw [if_neg (by omega), if_neg hc.2]
      simp [hret]
  unfold unionBound
  refine le_trans (sum_le_sum fun a _ => sum_le_sum fun ℓ _ => hsplit a ℓ) ?_
  simp only [sum_add_distrib]
  have h1 : ∑ a ∈ range K, ∑ ℓ ∈ range (T - a + 1), ret ℓ ≤ K * ∑ u ∈ (range (2 ^ t.k)).erase 0, x ^ branchWeight t 0 u * R (t.next 0 u) := by
    refine le_trans (sum_le_sum fun a _ => return_events_le hw hx hR0 hRn hR _) ?_
    rw [sum_const, card_range, nsmul_eq_mul]
  have h2 : ∑ a ∈ range K, ∑ ℓ ∈ range (T - a + 1), (if tb ≤ ℓ + 1 then opn ℓ else 0) ≤ K * openBound t x G (tb - 2) := by
    refine le_trans (sum_le_sum fun a _ => ?_) (b := ∑ _a ∈ range K, openBound t x G (tb - 2)) (by rw [sum_const, card_range, nsmul_eq_mul])
    rw [← sum_filter]
    exact open_lengths_le hw hx hGn hG _ _ (fun ℓ h => by have := (mem_filter.1 h).2; omega)
  have h3 : ∑ a ∈ range K, ∑ ℓ ∈ range (T - a + 1), (if a + ℓ = T then opn ℓ else 0) ≤ openBound t x G m := by
    have e : ∀ a ∈ range K, ∑ ℓ ∈ range (T - a + 1), (if a + ℓ = T then opn ℓ else 0) = opn (T - a) := by
      intro a ha
      rw [mem_range] at ha
      rw [sum_eq_single (T - a)]
      · rw [if_pos (by omega)]
      · intro ℓ hℓ hne
        rw [mem_range] at hℓ
        rw [if_neg (by omega)]
      · intro h
        exact absurd (mem_range.2 (by omega)) h
    rw [sum_congr rfl e]
    have : ∑ a ∈ range K, opn (T - a) = ∑ ℓ ∈ (range K).image (T - ·), opn ℓ := by
      refine (sum_image ?_).symm
      intro a ha b hb h
      have ha := mem_range.1 ha
      have hb := mem_range.1 hb
      have h : T - a = T - b := h
      omega
    rw [this]
    refine open_lengths_le hw hx hGn hG _ _ ?_
    intro ℓ hℓ
    obtain ⟨a, ha, rfl⟩ := mem_image.1 hℓ
    have := mem_range.1 ha
    show m + 1 ≤ T - a
    omega
  linarith

/-- Sum over a set of positions of 0/1 values of a list. -/
theorem count_le_sum (g : Nat → ℝ) (hg : ∀ u, 0 ≤ g u) : ∀ (v : List Nat) (n : Nat), ∑ j ∈ range n, (if j < v.length then g (v.getD j 0) else 0) ≤ (v.map g).sum
  | [], n => by simp
  | u :: v, 0 => by
    rw [range_zero, sum_empty]
    exact List.sum_nonneg (fun y hy => by obtain ⟨z, -, rfl⟩ := List.mem_map.1 hy; exact hg z)
  | u :: v, n + 1 => by
    rw [sum_range_succ']
    have := count_le_sum g hg v n
    simp only [List.length_cons, Nat.add_lt_add_iff_right, List.getD_cons_succ, List.map_cons, List.sum_cons, List.getD_cons_zero, Nat.zero_lt_succ, if_true]
    linarith

/-- The union bound for one bit, in closed form. -/
theorem bitBound_le {t : Trellis} (hw : t.WF) {x : ℝ} (hx : 0 ≤ x) {R H G : Nat → ℝ} {β : Nat} (hR0 : 1 ≤ R 0) (hRn : ∀ s < 2 ^ t.M, 0 ≤ R s)
    (hR : ∀ s < 2 ^ t.M, s ≠ 0 → ∑ u ∈ range (2 ^ t.k), x ^ branchWeight t s u * R (t.next s u) ≤ R s) (hHn : ∀ s < 2 ^ t.M, 0 ≤ H s)
    (hH : ∀ s < 2 ^ t.M, s ≠ 0 → ∑ u ∈ range (2 ^ t.k), x ^ branchWeight t s u * (((toBits t.k u).getD β 0 : ℕ) * R (t.next s u) + H (t.next s u)) ≤ H s)
    (hGn : ∀ s < 2 ^ t.M, 0 ≤ G s)
    (hG : ∀ s < 2 ^ t.M, s ≠ 0 → 1 + ∑ u ∈ range (2 ^ t.k), x ^ branchWeight t s u * openPot t x G 0 (t.next s u) ≤ G s)
    {q : Nat → ℝ} (hq : ∀ d, q d ≤ x ^ d) {T tb i m : Nat} (htb : 2 ≤ tb) (hi : i + m + 1 ≤ T) :
    bitBound t q T tb i β ≤ ∑ u ∈ (range (2 ^ t.k)).erase 0, x ^ branchWeight t 0 u * (((toBits t.k u).getD β 0 : ℕ) * R (t.next 0 u) + H (t.next 0 u)) +
      openBound t x G (tb - 2) + openBound t x G m := by
  classical
  set g : Nat → ℝ := fun u => (((toBits t.k u).getD β 0 : ℕ) : ℝ) with hgdef
  have hg : ∀ u, 0 ≤ g u := fun u => Nat.cast_nonneg _
  set ret : Nat → Nat → ℝ := fun j ℓ => ∑ v ∈ (errorEvents t ℓ).filter (fun v => t.runState 0 v = 0), (if j < v.length then g (v.getD j 0) else 0) * x ^ codeWeight t v with hret
  set opn : Nat → ℝ := fun ℓ => ∑ v ∈ (errorEvents t ℓ).filter (fun v => t.runState 0 v ≠ 0), x ^ codeWeight t v with hopn
  have hon : ∀ ℓ, 0 ≤ opn ℓ := fun ℓ => sum_nonneg fun _ _ => pow_nonneg hx _
  have hrn : ∀ j ℓ, 0 ≤ ret j ℓ := fun j ℓ => sum_nonneg fun v _ => mul_nonneg (by split; exacts [hg _, le_rfl]) (pow_nonneg hx _)
  have hsplit : ∀ a ℓ, ∑ v ∈ (errorEvents t ℓ).filter (fun v => i < a + ℓ ∧ (toBits t.k (v.getD (i - a) 0)).getD β 0 = 1 ∧
      (t.runState 0 v = 0 ∨ a + ℓ + 1 = i + tb ∨ a + ℓ = T)), q (codeWeight t v) ≤
      ret (i - a) ℓ + ((if a + ℓ + 1 = i + tb then opn ℓ else 0) + if a + ℓ = T then opn ℓ else 0) := by
    intro a ℓ
    refine le_trans (sum_le_sum fun v _ => hq _) ?_
    rw [sum_filter, ← sum_filter_add_sum_filter_not (errorEvents t ℓ) (fun v => t.runState 0 v = 0)]
    refine add_le_add ?_ ?_
    · refine sum_le_sum fun v hv => ?_
      have hl := (mem_errorEvents.1 (mem_filter.1 hv).1).input.1
      have hL := (mem_errorEvents.1 (mem_filter.1 hv).1)
      by_cases hc : i < a + ℓ ∧ (toBits t.k (v.getD (i - a) 0)).getD β 0 = 1 ∧ (t.runState 0 v = 0 ∨ a + ℓ + 1 = i + tb ∨ a + ℓ = T)
      · have hℓ : 0 < ℓ := by
          rcases Nat.eq_zero_or_pos ℓ with h0 | h0
          · subst h0
            rw [errorEvents_zero] at hv
            simp at hv
          · exact h0
        rw [if_pos hc, if_pos (by omega)]
        simp only [hgdef]
        rw [hc.2.1]
        simp
      · rw [if_neg hc]
        exact mul_nonneg (by split; exacts [hg _, le_rfl]) (pow_nonneg hx _)
    · by_cases hc : a + ℓ + 1 = i + tb ∨ a + ℓ = T
      · have h1 : ∑ v ∈ (errorEvents t ℓ).filter (fun v => ¬ t.runState 0 v = 0), (if i < a + ℓ ∧ (toBits t.k (v.getD (i - a) 0)).getD β 0 = 1 ∧
            (t.runState 0 v = 0 ∨ a + ℓ + 1 = i + tb ∨ a + ℓ = T) then x ^ codeWeight t v else 0) ≤ opn ℓ := by
          refine sum_le_sum fun v _ => ?_
          split
          · exact le_rfl
          · exact pow_nonneg hx _
        refine h1.trans ?_
        rcases hc with h | h
        · rw [if_pos h]
          refine le_add_of_nonneg_right ?_
          split
          · exact hon ℓ
          · exact le_rfl
        · rw [if_pos h]
          refine le_add_of_nonneg_left ?_
          split
          · exact hon ℓ
          · exact le_rfl
      · push Not at hc
        rw [if_neg hc.1, if_neg hc.2, add_zero]
        apply le_of_eq
        apply sum_eq_zero
        intro v hv
        rw [if_neg]
        rintro ⟨-, -, h | h | h⟩
        · exact (mem_filter.1 hv).2 h
        · exact hc.1 h
        · exact hc.2 h
  unfold bitBound
  refine le_trans (sum_le_sum fun a _ => sum_le_sum fun ℓ _ => hsplit a ℓ) ?_
  simp only [sum_add_distrib]
  have h1 : ∑ a ∈ range (i + 1), ∑ ℓ ∈ range (T - a + 1), ret (i - a) ℓ ≤
      ∑ u ∈ (range (2 ^ t.k)).erase 0, x ^ branchWeight t 0 u * (g u * R (t.next 0 u) + H (t.next 0 u)) := by
    refine le_trans ?_ (return_events_weight_le hw hx hg hR0 hRn hR hHn hH (T + 1))
    refine le_trans (sum_le_sum fun a _ => sum_le_sum_of_subset_of_nonneg (t := range (T + 1)) ?_ (fun ℓ _ _ => hrn _ ℓ)) ?_
    · intro ℓ hℓ
      rw [mem_range] at hℓ ⊢
      omega
    rw [sum_comm]
    refine sum_le_sum fun ℓ _ => ?_
    have e := sum_range_reflect (fun j => ret j ℓ) (i + 1)
    have e2 : ∑ a ∈ range (i + 1), ret (i - a) ℓ = ∑ a ∈ range (i + 1), ret a ℓ := by
      rw [← e]
      apply sum_congr rfl
      intro a _
      congr 1
    rw [e2, hret]
    dsimp only
    rw [sum_comm]
    refine sum_le_sum fun v _ => ?_
    rw [← sum_mul, mul_comm]
    exact mul_le_mul_of_nonneg_left (count_le_sum g hg v _) (pow_nonneg hx _)
  have h2 : ∑ a ∈ range (i + 1), ∑ ℓ ∈ range (T - a + 1), (if a + ℓ + 1 = i + tb then opn ℓ else 0) ≤ openBound t x G (tb - 2) := by
    have e : ∀ a ∈ range (i + 1), ∑ ℓ ∈ range (T - a + 1), (if a + ℓ + 1 = i + tb then opn ℓ else 0) ≤ opn (i + tb - 1 - a) := by
      intro a ha
      rw [mem_range] at ha
      rw [← sum_filter]
      refine le_trans (sum_le_sum_of_subset_of_nonneg (t := {i + tb - 1 - a}) ?_ (fun ℓ _ _ => hon ℓ)) (by rw [sum_singleton])
      intro ℓ hℓ
      rw [mem_filter] at hℓ
      rw [mem_singleton]
      omega
    refine (sum_le_sum e).trans ?_
    have : ∑ a ∈ range (i + 1), opn (i + tb - 1 - a) = ∑ ℓ ∈ (range (i + 1)).image (i + tb - 1 - ·), opn ℓ := by
      refine (sum_image ?_).symm
      intro a ha b hb h
      have ha := mem_range.1 ha
      have hb := mem_range.1 hb
      have h : i + tb - 1 - a = i + tb - 1 - b := h
      omega
    rw [this]
    refine open_lengths_le hw hx hGn hG _ _ ?_
    intro ℓ hℓ
    obtain ⟨a, ha, rfl⟩ := mem_image.1 hℓ
    have := mem_range.1 ha
    show tb - 2 + 1 ≤ i + tb - 1 - a
    omega
  have h3 : ∑ a ∈ range (i + 1), ∑ ℓ ∈ range (T - a + 1), (if a + ℓ = T then opn ℓ else 0) ≤ openBound t x G m := by
    have e : ∀ a ∈ range (i + 1), ∑ ℓ ∈ range (T - a + 1), (if a + ℓ = T then opn ℓ else 0) ≤ opn (T - a) := by
      intro a ha
      rw [mem_range] at ha
      rw [← sum_filter]
      refine le_trans (sum_le_sum_of_subset_of_nonneg (t := {T - a}) ?_ (fun ℓ _ _ => hon ℓ)) (by rw [sum_singleton])
      intro ℓ hℓ
      rw [mem_filter] at hℓ
      rw [mem_singleton]
      omega
    refine (sum_le_sum e).trans ?_
    have : ∑ a ∈ range (i + 1), opn (T - a) = ∑ ℓ ∈ (range (i + 1)).image (T - ·), opn ℓ := by
      refine (sum_image ?_).symm
      intro a ha b hb h
      have ha := mem_range.1 ha
      have hb := mem_range.1 hb
      have h : T - a = T - b := h
      omega
    rw [this]
    refine open_lengths_le hw hx hGn hG _ _ ?_
    intro ℓ hℓ
    obtain ⟨a, ha, rfl⟩ := mem_image.1 hℓ
    have := mem_range.1 ha
    show m + 1 ≤ T - a
    omega
  linarith

end Verif
