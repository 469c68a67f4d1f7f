import Verif.Props.ViterbiCorrect
/-
What happens when the Viterbi decoder gets an input group wrong: an error event around that group whose branch metrics beat the true path.
-/
namespace Verif

/-- The decoder returns `N` groups; where a group is wrong, another path leaves `w` at some step `a` at or before it, stays away from it until some step `b` after it, has the decoded
group there, and is not more expensive than `w` between `a` and `b`. -/
theorem viterbi_error_path {R α : Type} [LinearOrder R] [AddCommMonoid R] [IsOrderedCancelAddMonoid R] {t : Trellis} (h : t.Balanced)
    {bm : List α → List Nat → Py R} {P : α → Prop}
    {cost : α → Nat → R} (hbm : IsSampleMetric bm P cost) {pad : α} (hp : P pad) (inPlace : Bool) (jk : VitJunk R)
    {N tb : Nat} {coded : List α} (hl : coded.length = N * t.n) (hc : ∀ x ∈ coded, P x) (htb : 2 ≤ tb)
    (htb2 : tb ≤ N + t.M / t.k) (hB : t.k = 1 ∨ (t.M / t.k - 1) * t.k ≤ tb) {w : List Nat}
    (hw : IsInput t (N + t.M / t.k - 1) w) :
    ∃ (dg : Nat → Nat) (coded' : List α), viterbi t bm (some pad) inPlace jk (N * t.k) tb coded = .ok ((List.range N).flatMap fun i => toBits t.k (dg i), coded') ∧
      ∀ i < N, dg i ≠ w.getD i 0 → ∃ a b us, a ≤ i ∧ i < b ∧ b ≤ N + t.M / t.k - 1 ∧ IsInput t (b - a) us ∧ us.getD 0 0 ≠ w.getD a 0 ∧
        us.getD (i - a) 0 = dg i ∧
        (∀ j, 0 < j → j < b - a → t.runState (t.runState 0 (w.take a)) (us.take j) ≠ t.runState 0 (w.take (a + j))) ∧
        (t.runState (t.runState 0 (w.take a)) us = t.runState 0 (w.take b) ∨ b + 1 = i + tb ∨ b = N + t.M / t.k - 1) ∧
        seqCost cost (stepSeg t.n a b (paddedRx t pad coded)) (t.runOut (t.runState 0 (w.take a)) us) ≤
          seqCost cost (stepSeg t.n a b (paddedRx t pad coded)) (stepSeg t.n a b (t.runOut 0 w)) := by
  have hk := h.wf.k_pos
  have hq := h.one_le
  have hv := viterbi_blocks h (inPlace := inPlace) jk htb htb2 hB hl (sample_bm hbm hk hp hc hl _)
  refine ⟨_, _, hv, ?_⟩
  intro i hi hne
  set μ : Nat → Nat → Nat → R := fun j p u => seqCost cost (rxBlock t (N * t.k) pad coded j) (toBits t.n (t.out p u)) with hμ
  set τ := min (N + t.M / t.k - 1) (i + tb - 1) with hτ
  have hiτ : i < τ := by omega
  have hwτ : IsInput t τ (w.take τ) := ⟨by rw [List.length_take, hw.1]; omega, fun u hu => hw.2 u (List.mem_of_mem_take hu)⟩
  have hget : ∀ j < τ, (w.take τ).getD j 0 = w.getD j 0 := by
    intro j hj
    rw [List.getD_eq_getElem _ _ (by rw [hwτ.1]; exact hj), List.getD_eq_getElem _ _ (by rw [hw.1]; omega), List.getElem_take]
  have htake : ∀ j ≤ τ, (w.take τ).take j = w.take j := by
    intro j hj; rw [List.take_take, min_eq_left hj]
  obtain ⟨a, b, hai, hib, hbτ, hdiv, hPa, hbet, hend, hle, hlt⟩ := bestPath_segment h μ τ hwτ hiτ (by rw [hget i hiτ]; exact hne)
  set us := bestPath t μ τ with hus
  have hmin := bestPath_isMin h μ τ
  rw [← hus] at hmin
  have hul := hmin.1.1
  have hsegl : ((us.take b).drop a).length = b - a := by rw [List.length_drop, List.length_take]; omega
  have hwsegl : ((w.take b).drop a).length = b - a := by rw [List.length_drop, List.length_take, hw.1]; omega
  have hstate : ∀ j, j ≤ b - a → t.runState (t.runState 0 (w.take a)) (((us.take b).drop a).take j) = t.runState 0 (us.take (a + j)) := by
    intro j hj
    rw [htake a (by omega)] at hPa
    rw [← hPa, ← Trellis.runState_append]
    congr 1
    rw [List.take_drop, List.take_take, min_eq_left (by omega)]
    conv_rhs => rw [← List.take_append_drop a (us.take (a + j))]
    rw [List.take_take, min_eq_left (by omega)]
  have hfull : t.runState (t.runState 0 (w.take a)) ((us.take b).drop a) = t.runState 0 (us.take b) := by
    have := hstate (b - a) (le_refl _)
    have e : ((us.take b).drop a).take (b - a) = (us.take b).drop a := List.take_of_length_le (by rw [hsegl])
    rwa [e, show a + (b - a) = b by omega] at this
  rw [htake a (by omega), htake b hbτ] at hle hlt
  have hc1 : pathCost t μ a (t.runState 0 (w.take a)) ((us.take b).drop a) =
      seqCost cost (stepSeg t.n a b (paddedRx t pad coded)) (t.runOut (t.runState 0 (w.take a)) ((us.take b).drop a)) := by
    rw [hμ, segCost hk hl _ (by rw [hsegl]; omega), hsegl, show a + (b - a) = b by omega]
  have hc2 : pathCost t μ a (t.runState 0 (w.take a)) ((w.take b).drop a) =
      seqCost cost (stepSeg t.n a b (paddedRx t pad coded)) (stepSeg t.n a b (t.runOut 0 w)) := by
    rw [hμ, segCost hk hl _ (by rw [hwsegl]; omega), hwsegl, show a + (b - a) = b by omega, runOut_seg t w (by omega) (by rw [hw.1]; omega)]
  rw [hc1, hc2] at hle hlt
  refine ⟨a, b, (us.take b).drop a, hai, hib, by omega, ⟨hsegl, fun u hu => hmin.1.2 u (List.mem_of_mem_take (List.mem_of_mem_drop hu))⟩, ?_, ?_, ?_, ?_, hle⟩
  · rw [← hget a (by omega)]
    convert hdiv using 1
    rw [List.getD_eq_getElem _ _ (by rw [hsegl]; omega), List.getD_eq_getElem _ _ (by omega), List.getElem_drop, List.getElem_take]
    simp
  · rw [List.getD_eq_getElem _ _ (by rw [hsegl]; omega), List.getElem_drop, List.getElem_take]
    simp only [show a + (i - a) = i by omega]
    rw [← List.getD_eq_getElem _ 0 (by omega)]
  · intro j h1 h2
    rw [hstate j (by omega)]
    have := hbet (a + j) (by omega) (by omega)
    rwa [htake _ (by omega)] at this
  · rw [hfull]
    rcases hend with e | e
    · rw [hτ] at e; omega
    · rw [htake b hbτ] at e; exact Or.inl e

/-- Bitwise sum of two bit sequences. -/
def bitXor (c v : List Nat) : List Nat := List.zipWith (fun x y => (x + y) % 2) c v

theorem bitXor_cancel : ∀ {x y : List Nat}, x.length = y.length → (∀ a ∈ x, a < 2) → bitXor y (bitXor x y) = x
  | [], [], _, _ => rfl
  | a :: x, b :: y, h, hx => by
    have ih := bitXor_cancel (x := x) (y := y) (by simpa using h) (fun z hz => hx z (List.mem_cons_of_mem _ hz))
    have := hx a List.mem_cons_self
    unfold bitXor at ih ⊢
    simp only [List.zipWith_cons_cons, ih]
    congr 1
    omega

/-- A terminated sequence stays in state 0 over the padding. -/
theorem runOut_pad {t : Trellis} (hlin : t.Linear) {w : List Nat} (hend : t.M / t.k ≤ 1 ∨ t.runState 0 w = 0) :
    t.runOut 0 (w ++ List.replicate (t.M / t.k - 1) 0) = t.runOut 0 w ++ List.replicate ((t.M / t.k - 1) * t.n) 0 := by
  obtain ⟨h0, h1⟩ := hlin.zero
  rw [Trellis.runOut_append]
  congr 1
  rcases hend with e | e
  · have : t.M / t.k - 1 = 0 := by omega
    rw [this]; simp [Trellis.runOut]
  · rw [e, runOut_zeros h0 h1]

/-- The same for linear trellises: where the decoder gets group `i` wrong, there is an error event `v` that starts at step `a ≤ i`, changes group `i` as the decoder does, and ends at
step `b > i` by returning to state 0, at the end of the traceback window of group `i`, or at the end of the trellis; the code sequence changed by this event is not more expensive. -/
theorem viterbi_error_event {R α : Type} [LinearOrder R] [AddCommMonoid R] [IsOrderedCancelAddMonoid R] {t : Trellis} (h : t.Balanced) (hlin : t.Linear)
    {bm : List α → List Nat → Py R} {P : α → Prop}
    {cost : α → Nat → R} (hbm : IsSampleMetric bm P cost) {pad : α} (hp : P pad) (inPlace : Bool) (jk : VitJunk R)
    {N tb : Nat} {coded : List α} (hl : coded.length = N * t.n) (hc : ∀ x ∈ coded, P x) (htb : 2 ≤ tb)
    (htb2 : tb ≤ N + t.M / t.k) (hB : t.k = 1 ∨ (t.M / t.k - 1) * t.k ≤ tb) {w : List Nat}
    (hw : IsInput t N w) :
    ∃ (dg : Nat → Nat) (coded' : List α), viterbi t bm (some pad) inPlace jk (N * t.k) tb coded = .ok ((List.range N).flatMap fun i => toBits t.k (dg i), coded') ∧
      ∀ i < N, dg i ≠ w.getD i 0 → ∃ a b v, a ≤ i ∧ i < b ∧ b ≤ N + t.M / t.k - 1 ∧ Leaves t (b - a) v ∧
        v.getD (i - a) 0 = dg i ^^^ w.getD i 0 ∧ (t.runState 0 v = 0 ∨ b + 1 = i + tb ∨ b = N + t.M / t.k - 1) ∧
        seqCost cost (stepSeg t.n a b (paddedRx t pad coded))
            (bitXor (stepSeg t.n a b (t.runOut 0 (w ++ List.replicate (t.M / t.k - 1) 0))) (t.runOut 0 v)) ≤
          seqCost cost (stepSeg t.n a b (paddedRx t pad coded)) (stepSeg t.n a b (t.runOut 0 (w ++ List.replicate (t.M / t.k - 1) 0))) := by
  have hq := h.one_le
  set w' := w ++ List.replicate (t.M / t.k - 1) 0 with hw'
  have hw'in : IsInput t (N + t.M / t.k - 1) w' := by
    refine ⟨by rw [hw', List.length_append, hw.1, List.length_replicate]; omega, ?_⟩
    intro u hu
    rw [hw', List.mem_append] at hu
    rcases hu with hu | hu
    · exact hw.2 u hu
    · rw [List.eq_of_mem_replicate hu]; exact Nat.two_pow_pos _
  have hget : ∀ i < N, w'.getD i 0 = w.getD i 0 := by
    intro i hi
    rw [List.getD_eq_getElem _ _ (by rw [hw'in.1]; omega), List.getD_eq_getElem _ _ (by rw [hw.1]; exact hi)]
    simp only [hw']
    rw [List.getElem_append_left]
  obtain ⟨dg, coded', hv, H⟩ := viterbi_error_path h hbm hp inPlace jk hl hc htb htb2 hB hw'in
  refine ⟨dg, coded', hv, ?_⟩
  intro i hi hne
  obtain ⟨a, b, us, hai, hib, hbT, hus, hfirst, hdg, haway, hcase, hcost⟩ := H i hi (by rw [hget i hi]; exact hne)
  obtain ⟨hleaves, hzero, -⟩ := leaves_xor h.wf hlin hw'in (by omega) hbT hus hfirst haway
  have hsl : ((w'.take b).drop a).length = b - a := by rw [List.length_drop, List.length_take, hw'in.1]; omega
  refine ⟨a, b, List.zipWith (· ^^^ ·) us ((w'.take b).drop a), hai, hib, hbT, hleaves, ?_, ?_, ?_⟩
  · rw [List.getD_eq_getElem _ _ (by rw [hleaves.input.1]; omega), List.getElem_zipWith, ← hdg, ← hget i hi,
      List.getD_eq_getElem _ _ (by rw [hus.1]; omega), List.getD_eq_getElem _ _ (by rw [hw'in.1]; omega), List.getElem_drop, List.getElem_take]
    simp only [show a + (i - a) = i by omega]
  · rw [hzero]; exact hcase
  · have hS' : t.runState 0 (w'.take a) < 2 ^ t.M := h.wf.runState_lt (Nat.two_pow_pos _) (fun u h => hw'in.2 u (List.mem_of_mem_take h))
    have := (Trellis.Linear.run h.wf hlin us ((w'.take b).drop a) (t.runState 0 (w'.take a)) (t.runState 0 (w'.take a)) (by rw [hus.1, hsl]) hS' hS' hus.2
      (fun u h => hw'in.2 u (List.mem_of_mem_take (List.mem_of_mem_drop h)))).2
    rw [Nat.xor_self, runOut_seg t w' (by omega) (by rw [hw'in.1]; exact hbT)] at this
    rw [this]
    have e := bitXor_cancel (x := t.runOut (t.runState 0 (w'.take a)) us) (y := stepSeg t.n a b (t.runOut 0 w')) (by
      rw [Trellis.runOut_length, hus.1, stepSeg_length (by omega) (by rw [Trellis.runOut_length, hw'in.1]; exact Nat.mul_le_mul_right _ hbT)]) (t.runOut_lt_two _ _)
    unfold bitXor at e ⊢
    rw [e]
    exact hcost

end Verif
