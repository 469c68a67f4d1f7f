import Verif.Lemmas.ViterbiSegment
/-
Sufficient condition for the first `K` input groups to be decoded correctly, segment by segment.
-/
namespace Verif

/-- The samples of the trellis steps `a`, …, `b - 1` (numbered from 0) in a sequence with `n` samples per step. -/
def stepSeg {β : Type} (n a b : Nat) (x : List β) : List β := (x.drop (a * n)).take ((b - a) * n)

theorem stepSeg_length {β : Type} {n a b : Nat} {x : List β} (hab : a ≤ b) (h : b * n ≤ x.length) : (stepSeg n a b x).length = (b - a) * n := by
  unfold stepSeg
  rw [List.length_take, List.length_drop]
  have : (b - a) * n + a * n = b * n := by rw [← Nat.add_mul]; congr 1; omega
  omega

theorem stepSeg_blocks {β : Type} (n a : Nat) (x : List β) : ∀ ℓ, ((List.range ℓ).flatMap fun i => (x.drop ((a + i) * n)).take n) = stepSeg n a (a + ℓ) x := by
  intro ℓ
  induction ℓ with
  | zero => simp [stepSeg]
  | succ ℓ ih =>
    rw [List.range_succ, List.flatMap_append, ih]
    unfold stepSeg
    rw [show a + (ℓ + 1) - a = ℓ + 1 by omega, show a + ℓ - a = ℓ by omega, Nat.succ_mul, List.take_add]
    congr 1
    simp only [List.flatMap_cons, List.flatMap_nil, List.append_nil, List.drop_drop]
    congr 2; ring

theorem rxBlock_padded {α : Type} {t : Trellis} (hk : 0 < t.k) {N : Nat} {pad : α} {coded : List α} (hc : coded.length = N * t.n) {j : Nat}
    (hj : j < N + (t.M / t.k - 1)) : rxBlock t (N * t.k) pad coded (1 + j) = ((paddedRx t pad coded).drop (j * t.n)).take t.n := by
  unfold rxBlock paddedRx
  rw [Nat.mul_div_cancel _ hk, Nat.add_sub_cancel_left]
  by_cases h : 1 + j ≤ N
  · rw [if_pos h]
    have h1 : (j + 1) * t.n ≤ N * t.n := Nat.mul_le_mul_right _ (by omega)
    rw [Nat.succ_mul] at h1
    rw [List.drop_append_of_le_length (by omega), List.take_append_of_le_length (by rw [List.length_drop]; omega)]
  · rw [if_neg h]
    have h1 : N * t.n ≤ j * t.n := Nat.mul_le_mul_right _ (by omega)
    have h2 : (j + 1) * t.n ≤ (N + (t.M / t.k - 1)) * t.n := Nat.mul_le_mul_right _ (by omega)
    rw [Nat.succ_mul, Nat.add_mul] at h2
    rw [List.drop_append, List.drop_eq_nil_of_le (by omega), List.nil_append, List.drop_replicate, List.take_replicate, hc]
    congr 1; omega

theorem runOut_seg (t : Trellis) (w : List Nat) {a b : Nat} (hab : a ≤ b) (hb : b ≤ w.length) :
    t.runOut (t.runState 0 (w.take a)) ((w.take b).drop a) = stepSeg t.n a b (t.runOut 0 w) := by
  have e : t.runOut 0 w = t.runOut 0 (w.take a) ++ (t.runOut (t.runState 0 (w.take a)) ((w.take b).drop a) ++
      t.runOut (t.runState 0 (w.take b)) (w.drop b)) := by
    have hub : w.take a ++ (w.take b).drop a = w.take b := by
      conv_rhs => rw [← List.take_append_drop a (w.take b)]
      rw [List.take_take, min_eq_left hab]
    conv_lhs => rw [← List.take_append_drop b w, ← hub]
    rw [Trellis.runOut_append, Trellis.runOut_append, List.append_assoc, hub]
  have l1 : (t.runOut 0 (w.take a)).length = a * t.n := by rw [Trellis.runOut_length, List.length_take, min_eq_left (by omega)]
  have l2 : (t.runOut (t.runState 0 (w.take a)) ((w.take b).drop a)).length = (b - a) * t.n := by
    rw [Trellis.runOut_length, List.length_drop, List.length_take, min_eq_left hb]
  unfold stepSeg
  rw [e]
  generalize t.runOut 0 (w.take a) = X at *
  generalize t.runOut (t.runState 0 (w.take a)) ((w.take b).drop a) = Y at *
  rw [← l1, List.drop_left, ← l2, List.take_left]

theorem segCost {R α : Type} [AddCommMonoid R] {cost : α → Nat → R} {t : Trellis} (hk : 0 < t.k) {N : Nat} {pad : α} {coded : List α}
    (hl : coded.length = N * t.n) {us : List Nat} {a : Nat} (S : Nat) (hu : a + us.length ≤ N + (t.M / t.k - 1)) :
    pathCost t (fun j p u => seqCost cost (rxBlock t (N * t.k) pad coded j) (toBits t.n (t.out p u))) a S us =
      seqCost cost (stepSeg t.n a (a + us.length) (paddedRx t pad coded)) (t.runOut S us) := by
  rw [pathCost_eq_seqCost (fun j hj => rxBlock_length hk hl hj), ← stepSeg_blocks]
  congr 1
  apply List.flatMap_congr
  intro i hi
  rw [List.mem_range] at hi
  rw [show a + 1 + i = 1 + (a + i) by omega, rxBlock_padded hk hl (by omega)]

theorem take_flatMap_toBits {k : Nat} (f : Nat → Nat) {K N : Nat} (h : K ≤ N) :
    ((List.range N).flatMap fun i => toBits k (f i)).take (K * k) = (List.range K).flatMap fun i => toBits k (f i) := by
  have e : List.range N = List.range K ++ (List.range (N - K)).map (K + ·) := by
    rw [← List.range_add]; congr 1; omega
  have hlen : ((List.range K).flatMap fun i => toBits k (f i)).length = K * k := by
    rw [List.length_flatMap]; simp
  rw [e, List.flatMap_append, List.take_append_of_le_length (by rw [hlen]), List.take_of_length_le (by rw [hlen])]

/-- Let `w` be a path of the decoder's length `N + M/k - 1`.  Suppose that on every segment on which another path leaves `w` in one of its first `K`
steps and does not meet it again before the end of the segment, `w` is cheaper, both for segments that end in a meeting point and
for segments without meeting point that either have at least `tb - 1` steps or reach the end of the trellis (in which case `w` may
be equally cheap if it ends in state 0).  Then the first `K` decoded groups are those of `w`. -/
theorem viterbi_local {R α : Type} [LinearOrder R] [AddCommMonoid R] [IsOrderedCancelAddMonoid R] {t : Trellis} (h : t.Balanced)
    {bm : List α → List Nat → Py R} {P : α → Prop}
    {cost : α → Nat → R} (hbm : IsSampleMetric bm P cost) {pad : α} (hp : P pad) (inPlace : Bool) (jk : VitJunk R)
    {N tb : Nat} {coded : List α} (hl : coded.length = N * t.n) (hc : ∀ x ∈ coded, P x) (htb : 2 ≤ tb)
    (htb2 : tb ≤ N + t.M / t.k) (hB : t.k = 1 ∨ (t.M / t.k - 1) * t.k ≤ tb) {w : List Nat}
    (hw : IsInput t (N + t.M / t.k - 1) w) {K : Nat} (hK : K ≤ N)
    (H : ∀ a b us, a < K → a < b → b ≤ N + t.M / t.k - 1 → IsInput t (b - a) us → us.getD 0 0 ≠ w.getD a 0 →
      (∀ j, 0 < j → j < b - a → t.runState (t.runState 0 (w.take a)) (us.take j) ≠ t.runState 0 (w.take (a + j))) →
      (t.runState (t.runState 0 (w.take a)) us = t.runState 0 (w.take b) ∨ a + tb ≤ b + 1 ∨ b = N + t.M / t.k - 1) →
      seqCost cost (stepSeg t.n a b (paddedRx t pad coded)) (stepSeg t.n a b (t.runOut 0 w)) <
          seqCost cost (stepSeg t.n a b (paddedRx t pad coded)) (t.runOut (t.runState 0 (w.take a)) us) ∨
        (b = N + t.M / t.k - 1 ∧ t.runState 0 w = 0 ∧ t.runState (t.runState 0 (w.take a)) us ≠ t.runState 0 (w.take b) ∧
        seqCost cost (stepSeg t.n a b (paddedRx t pad coded)) (stepSeg t.n a b (t.runOut 0 w)) ≤
          seqCost cost (stepSeg t.n a b (paddedRx t pad coded)) (t.runOut (t.runState 0 (w.take a)) us))) :
    ∃ d coded', viterbi t bm (some pad) inPlace jk (N * t.k) tb coded = .ok (d, coded') ∧ d.length = N * t.k ∧
      d.take (K * t.k) = (w.take K).flatMap (toBits t.k) := by
  have hk := h.wf.k_pos
  have hq := h.one_le
  have hv := viterbi_blocks h (inPlace := inPlace) jk htb htb2 hB hl (sample_bm hbm hk hp hc hl _)
  refine ⟨_, _, hv, by rw [List.length_flatMap]; simp, ?_⟩
  rw [take_flatMap_toBits _ hK, take_eq_map_getD (by rw [hw.1]; omega), List.flatMap_map]
  apply List.flatMap_congr
  intro i hi
  rw [List.mem_range] at hi
  congr 1
  by_contra hne
  set μ : Nat → Nat → Nat → R := fun j p u => seqCost cost (rxBlock t (N * t.k) pad coded j) (toBits t.n (t.out p u)) with hμ
  set τ := min (N + t.M / t.k - 1) (i + tb - 1) with hτ
  have hiτ : i < τ := by omega
  have hwτ : IsInput t τ (w.take τ) := ⟨by rw [List.length_take, hw.1]; omega, fun u hu => hw.2 u (List.mem_of_mem_take hu)⟩
  have hget : ∀ j < τ, (w.take τ).getD j 0 = w.getD j 0 := by
    intro j hj
    rw [List.getD_eq_getElem _ _ (by rw [hwτ.1]; exact hj), List.getD_eq_getElem _ _ (by rw [hw.1]; omega), List.getElem_take]
  have htake : ∀ j ≤ τ, (w.take τ).take j = w.take j := by
    intro j hj; rw [List.take_take, min_eq_left hj]
  obtain ⟨a, b, hai, hib, hbτ, hdiv, hPa, hbet, hend, hle, hlt⟩ := bestPath_segment h μ τ hwτ hiτ (by rw [hget i hiτ]; exact hne)
  set us := bestPath t μ τ with hus
  have hmin := bestPath_isMin h μ τ
  rw [← hus] at hmin
  have hul := hmin.1.1
  have hsegl : ((us.take b).drop a).length = b - a := by rw [List.length_drop, List.length_take]; omega
  have hwsegl : ((w.take b).drop a).length = b - a := by rw [List.length_drop, List.length_take, hw.1]; omega
  have hstate : ∀ j, j ≤ b - a → t.runState (t.runState 0 (w.take a)) (((us.take b).drop a).take j) = t.runState 0 (us.take (a + j)) := by
    intro j hj
    rw [htake a (by omega)] at hPa
    rw [← hPa, ← Trellis.runState_append]
    congr 1
    rw [List.take_drop, List.take_take, min_eq_left (by omega)]
    conv_rhs => rw [← List.take_append_drop a (us.take (a + j))]
    rw [List.take_take, min_eq_left (by omega)]
  have hfull : t.runState (t.runState 0 (w.take a)) ((us.take b).drop a) = t.runState 0 (us.take b) := by
    have := hstate (b - a) (le_refl _)
    have e : ((us.take b).drop a).take (b - a) = (us.take b).drop a := List.take_of_length_le (by rw [hsegl])
    rwa [e, show a + (b - a) = b by omega] at this
  rw [htake a (by omega), htake b hbτ] at hle hlt
  have hc1 : pathCost t μ a (t.runState 0 (w.take a)) ((us.take b).drop a) =
      seqCost cost (stepSeg t.n a b (paddedRx t pad coded)) (t.runOut (t.runState 0 (w.take a)) ((us.take b).drop a)) := by
    rw [hμ, segCost hk hl _ (by rw [hsegl]; omega), hsegl, show a + (b - a) = b by omega]
  have hc2 : pathCost t μ a (t.runState 0 (w.take a)) ((w.take b).drop a) =
      seqCost cost (stepSeg t.n a b (paddedRx t pad coded)) (stepSeg t.n a b (t.runOut 0 w)) := by
    rw [hμ, segCost hk hl _ (by rw [hwsegl]; omega), hwsegl, show a + (b - a) = b by omega, runOut_seg t w (by omega) (by rw [hw.1]; omega)]
  rw [hc1, hc2] at hle hlt
  have := H a b ((us.take b).drop a) (by omega) (by omega) (by omega)
    ⟨hsegl, fun u hu => hmin.1.2 u (List.mem_of_mem_take (List.mem_of_mem_drop hu))⟩ (by
      rw [← hget a (by omega)]
      convert hdiv using 1
      rw [List.getD_eq_getElem _ _ (by rw [hsegl]; omega), List.getD_eq_getElem _ _ (by omega), List.getElem_drop, List.getElem_take]
      simp) (by
      intro j h1 h2
      rw [hstate j (by omega)]
      have := hbet (a + j) (by omega) (by omega)
      rwa [htake _ (by omega)] at this) (by
      rw [hfull]
      rcases hend with e | e
      · rw [hτ] at e; omega
      · rw [htake b hbτ] at e; exact Or.inl e)
  rcases this with h1 | ⟨h1, h2, h3, h4⟩
  · exact absurd h1 (not_lt.2 hle)
  · rw [hfull] at h3
    have hτT : τ = N + t.M / t.k - 1 := by omega
    have := hlt h3 (by rw [hτT, List.take_of_length_le (by rw [hw.1])]; exact h2)
    exact absurd this (not_lt.2 h4)

end Verif
