import Verif.Lemmas.ViterbiEvent
import Verif.Spec.ErrorEvents
import Verif.Props.SoftAgree
import Mathlib.Probability.Moments.Basic
import Mathlib.Probability.Independence.Basic
/-
C126: the union bound on the error probability of `viterbi_decode`, for any channel and metric.
-/
namespace Verif
open MeasureTheory ProbabilityTheory Finset

theorem seqCost_sum {R α : Type} [AddCommMonoid R] (cost : α → Nat → R) (pad : α) : ∀ (r : List α) (c : List Nat), r.length = c.length →
    seqCost cost r c = ∑ j ∈ range c.length, cost (r.getD j pad) (c.getD j 0)
  | [], [], _ => by simp [seqCost]
  | x :: r, b :: c, h => by
    have ih := seqCost_sum cost pad r c (by simpa using h)
    unfold seqCost at ih ⊢
    rw [List.zipWith_cons_cons, List.sum_cons, ih, List.length_cons, sum_range_succ', add_comm]
    simp

/-- What the true bit costs more than the other one, at place `p`. -/
noncomputable def metricLoss {α : Type} (cost : α → Nat → ℝ) (pad : α) (r : List α) (c : List Nat) (p : Nat) : ℝ :=
  cost (r.getD p pad) (c.getD p 0) - cost (r.getD p pad) (1 - c.getD p 0)

theorem seqCost_xor {α : Type} (cost : α → Nat → ℝ) (pad : α) {r : List α} {c v : List Nat} (h1 : r.length = c.length) (h2 : v.length = c.length) (hc : ∀ b ∈ c, b < 2)
    (hv : ∀ b ∈ v, b < 2) :
    seqCost cost r (bitXor c v) = seqCost cost r c - ∑ j ∈ (range v.length).filter (fun j => v.getD j 0 = 1), metricLoss cost pad r c j := by
  have hl : (bitXor c v).length = c.length := by unfold bitXor; rw [List.length_zipWith, h2, min_self]
  rw [seqCost_sum cost pad r _ (by rw [h1, hl]), seqCost_sum cost pad r c h1, hl, h2, sum_filter, ← sum_sub_distrib]
  apply sum_congr rfl
  intro j hj
  rw [mem_range] at hj
  have e : (bitXor c v).getD j 0 = (c.getD j 0 + v.getD j 0) % 2 := by
    rw [List.getD_eq_getElem _ _ (by rw [hl]; exact hj), List.getD_eq_getElem _ _ hj, List.getD_eq_getElem _ _ (by rw [h2]; exact hj)]
    unfold bitXor
    rw [List.getElem_zipWith]
  have hcj : c.getD j 0 < 2 := hc _ (by rw [List.getD_eq_getElem _ _ hj]; exact List.getElem_mem _)
  have hvj : v.getD j 0 < 2 := hv _ (by rw [List.getD_eq_getElem _ _ (by rw [h2]; exact hj)]; exact List.getElem_mem _)
  rw [e]
  by_cases hv1 : v.getD j 0 = 1
  · rw [if_pos hv1, hv1]
    unfold metricLoss
    have : (c.getD j 0 + 1) % 2 = 1 - c.getD j 0 := by omega
    rw [this]; ring
  · rw [if_neg hv1]
    have : (c.getD j 0 + v.getD j 0) % 2 = c.getD j 0 := by omega
    rw [this]; ring

/-- The places of the code sequence that an error event starting at step `a` changes. -/
def eventPlaces (t : Trellis) (a : Nat) (v : List Nat) : Finset Nat :=
  ((range (t.runOut 0 v).length).filter fun j => (t.runOut 0 v).getD j 0 = 1).image (a * t.n + ·)

theorem sum_eq_card_ones : ∀ {v : List Nat}, (∀ b ∈ v, b < 2) → v.sum = ((range v.length).filter fun j => v.getD j 0 = 1).card
  | [], _ => by simp
  | b :: v, h => by
    have ih := sum_eq_card_ones (v := v) (fun x hx => h x (List.mem_cons_of_mem _ hx))
    have hb := h b List.mem_cons_self
    rw [card_filter] at ih ⊢
    rw [List.sum_cons, List.length_cons, sum_range_succ', ih, add_comm]
    simp only [List.getD_cons_succ, List.getD_cons_zero]
    congr 1
    split <;> omega

theorem eventPlaces_card (t : Trellis) (a : Nat) (v : List Nat) : (eventPlaces t a v).card = codeWeight t v := by
  unfold eventPlaces codeWeight
  rw [card_image_of_injective _ (add_right_injective _), sum_eq_card_ones (t.runOut_lt_two _ _)]

theorem stepSeg_getD {β : Type} (n a b : Nat) (x : List β) (d : β) {j : Nat} (hj : j < (b - a) * n) : (stepSeg n a b x).getD j d = x.getD (a * n + j) d := by
  unfold stepSeg
  rw [List.getD_eq_getElem?_getD, List.getD_eq_getElem?_getD, List.getElem?_take_of_lt hj, List.getElem?_drop]

/-- Where the decoder is wrong, the losses of some error event around the wrong group add up to a non-negative number. -/
theorem viterbi_error_loss {R α : Type} [LinearOrder R] [AddCommMonoid R] [IsOrderedCancelAddMonoid R] {t : Trellis} (h : t.Balanced) (hlin : t.Linear)
    {bm : List α → List Nat → Py R} {P : α → Prop}
    {cost : α → Nat → R} (hbm : IsSampleMetric bm P cost) (φ : R →+ ℝ) (hφ : Monotone φ) {pad : α} (hp : P pad) (inPlace : Bool) (jk : VitJunk R)
    {N tb : Nat} {coded : List α} (hl : coded.length = N * t.n) (hc : ∀ x ∈ coded, P x) (htb : 2 ≤ tb)
    (htb2 : tb ≤ N + t.M / t.k) (hB : t.k = 1 ∨ (t.M / t.k - 1) * t.k ≤ tb) {w : List Nat}
    (hw : IsInput t N w) :
    ∃ (dg : Nat → Nat) (coded' : List α), viterbi t bm (some pad) inPlace jk (N * t.k) tb coded = .ok ((List.range N).flatMap fun i => toBits t.k (dg i), coded') ∧
      ∀ i < N, dg i ≠ w.getD i 0 → ∃ a b v, a ≤ i ∧ i < b ∧ b ≤ N + t.M / t.k - 1 ∧ Leaves t (b - a) v ∧
        v.getD (i - a) 0 = dg i ^^^ w.getD i 0 ∧ (t.runState 0 v = 0 ∨ b + 1 = i + tb ∨ b = N + t.M / t.k - 1) ∧
        (∀ p ∈ eventPlaces t a v, p < b * t.n) ∧
        0 ≤ ∑ p ∈ eventPlaces t a v, metricLoss (fun x b => φ (cost x b)) pad (paddedRx t pad coded) (t.runOut 0 (w ++ List.replicate (t.M / t.k - 1) 0)) p := by
  have hq := h.one_le
  obtain ⟨dg, coded', hv, H⟩ := viterbi_error_event h hlin hbm hp inPlace jk hl hc htb htb2 hB hw
  refine ⟨dg, coded', hv, ?_⟩
  intro i hi hne
  obtain ⟨a, b, v, hai, hib, hbT, hleaves, hvi, hcase, hcost⟩ := H i hi hne
  set c' := t.runOut 0 (w ++ List.replicate (t.M / t.k - 1) 0) with hc'
  have hbn : b * t.n ≤ (N + t.M / t.k - 1) * t.n := Nat.mul_le_mul_right _ hbT
  have hpl : (paddedRx t pad coded).length = (N + t.M / t.k - 1) * t.n := by
    rw [paddedRx, List.length_append, hl, List.length_replicate, ← Nat.add_mul]; congr 1; omega
  have hcl : c'.length = (N + t.M / t.k - 1) * t.n := by
    rw [hc', Trellis.runOut_length, List.length_append, hw.1, List.length_replicate]; congr 1; omega
  have hcb : ∀ x ∈ c', x < 2 := t.runOut_lt_two _ _
  have l1 : (stepSeg t.n a b (paddedRx t pad coded)).length = (b - a) * t.n := stepSeg_length (by omega) (by rw [hpl]; exact hbn)
  have l2 : (stepSeg t.n a b c').length = (b - a) * t.n := stepSeg_length (by omega) (by rw [hcl]; exact hbn)
  have l3 : (t.runOut 0 v).length = (b - a) * t.n := by rw [Trellis.runOut_length, hleaves.input.1]
  have hcast : ∀ (r : List α) (c : List Nat), φ (seqCost cost r c) = seqCost (fun x b => φ (cost x b)) r c := by
    intro r c
    unfold seqCost
    rw [map_list_sum, List.map_zipWith]
  have hle := hφ hcost
  have hsegb : ∀ x ∈ stepSeg t.n a b c', x < 2 := fun x hx => hcb x (List.mem_of_mem_drop (List.mem_of_mem_take hx))
  rw [hcast, hcast, seqCost_xor _ pad (by rw [l1, l2]) (by rw [l3, l2]) hsegb (t.runOut_lt_two _ _)] at hle
  have hbeq : a * t.n + (b - a) * t.n = b * t.n := by rw [← Nat.add_mul]; congr 1; omega
  refine ⟨a, b, v, hai, hib, hbT, hleaves, hvi, hcase, ?_, ?_⟩
  · intro p hpm
    unfold eventPlaces at hpm
    obtain ⟨j, hj, rfl⟩ := mem_image.1 hpm
    rw [mem_filter, mem_range, l3] at hj
    omega
  · have e : ∑ p ∈ eventPlaces t a v, metricLoss (fun x b => φ (cost x b)) pad (paddedRx t pad coded) c' p =
        ∑ j ∈ (range (t.runOut 0 v).length).filter (fun j => (t.runOut 0 v).getD j 0 = 1),
          metricLoss (fun x b => φ (cost x b)) pad (stepSeg t.n a b (paddedRx t pad coded)) (stepSeg t.n a b c') j := by
      unfold eventPlaces
      rw [sum_image (fun _ _ _ _ h => by simpa using h)]
      apply sum_congr rfl
      intro j hj
      rw [mem_filter, mem_range, l3] at hj
      unfold metricLoss
      rw [stepSeg_getD _ _ _ _ _ hj.1, stepSeg_getD _ _ _ _ _ hj.1]
    rw [e]
    linarith

section
variable {Ω : Type*} [MeasurableSpace Ω] {μ : Measure Ω} [IsFiniteMeasure μ]

/-- Every code sequence at distance `d` is preferred with probability at most `q d`. -/
def PairwiseBound (μ : Measure Ω) (loss : Ω → Nat → ℝ) (q : Nat → ℝ) : Prop :=
  ∀ D : Finset Nat, D.Nonempty → μ.real {ω | 0 ≤ ∑ p ∈ D, loss ω p} ≤ q D.card

theorem codeWeight_pos {t : Trellis} (hw : t.WF) (hne : ∀ u < 2 ^ t.k, u ≠ 0 → t.out 0 u ≠ 0) {ℓ : Nat} {v : List Nat} (hv : Leaves t ℓ v) : 0 < codeWeight t v := by
  obtain ⟨⟨-, hin⟩, hf, -⟩ := hv
  cases v with
  | nil => simp at hf
  | cons u v =>
    have hu : u ≠ 0 := by simpa using hf
    have hul : u < 2 ^ t.k := hin u List.mem_cons_self
    unfold codeWeight
    rw [Trellis.runOut, List.sum_append]
    have : 0 < (toBits t.n (t.out 0 u)).sum := by
      by_contra hcon
      apply hne u hul hu
      apply toBits_inj (w := t.n) (hw.out_lt (Nat.two_pow_pos _) hul) (Nat.two_pow_pos _)
      rw [toBits_of_zero, List.eq_replicate_iff]
      refine ⟨toBits_length _ _, fun b hb => ?_⟩
      have := List.le_sum_of_mem hb
      omega
    omega

theorem eventPlaces_lt {t : Trellis} {a ℓ : Nat} {v : List Nat} (hv : Leaves t ℓ v) {p : Nat} (hp : p ∈ eventPlaces t a v) : p < (a + ℓ) * t.n := by
  unfold eventPlaces at hp
  obtain ⟨j, hj, rfl⟩ := mem_image.1 hp
  rw [mem_filter, mem_range, Trellis.runOut_length, hv.input.1] at hj
  rw [Nat.add_mul]
  omega

/-- Every wrong group of the result `dg` shows an error event with total loss at least `c` (0 for exact arithmetic), within the first `T` steps. -/
def ShowsEvents (t : Trellis) (T tb N : Nat) (w : List Nat) (dg : Nat → Nat) (L : Nat → ℝ) (c : ℝ := 0) : Prop :=
  ∀ i < N, dg i ≠ w.getD i 0 → ∃ a b v, a ≤ i ∧ i < b ∧ b ≤ T ∧ Leaves t (b - a) v ∧
    v.getD (i - a) 0 = dg i ^^^ w.getD i 0 ∧ (t.runState 0 v = 0 ∨ b + 1 = i + tb ∨ b = T) ∧ (∀ p ∈ eventPlaces t a v, p < b * t.n) ∧ c ≤ ∑ p ∈ eventPlaces t a v, L p

/-- The pairwise error probability of code sequences that differ in a set of places among the first `B`, bounded by a function of the set. -/
def PairwiseSetBound (μ : Measure Ω) (loss : Ω → Nat → ℝ) (q : Finset Nat → ℝ) (B : Nat) (c : ℝ := 0) : Prop :=
  ∀ D : Finset Nat, D.Nonempty → (∀ p ∈ D, p < B) → μ.real {ω | c ≤ ∑ p ∈ D, loss ω p} ≤ q D

open Classical in
/-- The union bound for the first `K` groups. -/
theorem groups_of_sets {α : Type} {t : Trellis} (h : t.Balanced) (hne : ∀ u < 2 ^ t.k, u ≠ 0 → t.out 0 u ≠ 0) {T tb N : Nat} (hNT : N ≤ T) {w : List Nat} (hw : IsInput t N w)
    {res : Ω → Py (List Nat × List α)} {L : Ω → Nat → ℝ} {c : ℝ}
    (hres : ∀ ω, ∃ (dg : Nat → Nat) (coded' : List α), res ω = .ok ((List.range N).flatMap fun i => toBits t.k (dg i), coded') ∧ ShowsEvents t T tb N w dg (L ω) c) {q : Finset Nat → ℝ}
    (hpair : PairwiseSetBound μ L q (T * t.n) c) {K : Nat} (hK : K ≤ N) :
    μ.real {ω | ¬ ∃ d coded', res ω = .ok (d, coded') ∧ d.length = N * t.k ∧
      d.take (K * t.k) = (w.take K).flatMap (toBits t.k)} ≤ ∑ a ∈ range K, ∑ ℓ ∈ range (T - a + 1),
        ∑ v ∈ (errorEvents t ℓ).filter (fun v => t.runState 0 v = 0 ∨ tb ≤ ℓ + 1 ∨ a + ℓ = T), q (eventPlaces t a v) := by
  refine le_trans (measureReal_mono (s₂ := ⋃ a ∈ range K, ⋃ ℓ ∈ range (T - a + 1),
    ⋃ v ∈ (errorEvents t ℓ).filter (fun v => t.runState 0 v = 0 ∨ tb ≤ ℓ + 1 ∨ a + ℓ = T), {ω | c ≤ ∑ p ∈ eventPlaces t a v, L ω p}) ?_ (measure_ne_top _ _)) ?_
  · intro ω hω
    obtain ⟨dg, coded', hv, H⟩ := hres ω
    by_contra hcon
    apply hω
    refine ⟨_, coded', hv, by rw [List.length_flatMap]; simp, ?_⟩
    rw [take_flatMap_toBits _ hK, take_eq_map_getD (by rw [hw.1]; omega), List.flatMap_map]
    apply List.flatMap_congr
    intro i hi
    rw [List.mem_range] at hi
    congr 1
    by_contra hi'
    obtain ⟨a, b, v, hai, hib, hbT, hleaves, -, hcase, -, hloss⟩ := H i (by omega) hi'
    apply hcon
    simp only [Set.mem_iUnion]
    refine ⟨a, mem_range.2 (by omega), b - a, mem_range.2 (by omega), v, mem_filter.2 ⟨mem_errorEvents.2 hleaves, ?_⟩, hloss⟩
    rcases hcase with e | e | e
    · exact Or.inl e
    · right; left; omega
    · right; right; omega
  · refine le_trans (measureReal_biUnion_finset_le _ _) (sum_le_sum fun a ha => ?_)
    refine le_trans (measureReal_biUnion_finset_le _ _) (sum_le_sum fun ℓ hℓ => ?_)
    refine le_trans (measureReal_biUnion_finset_le _ _) (sum_le_sum fun v hv => ?_)
    rw [mem_range] at ha hℓ
    refine hpair _ ?_ ?_
    · rw [← card_pos, eventPlaces_card]
      exact codeWeight_pos h.wf hne (mem_errorEvents.1 (mem_filter.1 hv).1)
    · intro p hpm
      exact lt_of_lt_of_le (eventPlaces_lt (mem_errorEvents.1 (mem_filter.1 hv).1) hpm) (Nat.mul_le_mul_right _ (by omega))

open Classical in
/-- The union bound for one bit. -/
theorem bit_of_sets {α : Type} {t : Trellis} (h : t.Balanced) (hne : ∀ u < 2 ^ t.k, u ≠ 0 → t.out 0 u ≠ 0) {T tb N : Nat} (hNT : N ≤ T) {w : List Nat} (hw : IsInput t N w)
    {res : Ω → Py (List Nat × List α)} {L : Ω → Nat → ℝ} {c : ℝ}
    (hres : ∀ ω, ∃ (dg : Nat → Nat) (coded' : List α), res ω = .ok ((List.range N).flatMap fun i => toBits t.k (dg i), coded') ∧ ShowsEvents t T tb N w dg (L ω) c) {q : Finset Nat → ℝ}
    (hpair : PairwiseSetBound μ L q (T * t.n) c) {i β : Nat} (hi : i < N) (hβ : β < t.k) :
    μ.real {ω | ¬ ∃ d coded', res ω = .ok (d, coded') ∧ d.length = N * t.k ∧
      d.getD (i * t.k + β) 0 = (w.flatMap (toBits t.k)).getD (i * t.k + β) 0} ≤ ∑ a ∈ range (i + 1), ∑ ℓ ∈ range (T - a + 1),
        ∑ v ∈ (errorEvents t ℓ).filter (fun v => i < a + ℓ ∧ (toBits t.k (v.getD (i - a) 0)).getD β 0 = 1 ∧
          (t.runState 0 v = 0 ∨ a + ℓ + 1 = i + tb ∨ a + ℓ = T)), q (eventPlaces t a v) := by
  refine le_trans (measureReal_mono (s₂ := ⋃ a ∈ range (i + 1), ⋃ ℓ ∈ range (T - a + 1),
    ⋃ v ∈ (errorEvents t ℓ).filter (fun v => i < a + ℓ ∧ (toBits t.k (v.getD (i - a) 0)).getD β 0 = 1 ∧
      (t.runState 0 v = 0 ∨ a + ℓ + 1 = i + tb ∨ a + ℓ = T)), {ω | c ≤ ∑ p ∈ eventPlaces t a v, L ω p}) ?_ (measure_ne_top _ _)) ?_
  · intro ω hω
    obtain ⟨dg, coded', hv, H⟩ := hres ω
    by_contra hcon
    apply hω
    refine ⟨_, coded', hv, by rw [List.length_flatMap]; simp, ?_⟩
    have hbit : ∀ (f : Nat → Nat), ((List.range N).flatMap fun i => toBits t.k (f i)).getD (i * t.k + β) 0 = (toBits t.k (f i)).getD β 0 := by
      intro f
      have e1 := take_flatMap_toBits (k := t.k) f (show i + 1 ≤ N by omega)
      rw [List.range_succ, List.flatMap_append] at e1
      have hlen : ((List.range i).flatMap fun i => toBits t.k (f i)).length = i * t.k := by rw [List.length_flatMap]; simp
      rw [List.getD_eq_getElem?_getD, ← List.getElem?_take_of_lt (j := (i + 1) * t.k) (by rw [Nat.succ_mul]; omega), e1, List.getElem?_append_right (by omega), hlen,
        Nat.add_sub_cancel_left]
      simp
    have hwm : w.flatMap (toBits t.k) = (List.range N).flatMap fun i => toBits t.k (w.getD i 0) := by
      conv_lhs => rw [← List.take_of_length_le (l := w) (i := N) (by rw [hw.1])]
      rw [take_eq_map_getD (by rw [hw.1]), List.flatMap_map]
    rw [hwm, hbit, hbit]
    by_contra hi'
    obtain ⟨a, b, v, hai, hib, hbT, hleaves, hvi, hcase, -, hloss⟩ := H i hi (fun e => hi' (by rw [e]))
    apply hcon
    simp only [Set.mem_iUnion]
    refine ⟨a, mem_range.2 (by omega), b - a, mem_range.2 (by omega), v, mem_filter.2 ⟨mem_errorEvents.2 hleaves, by omega, ?_, ?_⟩, hloss⟩
    · rw [hvi]
      rw [toBits_getD_testBit hβ, toBits_getD_testBit hβ] at hi'
      rw [toBits_getD_testBit hβ, Nat.testBit_xor]
      revert hi'
      cases (dg i).testBit (t.k - 1 - β) <;> cases (w.getD i 0).testBit (t.k - 1 - β) <;> simp
    · rcases hcase with e | e | e
      · exact Or.inl e
      · right; left; omega
      · right; right; omega
  · refine le_trans (measureReal_biUnion_finset_le _ _) (sum_le_sum fun a ha => ?_)
    refine le_trans (measureReal_biUnion_finset_le _ _) (sum_le_sum fun ℓ hℓ => ?_)
    refine le_trans (measureReal_biUnion_finset_le _ _) (sum_le_sum fun v hv => ?_)
    rw [mem_range] at ha hℓ
    refine hpair _ ?_ ?_
    · rw [← card_pos, eventPlaces_card]
      exact codeWeight_pos h.wf hne (mem_errorEvents.1 (mem_filter.1 hv).1)
    · intro p hpm
      exact lt_of_lt_of_le (eventPlaces_lt (mem_errorEvents.1 (mem_filter.1 hv).1) hpm) (Nat.mul_le_mul_right _ (by omega))


/-- `PairwiseBound` for code sequences that differ in the first `B` places only. -/
def PairwiseBoundOn (μ : Measure Ω) (loss : Ω → Nat → ℝ) (q : Nat → ℝ) (B : Nat) : Prop :=
  ∀ D : Finset Nat, D.Nonempty → (∀ p ∈ D, p < B) → μ.real {ω | 0 ≤ ∑ p ∈ D, loss ω p} ≤ q D.card

/-- The union bound for the first `K` groups. -/
theorem groups_of_events {α : Type} {t : Trellis} (h : t.Balanced) (hne : ∀ u < 2 ^ t.k, u ≠ 0 → t.out 0 u ≠ 0) {T tb N : Nat} (hNT : N ≤ T) {w : List Nat} (hw : IsInput t N w)
    {res : Ω → Py (List Nat × List α)} {L : Ω → Nat → ℝ}
    (hres : ∀ ω, ∃ (dg : Nat → Nat) (coded' : List α), res ω = .ok ((List.range N).flatMap fun i => toBits t.k (dg i), coded') ∧ ShowsEvents t T tb N w dg (L ω)) {q : Nat → ℝ}
    (hpair : PairwiseBoundOn μ L q (T * t.n)) {K : Nat} (hK : K ≤ N) :
    μ.real {ω | ¬ ∃ d coded', res ω = .ok (d, coded') ∧ d.length = N * t.k ∧
      d.take (K * t.k) = (w.take K).flatMap (toBits t.k)} ≤ unionBound t q T tb K := by
  have := groups_of_sets h hne hNT hw hres (q := fun D => q D.card) hpair hK
  simp only [eventPlaces_card] at this
  exact this

/-- The union bound for one bit. -/
theorem bit_of_events {α : Type} {t : Trellis} (h : t.Balanced) (hne : ∀ u < 2 ^ t.k, u ≠ 0 → t.out 0 u ≠ 0) {T tb N : Nat} (hNT : N ≤ T) {w : List Nat} (hw : IsInput t N w)
    {res : Ω → Py (List Nat × List α)} {L : Ω → Nat → ℝ}
    (hres : ∀ ω, ∃ (dg : Nat → Nat) (coded' : List α), res ω = .ok ((List.range N).flatMap fun i => toBits t.k (dg i), coded') ∧ ShowsEvents t T tb N w dg (L ω)) {q : Nat → ℝ}
    (hpair : PairwiseBoundOn μ L q (T * t.n)) {i β : Nat} (hi : i < N) (hβ : β < t.k) :
    μ.real {ω | ¬ ∃ d coded', res ω = .ok (d, coded') ∧ d.length = N * t.k ∧
      d.getD (i * t.k + β) 0 = (w.flatMap (toBits t.k)).getD (i * t.k + β) 0} ≤ bitBound t q T tb i β := by
  have := bit_of_sets h hne hNT hw hres (q := fun D => q D.card) hpair hi hβ
  simp only [eventPlaces_card] at this
  exact this

/-- The union bound for the first `K` groups. -/
theorem union_groups {R α : Type} [LinearOrder R] [AddCommMonoid R] [IsOrderedCancelAddMonoid R] {t : Trellis} (h : t.Balanced) (hlin : t.Linear)
    (hne : ∀ u < 2 ^ t.k, u ≠ 0 → t.out 0 u ≠ 0)
    {bm : List α → List Nat → Py R} {P : α → Prop}
    {cost : α → Nat → R} (hbm : IsSampleMetric bm P cost) (φ : R →+ ℝ) (hφ : Monotone φ) {pad : α} (hp : P pad) (inPlace : Bool) (jk : VitJunk R)
    {N tb : Nat} {rx : Ω → List α} (hl : ∀ ω, (rx ω).length = N * t.n) (hc : ∀ ω, ∀ x ∈ rx ω, P x) (htb : 2 ≤ tb)
    (htb2 : tb ≤ N + t.M / t.k) (hB : t.k = 1 ∨ (t.M / t.k - 1) * t.k ≤ tb) {w : List Nat}
    (hw : IsInput t N w) (hend : t.M / t.k ≤ 1 ∨ t.runState 0 w = 0) {q : Nat → ℝ}
    (hpair : PairwiseBound μ (fun ω => metricLoss (fun x b => φ (cost x b)) pad (paddedRx t pad (rx ω)) (t.runOut 0 w ++ List.replicate ((t.M / t.k - 1) * t.n) 0)) q)
    {K : Nat} (hK : K ≤ N) :
    μ.real {ω | ¬ ∃ d coded', viterbi t bm (some pad) inPlace jk (N * t.k) tb (rx ω) = .ok (d, coded') ∧ d.length = N * t.k ∧
      d.take (K * t.k) = (w.take K).flatMap (toBits t.k)} ≤ unionBound t q (N + t.M / t.k - 1) tb K := by
  have hq := h.one_le
  exact groups_of_events h hne (by omega) hw (fun ω => viterbi_error_loss h hlin hbm φ hφ hp inPlace jk (hl ω) (hc ω) htb htb2 hB hw) (by rw [runOut_pad hlin hend]; exact fun D hD _ => hpair D hD) hK

/-- The union bound for one bit. -/
theorem union_bit {R α : Type} [LinearOrder R] [AddCommMonoid R] [IsOrderedCancelAddMonoid R] {t : Trellis} (h : t.Balanced) (hlin : t.Linear)
    (hne : ∀ u < 2 ^ t.k, u ≠ 0 → t.out 0 u ≠ 0)
    {bm : List α → List Nat → Py R} {P : α → Prop}
    {cost : α → Nat → R} (hbm : IsSampleMetric bm P cost) (φ : R →+ ℝ) (hφ : Monotone φ) {pad : α} (hp : P pad) (inPlace : Bool) (jk : VitJunk R)
    {N tb : Nat} {rx : Ω → List α} (hl : ∀ ω, (rx ω).length = N * t.n) (hc : ∀ ω, ∀ x ∈ rx ω, P x) (htb : 2 ≤ tb)
    (htb2 : tb ≤ N + t.M / t.k) (hB : t.k = 1 ∨ (t.M / t.k - 1) * t.k ≤ tb) {w : List Nat}
    (hw : IsInput t N w) (hend : t.M / t.k ≤ 1 ∨ t.runState 0 w = 0) {q : Nat → ℝ}
    (hpair : PairwiseBound μ (fun ω => metricLoss (fun x b => φ (cost x b)) pad (paddedRx t pad (rx ω)) (t.runOut 0 w ++ List.replicate ((t.M / t.k - 1) * t.n) 0)) q)
    {i β : Nat} (hi : i < N) (hβ : β < t.k) :
    μ.real {ω | ¬ ∃ d coded', viterbi t bm (some pad) inPlace jk (N * t.k) tb (rx ω) = .ok (d, coded') ∧ d.length = N * t.k ∧
      d.getD (i * t.k + β) 0 = (w.flatMap (toBits t.k)).getD (i * t.k + β) 0} ≤ bitBound t q (N + t.M / t.k - 1) tb i β := by
  have hq := h.one_le
  exact bit_of_events h hne (by omega) hw (fun ω => viterbi_error_loss h hlin hbm φ hφ hp inPlace jk (hl ω) (hc ω) htb htb2 hB hw) (by rw [runOut_pad hlin hend]; exact fun D hD _ => hpair D hD) hi hβ

end
end Verif
