import Verif.Lemmas.ViterbiLocal
/-
C110: how many channel errors does `viterbi_decode` correct, with a finite traceback depth?
-/
namespace Verif

/-- Specification: `v` is a sequence of `ℓ` input groups that leaves state 0 at once and is not back in state 0 before its end.  (The
difference of two paths between two meeting points.) -/
structure Leaves (t : Trellis) (ℓ : Nat) (v : List Nat) : Prop where
  input : IsInput t ℓ v
  first : v.getD 0 0 ≠ 0
  away : ∀ j, 0 < j → j < ℓ → t.runState 0 (v.take j) ≠ 0

/-- The weight of the difference of two bit sequences is the number of places where they differ. -/
theorem sum_xor : ∀ {a b : List Nat}, a.length = b.length → (∀ x ∈ a, x < 2) → (∀ x ∈ b, x < 2) →
    (List.zipWith (fun x y => (x + y) % 2) a b).sum = diffCount a b
  | [], [], _, _, _ => by simp [diffCount]
  | x :: a, y :: b, h1, h2, h3 => by
    have hx := h2 x List.mem_cons_self
    have hy := h3 y List.mem_cons_self
    simp only [List.zipWith_cons_cons, List.sum_cons, diffCount]
    rw [sum_xor (by simpa using h1) (fun x h => h2 x (List.mem_cons_of_mem _ h)) (fun x h => h3 x (List.mem_cons_of_mem _ h))]
    congr 1
    by_cases e : x = y
    · rw [if_pos e]; omega
    · rw [if_neg e]; omega

theorem zipWith_take' (us vs : List Nat) (j : Nat) : (List.zipWith (· ^^^ ·) us vs).take j = List.zipWith (· ^^^ ·) (us.take j) (vs.take j) :=
  List.take_zipWith

/-- The difference between a path and `w` on a segment. -/
theorem leaves_xor {t : Trellis} (hw : t.WF) (hl : t.Linear) {T : Nat} {w : List Nat} (hwi : IsInput t T w) {a b : Nat} (hab : a < b) (hb : b ≤ T)
    {us : List Nat} (hu : IsInput t (b - a) us) (hne : us.getD 0 0 ≠ w.getD a 0)
    (haway : ∀ j, 0 < j → j < b - a → t.runState (t.runState 0 (w.take a)) (us.take j) ≠ t.runState 0 (w.take (a + j))) :
    Leaves t (b - a) (List.zipWith (· ^^^ ·) us ((w.take b).drop a)) ∧
    (t.runState 0 (List.zipWith (· ^^^ ·) us ((w.take b).drop a)) = 0 ↔
      t.runState (t.runState 0 (w.take a)) us = t.runState 0 (w.take b)) ∧
    (t.runOut 0 (List.zipWith (· ^^^ ·) us ((w.take b).drop a))).sum =
      diffCount (t.runOut (t.runState 0 (w.take a)) us) (stepSeg t.n a b (t.runOut 0 w)) := by
  set S := t.runState 0 (w.take a) with hS
  have hS' : S < 2 ^ t.M := hw.runState_lt (Nat.two_pow_pos _) (fun u h => hwi.2 u (List.mem_of_mem_take h))
  have hsl : ((w.take b).drop a).length = b - a := by rw [List.length_drop, List.length_take, hwi.1]; omega
  have hsin : IsInput t (b - a) ((w.take b).drop a) := ⟨hsl, fun u h => hwi.2 u (List.mem_of_mem_take (List.mem_of_mem_drop h))⟩
  have hpre : ∀ j ≤ b - a, t.runState S (((w.take b).drop a).take j) = t.runState 0 (w.take (a + j)) := by
    intro j hj
    rw [hS, ← Trellis.runState_append, List.take_drop, List.take_take, min_eq_left (by omega)]
    congr 1
    conv_rhs => rw [← List.take_append_drop a (w.take (a + j))]
    rw [List.take_take, min_eq_left (by omega)]
  have hrun : ∀ j ≤ b - a, t.runState 0 ((List.zipWith (· ^^^ ·) us ((w.take b).drop a)).take j) =
      t.runState S (us.take j) ^^^ t.runState 0 (w.take (a + j)) := by
    intro j hj
    have := (Trellis.Linear.run hw hl (us.take j) (((w.take b).drop a).take j) S S
      (by rw [List.length_take, List.length_take, hu.1, hsl]) hS' hS' (fun u h => hu.2 u (List.mem_of_mem_take h))
      (fun u h => hsin.2 u (List.mem_of_mem_take h))).1
    rw [Nat.xor_self, hpre j hj] at this
    rw [zipWith_take', this]
  have hzl : (List.zipWith (· ^^^ ·) us ((w.take b).drop a)).length = b - a := by rw [List.length_zipWith, hu.1, hsl, min_self]
  refine ⟨⟨hu.xor hsin, ?_, ?_⟩, ?_, ?_⟩
  · rw [List.getD_eq_getElem _ _ (by rw [hzl]; omega), List.getElem_zipWith]
    intro e
    apply hne
    rw [List.getD_eq_getElem _ _ (by rw [hu.1]; omega), List.getD_eq_getElem _ _ (by rw [hwi.1]; omega), Nat.xor_eq_zero_iff.1 e,
      List.getElem_drop, List.getElem_take]
    simp
  · intro j h1 h2
    rw [hrun j (by omega)]
    intro e
    exact haway j h1 h2 (Nat.xor_eq_zero_iff.1 e)
  · have := hrun (b - a) (le_refl _)
    have e1 : (List.zipWith (· ^^^ ·) us ((w.take b).drop a)).take (b - a) = List.zipWith (· ^^^ ·) us ((w.take b).drop a) :=
      List.take_of_length_le (by rw [hzl])
    have e2 : us.take (b - a) = us := List.take_of_length_le (by rw [hu.1])
    rw [e1, e2, show a + (b - a) = b by omega] at this
    rw [this, Nat.xor_eq_zero_iff]
  · have := (Trellis.Linear.run hw hl us ((w.take b).drop a) S S (by rw [hu.1, hsl]) hS' hS' hu.2 hsin.2).2
    rw [Nat.xor_self] at this
    rw [this, sum_xor (by rw [Trellis.runOut_length, Trellis.runOut_length, hu.1, hsl]) (t.runOut_lt_two _ _) (t.runOut_lt_two _ _),
      hS, runOut_seg t w (by omega) (by rw [hwi.1]; exact hb)]

theorem diffCount_self (c : List Nat) : diffCount c c = 0 := toBits_seq_zero

theorem stepSeg_append_cost {R α : Type} [AddCommMonoid R] {cost : α → Nat → R} {pad : α} (hp : cost pad 0 = 0) {n a b m : Nat}
    {x : List α} {y : List Nat} (h : x.length = y.length) :
    seqCost cost (stepSeg n a b (x ++ List.replicate m pad)) (stepSeg n a b (y ++ List.replicate m 0)) =
      seqCost cost (stepSeg n a b x) (stepSeg n a b y) := by
  unfold stepSeg
  rw [List.drop_append, List.drop_append, List.take_append, List.take_append, h,
    seqCost_append (by rw [List.length_take, List.length_take, List.length_drop, List.length_drop, h]),
    List.length_drop, List.length_drop, h, List.drop_replicate, List.drop_replicate, List.take_replicate, List.take_replicate]
  have : ∀ p, seqCost cost (List.replicate p pad) (List.replicate p 0) = 0 := by
    intro p
    induction p with
    | zero => rfl
    | succ p ih =>
      rw [List.replicate_succ, List.replicate_succ]
      unfold seqCost at ih ⊢
      rw [List.zipWith_cons_cons, List.sum_cons, ih, hp, add_zero]
  rw [this, add_zero]

/-- Error correction for any sample metric.  `κ` is such that two bit sequences that differ in `m` places cost together at least
`m κ`.  See `C110_local`. -/
theorem viterbi_corrects {R α : Type} [LinearOrder R] [AddCommMonoid R] [IsOrderedCancelAddMonoid R] {t : Trellis} (h : t.Balanced)
    (hl : t.Linear) {bm : List α → List Nat → Py R} {P : α → Prop} {cost : α → Nat → R} (hbm : IsSampleMetric bm P cost)
    {κ : R} (hκ : ∀ r c c', r.length = c.length → c.length = c'.length → (∀ x ∈ r, P x) → (∀ x ∈ c, x < 2) → (∀ x ∈ c', x < 2) →
      diffCount c c' • κ ≤ seqCost cost r c + seqCost cost r c')
    {pad : α} (hp : P pad) (hp0 : cost pad 0 = 0) (inPlace : Bool) (jk : VitJunk R) {N tb : Nat} (htb : 2 ≤ tb)
    (htb2 : tb ≤ N + t.M / t.k) (hB : t.k = 1 ∨ (t.M / t.k - 1) * t.k ≤ tb) {w : List Nat} {rx : List α} (hw : IsInput t N w)
    (hend : t.M / t.k ≤ 1 ∨ t.runState 0 w = 0) (hrx : rx.length = N * t.n) (hrb : ∀ x ∈ rx, P x) {K : Nat} (hK : K ≤ N)
    (hmerge : ∀ a b v, a < K → a < b → b ≤ N + t.M / t.k - 1 → Leaves t (b - a) v →
      (t.runState 0 v = 0 ∨ a + tb ≤ b + 1) →
      2 • seqCost cost (stepSeg t.n a b rx) (stepSeg t.n a b (t.runOut 0 w)) < (t.runOut 0 v).sum • κ)
    (hlast : ∀ a v, a < K → Leaves t (N + t.M / t.k - 1 - a) v → t.runState 0 v ≠ 0 →
      2 • seqCost cost (stepSeg t.n a (N + t.M / t.k - 1) rx) (stepSeg t.n a (N + t.M / t.k - 1) (t.runOut 0 w)) < (t.runOut 0 v).sum • κ ∨
      t.runState 0 w = 0 ∧ 2 • seqCost cost (stepSeg t.n a (N + t.M / t.k - 1) rx)
        (stepSeg t.n a (N + t.M / t.k - 1) (t.runOut 0 w)) ≤ (t.runOut 0 v).sum • κ) :
    ∃ d coded', viterbi t bm (some pad) inPlace jk (N * t.k) tb rx = .ok (d, coded') ∧ d.length = N * t.k ∧
      d.take (K * t.k) = (w.take K).flatMap (toBits t.k) := by
  have hq := h.one_le
  obtain ⟨h0, h1⟩ := hl.zero
  set w' := w ++ List.replicate (t.M / t.k - 1) 0 with hw'
  have hw'in : IsInput t (N + t.M / t.k - 1) w' := by
    refine ⟨by rw [hw', List.length_append, hw.1, List.length_replicate]; omega, ?_⟩
    intro u hu
    rw [hw', List.mem_append] at hu
    rcases hu with hu | hu
    · exact hw.2 u hu
    · rw [List.eq_of_mem_replicate hu]; exact Nat.two_pow_pos _
  have hout : t.runOut 0 w' = t.runOut 0 w ++ List.replicate ((t.M / t.k - 1) * t.n) 0 := by
    rw [hw', Trellis.runOut_append]
    congr 1
    rcases hend with e | e
    · have : t.M / t.k - 1 = 0 := by omega
      rw [this]; simp [Trellis.runOut]
    · rw [e, runOut_zeros h0 h1]
  have hstate : t.runState 0 w = 0 → t.runState 0 w' = 0 := by
    intro e; rw [hw', Trellis.runState_append, e, runState_zeros h0]
  have hwl : (t.runOut 0 w).length = N * t.n := by rw [Trellis.runOut_length, hw.1]
  have hpl : (paddedRx t pad rx).length = (N + t.M / t.k - 1) * t.n := by
    rw [paddedRx, List.length_append, hrx, List.length_replicate, ← Nat.add_mul]; congr 1; omega
  have hpm : ∀ x ∈ paddedRx t pad rx, P x := by
    intro x hx
    rw [paddedRx, List.mem_append] at hx
    rcases hx with hx | hx
    · exact hrb x hx
    · rw [List.eq_of_mem_replicate hx]; exact hp
  have hseg : ∀ a b, seqCost cost (stepSeg t.n a b (paddedRx t pad rx)) (stepSeg t.n a b (t.runOut 0 w')) =
      seqCost cost (stepSeg t.n a b rx) (stepSeg t.n a b (t.runOut 0 w)) := by
    intro a b
    rw [hout]
    exact stepSeg_append_cost hp0 (by rw [hrx, hwl])
  have htake : w'.take K = w.take K := by
    rw [hw', List.take_append_of_le_length (by rw [hw.1]; exact hK)]
  rw [← htake]
  refine viterbi_local h hbm hp inPlace jk hrx hrb htb htb2 hB hw'in hK ?_
  intro a b us haK hab hbT hus hne haway hcase
  obtain ⟨hleaves, hzero, hsum⟩ := leaves_xor h.wf hl hw'in hab hbT hus hne haway
  set v := List.zipWith (· ^^^ ·) us ((w'.take b).drop a) with hv
  have hbn : b * t.n ≤ (N + t.M / t.k - 1) * t.n := Nat.mul_le_mul_right _ hbT
  have l1 : (stepSeg t.n a b (paddedRx t pad rx)).length = (b - a) * t.n := stepSeg_length (by omega) (by rw [hpl]; exact hbn)
  have l2 : (stepSeg t.n a b (t.runOut 0 w')).length = (b - a) * t.n :=
    stepSeg_length (by omega) (by rw [Trellis.runOut_length, hw'in.1]; exact hbn)
  have l3 : (t.runOut (t.runState 0 (w'.take a)) us).length = (b - a) * t.n := by rw [Trellis.runOut_length, hus.1]
  have htri := hκ (stepSeg t.n a b (paddedRx t pad rx)) (t.runOut (t.runState 0 (w'.take a)) us) (stepSeg t.n a b (t.runOut 0 w'))
    (by rw [l1, l3]) (by rw [l2, l3]) (fun x hx => hpm x (List.mem_of_mem_drop (List.mem_of_mem_take hx))) (t.runOut_lt_two _ _)
    (fun x hx => t.runOut_lt_two _ _ x (List.mem_of_mem_drop (List.mem_of_mem_take hx)))
  rw [← hsum, hseg] at htri
  rw [hseg]
  by_cases hz : t.runState 0 v = 0 ∨ a + tb ≤ b + 1
  · have := lt_of_lt_of_le (hmerge a b v haK hab hbT hleaves hz) htri
    rw [two_nsmul] at this
    exact Or.inl (lt_of_add_lt_add_right this)
  · have hbT' : b = N + t.M / t.k - 1 := by
      rcases hcase with e | e | e
      · exact absurd (Or.inl (hzero.2 e)) hz
      · exact absurd (Or.inr e) hz
      · exact e
    have hz0 : t.runState 0 v ≠ 0 := fun e => hz (Or.inl e)
    have hlv := hleaves
    rw [hbT'] at hlv
    have := hlast a v haK hlv hz0
    rw [← hbT'] at this
    rcases this with e | ⟨e1, e2⟩
    · have := lt_of_lt_of_le e htri
      rw [two_nsmul] at this
      exact Or.inl (lt_of_add_lt_add_right this)
    · have := le_trans e2 htri
      rw [two_nsmul] at this
      exact Or.inr ⟨hbT', hstate e1, fun e => hz0 (hzero.2 e), le_of_add_le_add_right this⟩

/-- C110, hard decisions, error patterns of any weight.  `w` is the input of the encoder in groups (with its termination); the
encoder ends in state 0 unless the decoder uses no padding.  Let `E a b` be the number of channel errors in the steps `a`, …, `b - 1`.  Suppose
`2 E a b` is less than the code weight of every difference of `b - a` steps that leaves state 0 in step `a < K` and returns to it
for the first time after step `b - 1`, or has not returned after at least `tb - 1` steps, or has not returned at the end of the trellis
(in that case equality is allowed if the encoder ends in state 0).  Then the first `K` groups are decoded correctly. -/
theorem C110_local {t : Trellis} (h : t.Balanced) (hl : t.Linear) (jk : VitJunk Nat) {N tb : Nat} (htb : 2 ≤ tb)
    (htb2 : tb ≤ N + t.M / t.k) (hB : t.k = 1 ∨ (t.M / t.k - 1) * t.k ≤ tb) {w rx : List Nat} (hw : IsInput t N w)
    (hend : t.M / t.k ≤ 1 ∨ t.runState 0 w = 0) (hrx : rx.length = N * t.n) (hrb : ∀ x ∈ rx, x < 2) {K : Nat} (hK : K ≤ N)
    (hmerge : ∀ a b v, a < K → a < b → b ≤ N + t.M / t.k - 1 → Leaves t (b - a) v →
      (t.runState 0 v = 0 ∨ a + tb ≤ b + 1) →
      2 * diffCount (stepSeg t.n a b rx) (stepSeg t.n a b (t.runOut 0 w)) < (t.runOut 0 v).sum)
    (hlast : ∀ a v, a < K → Leaves t (N + t.M / t.k - 1 - a) v → t.runState 0 v ≠ 0 →
      2 * diffCount (stepSeg t.n a (N + t.M / t.k - 1) rx) (stepSeg t.n a (N + t.M / t.k - 1) (t.runOut 0 w)) < (t.runOut 0 v).sum ∨
      t.runState 0 w = 0 ∧ 2 * diffCount (stepSeg t.n a (N + t.M / t.k - 1) rx)
        (stepSeg t.n a (N + t.M / t.k - 1) (t.runOut 0 w)) = (t.runOut 0 v).sum) :
    ∃ d coded', viterbiHard t jk (N * t.k) tb rx = .ok (d, coded') ∧ d.length = N * t.k ∧
      d.take (K * t.k) = (w.take K).flatMap (toBits t.k) := by
  have hcost : ∀ a b, seqCost (fun x b => if x = b then 0 else 1) (stepSeg t.n a b rx) (stepSeg t.n a b (t.runOut 0 w)) =
      diffCount (stepSeg t.n a b rx) (stepSeg t.n a b (t.runOut 0 w)) := by
    intro a b
    apply seqCost_hard
    unfold stepSeg
    rw [List.length_take, List.length_take, List.length_drop, List.length_drop, hrx, Trellis.runOut_length, hw.1]
  refine viterbi_corrects h hl hard_sample (κ := 1) ?_ (pad := 0) (by decide) rfl true jk htb htb2 hB hw hend hrx hrb hK ?_ ?_
  · intro r c c' h1 h2 _ _ _
    rw [seqCost_hard h1, seqCost_hard (by rw [h1, h2]), smul_eq_mul, mul_one]
    have := diffCount_triangle (a := c) (b := r) (c := c') h1.symm (by rw [h1, h2])
    rwa [diffCount_comm c r] at this
  · intro a b v h1 h2 h3 h4 h5
    rw [hcost, smul_eq_mul, smul_eq_mul, mul_one]
    exact hmerge a b v h1 h2 h3 h4 h5
  · intro a v h1 h2 h3
    rw [hcost, smul_eq_mul, smul_eq_mul, mul_one]
    rcases hlast a v h1 h2 h3 with e | ⟨e1, e2⟩
    · exact Or.inl e
    · exact Or.inr ⟨e1, e2.le⟩

theorem diffCount_take_le (x y : List Nat) (m : Nat) : diffCount (x.take m) (y.take m) ≤ diffCount x y := by
  induction x generalizing y m with
  | nil => simp [diffCount]
  | cons a x ih =>
    cases y with
    | nil => cases m <;> simp [diffCount]
    | cons b y =>
      cases m with
      | zero => simp [diffCount]
      | succ m =>
        simp only [List.take_succ_cons, diffCount]
        have := ih y m
        omega

theorem diffCount_drop_le (x y : List Nat) (m : Nat) : diffCount (x.drop m) (y.drop m) ≤ diffCount x y := by
  induction m generalizing x y with
  | zero => simp
  | succ m ih =>
    cases x with
    | nil => simp [diffCount]
    | cons a x =>
      cases y with
      | nil => cases x <;> simp [diffCount]
      | cons b y =>
        simp only [List.drop_succ_cons, diffCount]
        have := ih x y
        omega

theorem diffCount_seg_le (n a b : Nat) (x y : List Nat) : diffCount (stepSeg n a b x) (stepSeg n a b y) ≤ diffCount x y :=
  le_trans (diffCount_take_le _ _ _) (diffCount_drop_le _ _ _)

theorem runOut_sum_append (t : Trellis) (s : Nat) (us vs : List Nat) :
    (t.runOut s (us ++ vs)).sum = (t.runOut s us).sum + (t.runOut (t.runState s us) vs).sum := by
  rw [Trellis.runOut_append, List.sum_append]

theorem seqCost_nonneg {R α : Type} [PartialOrder R] [AddCommMonoid R] [IsOrderedAddMonoid R] {P : α → Prop} {cost : α → Nat → R} (h0 : ∀ x b, P x → 0 ≤ cost x b) :
    ∀ {r : List α} {c : List Nat}, (∀ x ∈ r, P x) → 0 ≤ seqCost cost r c := by
  intro r c h
  induction r generalizing c with
  | nil => simp [seqCost]
  | cons x r ih =>
    cases c with
    | nil => simp [seqCost]
    | cons b c =>
      unfold seqCost at ih ⊢
      rw [List.zipWith_cons_cons, List.sum_cons]
      exact add_nonneg (h0 x b (h x List.mem_cons_self)) (ih fun y hy => h y (List.mem_cons_of_mem _ hy))

theorem seqCost_seg_le {R α : Type} [PartialOrder R] [AddCommMonoid R] [IsOrderedAddMonoid R] {P : α → Prop} {cost : α → Nat → R}
    (h0 : ∀ x b, P x → 0 ≤ cost x b) {r : List α} {c : List Nat} (hl : r.length = c.length) (hr : ∀ x ∈ r, P x) (n a b : Nat) :
    seqCost cost (stepSeg n a b r) (stepSeg n a b c) ≤ seqCost cost r c := by
  have hd : ∀ {m : Nat} {r : List α} {c : List Nat}, r.length = c.length →
      seqCost cost r c = seqCost cost (r.take m) (c.take m) + seqCost cost (r.drop m) (c.drop m) := by
    intro m r c hl
    conv_lhs => rw [← List.take_append_drop m r, ← List.take_append_drop m c]
    exact seqCost_append (by rw [List.length_take, List.length_take, hl])
  unfold stepSeg
  rw [hd (m := a * n) hl, hd (m := (b - a) * n) (r := r.drop (a * n)) (c := c.drop (a * n)) (by rw [List.length_drop, List.length_drop, hl])]
  have h1 := seqCost_nonneg h0 (r := r.take (a * n)) (c := c.take (a * n)) (fun x h => hr x (List.mem_of_mem_take h))
  have h2 := seqCost_nonneg h0 (r := (r.drop (a * n)).drop ((b - a) * n)) (c := (c.drop (a * n)).drop ((b - a) * n))
    (fun x h => hr x (List.mem_of_mem_drop (List.mem_of_mem_drop h)))
  exact le_trans (le_add_of_nonneg_right h2) (le_add_of_nonneg_left h1)

/-- Every sequence of `D` input groups that starts with a non-zero group has code weight at least `d` (the column distance of order `D - 1` is at
least `d`). -/
def ColumnDistance (t : Trellis) (D d : Nat) : Prop :=
  ∀ us, IsInput t D us → us.getD 0 0 ≠ 0 → d ≤ (t.runOut 0 us).sum

/-- The generic theorem behind `C110_errors` and `C110_unquantized`: a total metric of the received sequence along the sent code word that
is small in comparison with the column distances. -/
theorem viterbi_budget_path {R α : Type} [LinearOrder R] [AddCommMonoid R] [IsOrderedCancelAddMonoid R] {t : Trellis} (h : t.Balanced)
    (hl : t.Linear) {bm : List α → List Nat → Py R} {P : α → Prop} {cost : α → Nat → R} (hbm : IsSampleMetric bm P cost)
    {κ : R} (hκ0 : 0 ≤ κ) (hcost : ∀ x b, P x → 0 ≤ cost x b)
    (hκ : ∀ r c c', r.length = c.length → c.length = c'.length → (∀ x ∈ r, P x) → (∀ x ∈ c, x < 2) → (∀ x ∈ c', x < 2) →
      diffCount c c' • κ ≤ seqCost cost r c + seqCost cost r c')
    {pad : α} (hp : P pad) (hp0 : cost pad 0 = 0) (inPlace : Bool) (jk : VitJunk R)
    {N : Nat} {w : List Nat} (hw : IsInput t N w) (hend : t.M / t.k ≤ 1 ∨ t.runState 0 w = 0)
    {D D' d d' : Nat} (hDpos : 0 < D) (hD : ColumnDistance t D d) (hDpos' : 0 < D') (hD' : ColumnDistance t D' d')
    {K : Nat} (hK : K ≤ N) (hroom : K + D' ≤ N + t.M / t.k)
    {rx : List α} (hrx : rx.length = (t.runOut 0 w).length) (hrb : ∀ x ∈ rx, P x)
    (he : 2 • seqCost cost rx (t.runOut 0 w) < d • κ)
    (he' : 2 • seqCost cost rx (t.runOut 0 w) < d' • κ ∨ t.runState 0 w = 0 ∧ 2 • seqCost cost rx (t.runOut 0 w) ≤ d' • κ)
    {tb : Nat} (htb : D + 1 ≤ tb) (htb2 : tb ≤ N + t.M / t.k) (hB : t.k = 1 ∨ (t.M / t.k - 1) * t.k ≤ tb) :
    ∃ dec coded', viterbi t bm (some pad) inPlace jk (N * t.k) tb rx = .ok (dec, coded') ∧ dec.length = N * t.k ∧
      dec.take (K * t.k) = (w.take K).flatMap (toBits t.k) := by
  obtain ⟨h0, h1⟩ := hl.zero
  have hseg : ∀ a b, 2 • seqCost cost (stepSeg t.n a b rx) (stepSeg t.n a b (t.runOut 0 w)) ≤ 2 • seqCost cost rx (t.runOut 0 w) :=
    fun a b => nsmul_le_nsmul_right (seqCost_seg_le hcost hrx hrb _ _ _) 2
  -- prefixes
  have hpre : ∀ (m ℓ : Nat) (v : List Nat), 0 < m → m ≤ ℓ → Leaves t ℓ v → IsInput t m (v.take m) ∧ (v.take m).getD 0 0 ≠ 0 ∧
      (t.runOut 0 (v.take m)).sum ≤ (t.runOut 0 v).sum := by
    intro m ℓ v hm hml hv
    have hvl := hv.input.1
    refine ⟨⟨by rw [List.length_take]; omega, fun u hu => hv.input.2 u (List.mem_of_mem_take hu)⟩, ?_, ?_⟩
    · rw [List.getD_eq_getElem _ _ (by rw [List.length_take]; omega), List.getElem_take]
      have := hv.first
      rwa [List.getD_eq_getElem _ _ (by omega)] at this
    · conv_rhs => rw [← List.take_append_drop m v]
      rw [runOut_sum_append]; omega
  refine viterbi_corrects h hl hbm hκ hp hp0 inPlace jk (N := N) (tb := tb) (by omega) htb2 hB hw hend (rx := rx)
    (by rw [hrx, Trellis.runOut_length, hw.1]) hrb (K := K) hK ?_ ?_
  · intro a b v ha hab hbT hv hcase
    refine lt_of_le_of_lt (hseg a b) (lt_of_lt_of_le he (nsmul_le_nsmul_left hκ0 ?_))
    by_cases hlen : D ≤ b - a
    · obtain ⟨p1, p2, p3⟩ := hpre D (b - a) v hDpos hlen hv
      exact le_trans (hD _ p1 p2) p3
    · have hz : t.runState 0 v = 0 := by
        rcases hcase with e | e
        · exact e
        · omega
      have hvl := hv.input.1
      have := hD (v ++ List.replicate (D - (b - a)) 0) ⟨by rw [List.length_append, List.length_replicate, hvl]; omega, by
        intro u hu
        rw [List.mem_append] at hu
        rcases hu with hu | hu
        · exact hv.input.2 u hu
        · rw [List.eq_of_mem_replicate hu]; exact Nat.two_pow_pos _⟩ (by
          have := hv.first
          rw [List.getD_eq_getElem _ _ (by omega)] at this
          rw [List.getD_eq_getElem _ _ (by rw [List.length_append]; omega), List.getElem_append_left (by omega)]
          exact this)
      rw [runOut_sum_append, hz, runOut_zeros h0 h1, List.sum_replicate, smul_zero, Nat.add_zero] at this
      exact this
  · intro a v ha hv hz
    obtain ⟨p1, p2, p3⟩ := hpre D' _ v hDpos' (by omega) hv
    have hle := nsmul_le_nsmul_left hκ0 (le_trans (hD' _ p1 p2) p3)
    rcases he' with e | ⟨e1, e2⟩
    · exact Or.inl (lt_of_le_of_lt (hseg _ _) (lt_of_lt_of_le e hle))
    · exact Or.inr ⟨e1, le_trans (hseg _ _) (le_trans e2 hle)⟩

/-- From paths to messages. -/
theorem take_message {t : Trellis} (hkp : 0 < t.k) {msg w : List Nat} (hb : ∀ b ∈ msg, b < 2) {q K N : Nat} (hq : msg.length = t.k * q)
    (hw : w.length = N) (hwq : w.take q = inSyms t.k msg) (hqN : q ≤ N) (hKq : K ≤ q) :
    (w.take K).flatMap (toBits t.k) = msg.take (K * t.k) := by
  have e : msg = (inSyms t.k msg).flatMap (toBits t.k) := (flatMap_inSyms hkp hb (N := q) (by rw [hq, Nat.mul_comm])).symm
  have e2 : w.take K = (w.take q).take K := by rw [List.take_take, min_eq_left hKq]
  rw [e2, hwq]
  have hil : (inSyms t.k msg).length = q := by rw [← hwq, List.length_take, hw]; omega
  conv_rhs => rw [e]
  conv_rhs => rw [← List.take_append_drop K (inSyms t.k msg), List.flatMap_append]
  have hlen : (((inSyms t.k msg).take K).flatMap (toBits t.k)).length = K * t.k := by
    rw [List.length_flatMap]; simp [hil, hKq]
  rw [List.take_append_of_le_length (by rw [hlen])]
  exact (List.take_of_length_le (by rw [hlen])).symm

/-- The same for messages that are encoded with termination in state 0: a total metric of the received sequence along the sent code word that
is small in comparison with the column distances. -/
theorem viterbi_budget {R α : Type} [LinearOrder R] [AddCommMonoid R] [IsOrderedCancelAddMonoid R] {t : Trellis} (h : t.Balanced)
    (hl : t.Linear) {bm : List α → List Nat → Py R} {P : α → Prop} {cost : α → Nat → R} (hbm : IsSampleMetric bm P cost)
    {κ : R} (hκ0 : 0 ≤ κ) (hcost : ∀ x b, P x → 0 ≤ cost x b)
    (hκ : ∀ r c c', r.length = c.length → c.length = c'.length → (∀ x ∈ r, P x) → (∀ x ∈ c, x < 2) → (∀ x ∈ c', x < 2) →
      diffCount c c' • κ ≤ seqCost cost r c + seqCost cost r c')
    {pad : α} (hp : P pad) (hp0 : cost pad 0 = 0) (inPlace : Bool) (jk : VitJunk R)
    {outLen : Nat → Nat} {msg c : List Nat} (hb : ∀ b ∈ msg, b < 2) (hk : t.k ∣ msg.length) {N : Nat}
    (hN : codedInputLen t msg.length "term" = N * t.k) (hout : outLen (N * t.k) = N * t.n)
    (henc : convEncodeRun outLen t msg "term" = .ok (0, c))
    {D D' d d' : Nat} (hDpos : 0 < D) (hD : ColumnDistance t D d) (hDpos' : 0 < D') (hD' : ColumnDistance t D' d')
    {K : Nat} (hK : K * t.k ≤ msg.length) (hroom : K + D' ≤ N + t.M / t.k)
    {rx : List α} (hrx : rx.length = c.length) (hrb : ∀ x ∈ rx, P x)
    (he : 2 • seqCost cost rx c < d • κ) (he' : 2 • seqCost cost rx c ≤ d' • κ)
    {tb : Nat} (htb : D + 1 ≤ tb) (htb2 : tb ≤ N + t.M / t.k) (hB : t.k = 1 ∨ (t.M / t.k - 1) * t.k ≤ tb) :
    ∃ dec coded', viterbi t bm (some pad) inPlace jk (N * t.k) tb rx = .ok (dec, coded') ∧ dec.length = N * t.k ∧
      dec.take (K * t.k) = msg.take (K * t.k) := by
  have hkp := h.wf.k_pos
  obtain ⟨q, hq⟩ := hk
  have hKq : K ≤ q := by rw [hq, Nat.mul_comm] at hK; exact Nat.le_of_mul_le_mul_left hK hkp
  obtain ⟨w, hw, hw0, rfl, hwq, hqN⟩ := terminated_path h hb hq hN hout henc
  rw [← take_message hkp hb hq hw.1 hwq hqN hKq]
  exact viterbi_budget_path h hl hbm hκ0 hcost hκ hp hp0 inPlace jk hw (Or.inr hw0) hDpos hD hDpos' hD' (by omega) hroom hrx hrb he
    (Or.inr ⟨hw0, he'⟩) htb htb2 hB

/-- C110, hard decisions, any error pattern of at most `e` errors, any traceback depth `tb > D`.  If every sequence of `D` input groups that
starts with a non-zero group has code weight at least `d > 2e`, and every such sequence of `D'` groups at least `d' ≥ 2e`, then the first `K`
message groups are decoded correctly as long as `D'` trellis steps remain from the last of them on (to the end of the termination
and of the decoder's padding). -/
theorem C110_errors {t : Trellis} (h : t.Balanced) (hl : t.Linear)
    {outLen : Nat → Nat} {msg c : List Nat} (hb : ∀ b ∈ msg, b < 2) (hk : t.k ∣ msg.length) {N : Nat}
    (hN : codedInputLen t msg.length "term" = N * t.k) (hout : outLen (N * t.k) = N * t.n)
    (henc : convEncodeRun outLen t msg "term" = .ok (0, c))
    {D D' d d' e : Nat} (hDpos : 0 < D) (hD : ColumnDistance t D d) (hDpos' : 0 < D') (hD' : ColumnDistance t D' d')
    (he : 2 * e < d) (he' : 2 * e ≤ d')
    {K : Nat} (hK : K * t.k ≤ msg.length) (hroom : K + D' ≤ N + t.M / t.k)
    {rx : List Nat} (hrx : rx.length = c.length) (hrb : ∀ x ∈ rx, x < 2) (herr : diffCount rx c ≤ e)
    (jk : VitJunk Nat) {tb : Nat} (htb : D + 1 ≤ tb) (htb2 : tb ≤ N + t.M / t.k) (hB : t.k = 1 ∨ (t.M / t.k - 1) * t.k ≤ tb) :
    ∃ dec coded', viterbiHard t jk (N * t.k) tb rx = .ok (dec, coded') ∧ dec.length = N * t.k ∧
      dec.take (K * t.k) = msg.take (K * t.k) := by
  refine viterbi_budget h hl hard_sample (κ := 1) (by omega) (fun _ _ _ => Nat.zero_le _) ?_ (pad := 0) (by decide) rfl true jk hb hk hN hout
    henc hDpos hD hDpos' hD' hK hroom hrx hrb ?_ ?_ htb htb2 hB
  · intro r c c' h1 h2 _ _ _
    rw [seqCost_hard h1, seqCost_hard (by rw [h1, h2]), smul_eq_mul, mul_one]
    have := diffCount_triangle (a := c) (b := r) (c := c') h1.symm (by rw [h1, h2])
    rwa [diffCount_comm c r] at this
  · rw [seqCost_hard hrx, smul_eq_mul, smul_eq_mul]; omega
  · rw [seqCost_hard hrx, smul_eq_mul, smul_eq_mul]; omega

/-- C110 without termination in state 0, for trellises with `M < 2k` (so that the decoder appends no steps): the same with `d' > 2e`. -/
theorem C110_any_state {t : Trellis} (h : t.Balanced) (hl : t.Linear) (hM : t.M < 2 * t.k) {S : Nat}
    {outLen : Nat → Nat} {msg c : List Nat} (hb : ∀ b ∈ msg, b < 2) (hk : t.k ∣ msg.length) {N : Nat}
    (hN : codedInputLen t msg.length "term" = N * t.k) (hout : outLen (N * t.k) = N * t.n)
    (henc : convEncodeRun outLen t msg "term" = .ok (S, c))
    {D D' d d' e : Nat} (hDpos : 0 < D) (hD : ColumnDistance t D d) (hDpos' : 0 < D') (hD' : ColumnDistance t D' d')
    (he : 2 * e < d) (he' : 2 * e < d')
    {K : Nat} (hK : K * t.k ≤ msg.length) (hroom : K + D' ≤ N + 1)
    {rx : List Nat} (hrx : rx.length = c.length) (hrb : ∀ x ∈ rx, x < 2) (herr : diffCount rx c ≤ e)
    (jk : VitJunk Nat) {tb : Nat} (htb : D + 1 ≤ tb) (htb2 : tb ≤ N + 1) :
    ∃ dec coded', viterbiHard t jk (N * t.k) tb rx = .ok (dec, coded') ∧ dec.length = N * t.k ∧
      dec.take (K * t.k) = msg.take (K * t.k) := by
  have hkp := h.wf.k_pos
  have hq1 : t.M / t.k = 1 := by
    have h1 := h.one_le
    have : t.M / t.k < 2 := (Nat.div_lt_iff_lt_mul hkp).2 (by omega)
    omega
  obtain ⟨q, hq⟩ := hk
  have hKq : K ≤ q := by rw [hq, Nat.mul_comm] at hK; exact Nat.le_of_mul_le_mul_left hK hkp
  obtain ⟨w, hw, hw0, rfl, hwq, hqN⟩ := encoded_path h hb hq hN hout henc
  rw [← take_message hkp hb hq hw.1 hwq hqN hKq]
  refine viterbi_budget_path h hl hard_sample (κ := 1) (by omega) (fun _ _ _ => Nat.zero_le _) ?_ (pad := 0) (by decide) rfl true jk hw (Or.inl hq1.le)
    hDpos hD hDpos' hD' (by omega) (by rw [hq1]; exact hroom) hrx hrb ?_ (Or.inl ?_) htb (by rw [hq1]; exact htb2) (Or.inr (by rw [hq1]; simp))
  · intro r c c' h1 h2 _ _ _
    rw [seqCost_hard h1, seqCost_hard (by rw [h1, h2]), smul_eq_mul, mul_one]
    have := diffCount_triangle (a := c) (b := r) (c := c') h1.symm (by rw [h1, h2])
    rwa [diffCount_comm c r] at this
  · rw [seqCost_hard hrx, smul_eq_mul, smul_eq_mul]; omega
  · rw [seqCost_hard hrx, smul_eq_mul, smul_eq_mul]; omega

theorem unq_pair : ∀ (r : List ℝ) (c c' : List Nat), r.length = c.length → c.length = c'.length → (∀ x ∈ c, x < 2) → (∀ x ∈ c', x < 2) →
    (diffCount c c' : ℝ) * 2 ≤ seqCost (fun x (b : Nat) => (x - (2 * (b : ℝ) - 1)) ^ 2) r c + seqCost (fun x (b : Nat) => (x - (2 * (b : ℝ) - 1)) ^ 2) r c'
  | [], [], [], _, _, _, _ => by simp [seqCost, diffCount]
  | x :: r, b :: c, b' :: c', h1, h2, h3, h4 => by
    have ih := unq_pair r c c' (by simpa using h1) (by simpa using h2) (fun x h => h3 x (List.mem_cons_of_mem _ h))
      (fun x h => h4 x (List.mem_cons_of_mem _ h))
    have hb := h3 b List.mem_cons_self
    have hb' := h4 b' List.mem_cons_self
    unfold seqCost at ih ⊢
    simp only [List.zipWith_cons_cons, List.sum_cons, diffCount]
    push_cast
    have : ((if b = b' then 0 else 1 : ℕ) : ℝ) * 2 ≤ (x - (2 * (b : ℝ) - 1)) ^ 2 + (x - (2 * (b' : ℝ) - 1)) ^ 2 := by
      by_cases e : b = b'
      · rw [if_pos e]; push_cast; nlinarith [sq_nonneg (x - (2 * (b : ℝ) - 1)), sq_nonneg (x - (2 * (b' : ℝ) - 1))]
      · rw [if_neg e]
        have : (b = 0 ∧ b' = 1) ∨ (b = 1 ∧ b' = 0) := by omega
        rcases this with ⟨rfl, rfl⟩ | ⟨rfl, rfl⟩ <;> push_cast <;> nlinarith [sq_nonneg x]
    push_cast at this
    linarith

/-- C110, unquantized decisions (bit `b` is sent as `2b - 1`): the message is recovered whenever the energy of the noise is less than the column
distance `d` (a code sequence at distance `d` is `2 √d` away) and at most `d'`. -/
theorem C110_unquantized {t : Trellis} (h : t.Balanced) (hl : t.Linear)
    {outLen : Nat → Nat} {msg c : List Nat} (hb : ∀ b ∈ msg, b < 2) (hk : t.k ∣ msg.length) {N : Nat}
    (hN : codedInputLen t msg.length "term" = N * t.k) (hout : outLen (N * t.k) = N * t.n)
    (henc : convEncodeRun outLen t msg "term" = .ok (0, c))
    {D D' d d' : Nat} (hDpos : 0 < D) (hD : ColumnDistance t D d) (hDpos' : 0 < D') (hD' : ColumnDistance t D' d')
    {K : Nat} (hK : K * t.k ≤ msg.length) (hroom : K + D' ≤ N + t.M / t.k)
    {rx : List ℝ} (hrx : rx.length = c.length)
    (he : (List.zipWith (fun x (b : Nat) => (x - (2 * (b : ℝ) - 1)) ^ 2) rx c).sum < (d : ℝ))
    (he' : (List.zipWith (fun x (b : Nat) => (x - (2 * (b : ℝ) - 1)) ^ 2) rx c).sum ≤ (d' : ℝ))
    (jk : VitJunk ℝ) {tb : Nat} (htb : D + 1 ≤ tb) (htb2 : tb ≤ N + t.M / t.k) (hB : t.k = 1 ∨ (t.M / t.k - 1) * t.k ≤ tb) :
    ∃ dec coded', viterbiDecode "unquantized" t jk (N * t.k) tb rx = .ok (dec, coded') ∧ dec.length = N * t.k ∧
      dec.take (K * t.k) = msg.take (K * t.k) := by
  have hv : ∀ L tb, viterbiDecode "unquantized" t jk L tb rx = viterbi t unquantizedMetric (some (-1)) true jk L tb rx := by
    intro L tb
    unfold viterbiDecode
    have e : branchMetric "unquantized" = unquantizedMetric := by funext r c; simp [branchMetric]
    have e2 : padValue "unquantized" = some (-1) := by simp [padValue]
    rw [if_neg (by decide), e, e2]
  rw [hv]
  refine viterbi_budget h hl unq_sample (κ := 2) (by norm_num) (fun _ _ _ => sq_nonneg _) ?_ (pad := -1) trivial (by norm_num) true jk hb hk hN hout
    henc hDpos hD hDpos' hD' hK hroom hrx (fun _ _ => trivial) ?_ ?_ htb htb2 hB
  · intro r c c' h1 h2 _ h3 h4
    rw [nsmul_eq_mul]
    exact unq_pair r c c' h1 h2 h3 h4
  · unfold seqCost; rw [nsmul_eq_mul, nsmul_eq_mul]; push_cast; linarith
  · unfold seqCost; rw [nsmul_eq_mul, nsmul_eq_mul]; push_cast; linarith

end Verif
