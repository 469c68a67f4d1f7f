import Verif.Props.Viterbi
/-
Soft decoding with error-free but possibly erased LLRs: the transmitted path is the only minimal one on the steps where
every pair of branches is separated by an unerased position.
-/
namespace Verif

section
variable {R : Type} [LinearOrder R] [AddCommMonoid R] [IsOrderedCancelAddMonoid R]

theorem pathCost_tight {t : Trellis} {μ : Nat → Nat → Nat → R} {b : Nat → R} : ∀ (vs : List Nat) (τ s : Nat),
    (∀ i (h : i < vs.length), μ (τ + 1 + i) (t.runState s (vs.take i)) vs[i] = b (τ + 1 + i)) →
    pathCost t μ τ s vs = ((List.range vs.length).map fun i => b (τ + 1 + i)).sum := by
  intro vs
  induction vs with
  | nil => intro τ s _; simp [pathCost]
  | cons x xs ihx =>
    intro τ s hx
    rw [List.length_cons, List.range_succ_eq_map, List.map_cons, List.sum_cons, List.map_map, pathCost]
    have hx0 : μ (τ + 1) s x = b (τ + 1) := hx 0 (Nat.succ_pos _)
    rw [hx0, ihx (τ + 1) (t.next s x)]
    · congr 2
      apply List.map_congr_left
      intro i _
      show b _ = b _
      congr 1; show τ + 1 + 1 + i = τ + 1 + (i + 1); omega
    · intro i hi
      have := hx (i + 1) (by simpa using hi)
      simp only [List.take_succ_cons, Trellis.runState_cons, List.getElem_cons_succ] at this
      rw [show τ + 1 + 1 + i = τ + 1 + (i + 1) by omega]; exact this

/-- As `path_unique`, with strictness only on the first `S` steps and equality only there. -/
theorem path_unique_prefix {t : Trellis} (hw : t.WF) {μ : Nat → Nat → Nat → R} {b : Nat → R} {T S : Nat}
    (hlow : ∀ j, 1 ≤ j → j ≤ T → ∀ p < 2 ^ t.M, ∀ u < 2 ^ t.k, b j ≤ μ j p u)
    (hstrict : ∀ j, 1 ≤ j → j ≤ S → ∀ p < 2 ^ t.M, ∀ u < 2 ^ t.k, ∀ v < 2 ^ t.k, μ j p v = b j → u ≠ v → b j < μ j p u) :
    ∀ (us vs : List Nat) (τ s : Nat), s < 2 ^ t.M → (∀ u ∈ us, u < 2 ^ t.k) → (∀ v ∈ vs, v < 2 ^ t.k) →
      us.length = vs.length → τ + us.length ≤ T →
      (∀ i (h : i < vs.length), μ (τ + 1 + i) (t.runState s (vs.take i)) vs[i] = b (τ + 1 + i)) →
      pathCost t μ τ s us ≤ pathCost t μ τ s vs → us.take (S - τ) = vs.take (S - τ) := by
  intro us
  induction us with
  | nil =>
    intro vs τ s _ _ _ hl _ _ _
    rw [List.length_eq_zero_iff.1 hl.symm]
  | cons u us ih =>
    intro vs τ s hs hu hv hl hT htrue hle
    cases vs with
    | nil => simp at hl
    | cons v vs =>
      by_cases hS : S ≤ τ
      · rw [Nat.sub_eq_zero_of_le hS]; simp
      simp only [List.length_cons, Nat.add_right_cancel_iff] at hl hT
      have hu0 := hu u (by simp)
      have hv0 := hv v (by simp)
      have h0 : μ (τ + 1) s v = b (τ + 1) := htrue 0 (Nat.succ_pos _)
      have hrest : ∀ i (h : i < vs.length), μ (τ + 1 + 1 + i) (t.runState (t.next s v) (vs.take i)) vs[i] =
          b (τ + 1 + 1 + i) := by
        intro i hi
        have := htrue (i + 1) (by simpa using hi)
        simp only [List.take_succ_cons, Trellis.runState_cons, List.getElem_cons_succ] at this
        rw [show τ + 1 + 1 + i = τ + 1 + (i + 1) by omega]; exact this
      rw [pathCost, pathCost] at hle
      by_cases huv : u = v
      · subst huv
        have := ih vs (τ + 1) (t.next s u) (hw.next_lt hs hu0) (fun x hx => hu x (by simp [hx]))
          (fun x hx => hv x (by simp [hx])) hl (by omega) hrest (le_of_add_le_add_left hle)
        obtain ⟨m, hm⟩ : ∃ m, S - τ = m + 1 := ⟨S - τ - 1, by omega⟩
        rw [hm, List.take_succ_cons, List.take_succ_cons]
        rw [show S - (τ + 1) = m by omega] at this
        rw [this]
      · exfalso
        have hlt := hstrict (τ + 1) (by omega) (by omega) s hs u hu0 v hv0 h0 huv
        have hge := pathCost_ge hw hlow us (τ + 1) (t.next s u) (hw.next_lt hs hu0) (fun x hx => hu x (by simp [hx]))
          (by omega)
        rw [pathCost_tight vs (τ + 1) (t.next s v) hrest, h0, ← hl] at hle
        exact absurd hle (not_le.2 (add_lt_add_of_lt_of_le hlt hge))

/-- The decoder recovers the first `N` symbols of a path that meets the lower bound of every step, for every traceback
depth, if the bound is strict for the other branches on the first `N` steps. -/
theorem viterbi_unique_prefix {α : Type} {t : Trellis} (h : t.Balanced) {bm : List α → List Nat → Py R}
    {μ : Nat → Nat → Nat → R} {b : Nat → R}
    {pad : α} {inPlace : Bool} (jk : VitJunk R) {N tb : Nat} {coded : List α} (htb : 2 ≤ tb)
    (htb2 : tb ≤ N + t.M / t.k) (hB : t.k = 1 ∨ (t.M / t.k - 1) * t.k ≤ tb) (hclen : coded.length = N * t.n)
    (hbm : ∀ j, 1 ≤ j → j ≤ N + t.M / t.k - 1 → ∀ p < 2 ^ t.M, ∀ u < 2 ^ t.k,
      bm (rxBlock t (N * t.k) pad coded j) (toBits t.n (t.out p u)) = .ok (μ j p u))
    (hlow : ∀ j, 1 ≤ j → j ≤ N + t.M / t.k - 1 → ∀ p < 2 ^ t.M, ∀ u < 2 ^ t.k, b j ≤ μ j p u)
    (hstrict : ∀ j, 1 ≤ j → j ≤ N → ∀ p < 2 ^ t.M, ∀ u < 2 ^ t.k, ∀ v < 2 ^ t.k,
      μ j p v = b j → u ≠ v → b j < μ j p u)
    {w : List Nat} (hw : IsInput t (N + t.M / t.k - 1) w)
    (htrue : ∀ i (hi : i < w.length), μ (1 + i) (t.runState 0 (w.take i)) w[i] = b (1 + i)) :
    viterbi t bm (some pad) inPlace jk (N * t.k) tb coded =
      .ok ((w.take N).flatMap (toBits t.k),
        if t.M / t.k ≤ 1 then coded else paddedCoded t (N * t.k) inPlace pad coded) := by
  haveI : IsOrderedAddMonoid R := inferInstance
  rw [viterbi_blocks h jk htb htb2 hB hclen hbm]
  have hk := h.wf.k_pos
  have hq : 1 ≤ t.M / t.k := (Nat.le_div_iff_mul_le hk).2 (by have := h.k_le; omega)
  congr 2
  have hwt : w.take N = (List.range N).map fun i => w.getD i 0 := by
    apply List.ext_getElem
    · rw [List.length_take, hw.1, List.length_map, List.length_range]; omega
    · intro i h1 h2
      simp only [List.getElem_take, List.getElem_map, List.getElem_range]
      exact (List.getD_eq_getElem _ _ _).symm
  rw [hwt, List.flatMap_map]
  apply List.flatMap_congr
  intro i hi
  rw [List.mem_range] at hi
  set τ := min (N + t.M / t.k - 1) (i + tb - 1) with hτ
  have hmin := bestPath_isMin h μ τ
  have hpos : (0 : Nat) < 2 ^ t.M := Nat.two_pow_pos _
  have hlen : (w.take τ).length = τ := by rw [List.length_take, hw.1]; omega
  have hwτ : IsInput t τ (w.take τ) := ⟨hlen, fun u hu => hw.2 u (List.mem_of_mem_take hu)⟩
  have := path_unique_prefix h.wf hlow hstrict (bestPath t μ τ) (w.take τ) 0 0 hpos hmin.1.2 hwτ.2
    (by rw [hmin.1.1, hlen]) (by rw [hmin.1.1]; omega) ?_ (hmin.2 _ hwτ)
  · have e : ∀ l : List Nat, i < l.length → l.getD i 0 = (l.take N).getD i 0 := by
      intro l hl
      rw [List.getD_eq_getElem _ _ hl, List.getD_eq_getElem _ _ (by rw [List.length_take]; omega)]
      simp
    rw [Nat.sub_zero] at this
    rw [e _ (by rw [hmin.1.1]; omega), this, ← e _ (by rw [hlen]; omega), List.getD_eq_getElem _ _ (by rw [hlen]; omega),
      List.getD_eq_getElem _ _ (by rw [hw.1]; omega)]
    simp
  · intro i' hi'
    rw [hlen] at hi'
    have := htrue i' (by rw [hw.1]; omega)
    simp only [Nat.zero_add, List.getElem_take, List.take_take]
    rw [show min i' τ = i' by omega]
    exact this

end

/-- Cost of one soft sample. -/
noncomputable def softCost (x : ℝ) (b : Nat) : ℝ := if b ≠ 0 then negLL1 x else negLL0 x
/-- The cheaper of the two bit values. -/
noncomputable def softLow (x : ℝ) : ℝ := min (softCost x 0) (softCost x 1)

theorem softLow_le (x : ℝ) (b : Nat) : softLow x ≤ softCost x b := by
  by_cases h : b = 0
  · subst h; exact min_le_left _ _
  · have : softCost x b = softCost x 1 := by simp [softCost, h]
    rw [this]; exact min_le_right _ _

theorem softCost_eq_low_iff (x : ℝ) {b : Nat} (hb : b < 2) :
    softCost x b = softLow x ↔ (0 < x → b = 1) ∧ (x < 0 → b = 0) := by
  have h0 : softCost x 0 = negLL0 x := by simp [softCost]
  have h1 : softCost x 1 = negLL0 x - x := by simp [softCost, negLL1]
  unfold softLow
  rcases lt_trichotomy x 0 with hx | hx | hx
  · have : min (softCost x 0) (softCost x 1) = softCost x 0 := min_eq_left (by rw [h0, h1]; linarith)
    rw [this]
    interval_cases b
    · simp [hx, not_lt.2 hx.le]
    · simp only [h0, h1]
      constructor
      · intro h; exfalso; linarith
      · rintro ⟨-, h⟩; exact absurd (h hx) (by decide)
  · subst hx
    simp only [lt_irrefl, false_implies, and_self, iff_true]
    have : softCost 0 0 = softCost 0 1 := by rw [h0, h1]; ring
    rw [this, min_self]
    interval_cases b
    · exact this
    · rfl
  · have : min (softCost x 0) (softCost x 1) = softCost x 1 := min_eq_right (by rw [h0, h1]; linarith)
    rw [this]
    interval_cases b
    · simp only [h0, h1]
      constructor
      · intro h; exfalso; linarith
      · rintro ⟨h, -⟩; exact absurd (h hx) (by decide)
    · simp [hx.le]

theorem zipWith_sum_ge (r : List ℝ) (c : List Nat) (h : r.length = c.length) :
    (r.map softLow).sum ≤ (List.zipWith softCost r c).sum := by
  induction r generalizing c with
  | nil => simp
  | cons x r ih =>
    cases c with
    | nil => simp at h
    | cons b c =>
      simp only [List.map_cons, List.sum_cons, List.zipWith_cons_cons]
      exact add_le_add (softLow_le x b) (ih c (by simpa using h))

theorem zipWith_sum_eq_iff (r : List ℝ) (c : List Nat) (h : r.length = c.length) :
    (List.zipWith softCost r c).sum = (r.map softLow).sum ↔
      ∀ i < r.length, softCost (r.getD i 0) (c.getD i 0) = softLow (r.getD i 0) := by
  induction r generalizing c with
  | nil => simp
  | cons x r ih =>
    cases c with
    | nil => simp at h
    | cons b c =>
      have hl : r.length = c.length := by simpa using h
      simp only [List.map_cons, List.sum_cons, List.zipWith_cons_cons]
      have h1 := softLow_le x b
      have h2 := zipWith_sum_ge r c hl
      constructor
      · intro e i hi
        cases i with
        | zero => simp only [List.getD_cons_zero]; linarith
        | succ i =>
          simp only [List.getD_cons_succ]
          exact (ih c hl).1 (by linarith) i (by simpa using hi)
      · intro e
        have e0 := e 0 (by simp)
        simp only [List.getD_cons_zero] at e0
        rw [e0, (ih c hl).2 (fun i hi => by simpa using e (i + 1) (by simpa using hi))]

theorem clip500_pos {x : ℝ} : 0 < clip500 x ↔ 0 < x := by
  unfold clip500
  rw [lt_min_iff, lt_max_iff]
  constructor
  · rintro ⟨h | h, -⟩
    · exact h
    · norm_num at h
  · intro h; exact ⟨Or.inl h, by norm_num⟩

theorem clip500_neg {x : ℝ} : clip500 x < 0 ↔ x < 0 := by
  unfold clip500
  rw [min_lt_iff, max_lt_iff]
  constructor
  · rintro (⟨h, -⟩ | h)
    · exact h
    · norm_num at h
  · intro h; exact Or.inl ⟨h, by norm_num⟩

theorem clip500_zero : clip500 0 = 0 := by unfold clip500; norm_num

/-- Soft decoding of error-free LLRs (positive for a 1, negative for a 0, zero for an erasure) of the code word of the
path `w`, if in every step each two branches out of a state differ in an unerased position. -/
theorem viterbiSoft_errorfree {t : Trellis} (h : t.Balanced) (jk : VitJunk ℝ) {N tb : Nat} (htb : 2 ≤ tb)
    (htb2 : tb ≤ N + t.M / t.k) (hB : t.k = 1 ∨ (t.M / t.k - 1) * t.k ≤ tb) {w : List Nat} (hw : IsInput t N w)
    {llr : List ℝ} (hl : llr.length = N * t.n)
    (hsign : ∀ i < N * t.n, (0 < llr.getD i 0 → (t.runOut 0 w).getD i 0 = 1) ∧
      (llr.getD i 0 < 0 → (t.runOut 0 w).getD i 0 = 0))
    (hsep : ∀ j < N, ∀ s < 2 ^ t.M, ∀ u < 2 ^ t.k, ∀ v < 2 ^ t.k, u ≠ v → ∃ p < t.n, llr.getD (j * t.n + p) 0 ≠ 0 ∧
      (toBits t.n (t.out s u)).getD p 0 ≠ (toBits t.n (t.out s v)).getD p 0) :
    viterbiDecode "soft" t jk (N * t.k) tb llr = .ok (w.flatMap (toBits t.k), llr) := by
  have hk := h.wf.k_pos
  have hq := h.one_le
  have hpos : (0 : Nat) < 2 ^ t.M := Nat.two_pow_pos _
  have hcl : (llr.map clip500).length = N * t.n := by simpa using hl
  set w' := w ++ List.replicate (t.M / t.k - 1) 0 with hw'
  have hw'len : w'.length = N + t.M / t.k - 1 := by rw [hw', List.length_append, hw.1, List.length_replicate]; omega
  have hw'in : IsInput t (N + t.M / t.k - 1) w' := by
    refine ⟨hw'len, ?_⟩
    intro u hu
    rw [hw', List.mem_append] at hu
    rcases hu with hu | hu
    · exact hw.2 u hu
    · rw [List.eq_of_mem_replicate hu]; exact Nat.two_pow_pos _
  have hbm := sample_bm (t := t) (N := N) (pad := (0 : ℝ)) (coded := llr.map clip500) soft_sample hk trivial
    (fun _ _ => trivial) hcl (N + t.M / t.k - 1)
  have hlen : ∀ j, 1 ≤ j → ∀ p u, (rxBlock t (N * t.k) 0 (llr.map clip500) j).length = (toBits t.n (t.out p u)).length :=
    fun j hj p u => by rw [rxBlock_length hk hcl hj, toBits_length]
  -- the samples of the blocks
  have hget : ∀ i, i < N → ∀ p < t.n, (rxBlock t (N * t.k) 0 (llr.map clip500) (1 + i)).getD p 0 =
      clip500 (llr.getD (i * t.n + p) 0) := by
    intro i hi p hp
    have hb : i * t.n + p < N * t.n := by
      calc i * t.n + p < (i + 1) * t.n := by rw [Nat.succ_mul]; omega
        _ ≤ N * t.n := Nat.mul_le_mul_right _ hi
    unfold rxBlock
    rw [Nat.mul_div_cancel _ hk, if_pos (by omega), Nat.add_sub_cancel_left,
      List.getD_eq_getElem _ _ (by rw [List.length_take, List.length_drop, hcl]; omega)]
    simp only [List.getElem_take, List.getElem_drop, List.getElem_map]
    rw [List.getD_eq_getElem _ _ (by rw [hl]; exact hb)]
  have hu := viterbi_unique_prefix (b := fun j => ((rxBlock t (N * t.k) 0 (llr.map clip500) j).map softLow).sum) (w := w')
    (inPlace := false) h jk htb htb2 hB hcl hbm ?_ ?_ hw'in ?_
  · have e : w'.take N = w := by
      rw [hw', List.take_append_of_le_length (by rw [hw.1]), List.take_of_length_le (by rw [hw.1])]
    rw [e] at hu
    unfold viterbiDecode
    have e1 : branchMetric "soft" = softMetric := by funext r c; simp [branchMetric]
    have e2 : padValue "soft" = some 0 := by simp [padValue]
    rw [if_pos rfl, e1, e2, hu]
    rfl
  · intro j h1 _ p _ u _
    exact zipWith_sum_ge _ _ (hlen j h1 p u)
  · intro j h1 h2 p hp u hu v hv heq hne
    have heq' := (zipWith_sum_eq_iff _ _ (hlen j h1 p v)).1 heq
    refine lt_of_le_of_ne (zipWith_sum_ge _ _ (hlen j h1 p u)) ?_
    intro hc
    have hc' := (zipWith_sum_eq_iff _ _ (hlen j h1 p u)).1 hc.symm
    obtain ⟨q, hq1, hq2, hq3⟩ := hsep (j - 1) (by omega) p hp u hu v hv hne
    have hg := hget (j - 1) (by omega) q hq1
    rw [show 1 + (j - 1) = j by omega] at hg
    have hqlen : q < (rxBlock t (N * t.k) 0 (llr.map clip500) j).length := by rw [rxBlock_length hk hcl h1]; exact hq1
    have a1 := heq' q hqlen
    have a2 := hc' q hqlen
    have lt2 : ∀ x, (toBits t.n (t.out p x)).getD q 0 < 2 := by
      intro x
      rw [List.getD_eq_getElem _ _ (by rw [toBits_length]; exact hq1)]
      exact toBits_lt_two (List.getElem_mem _)
    rw [softCost_eq_low_iff _ (lt2 _), hg, clip500_pos, clip500_neg] at a1 a2
    rcases lt_or_gt_of_ne hq2 with hx | hx
    · exact hq3 ((a2.2 hx).trans (a1.2 hx).symm)
    · exact hq3 ((a2.1 hx).trans (a1.1 hx).symm)
  · intro i hi
    refine (zipWith_sum_eq_iff _ _ (hlen _ (by omega) _ _)).2 ?_
    intro p hp
    rw [rxBlock_length hk hcl (by omega)] at hp
    have lt2 : ∀ s x, (toBits t.n (t.out s x)).getD p 0 < 2 := by
      intro s x
      rw [List.getD_eq_getElem _ _ (by rw [toBits_length]; exact hp)]
      exact toBits_lt_two (List.getElem_mem _)
    rw [softCost_eq_low_iff _ (lt2 _ _)]
    by_cases hiN : i < N
    · rw [hget i hiN p hp, clip500_pos, clip500_neg]
      have e1 : w'.take i = w.take i := by
        rw [hw', List.take_append_of_le_length (by rw [hw.1]; omega)]
      have e2 : w'[i] = w[i]'(by rw [hw.1]; omega) := by
        simp only [hw']
        rw [List.getElem_append_left]
      have hb : i * t.n + p < N * t.n := by
        calc i * t.n + p < (i + 1) * t.n := by rw [Nat.succ_mul]; omega
          _ ≤ N * t.n := Nat.mul_le_mul_right _ hiN
      have hro : (t.runOut 0 w).length = N * t.n := by rw [Trellis.runOut_length, hw.1]
      have e3 : (toBits t.n (t.out (t.runState 0 (w.take i)) (w[i]'(by rw [hw.1]; omega)))).getD p 0 =
          (t.runOut 0 w).getD (i * t.n + p) 0 := by
        rw [← runOut_block w 0 i (by rw [hw.1]; omega),
          List.getD_eq_getElem _ _ (by rw [List.length_take, List.length_drop, hro]; omega),
          List.getD_eq_getElem _ _ (by rw [hro]; exact hb)]
        simp
      rw [e1, e2, e3]
      exact hsign _ hb
    · have : (rxBlock t (N * t.k) 0 (llr.map clip500) (1 + i)).getD p 0 = 0 := by
        unfold rxBlock
        rw [Nat.mul_div_cancel _ hk, if_neg (by omega)]
        simp [List.getD_eq_getElem?_getD, List.getElem?_replicate]
        split <;> rfl
      rw [this]
      simp

end Verif
