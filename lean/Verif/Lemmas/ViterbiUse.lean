import Verif.Lemmas.ViterbiBalanced
/-
Consequences of `viterbi_ok` for whole blocks, unique minimal paths, path costs as sample-by-sample costs.
-/
namespace Verif

theorem vitSteps_blocks {t : Trellis} (hk : 0 < t.k) (N : Nat) : vitSteps t (N * t.k) = N + t.M / t.k - 1 := by
  unfold vitSteps
  rw [Nat.add_comm (N * t.k), Nat.add_mul_div_right _ _ hk, Nat.add_comm]

theorem take_blocks {k : Nat} {f : Nat → List Nat} : ∀ (N : Nat) {bits : List Nat}, N * k ≤ bits.length →
    (∀ i < N, blockOf k i bits = f i) → bits.take (N * k) = (List.range N).flatMap f := by
  intro N
  induction N with
  | zero => intro bits _ _; simp
  | succ N ih =>
    intro bits hl hb
    rw [Nat.succ_mul] at hl ⊢
    rw [List.take_add, ih (by omega) (fun i hi => hb i (by omega)), List.range_succ, List.flatMap_append]
    have := hb N (by omega)
    unfold blockOf at this
    rw [this]; simp

theorem buffer_ok {t : Trellis} (h : t.Balanced) {N tb : Nat} (hb : t.k = 1 ∨ (t.M / t.k - 1) * t.k ≤ tb) :
    t.k = 1 ∨ vitSteps t (N * t.k) * t.k ≤ vitBuf t (N * t.k) tb := by
  rcases hb with h1 | h1
  · exact Or.inl h1
  · right
    have hk := h.wf.k_pos
    have hq : 1 ≤ t.M / t.k := (Nat.le_div_iff_mul_le hk).2 (by have := h.k_le; omega)
    rw [vitSteps_blocks hk, show N + t.M / t.k - 1 = N + (t.M / t.k - 1) by omega, Nat.add_mul]
    unfold vitBuf
    have a3 := Nat.div_add_mod (N * t.k + tb + t.k - 1) t.k
    have a4 := Nat.mod_lt (N * t.k + tb + t.k - 1) hk
    rw [Nat.mul_comm] at a3
    omega

section
variable {R α : Type} [LinearOrder R] [Add R] [Zero R]

/-- The decoder on `N` whole blocks. -/
theorem viterbi_blocks {t : Trellis} (h : t.Balanced) {bm : List α → List Nat → Py R} {μ : Nat → Nat → Nat → R}
    {pad : α} {inPlace : Bool} (jk : VitJunk R) {N tb : Nat} {coded : List α} (htb : 2 ≤ tb)
    (htb2 : tb ≤ N + t.M / t.k) (hB : t.k = 1 ∨ (t.M / t.k - 1) * t.k ≤ tb) (hclen : coded.length = N * t.n)
    (hbm : ∀ j, 1 ≤ j → j ≤ N + t.M / t.k - 1 → ∀ p < 2 ^ t.M, ∀ u < 2 ^ t.k,
      bm (rxBlock t (N * t.k) pad coded j) (toBits t.n (t.out p u)) = .ok (μ j p u)) :
    viterbi t bm (some pad) inPlace jk (N * t.k) tb coded =
      .ok ((List.range N).flatMap (fun i =>
          toBits t.k ((bestPath t μ (min (N + t.M / t.k - 1) (i + tb - 1))).getD i 0)),
        if t.M / t.k ≤ 1 then coded else paddedCoded t (N * t.k) inPlace pad coded) := by
  have hk := h.wf.k_pos
  have hT := vitSteps_blocks hk N
  have hNk : N * t.k / t.k = N := Nat.mul_div_cancel _ hk
  have hq : 1 ≤ t.M / t.k := (Nat.le_div_iff_mul_le hk).2 (by have := h.k_le; omega)
  obtain ⟨bits, hv, hl, _, hb⟩ := viterbi_ok (inPlace := inPlace) (pad := pad) (L := N * t.k) (coded := coded) h jk htb
    (by rw [hT]; exact hbm) (buffer_ok h hB) (by rw [hNk, hclen])
  rw [hv]
  have hbuf : N * t.k ≤ vitBuf t (N * t.k) tb := by
    unfold vitBuf
    have a3 := Nat.div_add_mod (N * t.k + tb + t.k - 1) t.k
    have a4 := Nat.mod_lt (N * t.k + tb + t.k - 1) hk
    rw [Nat.mul_comm] at a3
    omega
  rw [hT] at hb ⊢
  rw [take_blocks N (by rw [hl]; exact hbuf) (fun i hi => hb (by omega) i (by omega)
    (le_trans (Nat.mul_le_mul_right _ hi) hbuf))]
  congr 2
  rw [hNk]
  by_cases h1 : t.M / t.k ≤ 1
  · rw [if_pos h1, if_pos (by omega)]
  · rw [if_neg h1, if_neg (by omega)]

end

theorem take_eq_map_getD {us : List Nat} {N : Nat} (h : N ≤ us.length) :
    us.take N = (List.range N).map fun i => us.getD i 0 := by
  apply List.ext_getElem
  · rw [List.length_take, List.length_map, List.length_range]; omega
  · intro i h1 h2
    simp only [List.getElem_take, List.getElem_map, List.getElem_range]
    exact (List.getD_eq_getElem _ _ _).symm

theorem Trellis.Balanced.one_le {t : Trellis} (h : t.Balanced) : 1 ≤ t.M / t.k :=
  (Nat.le_div_iff_mul_le h.wf.k_pos).2 (by have := h.k_le; omega)

/-- With a window covering the block the decoder returns one path. -/
theorem viterbi_full {R α : Type} [LinearOrder R] [Add R] [Zero R] {t : Trellis} (h : t.Balanced) {bm : List α → List Nat → Py R} {μ : Nat → Nat → Nat → R}
    {pad : α} {inPlace : Bool} (jk : VitJunk R) {N : Nat} {coded : List α} (htb : 2 ≤ N + t.M / t.k)
    (hB : t.k = 1 ∨ (t.M / t.k - 1) * t.k ≤ N + t.M / t.k) (hclen : coded.length = N * t.n)
    (hbm : ∀ j, 1 ≤ j → j ≤ N + t.M / t.k - 1 → ∀ p < 2 ^ t.M, ∀ u < 2 ^ t.k,
      bm (rxBlock t (N * t.k) pad coded j) (toBits t.n (t.out p u)) = .ok (μ j p u)) :
    viterbi t bm (some pad) inPlace jk (N * t.k) (N + t.M / t.k) coded =
      .ok (((bestPath t μ (N + t.M / t.k - 1)).take N).flatMap (toBits t.k),
        if t.M / t.k ≤ 1 then coded else paddedCoded t (N * t.k) inPlace pad coded) := by
  rw [viterbi_blocks h jk htb (le_refl _) hB hclen hbm]
  have hq := h.one_le
  congr 2
  rw [take_eq_map_getD (by rw [bestPath, survivor_length]; omega), List.flatMap_map]
  apply List.flatMap_congr
  intro i _
  rw [show min (N + t.M / t.k - 1) (i + (N + t.M / t.k) - 1) = N + t.M / t.k - 1 by omega]

section
variable {R : Type} [LinearOrder R] [AddCommMonoid R] [IsOrderedCancelAddMonoid R]

theorem pathCost_ge {t : Trellis} (hw : t.WF) {μ : Nat → Nat → Nat → R} {b : Nat → R} {T : Nat}
    (hlow : ∀ j, 1 ≤ j → j ≤ T → ∀ p < 2 ^ t.M, ∀ u < 2 ^ t.k, b j ≤ μ j p u) : ∀ (us : List Nat) (τ s : Nat),
    s < 2 ^ t.M → (∀ u ∈ us, u < 2 ^ t.k) → τ + us.length ≤ T →
    ((List.range us.length).map fun i => b (τ + 1 + i)).sum ≤ pathCost t μ τ s us := by
  intro us
  induction us with
  | nil => intro τ s _ _ _; simp [pathCost]
  | cons u us ih =>
    intro τ s hs hu hT
    simp only [List.length_cons] at hT
    rw [List.length_cons, List.range_succ_eq_map, List.map_cons, List.sum_cons, List.map_map, pathCost]
    have hu0 := hu u (by simp)
    refine add_le_add (hlow _ (by omega) (by omega) s hs u hu0) ?_
    refine le_trans (le_of_eq ?_) (ih (τ + 1) _ (hw.next_lt hs hu0) (fun v hv => hu v (by simp [hv])) (by omega))
    congr 1
    apply List.map_congr_left
    intro i _
    show b _ = b _
    congr 1; show τ + 1 + (i + 1) = _; omega

/-- If the true path meets the lower bound of every step, and no other branch out of a state does, it is the only
minimal path. -/
theorem path_unique {t : Trellis} (hw : t.WF) {μ : Nat → Nat → Nat → R} {b : Nat → R} {T : Nat}
    (hlow : ∀ j, 1 ≤ j → j ≤ T → ∀ p < 2 ^ t.M, ∀ u < 2 ^ t.k, b j ≤ μ j p u)
    (hstrict : ∀ j, 1 ≤ j → j ≤ T → ∀ p < 2 ^ t.M, ∀ u < 2 ^ t.k, ∀ v < 2 ^ t.k, μ j p v = b j → u ≠ v → b j < μ j p u) :
    ∀ (us vs : List Nat) (τ s : Nat), s < 2 ^ t.M → (∀ u ∈ us, u < 2 ^ t.k) → (∀ v ∈ vs, v < 2 ^ t.k) →
      us.length = vs.length → τ + us.length ≤ T →
      (∀ i (h : i < vs.length), μ (τ + 1 + i) (t.runState s (vs.take i)) vs[i] = b (τ + 1 + i)) →
      pathCost t μ τ s us ≤ pathCost t μ τ s vs → us = vs := by
  intro us
  induction us with
  | nil =>
    intro vs τ s _ _ _ hl _ _ _
    exact (List.length_eq_zero_iff.1 hl.symm).symm
  | cons u us ih =>
    intro vs τ s hs hu hv hl hT htrue hle
    cases vs with
    | nil => simp at hl
    | cons v vs =>
      simp only [List.length_cons, Nat.add_right_cancel_iff] at hl hT
      have hu0 := hu u (by simp)
      have hv0 := hv v (by simp)
      have h0 : μ (τ + 1) s v = b (τ + 1) := htrue 0 (Nat.succ_pos _)
      have hrest : ∀ i (h : i < vs.length), μ (τ + 1 + 1 + i) (t.runState (t.next s v) (vs.take i)) vs[i] =
          b (τ + 1 + 1 + i) := by
        intro i hi
        have := htrue (i + 1) (by simpa using hi)
        simp only [List.take_succ_cons, Trellis.runState_cons, List.getElem_cons_succ] at this
        rw [show τ + 1 + 1 + i = τ + 1 + (i + 1) by omega]; exact this
      rw [pathCost, pathCost] at hle
      by_cases huv : u = v
      · subst huv
        rw [ih vs (τ + 1) (t.next s u) (hw.next_lt hs hu0) (fun x hx => hu x (by simp [hx]))
          (fun x hx => hv x (by simp [hx])) hl (by omega) hrest (le_of_add_le_add_left hle)]
      · exfalso
        have hlt := hstrict (τ + 1) (by omega) (by omega) s hs u hu0 v hv0 h0 huv
        have hge := pathCost_ge hw hlow us (τ + 1) (t.next s u) (hw.next_lt hs hu0) (fun x hx => hu x (by simp [hx]))
          (by omega)
        have heq : ∀ (vs : List Nat) (τ s : Nat),
            (∀ i (h : i < vs.length), μ (τ + 1 + i) (t.runState s (vs.take i)) vs[i] = b (τ + 1 + i)) →
            pathCost t μ τ s vs = ((List.range vs.length).map fun i => b (τ + 1 + i)).sum := by
          intro vs
          induction vs with
          | nil => intro τ s _; simp [pathCost]
          | cons x xs ihx =>
            intro τ s hx
            rw [List.length_cons, List.range_succ_eq_map, List.map_cons, List.sum_cons, List.map_map, pathCost]
            have hx0 : μ (τ + 1) s x = b (τ + 1) := hx 0 (Nat.succ_pos _)
            rw [hx0, ihx (τ + 1) (t.next s x)]
            · congr 2
              apply List.map_congr_left
              intro i _
              show b _ = b _
              congr 1; show τ + 1 + 1 + i = τ + 1 + (i + 1); omega
            · intro i hi
              have := hx (i + 1) (by simpa using hi)
              simp only [List.take_succ_cons, Trellis.runState_cons, List.getElem_cons_succ] at this
              rw [show τ + 1 + 1 + i = τ + 1 + (i + 1) by omega]; exact this
        rw [heq vs (τ + 1) (t.next s v) hrest, h0, ← hl] at hle
        exact absurd hle (not_le.2 (add_lt_add_of_lt_of_le hlt hge))

/-- The decoder recovers a path that meets the lower bound of every step, for every traceback depth. -/
theorem viterbi_unique {α : Type} {t : Trellis} (h : t.Balanced) {bm : List α → List Nat → Py R}
    {μ : Nat → Nat → Nat → R} {b : Nat → R}
    {pad : α} {inPlace : Bool} (jk : VitJunk R) {N tb : Nat} {coded : List α} (htb : 2 ≤ tb)
    (htb2 : tb ≤ N + t.M / t.k) (hB : t.k = 1 ∨ (t.M / t.k - 1) * t.k ≤ tb) (hclen : coded.length = N * t.n)
    (hbm : ∀ j, 1 ≤ j → j ≤ N + t.M / t.k - 1 → ∀ p < 2 ^ t.M, ∀ u < 2 ^ t.k,
      bm (rxBlock t (N * t.k) pad coded j) (toBits t.n (t.out p u)) = .ok (μ j p u))
    (hlow : ∀ j, 1 ≤ j → j ≤ N + t.M / t.k - 1 → ∀ p < 2 ^ t.M, ∀ u < 2 ^ t.k, b j ≤ μ j p u)
    (hstrict : ∀ j, 1 ≤ j → j ≤ N + t.M / t.k - 1 → ∀ p < 2 ^ t.M, ∀ u < 2 ^ t.k, ∀ v < 2 ^ t.k,
      μ j p v = b j → u ≠ v → b j < μ j p u)
    {w : List Nat} (hw : IsInput t (N + t.M / t.k - 1) w)
    (htrue : ∀ i (hi : i < w.length), μ (1 + i) (t.runState 0 (w.take i)) w[i] = b (1 + i)) :
    viterbi t bm (some pad) inPlace jk (N * t.k) tb coded =
      .ok ((w.take N).flatMap (toBits t.k),
        if t.M / t.k ≤ 1 then coded else paddedCoded t (N * t.k) inPlace pad coded) := by
  haveI : IsOrderedAddMonoid R := inferInstance
  rw [viterbi_blocks h jk htb htb2 hB hclen hbm]
  have hk := h.wf.k_pos
  have hq : 1 ≤ t.M / t.k := (Nat.le_div_iff_mul_le hk).2 (by have := h.k_le; omega)
  congr 2
  have hwt : w.take N = (List.range N).map fun i => w.getD i 0 := by
    apply List.ext_getElem
    · rw [List.length_take, hw.1, List.length_map, List.length_range]; omega
    · intro i h1 h2
      simp only [List.getElem_take, List.getElem_map, List.getElem_range]
      exact (List.getD_eq_getElem _ _ _).symm
  rw [hwt, List.flatMap_map]
  apply List.flatMap_congr
  intro i hi
  rw [List.mem_range] at hi
  set τ := min (N + t.M / t.k - 1) (i + tb - 1) with hτ
  have hmin := bestPath_isMin h μ τ
  have hpos : (0 : Nat) < 2 ^ t.M := Nat.two_pow_pos _
  have hlen : (w.take τ).length = τ := by rw [List.length_take, hw.1]; omega
  have hwτ : IsInput t τ (w.take τ) := ⟨hlen, fun u hu => hw.2 u (List.mem_of_mem_take hu)⟩
  have := path_unique h.wf hlow hstrict (bestPath t μ τ) (w.take τ) 0 0 hpos hmin.1.2 hwτ.2
    (by rw [hmin.1.1, hlen]) (by rw [hmin.1.1]; omega) ?_ (hmin.2 _ hwτ)
  · rw [this, List.getD_eq_getElem _ _ (by rw [hlen]; omega), List.getD_eq_getElem _ _ (by rw [hw.1]; omega)]
    simp
  · intro i' hi'
    rw [hlen] at hi'
    have := htrue i' (by rw [hw.1]; omega)
    simp only [Nat.zero_add, List.getElem_take, List.take_take]
    rw [show min i' τ = i' by omega]
    exact this

end

/-! ### Path costs as sums over samples -/

section
variable {R α : Type} [AddCommMonoid R]

theorem seqCost_append {cost : α → Nat → R} {a b : List α} {c d : List Nat} (h : a.length = c.length) :
    seqCost cost (a ++ b) (c ++ d) = seqCost cost a c + seqCost cost b d := by
  unfold seqCost
  rw [List.zipWith_append h, List.sum_append]

theorem pathCost_eq_seqCost {t : Trellis} {cost : α → Nat → R} {rx : Nat → List α} (hrx : ∀ j, 1 ≤ j → (rx j).length = t.n) :
    ∀ (us : List Nat) (τ s : Nat),
    pathCost t (fun j p u => seqCost cost (rx j) (toBits t.n (t.out p u))) τ s us =
      seqCost cost ((List.range us.length).flatMap fun i => rx (τ + 1 + i)) (t.runOut s us) := by
  intro us
  induction us with
  | nil => intro τ s; simp [pathCost, seqCost]
  | cons u us ih =>
    intro τ s
    rw [pathCost, ih, List.length_cons, List.range_succ_eq_map, List.flatMap_cons, List.flatMap_map, Trellis.runOut,
      seqCost_append (by rw [hrx _ (by omega), toBits_length])]
    congr 2
    apply List.flatMap_congr
    intro i _
    show rx _ = rx (τ + 1 + (i + 1))
    congr 1; omega

end

theorem rxBlock_length {α : Type} {t : Trellis} (hk : 0 < t.k) {N : Nat} {pad : α} {coded : List α} (hc : coded.length = N * t.n) {j : Nat}
    (hj : 1 ≤ j) : (rxBlock t (N * t.k) pad coded j).length = t.n := by
  unfold rxBlock
  rw [Nat.mul_div_cancel _ hk]
  split
  · next h =>
    rw [List.length_take, List.length_drop, hc]
    have : j * t.n ≤ N * t.n := Nat.mul_le_mul_right _ h
    obtain ⟨i, rfl⟩ : ∃ i, j = i + 1 := ⟨j - 1, by omega⟩
    rw [Nat.succ_mul] at this
    rw [Nat.add_sub_cancel]; omega
  · simp

theorem rx_concat {α : Type} {t : Trellis} (hk : 0 < t.k) {N P : Nat} {pad : α} {coded : List α} (hc : coded.length = N * t.n) :
    ((List.range (N + P)).flatMap fun i => rxBlock t (N * t.k) pad coded (0 + 1 + i)) =
      coded ++ List.replicate (P * t.n) pad := by
  have h1 : ∀ m ≤ N, ((List.range m).flatMap fun i => rxBlock t (N * t.k) pad coded (0 + 1 + i)) =
      coded.take (m * t.n) := by
    intro m
    induction m with
    | zero => intro _; simp
    | succ m ih =>
      intro hm
      rw [List.range_succ, List.flatMap_append, ih (by omega), Nat.succ_mul, List.take_add]
      congr 1
      simp only [List.flatMap_cons, List.flatMap_nil, List.append_nil, rxBlock]
      rw [Nat.mul_div_cancel _ hk, if_pos (by omega)]
      congr 2
      rw [show 0 + 1 + m - 1 = m by omega]
  induction P with
  | zero => simp [h1 N (le_refl _), ← hc]
  | succ P ih =>
    rw [← Nat.add_assoc, List.range_succ, List.flatMap_append, ih, List.append_assoc, Nat.succ_mul]
    congr 1
    simp only [List.flatMap_cons, List.flatMap_nil, List.append_nil, rxBlock]
    rw [Nat.mul_div_cancel _ hk, if_neg (by omega), List.replicate_add]

end Verif
