import Verif.Lemmas.TrellisMatrix
/-
Linearity of matrix trellises and the behaviour of feed-forward encoders.
-/
namespace Verif

theorem getD_toBits {w n i : Nat} (h : i < w) : (toBits w n).getD i 0 = n / 2 ^ (w - 1 - i) % 2 := by
  unfold toBits; exact getD_map_range _ _ h

theorem xor_bit (a b p : Nat) : (a ^^^ b) / 2 ^ p % 2 = (a / 2 ^ p % 2 + b / 2 ^ p % 2) % 2 := by
  rw [← Nat.toNat_testBit, ← Nat.toNat_testBit, ← Nat.toNat_testBit, Nat.testBit_xor]
  cases a.testBit p <;> cases b.testBit p <;> rfl

theorem getD_toBits_xor (w a b i : Nat) :
    (toBits w (a ^^^ b)).getD i 0 = ((toBits w a).getD i 0 + (toBits w b).getD i 0) % 2 := by
  by_cases h : i < w
  · rw [getD_toBits h, getD_toBits h, getD_toBits h, xor_bit]
  · rw [List.getD_eq_default _ _ (by simpa using h), List.getD_eq_default _ _ (by simpa using h),
      List.getD_eq_default _ _ (by simpa using h)]

theorem toBits_xor (w a b : Nat) :
    toBits w (a ^^^ b) = List.zipWith (fun x y => (x + y) % 2) (toBits w a) (toBits w b) := by
  apply List.ext_getElem (by simp)
  intro i h1 h2
  have := getD_toBits_xor w a b i
  rw [List.getD_eq_getElem _ _ h1] at this
  simp only [toBits_length] at h1
  rw [List.getD_eq_getElem _ _ (by simpa using h1), List.getD_eq_getElem _ _ (by simpa using h1)] at this
  rw [this]; simp

theorem zipWith_lt_two (a b : List Nat) : ∀ x ∈ List.zipWith (fun x y => (x + y) % 2) a b, x < 2 := by
  intro x hx
  rw [List.mem_iff_getElem] at hx
  obtain ⟨i, hi, rfl⟩ := hx
  simp only [List.getElem_zipWith]
  exact Nat.mod_lt _ (by omega)

theorem bitarray2dec_xor {a b : List Nat} (ha : ∀ x ∈ a, x < 2) (hb : ∀ x ∈ b, x < 2) (hl : a.length = b.length) :
    bitarray2dec (List.zipWith (fun x y => (x + y) % 2) a b) = bitarray2dec a ^^^ bitarray2dec b := by
  have h1 := toBits_xor a.length (bitarray2dec a) (bitarray2dec b)
  rw [toBits_bitarray2dec ha] at h1
  rw [hl, toBits_bitarray2dec hb, ← hl] at h1
  rw [← h1]
  apply bitarray2dec_toBits
  have e1 := bitarray2dec_lt ha
  have e2 := bitarray2dec_lt hb
  rw [← hl] at e2
  exact Nat.xor_lt_two_pow e1 e2

theorem zipWith_map_range {f g : Nat → Nat} (n : Nat) :
    List.zipWith (fun x y => (x + y) % 2) ((List.range n).map f) ((List.range n).map g) =
      (List.range n).map fun i => (f i + g i) % 2 := by
  apply List.ext_getElem (by simp)
  intro i h1 h2
  simp

/-- Sums of lists over `range` as Finset sums. -/
theorem list_sum_range (f : Nat → Nat) (n : Nat) : ((List.range n).map f).sum = ∑ i ∈ Finset.range n, f i := rfl

/-- Tables are linear over GF(2) (states and symbols are bit vectors, addition is XOR). -/
structure Trellis.Linear (t : Trellis) : Prop where
  next : ∀ s < 2 ^ t.M, ∀ s' < 2 ^ t.M, ∀ u < 2 ^ t.k, ∀ u' < 2 ^ t.k,
    t.next (s ^^^ s') (u ^^^ u') = t.next s u ^^^ t.next s' u'
  out : ∀ s < 2 ^ t.M, ∀ s' < 2 ^ t.M, ∀ u < 2 ^ t.k, ∀ u' < 2 ^ t.k,
    t.out (s ^^^ s') (u ^^^ u') = t.out s u ^^^ t.out s' u'

theorem parity_sum {ι : Type} (s : Finset ι) (f g h : ι → Nat) (e : ∀ i ∈ s, f i % 2 = (g i + h i) % 2) :
    (∑ i ∈ s, f i) % 2 = ((∑ i ∈ s, g i) % 2 + (∑ i ∈ s, h i) % 2) % 2 := by
  classical
  induction s using Finset.induction with
  | empty => simp
  | insert a s ha ih =>
    rw [Finset.sum_insert ha, Finset.sum_insert ha, Finset.sum_insert ha]
    have h1 := ih (fun i hi => e i (Finset.mem_insert_of_mem hi))
    have h2 := e a (Finset.mem_insert_self _ _)
    omega

theorem sum_congr_mod {ι : Type} (s : Finset ι) (f g : ι → Nat) (e : ∀ i ∈ s, f i % 2 = g i % 2) :
    (∑ i ∈ s, f i) % 2 = (∑ i ∈ s, g i) % 2 := by
  have := parity_sum s f g (fun _ => 0) (fun i hi => by rw [e i hi]; simp)
  simpa using this

section
variable {junk : Nat → Nat → Nat} {memory : List Nat} {G : List (List Nat)} {n : Nat}
  {feedback : Option (List (List Nat))} {rsc : Bool} {fmt : String}

theorem srOf_xor (s s' u u' r c : Nat) (hr : r ≤ memory.getD c 0) :
    srOf junk memory G (s ^^^ s') (u ^^^ u') r c = (srOf junk memory G s u r c + srOf junk memory G s' u' r c) % 2 := by
  unfold srOf shiftReg
  by_cases h0 : r = 0
  · simp only [if_pos h0]; exact getD_toBits_xor _ _ _ _
  · simp only [if_neg h0, if_pos hr]; exact getD_toBits_xor _ _ _ _

/-- Parity sums over shift registers are additive when the coefficients stay inside the registers. -/
theorem regSum_xor {w k : Nat} {coef : Nat → Nat → Nat} {sr sr' sr'' : Nat → Nat → Nat}
    (hsr : ∀ r c, r ≤ memory.getD c 0 → sr'' r c = (sr r c + sr' r c) % 2)
    (hc : ∀ c < k, ∀ r < w, memory.getD c 0 < r → coef c r = 0) :
    (∑ r ∈ Finset.range w, ∑ c ∈ Finset.range k, sr'' r c * coef c r) % 2 =
      ((∑ r ∈ Finset.range w, ∑ c ∈ Finset.range k, sr r c * coef c r) % 2 +
        (∑ r ∈ Finset.range w, ∑ c ∈ Finset.range k, sr' r c * coef c r) % 2) % 2 := by
  apply parity_sum
  intro r hr
  rw [Finset.mem_range] at hr
  rw [Nat.add_mod]
  apply parity_sum
  intro c hcm
  rw [Finset.mem_range] at hcm
  by_cases h : r ≤ memory.getD c 0
  · rw [hsr r c h, ← add_mul, Nat.mul_mod, Nat.mod_mod, ← Nat.mul_mod]
  · rw [hc c hcm r hr (by omega)]; simp

theorem coefArr_at {w rows cols : Nat} {m : List (List Nat)} {i j r : Nat} (hi : i < rows) (hj : j < cols) (hr : r < w) :
    coefAt (coefArr fmt w rows cols m) i j r = polyCoef fmt w (matAt m i j) r :=
  coefAt_map (fun i j r => polyCoef fmt w (matAt m i j) r) hi hj hr

theorem outBit_sum {k w : Nat} {sr : Nat → Nat → Nat} {j : Nat} (hj : j < n) :
    outBit w k (coefArr fmt w k n G) sr j =
      (∑ r ∈ Finset.range w, ∑ c ∈ Finset.range k, sr r c * polyCoef fmt w (matAt G c j) r) % 2 := by
  unfold outBit
  rw [list_sum_range]
  congr 1
  apply Finset.sum_congr rfl
  intro r hr
  rw [list_sum_range]
  apply Finset.sum_congr rfl
  intro c hc
  rw [Finset.mem_range] at hr hc
  rw [coefArr_at hc hj hr]

theorem fbBit_sum {k w : Nat} {F : List (List Nat)} {sr : Nat → Nat → Nat} {l : Nat} (hl : l < k) :
    fbBit w k (coefArr fmt w k k F) sr l =
      (∑ r ∈ Finset.range w, ∑ c ∈ Finset.range k, sr r c * polyCoef fmt w (matAt F l c) r) % 2 := by
  unfold fbBit
  rw [list_sum_range]
  congr 1
  apply Finset.sum_congr rfl
  intro r hr
  rw [list_sum_range]
  apply Finset.sum_congr rfl
  intro c hc
  rw [Finset.mem_range] at hr hc
  rw [coefArr_at hl hc hr]

theorem zipWith_flatMap {f g : Nat → List Nat} (hl : ∀ c, (f c).length = (g c).length) (k : Nat) :
    List.zipWith (fun x y => (x + y) % 2) ((List.range k).flatMap f) ((List.range k).flatMap g) =
      (List.range k).flatMap fun c => List.zipWith (fun x y => (x + y) % 2) (f c) (g c) := by
  induction k with
  | zero => simp
  | succ k ih =>
    rw [List.range_succ, List.flatMap_append, List.flatMap_append, List.flatMap_append, List.zipWith_append, ih]
    · simp
    · clear ih
      induction k with
      | zero => simp
      | succ k ih => simp only [List.range_succ, List.flatMap_append, List.length_append, ih]; simp [hl]

theorem defaultFeedback_fits (hf : fmt = "MSB" ∨ fmt = "LSB" ∨ fmt = "Matlab") (hm : memory.length = G.length) :
    FitsMemoryFb fmt memory (defaultFeedback fmt G.length memory) := by
  intro l hl c hc d hd hd'
  rw [defaultFeedback_coef hf memory (by omega) (by omega) (by omega), if_neg (by omega)]

theorem trellisOf_linear (h : TrellisArgs memory G n feedback fmt) (hg : FitsMemory fmt memory n G)
    (hf : ∀ F, feedback = some F → FitsMemoryFb fmt memory F) :
    (trellisOf junk memory G n feedback rsc fmt).Linear := by
  have hfe : FitsMemoryFb fmt memory (effFeedback fmt memory G feedback) := by
    cases hfb : feedback with
    | none => exact defaultFeedback_fits h.fmt_ok h.mem_len
    | some F => exact hf F hfb
  have hml := h.mem_len
  constructor
  · intro s hs s' hs' u hu u' hu'
    have hss : s ^^^ s' < 2 ^ memory.sum := Nat.xor_lt_two_pow hs hs'
    have huu : u ^^^ u' < 2 ^ G.length := Nat.xor_lt_two_pow hu hu'
    rw [trellisOf_next hss huu, trellisOf_next hs hu, trellisOf_next hs' hu', ← bitarray2dec_xor]
    · congr 1
      unfold nextBitsOf nextBits
      rw [zipWith_flatMap (by simp)]
      apply List.flatMap_congr
      intro c hc
      rw [List.mem_range] at hc
      rw [zipWith_map_range]
      apply List.map_congr_left
      intro r hr
      rw [List.mem_range] at hr
      by_cases h0 : r = 0
      · simp only [if_pos h0]
        rw [fbBit_sum hc, fbBit_sum hc, fbBit_sum hc]
        refine regSum_xor (memory := memory) (coef := fun c' r => polyCoef fmt (memMax memory + 1)
          (matAt (effFeedback fmt memory G feedback) c c') r) ?_ ?_
        · intro r c' hr'; exact srOf_xor s s' u u' r c' hr'
        · intro c' hc' r hr' hlt
          exact hfe c (by omega) c' (by omega) r hlt (by omega)
      · simp only [if_neg h0]
        rw [srOf_xor s s' u u' r c (by omega)]
        omega
    · exact nextBits_lt_two _ _
    · exact nextBits_lt_two _ _
    · rw [nextBitsOf, nextBitsOf, ← hml, nextBits_length, nextBits_length]
  · intro s hs s' hs' u hu u' hu'
    have hss : s ^^^ s' < 2 ^ memory.sum := Nat.xor_lt_two_pow hs hs'
    have huu : u ^^^ u' < 2 ^ G.length := Nat.xor_lt_two_pow hu hu'
    have hlt : ∀ s u, ∀ x ∈ outBitsOf junk memory G n fmt s u, x < 2 := by
      intro s u x hx
      simp only [outBitsOf, List.mem_map, outBit] at hx
      obtain ⟨j, _, rfl⟩ := hx
      omega
    rw [trellisOf_out hss huu, trellisOf_out hs hu, trellisOf_out hs' hu', ← bitarray2dec_xor (hlt _ _) (hlt _ _)
      (by simp [outBitsOf])]
    congr 1
    unfold outBitsOf
    rw [zipWith_map_range]
    apply List.map_congr_left
    intro j hj
    rw [List.mem_range] at hj
    rw [outBit_sum hj, outBit_sum hj, outBit_sum hj]
    refine regSum_xor (memory := memory) (coef := fun c r => polyCoef fmt (memMax memory + 1) (matAt G c j) r) ?_ ?_
    · intro r c' hr'; exact srOf_xor s s' u u' r c' hr'
    · intro c hc r hr' hlt
      exact hg c (by omega) j hj r hlt (by omega)

/-! ### Feed-forward encoders -/

/-- Bits of the registers before step `t`. -/
def ffState (k : Nat) (memory bits : List Nat) (t : Nat) : List Nat :=
  (List.range k).flatMap fun c => (List.range (memory.getD c 0)).map fun r => delayed k bits c t (r + 1)

theorem delayed_lt_two {k : Nat} {bits : List Nat} (hb : ∀ b ∈ bits, b < 2) (c t d : Nat) :
    delayed k bits c t d < 2 := by
  unfold delayed inputAt
  split
  · by_cases h : (t - d) * k + c < bits.length
    · rw [List.getD_eq_getElem _ _ h]; exact hb _ (List.getElem_mem h)
    · rw [List.getD_eq_default _ _ (by omega)]; omega
  · omega

theorem ffState_lt_two {k : Nat} {memory bits : List Nat} (hb : ∀ b ∈ bits, b < 2) (t : Nat) :
    ∀ x ∈ ffState k memory bits t, x < 2 :=
  regs_lt_two (g := fun c r => delayed k bits c t (r + 1)) (fun c _ r _ => delayed_lt_two hb c t (r + 1))

theorem ffState_length {memory bits : List Nat} (t : Nat) :
    (ffState memory.length memory bits t).length = memory.sum := by
  rw [ffState, regs_length memory (fun c r => delayed memory.length bits c t (r + 1)) _ (le_refl _), memOffset_length]

/-- The input symbol at step `t`. -/
def symAt (k : Nat) (bits : List Nat) (t : Nat) : Nat := bitarray2dec ((bits.drop (t * k)).take k)

theorem symAt_bits {k : Nat} {bits : List Nat} (hb : ∀ b ∈ bits, b < 2) {t : Nat} (ht : (t + 1) * k ≤ bits.length) :
    toBits k (symAt k bits t) = (bits.drop (t * k)).take k := by
  have hl : ((bits.drop (t * k)).take k).length = k := by
    rw [List.length_take, List.length_drop]
    rw [Nat.succ_mul] at ht; omega
  have := toBits_bitarray2dec (b := (bits.drop (t * k)).take k)
    (fun x hx => hb x (List.mem_of_mem_drop (List.mem_of_mem_take hx)))
  rw [hl] at this
  exact this

theorem symAt_getD {k : Nat} {bits : List Nat} (hb : ∀ b ∈ bits, b < 2) {t c : Nat} (ht : (t + 1) * k ≤ bits.length)
    (hc : c < k) : (toBits k (symAt k bits t)).getD c 0 = inputAt k bits c t := by
  rw [symAt_bits hb ht]
  unfold inputAt
  rw [Nat.succ_mul] at ht
  rw [List.getD_eq_getElem _ _ (by rw [List.length_take, List.length_drop]; omega),
    List.getD_eq_getElem _ _ (by omega)]
  simp

theorem srOf_ff {bits : List Nat} (hb : ∀ b ∈ bits, b < 2) (hml : memory.length = G.length) {t c r : Nat}
    (ht : (t + 1) * G.length ≤ bits.length) (hc : c < G.length) (hr : r ≤ memory.getD c 0) :
    srOf junk memory G (bitarray2dec (ffState G.length memory bits t)) (symAt G.length bits t) r c =
      delayed G.length bits c t r := by
  unfold srOf shiftReg
  by_cases h0 : r = 0
  · subst h0
    rw [if_pos rfl, symAt_getD hb ht hc]
    simp [delayed]
  · rw [if_neg h0, if_pos hr]
    have e := toBits_bitarray2dec (ffState_lt_two (memory := memory) (k := G.length) hb t)
    have hlen := ffState_length (memory := memory) (bits := bits) t
    rw [hml] at hlen
    rw [hlen] at e
    rw [e, ffState]
    rw [regs_getD memory (fun c r => delayed G.length bits c t (r + 1)) _ (by omega) c hc (r - 1) (by omega)]
    rw [show r - 1 + 1 = r by omega]

theorem ff_next (h : TrellisArgs memory G n none fmt) {bits : List Nat} (hb : ∀ b ∈ bits, b < 2) {t : Nat}
    (ht : (t + 1) * G.length ≤ bits.length) :
    nextBitsOf junk memory G none fmt (bitarray2dec (ffState G.length memory bits t)) (symAt G.length bits t) =
      ffState G.length memory bits (t + 1) := by
  unfold nextBitsOf nextBits ffState
  apply List.flatMap_congr
  intro c hc
  rw [List.mem_range] at hc
  apply List.map_congr_left
  intro r hr
  rw [List.mem_range] at hr
  have hsr := fun c r hc hr => srOf_ff (junk := junk) (memory := memory) (G := G) hb h.mem_len ht
    (c := c) (r := r) hc hr
  unfold ffState at hsr
  by_cases h0 : r = 0
  · subst h0
    rw [if_pos rfl, fbBit_sum hc]
    have e : ∀ r < memMax memory + 1, ∀ c' < G.length, polyCoef fmt (memMax memory + 1)
        (matAt (effFeedback fmt memory G none) c c') r = if c = c' ∧ r = 0 then 1 else 0 :=
      fun r hr c' hc' => defaultFeedback_coef h.fmt_ok memory hc hc' hr
    rw [Finset.sum_eq_single 0, Finset.sum_eq_single c]
    · rw [e 0 (by omega) c hc, if_pos ⟨rfl, rfl⟩, hsr c 0 hc (by omega)]
      have := delayed_lt_two (k := G.length) hb c t 0
      rw [Nat.mul_one, Nat.mod_eq_of_lt this]
      simp [delayed]
    · intro c' hc' hne
      rw [Finset.mem_range] at hc'
      rw [e 0 (by omega) c' hc', if_neg (by tauto)]; simp
    · intro hn; exact absurd (Finset.mem_range.2 hc) hn
    · intro r' hr' hne
      rw [Finset.mem_range] at hr'
      apply Finset.sum_eq_zero
      intro c' hc'
      rw [Finset.mem_range] at hc'
      rw [e r' hr' c' hc', if_neg (by tauto)]; simp
    · intro hn; exact absurd (Finset.mem_range.2 (by omega)) hn
  · rw [if_neg h0, hsr c r hc (by omega), Nat.mod_eq_of_lt (delayed_lt_two hb _ _ _)]
    unfold delayed
    by_cases hrt : r ≤ t
    · rw [if_pos hrt, if_pos (by omega)]; congr 1; omega
    · rw [if_neg hrt, if_neg (by omega)]

theorem ff_out (h : TrellisArgs memory G n none fmt) (hg : FitsMemory fmt memory n G) {bits : List Nat}
    (hb : ∀ b ∈ bits, b < 2) {t : Nat} (ht : (t + 1) * G.length ≤ bits.length) :
    outBitsOf junk memory G n fmt (bitarray2dec (ffState G.length memory bits t)) (symAt G.length bits t) =
      (List.range n).map fun j =>
        (∑ i ∈ Finset.range G.length, ∑ d ∈ Finset.range (memory.getD i 0 + 1),
          polyCoef fmt (memMax memory + 1) (matAt G i j) d * delayed G.length bits i t d) % 2 := by
  unfold outBitsOf
  apply List.map_congr_left
  intro j hj
  rw [List.mem_range] at hj
  rw [outBit_sum hj, Finset.sum_comm]
  congr 1
  apply Finset.sum_congr rfl
  intro c hc
  rw [Finset.mem_range] at hc
  have hsub : Finset.range (memory.getD c 0 + 1) ⊆ Finset.range (memMax memory + 1) := by
    intro x hx
    rw [Finset.mem_range] at hx ⊢
    have := le_memMax (memory := memory) c
    omega
  rw [← Finset.sum_subset hsub]
  · apply Finset.sum_congr rfl
    intro d hd
    rw [Finset.mem_range] at hd
    rw [srOf_ff hb h.mem_len ht hc (by omega), Nat.mul_comm]
  · intro d hd hd'
    rw [Finset.mem_range] at hd hd'
    rw [hg c (by have := h.mem_len; omega) j hj d (by omega) (by omega)]; simp

theorem inSyms_eq (k : Nat) (bits : List Nat) : inSyms k bits = (List.range (bits.length / k)).map (symAt k bits) := rfl

theorem ff_zero (k : Nat) (memory bits : List Nat) : bitarray2dec (ffState k memory bits 0) = 0 := by
  have : ∀ x ∈ ffState k memory bits 0, x = 0 := by
    intro x hx
    simp only [ffState, List.mem_flatMap, List.mem_map] at hx
    obtain ⟨c, _, r, _, rfl⟩ := hx
    simp [delayed]
  generalize hl : ffState k memory bits 0 = l at this
  clear hl
  induction l with
  | nil => rfl
  | cons x l ih =>
    rw [bitarray2dec_cons, ih (fun y hy => this y (by simp [hy])), this x (by simp)]
    simp

theorem ff_run (h : TrellisArgs memory G n none fmt) {bits : List Nat}
    (hb : ∀ b ∈ bits, b < 2) : ∀ T ≤ bits.length / G.length,
    (trellisOf junk memory G n none rsc fmt).runState 0 ((List.range T).map (symAt G.length bits)) =
      bitarray2dec (ffState G.length memory bits T) := by
  intro T
  induction T with
  | zero => intro _; rw [List.range_zero, List.map_nil, Trellis.runState_nil, ff_zero]
  | succ T ih =>
    intro hT
    rw [List.range_succ, List.map_append, Trellis.runState_append, ih (by omega)]
    simp only [List.map_cons, List.map_nil, Trellis.runState, List.foldl_cons, List.foldl_nil]
    have ht : (T + 1) * G.length ≤ bits.length :=
      le_trans (Nat.mul_le_mul_right _ hT) (Nat.div_mul_le_self _ _)
    rw [trellisOf_next, ff_next h hb ht]
    · have := bitarray2dec_lt (ffState_lt_two (memory := memory) (k := G.length) hb T)
      rw [← h.mem_len, ffState_length] at this
      rw [← h.mem_len]; exact this
    · exact bitarray2dec_group_lt hb _ _

theorem ff_runOut (h : TrellisArgs memory G n none fmt) (hg : FitsMemory fmt memory n G) {bits : List Nat}
    (hb : ∀ b ∈ bits, b < 2) : ∀ T ≤ bits.length / G.length,
    (trellisOf junk memory G n none rsc fmt).runOut 0 ((List.range T).map (symAt G.length bits)) =
      (List.range T).flatMap fun t => (List.range n).map fun j =>
        (∑ i ∈ Finset.range G.length, ∑ d ∈ Finset.range (memory.getD i 0 + 1),
          polyCoef fmt (memMax memory + 1) (matAt G i j) d * delayed G.length bits i t d) % 2 := by
  intro T
  induction T with
  | zero => intro _; simp [Trellis.runOut]
  | succ T ih =>
    intro hT
    rw [List.range_succ, List.map_append, Trellis.runOut_append, ih (by omega), List.flatMap_append]
    rw [ff_run h hb T (by omega)]
    have ht : (T + 1) * G.length ≤ bits.length :=
      le_trans (Nat.mul_le_mul_right _ hT) (Nat.div_mul_le_self _ _)
    congr 1
    simp only [List.map_cons, List.map_nil, Trellis.runOut, List.append_nil, List.flatMap_cons, List.flatMap_nil]
    rw [trellisOf_out, ff_out h hg hb ht]
    · have e := toBits_bitarray2dec (b := (List.range n).map fun j =>
        (∑ i ∈ Finset.range G.length, ∑ d ∈ Finset.range (memory.getD i 0 + 1),
          polyCoef fmt (memMax memory + 1) (matAt G i j) d * delayed G.length bits i T d) % 2) (by
          intro x hx
          simp only [List.mem_map] at hx
          obtain ⟨j, _, rfl⟩ := hx
          omega)
      rw [List.length_map, List.length_range] at e
      exact e
    · have := bitarray2dec_lt (ffState_lt_two (memory := memory) (k := G.length) hb T)
      rw [← h.mem_len, ffState_length] at this
      rw [← h.mem_len]; exact this
    · exact bitarray2dec_group_lt hb _ _

end
end Verif
