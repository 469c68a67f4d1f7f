import Verif.Props.ConvDistance
/-
C110: any number of channel errors, as long as they are sparse.
-/
namespace Verif

/-- Every path of `W` steps that starts in state 0 with a non-zero group and meets no state 0 up to and including its end has code weight at least `d₁`;
every path of `W` steps from a state other than 0 that meets no state 0 has code weight at least `d₂`. -/
def AwayWeight (t : Trellis) (W d₁ d₂ : Nat) : Prop :=
  (∀ us, IsInput t W us → us.getD 0 0 ≠ 0 → (∀ j, 0 < j → j ≤ W → t.runState 0 (us.take j) ≠ 0) → d₁ ≤ (t.runOut 0 us).sum) ∧
  ∀ s us, s < 2 ^ t.M → s ≠ 0 → IsInput t W us → (∀ j, 0 < j → j ≤ W → t.runState s (us.take j) ≠ 0) → d₂ ≤ (t.runOut s us).sum

/-- One step of the table of minimal weights of paths that avoid state 0 (at most 1000). -/
def awayStep (t : Trellis) (tab : List Nat) : List Nat :=
  (List.range (2 ^ t.M)).map fun s =>
    (((List.range (2 ^ t.k)).filter fun u => t.next s u != 0).map fun u => (toBits t.n (t.out s u)).sum + tab.getD (t.next s u) 0).foldl min 1000

/-- Minimal weight of a path of `ℓ` steps that avoids state 0, for every starting state. -/
def awayTable (t : Trellis) : Nat → List Nat
  | 0 => List.replicate (2 ^ t.M) 0
  | ℓ + 1 => awayStep t (awayTable t ℓ)

theorem awayTable_le {t : Trellis} (hw : t.WF) : ∀ (ℓ s : Nat) (us : List Nat), s < 2 ^ t.M → IsInput t ℓ us →
    (∀ j, 0 < j → j ≤ ℓ → t.runState s (us.take j) ≠ 0) → (awayTable t ℓ).getD s 0 ≤ (t.runOut s us).sum
  | 0, s, us, hs, _, _ => by
    simp only [awayTable]
    rw [List.getD_eq_getElem _ _ (by simpa using hs)]
    simp
  | ℓ + 1, s, [], _, hu, _ => by simp [IsInput] at hu
  | ℓ + 1, s, u :: us, hs, hu, ha => by
    have hul : u < 2 ^ t.k := hu.2 u List.mem_cons_self
    have ih := awayTable_le hw ℓ (t.next s u) us (hw.next_lt hs hul) ⟨by simpa using hu.1, fun x hx => hu.2 x (List.mem_cons_of_mem _ hx)⟩ (by
      intro j h1 h2
      have := ha (j + 1) (by omega) (by omega)
      simpa [Trellis.runState] using this)
    have hne : t.next s u ≠ 0 := by
      have := ha 1 (by omega) (by omega)
      simpa [Trellis.runState] using this
    simp only [awayTable, awayStep]
    rw [List.getD_eq_getElem _ _ (by simpa using hs), List.getElem_map, List.getElem_range]
    refine le_trans ((foldl_min_le _ _).2 _ (List.mem_map.2 ⟨u, List.mem_filter.2 ⟨List.mem_range.2 hul, by simpa using hne⟩, rfl⟩)) ?_
    simp only [Trellis.runOut, List.sum_append]
    omega

/-- Decidable certificate of `AwayWeight t (W + 1) d₁ d₂`. -/
def awayCheck (t : Trellis) (W d₁ d₂ : Nat) : Bool :=
  let tab := awayTable t W
  ((List.range (2 ^ t.k)).all fun u => u == 0 || decide (d₁ ≤ (toBits t.n (t.out 0 u)).sum + tab.getD (t.next 0 u) 0)) &&
    let tab' := awayStep t tab
    (List.range (2 ^ t.M)).all fun s => s == 0 || decide (d₂ ≤ tab'.getD s 0)

theorem awayCheck_sound {t : Trellis} (hw : t.WF) {W d₁ d₂ : Nat} (h : awayCheck t W d₁ d₂ = true) : AwayWeight t (W + 1) d₁ d₂ := by
  simp only [awayCheck, Bool.and_eq_true] at h
  obtain ⟨hA, hB⟩ := h
  constructor
  · intro us hu hne ha
    match us, hu with
    | [], hu => simp [IsInput] at hu
    | u :: us, hu =>
      have hul : u < 2 ^ t.k := hu.2 u List.mem_cons_self
      have h1 := List.all_eq_true.1 hA u (List.mem_range.2 hul)
      simp only [List.getD_cons_zero] at hne
      simp only [Bool.or_eq_true, beq_iff_eq, hne, decide_eq_true_eq, false_or] at h1
      have h2 := awayTable_le hw W (t.next 0 u) us (hw.next_lt (Nat.two_pow_pos _) hul)
        ⟨by simpa using hu.1, fun x hx => hu.2 x (List.mem_cons_of_mem _ hx)⟩ (by
          intro j h1 h2
          have := ha (j + 1) (by omega) (by omega)
          simpa [Trellis.runState] using this)
      simp only [Trellis.runOut, List.sum_append]
      omega
  · intro s us hs hs0 hu ha
    have h1 := List.all_eq_true.1 hB s (List.mem_range.2 hs)
    simp only [Bool.or_eq_true, beq_iff_eq, hs0, decide_eq_true_eq, false_or] at h1
    exact le_trans h1 (awayTable_le hw (W + 1) s us hs hu ha)

/-- The weight of a long path that avoids state 0, block by block. -/
theorem away_blocks {t : Trellis} (hw : t.WF) {W d₁ d₂ : Nat} (hA : AwayWeight t W d₁ d₂) :
    ∀ (q s : Nat) (us : List Nat), s < 2 ^ t.M → s ≠ 0 → IsInput t (q * W) us → (∀ j, 0 < j → j ≤ q * W → t.runState s (us.take j) ≠ 0) →
      q * d₂ ≤ (t.runOut s us).sum
  | 0, _, _, _, _, _, _ => by simp
  | q + 1, s, us, hs, hs0, hu, ha => by
    have hul := hu.1
    rw [Nat.succ_mul] at hul
    rw [Nat.succ_mul] at ha
    have hin1 : IsInput t W (us.take W) := ⟨by rw [List.length_take]; omega, fun u h => hu.2 u (List.mem_of_mem_take h)⟩
    have hin2 : IsInput t (q * W) (us.drop W) := ⟨by rw [List.length_drop]; omega, fun u h => hu.2 u (List.mem_of_mem_drop h)⟩
    have h1 := hA.2 s (us.take W) hs hs0 hin1 (by
      intro j hj hj'
      rw [List.take_take, min_eq_left hj']
      exact ha j hj (by omega))
    have hs' : t.runState s (us.take W) < 2 ^ t.M := hw.runState_lt hs hin1.2
    have hs0' : t.runState s (us.take W) ≠ 0 := by
      rcases Nat.eq_zero_or_pos W with h0 | h0
      · subst h0; simpa [Trellis.runState] using hs0
      · exact ha W h0 (by omega)
    have h2 := away_blocks hw hA q _ (us.drop W) hs' hs0' hin2 (by
      intro j hj hj'
      have := ha (W + j) (by omega) (by omega)
      rw [List.take_add, Trellis.runState_append] at this
      exact this)
    have h3 := runOut_sum_append t s (us.take W) (us.drop W)
    rw [List.take_append_drop] at h3
    rw [Nat.succ_mul]
    omega

theorem leaves_weight {t : Trellis} (hw : t.WF) {W d₁ d₂ : Nat} (hW : 0 < W) (hA : AwayWeight t W d₁ d₂) {ℓ q : Nat} (hq : (q + 1) * W < ℓ) {v : List Nat}
    (hv : Leaves t ℓ v) : d₁ + q * d₂ ≤ (t.runOut 0 v).sum := by
  have hvl := hv.input.1
  rw [Nat.succ_mul] at hq
  have hin1 : IsInput t W (v.take W) := ⟨by rw [List.length_take]; omega, fun u h => hv.input.2 u (List.mem_of_mem_take h)⟩
  have hin2 : IsInput t (q * W) ((v.drop W).take (q * W)) := ⟨by rw [List.length_take, List.length_drop]; omega,
    fun u h => hv.input.2 u (List.mem_of_mem_drop (List.mem_of_mem_take h))⟩
  have h1 := hA.1 (v.take W) hin1 (by
    rw [List.getD_eq_getElem _ _ (by rw [List.length_take]; omega), List.getElem_take]
    have := hv.first
    rwa [List.getD_eq_getElem _ _ (by omega)] at this) (by
    intro j hj hj'
    rw [List.take_take, min_eq_left hj']
    exact hv.away j hj (by omega))
  have h2 := away_blocks hw hA q (t.runState 0 (v.take W)) ((v.drop W).take (q * W)) (hw.runState_lt (Nat.two_pow_pos _) hin1.2)
    (hv.away W hW (by omega)) hin2 (by
      intro j hj hj'
      rw [List.take_take, min_eq_left hj', ← Trellis.runState_append, ← List.take_add]
      exact hv.away _ (by omega) (by omega))
  have h3 := runOut_sum_append t 0 (v.take W) (v.drop W)
  rw [List.take_append_drop] at h3
  have h4 := runOut_sum_append t (t.runState 0 (v.take W)) ((v.drop W).take (q * W)) ((v.drop W).drop (q * W))
  rw [List.take_append_drop] at h4
  omega

theorem stepSeg_split {β : Type} (n : Nat) {a m b : Nat} (h1 : a ≤ m) (h2 : m ≤ b) (x : List β) :
    stepSeg n a b x = stepSeg n a m x ++ stepSeg n m b x := by
  unfold stepSeg
  have e : (b - a) * n = (m - a) * n + (b - m) * n := by rw [← Nat.add_mul]; congr 1; omega
  have e2 : m * n = a * n + (m - a) * n := by rw [← Nat.add_mul]; congr 1; omega
  rw [e, List.take_add, List.drop_drop, e2]

theorem errors_windows {n W e : Nat} {rx c : List Nat} (hl : rx.length = c.length)
    (h : ∀ a, diffCount (stepSeg n a (a + W) rx) (stepSeg n a (a + W) c) ≤ e) :
    ∀ (q a b : Nat), a ≤ b → b ≤ a + q * W → diffCount (stepSeg n a b rx) (stepSeg n a b c) ≤ e * q
  | 0, a, b, h1, h2 => by
    have : b = a := by omega
    subst this
    simp [stepSeg, diffCount]
  | q + 1, a, b, h1, h2 => by
    have hsl : ∀ a b, (stepSeg n a b rx).length = (stepSeg n a b c).length := by
      intro a b; unfold stepSeg; rw [List.length_take, List.length_take, List.length_drop, List.length_drop, hl]
    have hmono : ∀ b, a ≤ b → b ≤ a + W → diffCount (stepSeg n a b rx) (stepSeg n a b c) ≤ e := by
      intro b hb hb'
      refine le_trans ?_ (h a)
      rw [stepSeg_split n hb hb' rx, stepSeg_split n hb hb' c, diffCount_append (hsl a b)]
      omega
    rcases Nat.lt_or_ge b (a + W) with hlt | hge
    · have := hmono b h1 (by omega)
      rw [Nat.mul_succ]; omega
    · rw [stepSeg_split n (show a ≤ a + W by omega) hge rx, stepSeg_split n (show a ≤ a + W by omega) hge c, diffCount_append (hsl _ _), Nat.mul_succ]
      have h3 := errors_windows hl h q (a + W) b hge (by rw [Nat.succ_mul] at h2; omega)
      have h4 := h a
      omega

/-- C110, sparse errors.  Any number of channel errors is corrected as long as any `W` consecutive trellis steps (`W n` coded bits) contain at most `e` of them,
if `d > 2e` is a column distance reached within the traceback depth (`D < tb`, `D ≤ W`), `d' ≥ 2e` one that is reached in the steps that remain after
the last message group of interest, and code sequences that stay away from state 0 gather weight `d₁ > 4e` in their first `W` steps and `d₂ ≥ 2e` in every further `W` steps. -/
theorem C110_sparse {t : Trellis} (h : t.Balanced) (hl : t.Linear)
    {outLen : Nat → Nat} {msg c : List Nat} (hb : ∀ b ∈ msg, b < 2) (hk : t.k ∣ msg.length) {N : Nat}
    (hN : codedInputLen t msg.length "term" = N * t.k) (hout : outLen (N * t.k) = N * t.n)
    (henc : convEncodeRun outLen t msg "term" = .ok (0, c))
    {D D' d d' e : Nat} (hDpos : 0 < D) (hD : ColumnDistance t D d) (hDpos' : 0 < D') (hD' : ColumnDistance t D' d')
    (he : 2 * e < d) (he' : 2 * e ≤ d') {W d₁ d₂ : Nat} (hW : 0 < W) (hA : AwayWeight t W d₁ d₂) (h1 : 4 * e < d₁) (h2 : 2 * e ≤ d₂)
    {K : Nat} (hK : K * t.k ≤ msg.length) (hroom : K + D' ≤ N + t.M / t.k)
    {rx : List Nat} (hrx : rx.length = c.length) (hrb : ∀ x ∈ rx, x < 2)
    (herr : ∀ a, diffCount (stepSeg t.n a (a + W) rx) (stepSeg t.n a (a + W) c) ≤ e)
    (jk : VitJunk Nat) {tb : Nat} (htb : D + 1 ≤ tb) (htb2 : tb ≤ N + t.M / t.k) (hB : t.k = 1 ∨ (t.M / t.k - 1) * t.k ≤ tb) :
    ∃ dec coded', viterbiHard t jk (N * t.k) tb rx = .ok (dec, coded') ∧ dec.length = N * t.k ∧
      dec.take (K * t.k) = msg.take (K * t.k) := by
  have hkp := h.wf.k_pos
  obtain ⟨hz0, hz1⟩ := hl.zero
  obtain ⟨q, hq⟩ := hk
  have hKq : K ≤ q := by rw [hq, Nat.mul_comm] at hK; exact Nat.le_of_mul_le_mul_left hK hkp
  obtain ⟨w, hw, hw0, rfl, hwq, hqN⟩ := terminated_path h hb hq hN hout henc
  have hpre : ∀ (m ℓ : Nat) (v : List Nat), 0 < m → m ≤ ℓ → Leaves t ℓ v → IsInput t m (v.take m) ∧ (v.take m).getD 0 0 ≠ 0 ∧
      (t.runOut 0 (v.take m)).sum ≤ (t.runOut 0 v).sum := by
    intro m ℓ v hm hml hv
    have hvl := hv.input.1
    refine ⟨⟨by rw [List.length_take]; omega, fun u hu => hv.input.2 u (List.mem_of_mem_take hu)⟩, ?_, ?_⟩
    · rw [List.getD_eq_getElem _ _ (by rw [List.length_take]; omega), List.getElem_take]
      have := hv.first
      rwa [List.getD_eq_getElem _ _ (by omega)] at this
    · conv_rhs => rw [← List.take_append_drop m v]
      rw [runOut_sum_append]; omega
  -- long segments
  have hlong : ∀ a b v, a < b → W < b - a → Leaves t (b - a) v →
      2 * diffCount (stepSeg t.n a b rx) (stepSeg t.n a b (t.runOut 0 w)) < (t.runOut 0 v).sum := by
    intro a b v hab hlen hv
    obtain ⟨p, hp⟩ : ∃ p, (b - a - 1) / W = p + 1 :=
      ⟨(b - a - 1) / W - 1, by have : 0 < (b - a - 1) / W := Nat.div_pos (by omega) hW; omega⟩
    have hle : (p + 1) * W ≤ b - a - 1 := by rw [← hp]; exact Nat.div_mul_le_self _ _
    have hlt : b - a - 1 < (p + 2) * W := by
      have h3 := Nat.div_add_mod (b - a - 1) W
      have h4 := Nat.mod_lt (b - a - 1) hW
      rw [hp] at h3
      have : (p + 2) * W = W * (p + 1) + W := by ring
      omega
    have hwt := leaves_weight h.wf hW hA (q := p) (show (p + 1) * W < b - a by omega) hv
    have her := errors_windows hrx herr (p + 2) a b (by omega) (by omega)
    have hmul : p * (2 * e) ≤ p * d₂ := Nat.mul_le_mul_left _ h2
    have : 2 * (e * (p + 2)) = p * (2 * e) + 4 * e := by ring
    omega
  have hshort : ∀ a b, a < b → b - a ≤ W → diffCount (stepSeg t.n a b rx) (stepSeg t.n a b (t.runOut 0 w)) ≤ e := by
    intro a b hab hlen
    have := errors_windows hrx herr 1 a b (by omega) (by omega)
    omega
  have hmain := C110_local h hl jk (N := N) (tb := tb) (by omega) htb2 hB hw (Or.inr hw0) (rx := rx)
    (by rw [hrx, Trellis.runOut_length, hw.1]) hrb (K := K) (by omega) ?_ ?_
  · obtain ⟨dec, c', h2, h3, h4⟩ := hmain
    refine ⟨dec, c', h2, h3, ?_⟩
    have e : msg = (inSyms t.k msg).flatMap (toBits t.k) := (flatMap_inSyms hkp hb (N := q) (by rw [hq, Nat.mul_comm])).symm
    have e2 : w.take K = (w.take q).take K := by rw [List.take_take, min_eq_left hKq]
    rw [h4, e2, hwq]
    have hil : (inSyms t.k msg).length = q := by rw [← hwq, List.length_take, hw.1]; omega
    conv_rhs => rw [e]
    conv_rhs => rw [← List.take_append_drop K (inSyms t.k msg), List.flatMap_append]
    have hlen : (((inSyms t.k msg).take K).flatMap (toBits t.k)).length = K * t.k := by
      rw [List.length_flatMap]; simp [hil, hKq]
    rw [List.take_append_of_le_length (by rw [hlen])]
    exact (List.take_of_length_le (by rw [hlen])).symm
  · intro a b v ha hab hbT hv hcase
    by_cases hlw : W < b - a
    · exact hlong a b v hab hlw hv
    have hs := hshort a b hab (by omega)
    by_cases hlen : D ≤ b - a
    · obtain ⟨p1, p2, p3⟩ := hpre D (b - a) v hDpos hlen hv
      have := hD _ p1 p2
      omega
    · have hz : t.runState 0 v = 0 := by
        rcases hcase with e | e
        · exact e
        · omega
      have hvl := hv.input.1
      have := hD (v ++ List.replicate (D - (b - a)) 0) ⟨by rw [List.length_append, List.length_replicate, hvl]; omega, by
        intro u hu
        rw [List.mem_append] at hu
        rcases hu with hu | hu
        · exact hv.input.2 u hu
        · rw [List.eq_of_mem_replicate hu]; exact Nat.two_pow_pos _⟩ (by
          have := hv.first
          rw [List.getD_eq_getElem _ _ (by omega)] at this
          rw [List.getD_eq_getElem _ _ (by rw [List.length_append]; omega), List.getElem_append_left (by omega)]
          exact this)
      rw [runOut_sum_append, hz, runOut_zeros hz0 hz1, List.sum_replicate, smul_zero, Nat.add_zero] at this
      omega
  · intro a v ha hv hz
    by_cases hlw : W < N + t.M / t.k - 1 - a
    · exact Or.inl (hlong a _ v (by omega) hlw hv)
    have hs := hshort a (N + t.M / t.k - 1) (by omega) (by omega)
    obtain ⟨p1, p2, p3⟩ := hpre D' _ v hDpos' (by omega) hv
    have h2 := hD' _ p1 p2
    rcases Nat.lt_or_ge (2 * diffCount (stepSeg t.n a (N + t.M / t.k - 1) rx)
        (stepSeg t.n a (N + t.M / t.k - 1) (t.runOut 0 w))) (t.runOut 0 v).sum with hlt | hge
    · exact Or.inl hlt
    · exact Or.inr ⟨hw0, by omega⟩

/-- C110, sparse errors, for rate-1/n feed-forward encoders. -/
theorem C110_feedforward_sparse {M n : Nat} {g : List Nat} {fmt : String} (h : TrellisArgs [M] [g] n none fmt) (hM : 0 < M) (hn : 0 < n)
    {D D' d d' e : Nat} (hD : columnCheck (trellisOf (fun _ _ => 0) [M] [g] n none false fmt) D d = true)
    (hD' : columnCheck (trellisOf (fun _ _ => 0) [M] [g] n none false fmt) D' d' = true) (hDD : D' ≤ D) (he : 2 * e < d) (he' : 2 * e ≤ d')
    {W d₁ d₂ : Nat} (hA : awayCheck (trellisOf (fun _ _ => 0) [M] [g] n none false fmt) W d₁ d₂ = true) (hd₁ : 4 * e < d₁) (hd₂ : 2 * e ≤ d₂)
    (junk : Nat → Nat → Nat) :
    ∃ t, mkTrellis junk [M] [g] n none false fmt = .ok t ∧
      ∀ (outLen : Nat → Nat) (msg : List Nat), (∀ b ∈ msg, b < 2) → outLen (msg.length + M) = (msg.length + M) * n →
        ∃ c, convEncode outLen t msg "term" none = .ok c ∧ c.length = (msg.length + M) * n ∧
          ∀ (rx : List Nat) (jk : VitJunk Nat) (tb : Nat), rx.length = c.length → (∀ x ∈ rx, x < 2) →
            (∀ a, diffCount ((rx.drop (a * n)).take ((W + 1) * n)) ((c.drop (a * n)).take ((W + 1) * n)) ≤ e) →
            D + 2 ≤ tb → tb ≤ msg.length + 2 * M →
            ∃ dec coded', viterbiHard t jk (msg.length + M) tb rx = .ok (dec, coded') ∧ dec.length = msg.length + M ∧
              ∀ K ≤ msg.length, K + D' + 1 ≤ msg.length + 2 * M → dec.take K = msg.take K := by
  obtain ⟨t, ht, hz⟩ := C34_zero_tail h junk
  refine ⟨t, ht, ?_⟩
  intro outLen msg hb ho
  have hteq : t = trellisOf junk [M] [g] n none false fmt := by
    have := mkTrellis_ok (junk := junk) (rsc := false) h
    rw [ht] at this
    exact Except.ok.inj this
  have hk : t.k = 1 := by rw [hteq]; rfl
  have hMt : t.M = M := by rw [hteq]; simp [trellisOf]
  have hnt : t.n = n := by rw [hteq]; rfl
  have hrsc : t.rsc = false := by rw [hteq]; rfl
  have hbal : t.Balanced := by rw [hteq]; exact ff_balanced h (by simpa using hM)
  have hlin : t.Linear := by rw [hteq]; exact trellisOf_linear h (fits_one _ _ _ _) (fun F _ => fitsFb_one _ _ _)
  rw [trellisOf_junk _ junk, ← hteq] at hD hD' hA
  have hD := columnCheck_sound hbal.wf hD
  have hD' := columnCheck_sound hbal.wf hD'
  have hA := awayCheck_sound hbal.wf hA
  obtain ⟨c, hc⟩ := hz msg outLen hb ho
  have hN : codedInputLen t msg.length "term" = (msg.length + M) * t.k := by
    simp [codedInputLen, hrsc, hk, hMt, Nat.mod_one]
  have hout : outLen ((msg.length + M) * t.k) = (msg.length + M) * t.n := by rw [hk, hnt, Nat.mul_one]; exact ho
  have hcl : c.length = (msg.length + M) * n := by
    obtain ⟨w, hw, -, rfl, -, -⟩ := terminated_path hbal hb (q := msg.length) (by rw [hk, Nat.one_mul]) hN hout hc
    rw [Trellis.runOut_length, hw.1, hnt]
  refine ⟨c, by rw [convEncode_none hbal.wf.k_pos (by rw [hnt]; exact hn), hc]; rfl, hcl, ?_⟩
  intro rx jk tb hrl hrb herr htb htb2
  have hdec : ∀ K ≤ msg.length, K + (D' + 1) ≤ msg.length + M + M → ∃ dec coded', viterbiHard t jk (msg.length + M) tb rx = .ok (dec, coded') ∧
      dec.length = msg.length + M ∧ dec.take K = msg.take K := by
    intro K hK hK'
    have := C110_sparse hbal hlin hb (by rw [hk]; exact one_dvd _) hN hout hc (Nat.succ_pos _) hD (Nat.succ_pos _) hD' he he'
      (Nat.succ_pos _) hA hd₁ hd₂ (K := K) (by rw [hk, Nat.mul_one]; exact hK) (by rw [hk, hMt, Nat.div_one]; exact hK') hrl hrb
      (by
        intro a
        unfold stepSeg
        rw [hnt, Nat.add_sub_cancel_left]
        exact herr a) jk (tb := tb) htb
      (by rw [hk, hMt, Nat.div_one]; omega) (Or.inl hk)
    rwa [hk, Nat.mul_one, Nat.mul_one] at this
  obtain ⟨dec, coded', h1, h2, -⟩ := hdec 0 (Nat.zero_le _) (by omega)
  refine ⟨dec, coded', h1, h2, ?_⟩
  intro K hK hK'
  obtain ⟨dec', coded'', h3, -, h5⟩ := hdec K hK (by omega)
  rw [h1] at h3
  have := Except.ok.inj h3
  rw [← (Prod.mk.inj this).1] at h5
  exact h5

/-- C110 for the (5,7) code with the default traceback depth: any number of errors, if no 28 consecutive coded bits (from an even position on) contain more than two. -/
theorem C110_57_sparse (junk : Nat → Nat → Nat) :
    ∃ t, mkTrellis junk [2] [[5, 7]] 2 none false "MSB" = .ok t ∧
      ∀ (outLen : Nat → Nat) (msg : List Nat), (∀ b ∈ msg, b < 2) → 5 ≤ msg.length →
        outLen (msg.length + 2) = (msg.length + 2) * 2 →
        ∃ c, convEncode outLen t msg "term" none = .ok c ∧ c.length = (msg.length + 2) * 2 ∧
          ∀ (rx : List Nat) (jk : VitJunk Nat), rx.length = c.length → (∀ x ∈ rx, x < 2) →
            (∀ a, diffCount ((rx.drop (2 * a)).take 28) ((c.drop (2 * a)).take 28) ≤ 2) →
            ∃ dec coded', viterbiHard t jk (msg.length + 2) (defaultDepth t (msg.length + 2)) rx = .ok (dec, coded') ∧
              dec.length = msg.length + 2 ∧ dec.take msg.length = msg := by
  obtain ⟨t, ht, H⟩ := C110_feedforward_sparse args57 (by decide) (by decide) (D := 5) (D' := 3) (d := 5) (d' := 4) (e := 2)
    (W := 13) (d₁ := 9) (d₂ := 7) (by decide +kernel) (by decide +kernel) (by decide) (by decide) (by decide) (by decide +kernel) (by decide) (by decide) junk
  have hM : t.M = 2 := by rw [mkTrellis_ok args57] at ht; rw [← Except.ok.inj ht]; rfl
  refine ⟨t, ht, ?_⟩
  intro outLen msg hb hlen ho
  obtain ⟨c, h1, h2, h4⟩ := H outLen msg hb ho
  refine ⟨c, h1, h2, ?_⟩
  intro rx jk hrl hrb herr
  obtain ⟨dec, c', h5, h6, h7⟩ := h4 rx jk (defaultDepth t (msg.length + 2)) hrl hrb (fun a => by rw [Nat.mul_comm a]; exact herr a)
    (by rw [defaultDepth, hM]; omega) (by rw [defaultDepth, hM]; omega)
  refine ⟨dec, c', h5, h6, ?_⟩
  rw [h7 msg.length (le_refl _) (by omega), List.take_length]

/-- C110 for generators 0o5 and 0o15 with the default traceback depth: any number of errors, if no 32 consecutive coded bits contain more than two. -/
theorem C110_5_15_sparse (junk : Nat → Nat → Nat) :
    ∃ t, mkTrellis junk [3] [[5, 13]] 2 none false "MSB" = .ok t ∧
      ∀ (outLen : Nat → Nat) (msg : List Nat), (∀ b ∈ msg, b < 2) → 6 ≤ msg.length →
        outLen (msg.length + 3) = (msg.length + 3) * 2 →
        ∃ c, convEncode outLen t msg "term" none = .ok c ∧ c.length = (msg.length + 3) * 2 ∧
          ∀ (rx : List Nat) (jk : VitJunk Nat), rx.length = c.length → (∀ x ∈ rx, x < 2) →
            (∀ a, diffCount ((rx.drop (2 * a)).take 32) ((c.drop (2 * a)).take 32) ≤ 2) →
            ∃ dec coded', viterbiHard t jk (msg.length + 3) (defaultDepth t (msg.length + 3)) rx = .ok (dec, coded') ∧
              dec.length = msg.length + 3 ∧ dec.take msg.length = msg := by
  obtain ⟨t, ht, H⟩ := C110_feedforward_sparse args5_15 (by decide) (by decide) (D := 7) (D' := 5) (d := 5) (d' := 4) (e := 2)
    (W := 15) (d₁ := 9) (d₂ := 7) (by decide +kernel) (by decide +kernel) (by decide) (by decide) (by decide) (by decide +kernel) (by decide) (by decide) junk
  have hM : t.M = 3 := by rw [mkTrellis_ok args5_15] at ht; rw [← Except.ok.inj ht]; rfl
  refine ⟨t, ht, ?_⟩
  intro outLen msg hb hlen ho
  obtain ⟨c, h1, h2, h4⟩ := H outLen msg hb ho
  refine ⟨c, h1, h2, ?_⟩
  intro rx jk hrl hrb herr
  obtain ⟨dec, c', h5, h6, h7⟩ := h4 rx jk (defaultDepth t (msg.length + 3)) hrl hrb (fun a => by rw [Nat.mul_comm a]; exact herr a)
    (by rw [defaultDepth, hM]; omega) (by rw [defaultDepth, hM]; omega)
  refine ⟨dec, c', h5, h6, ?_⟩
  rw [h7 msg.length (le_refl _) (by omega), List.take_length]

/-- C110 for generators 0o133 and 0o171 with the default traceback depth: any number of errors, if no 66 consecutive coded bits contain more than three. -/
theorem C110_133_171_sparse (junk : Nat → Nat → Nat) :
    ∃ t, mkTrellis junk [6] [[0o133, 0o171]] 2 none false "MSB" = .ok t ∧
      ∀ (outLen : Nat → Nat) (msg : List Nat), (∀ b ∈ msg, b < 2) → 9 ≤ msg.length →
        outLen (msg.length + 6) = (msg.length + 6) * 2 →
        ∃ c, convEncode outLen t msg "term" none = .ok c ∧ c.length = (msg.length + 6) * 2 ∧
          ∀ (rx : List Nat) (jk : VitJunk Nat), rx.length = c.length → (∀ x ∈ rx, x < 2) →
            (∀ a, diffCount ((rx.drop (2 * a)).take 66) ((c.drop (2 * a)).take 66) ≤ 3) →
            ∃ dec coded', viterbiHard t jk (msg.length + 6) (defaultDepth t (msg.length + 6)) rx = .ok (dec, coded') ∧
              dec.length = msg.length + 6 ∧ dec.take msg.length = msg := by
  obtain ⟨t, ht, H⟩ := C110_feedforward_sparse args133 (by decide) (by decide) (D := 13) (D' := 9) (d := 7) (d' := 6) (e := 3)
    (W := 32) (d₁ := 13) (d₂ := 9) (by decide +kernel) (by decide +kernel) (by decide) (by decide) (by decide) (by decide +kernel) (by decide) (by decide) junk
  have hM : t.M = 6 := by rw [mkTrellis_ok args133] at ht; rw [← Except.ok.inj ht]; rfl
  refine ⟨t, ht, ?_⟩
  intro outLen msg hb hlen ho
  obtain ⟨c, h1, h2, h4⟩ := H outLen msg hb ho
  refine ⟨c, h1, h2, ?_⟩
  intro rx jk hrl hrb herr
  obtain ⟨dec, c', h5, h6, h7⟩ := h4 rx jk (defaultDepth t (msg.length + 6)) hrl hrb (fun a => by rw [Nat.mul_comm a]; exact herr a)
    (by rw [defaultDepth, hM]; omega) (by rw [defaultDepth, hM]; omega)
  refine ⟨dec, c', h5, h6, ?_⟩
  rw [h7 msg.length (le_refl _) (by omega), List.take_length]

/-- C110 for generators 0o133 and 0o171: with up to four errors in any 92 consecutive coded bits, all but the last five message bits are correct. -/
theorem C110_133_171_sparse4 (junk : Nat → Nat → Nat) :
    ∃ t, mkTrellis junk [6] [[0o133, 0o171]] 2 none false "MSB" = .ok t ∧
      ∀ (outLen : Nat → Nat) (msg : List Nat), (∀ b ∈ msg, b < 2) → 16 ≤ msg.length →
        outLen (msg.length + 6) = (msg.length + 6) * 2 →
        ∃ c, convEncode outLen t msg "term" none = .ok c ∧ c.length = (msg.length + 6) * 2 ∧
          ∀ (rx : List Nat) (jk : VitJunk Nat), rx.length = c.length → (∀ x ∈ rx, x < 2) →
            (∀ a, diffCount ((rx.drop (2 * a)).take 92) ((c.drop (2 * a)).take 92) ≤ 4) →
            ∃ dec coded', viterbiHard t jk (msg.length + 6) (defaultDepth t (msg.length + 6)) rx = .ok (dec, coded') ∧
              dec.length = msg.length + 6 ∧ dec.take (msg.length - 5) = msg.take (msg.length - 5) := by
  obtain ⟨t, ht, H⟩ := C110_feedforward_sparse args133 (by decide) (by decide) (D := 20) (D' := 16) (d := 9) (d' := 8) (e := 4)
    (W := 45) (d₁ := 17) (d₂ := 13) (by decide +kernel) (by decide +kernel) (by decide) (by decide) (by decide) (by decide +kernel) (by decide) (by decide) junk
  have hM : t.M = 6 := by rw [mkTrellis_ok args133] at ht; rw [← Except.ok.inj ht]; rfl
  refine ⟨t, ht, ?_⟩
  intro outLen msg hb hlen ho
  obtain ⟨c, h1, h2, h4⟩ := H outLen msg hb ho
  refine ⟨c, h1, h2, ?_⟩
  intro rx jk hrl hrb herr
  obtain ⟨dec, c', h5, h6, h7⟩ := h4 rx jk (defaultDepth t (msg.length + 6)) hrl hrb (fun a => by rw [Nat.mul_comm a]; exact herr a)
    (by rw [defaultDepth, hM]; omega) (by rw [defaultDepth, hM]; omega)
  refine ⟨dec, c', h5, h6, ?_⟩
  exact h7 (msg.length - 5) (by omega) (by omega)

end Verif
