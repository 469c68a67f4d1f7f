import Verif.Lemmas.ViterbiUse
import Verif.Model.BranchMetrics
import Verif.Props.Utilities
import Verif.Props.Convcode
/-
C38-C45: the Viterbi decoder.  `N` blocks of `n` samples are received, so `len(coded_bits) = N*n` and the number of
message bits is `L = N*k`; the decoder processes `N + M/k - 1` trellis steps (`M/k` rounded down), the last `M/k - 1` of
them on padding samples.  A traceback depth `tb = N + M/k` covers the whole block.
-/
namespace Verif

/-- What the decoder sees: the received samples and the padding of the last `M/k - 1` steps. -/
def paddedRx {α : Type} (t : Trellis) (pad : α) (coded : List α) : List α :=
  coded ++ List.replicate ((t.M / t.k - 1) * t.n) pad

/-- `bm` adds up the cost of every sample. -/
def IsSampleMetric {R α : Type} [AddCommMonoid R] (bm : List α → List Nat → Py R) (P : α → Prop)
    (cost : α → Nat → R) : Prop :=
  ∀ r c, r.length = c.length → (∀ x ∈ r, P x) → (∀ b ∈ c, b < 2) → bm r c = .ok (seqCost cost r c)

theorem rxBlock_mem {α : Type} {P : α → Prop} {t : Trellis} {L : Nat} {pad : α} {coded : List α} (hp : P pad)
    (hc : ∀ x ∈ coded, P x) (j : Nat) : ∀ x ∈ rxBlock t L pad coded j, P x := by
  intro x hx
  unfold rxBlock at hx
  split at hx
  · exact hc x (List.mem_of_mem_drop (List.mem_of_mem_take hx))
  · rw [List.eq_of_mem_replicate hx]; exact hp

theorem sample_bm {R α : Type} [AddCommMonoid R] {bm : List α → List Nat → Py R} {P : α → Prop}
    {cost : α → Nat → R} (hbm : IsSampleMetric bm P cost) {t : Trellis} (hk : 0 < t.k) {N : Nat} {pad : α} {coded : List α} (hp : P pad)
    (hc : ∀ x ∈ coded, P x) (hl : coded.length = N * t.n) (T : Nat) :
    ∀ j, 1 ≤ j → j ≤ T → ∀ p < 2 ^ t.M, ∀ u < 2 ^ t.k, bm (rxBlock t (N * t.k) pad coded j) (toBits t.n (t.out p u)) =
      .ok (seqCost cost (rxBlock t (N * t.k) pad coded j) (toBits t.n (t.out p u))) := by
  intro j h1 _ p _ u _
  exact hbm _ _ (by rw [rxBlock_length hk hl h1, toBits_length]) (rxBlock_mem hp hc j) (fun b hb => toBits_lt_two hb)

theorem pathCost_rx {R α : Type} [AddCommMonoid R] {cost : α → Nat → R} {t : Trellis} (hk : 0 < t.k)
    (hkM : t.k ≤ t.M) {N : Nat} {pad : α} {coded : List α} (hl : coded.length = N * t.n) {us : List Nat}
    (hu : us.length = N + t.M / t.k - 1) :
    pathCost t (fun j p u => seqCost cost (rxBlock t (N * t.k) pad coded j) (toBits t.n (t.out p u))) 0 0 us =
      seqCost cost (paddedRx t pad coded) (t.runOut 0 us) := by
  rw [pathCost_eq_seqCost (fun j hj => rxBlock_length hk hl hj)]
  have hq : 1 ≤ t.M / t.k := (Nat.le_div_iff_mul_le hk).2 (by omega)
  rw [hu, show N + t.M / t.k - 1 = N + (t.M / t.k - 1) by omega, rx_concat hk hl]
  rfl

section
variable {R α : Type} [LinearOrder R] [AddCommMonoid R] [IsOrderedAddMonoid R]

/-- C38. Maximum likelihood.  For every balanced trellis, every additive metric, every received sequence of `N` blocks
and every content of the uninitialised arrays: with a traceback window covering the block, `viterbi_decode` returns
the input bits of a path from state 0 whose output has minimal total metric against the (padded) received sequence
among all paths of that length. -/
theorem C38_maximum_likelihood {t : Trellis} (h : t.Balanced) {bm : List α → List Nat → Py R} {P : α → Prop}
    {cost : α → Nat → R} (hbm : IsSampleMetric bm P cost) {pad : α} (hp : P pad) (inPlace : Bool) (jk : VitJunk R)
    {N : Nat} {coded : List α} (hl : coded.length = N * t.n) (hc : ∀ x ∈ coded, P x) (hT : 2 ≤ N + t.M / t.k)
    (hB : t.k = 1 ∨ (t.M / t.k - 1) * t.k ≤ N + t.M / t.k) :
    ∃ us, IsInput t (N + t.M / t.k - 1) us ∧
      (∀ vs, IsInput t (N + t.M / t.k - 1) vs →
        seqCost cost (paddedRx t pad coded) (t.runOut 0 us) ≤ seqCost cost (paddedRx t pad coded) (t.runOut 0 vs)) ∧
      ∃ coded', viterbi t bm (some pad) inPlace jk (N * t.k) (N + t.M / t.k) coded =
        .ok ((us.take N).flatMap (toBits t.k), coded') := by
  have hk := h.wf.k_pos
  have hmin := bestPath_isMin h (fun j p u => seqCost cost (rxBlock t (N * t.k) pad coded j) (toBits t.n (t.out p u)))
    (N + t.M / t.k - 1)
  refine ⟨_, hmin.1, ?_, ?_⟩
  · intro vs hvs
    have := hmin.2 vs hvs
    rw [pathCost_rx hk h.k_le hl hmin.1.1, pathCost_rx hk h.k_le hl hvs.1] at this
    exact this
  · exact ⟨_, viterbi_full h jk hT hB hl (sample_bm hbm hk hp hc hl _)⟩

/-- C38, path metrics: after `τ` steps of the main loop the metric stored for state `s` is the minimum of the costs of
all paths of length `τ` from state 0 to `s` (`⊤`, i.e. `inf`, exactly when there is none). -/
theorem C38_path_metrics {t : Trellis} (h : t.Balanced) {bm : List α → List Nat → Py R} {P : α → Prop}
    {cost : α → Nat → R} (hbm : IsSampleMetric bm P cost) {pad : α} (hp : P pad) (inPlace : Bool) (jk : VitJunk R)
    {N tb : Nat} {coded : List α} (hl : coded.length = N * t.n) (hc : ∀ x ∈ coded, P x) (htb : 2 ≤ tb)
    (hB : t.k = 1 ∨ (t.M / t.k - 1) * t.k ≤ tb) {τ : Nat} (hτ : τ ≤ N + t.M / t.k - 1) :
    ∃ st, ((List.range τ).map (· + 1)).foldlM (vitStep t bm (some pad) inPlace jk (N * t.k) tb)
        (vitInit t jk (N * t.k) tb coded) = .ok st ∧
      ∀ s < 2 ^ t.M,
        (∀ us, IsInput t τ us → t.runState 0 us = s →
          st.pm.getD s ⊤ ≤ ((seqCost cost ((paddedRx t pad coded).take (τ * t.n)) (t.runOut 0 us) : R) : WithTop R)) ∧
        (st.pm.getD s ⊤ = ⊤ ∨ ∃ us, IsInput t τ us ∧ t.runState 0 us = s ∧
          st.pm.getD s ⊤ = ((seqCost cost ((paddedRx t pad coded).take (τ * t.n)) (t.runOut 0 us) : R) : WithTop R)) := by
  have hk := h.wf.k_pos
  have hT := vitSteps_blocks hk N
  have hq := h.one_le
  obtain ⟨st, hrun, hinv⟩ := vitLoop_ok (T := N + t.M / t.k - 1) (jk := jk) h htb
    (sample_bm hbm hk hp hc hl _) (by have := buffer_ok (N := N) h hB; rw [hT] at this; simpa using this)
    (by rw [Nat.mul_div_cancel _ hk, hl]) (vinit_ok t jk htb) τ hτ
  refine ⟨st, hrun, ?_⟩
  intro s hs
  have hpre : ((List.range τ).flatMap fun i => rxBlock t (N * t.k) pad coded (0 + 1 + i)) =
      (paddedRx t pad coded).take (τ * t.n) := by
    have h1 := rx_concat (P := t.M / t.k - 1) (pad := pad) hk hl
    have h2 : List.range (N + (t.M / t.k - 1)) = List.range τ ++ (List.range (N + (t.M / t.k - 1) - τ)).map (τ + ·) := by
      rw [← List.range_add]; congr 1; omega
    rw [h2, List.flatMap_append] at h1
    unfold paddedRx
    rw [← h1, List.take_append_of_le_length, List.take_of_length_le]
    · rw [List.length_flatMap]
      rw [show ((List.range τ).map fun i => (rxBlock t (N * t.k) pad coded (0 + 1 + i)).length) =
        (List.range τ).map fun _ => t.n from List.map_congr_left fun i _ => rxBlock_length hk hl (by omega)]
      simp
    · rw [List.length_flatMap]
      rw [show ((List.range τ).map fun i => (rxBlock t (N * t.k) pad coded (0 + 1 + i)).length) =
        (List.range τ).map fun _ => t.n from List.map_congr_left fun i _ => rxBlock_length hk hl (by omega)]
      simp
  have hcost : ∀ us, IsInput t τ us → pathCost t (fun j p u => seqCost cost (rxBlock t (N * t.k) pad coded j)
      (toBits t.n (t.out p u))) 0 0 us = seqCost cost ((paddedRx t pad coded).take (τ * t.n)) (t.runOut 0 us) := by
    intro us hus
    rw [pathCost_eq_seqCost (fun j hj => rxBlock_length hk hl hj), hus.1, hpre]
  obtain ⟨h1, h2⟩ := pmSeq_min h (fun j p u => seqCost cost (rxBlock t (N * t.k) pad coded j)
      (toBits t.n (t.out p u))) τ hs
  rw [hinv.pm]
  refine ⟨fun us hus hst => by rw [← hcost us hus]; exact h1 us hus hst, ?_⟩
  rcases h2 with h2 | ⟨us, a, b, c⟩
  · exact Or.inl h2
  · exact Or.inr ⟨us, a, b, by rw [c, hcost us a]⟩
end

/-! ### The three metrics -/

theorem hard_sample : IsSampleMetric hammingDist (· < 2) (fun x b => if x = b then 0 else 1) := by
  intro r c hl hr hc
  rw [hammingDist_eq_diffCount r c hl (fun x hx => by have h : x < 2 := hr x hx; omega)
    (fun x hx => by have := hc x hx; omega)]
  congr 1
  clear hr hc
  induction r generalizing c with
  | nil => cases c <;> simp [diffCount, seqCost] at hl ⊢
  | cons x r ih =>
    cases c with
    | nil => simp at hl
    | cons y c =>
      have := ih c (by simpa using hl)
      simp only [diffCount, seqCost, List.zipWith_cons_cons, List.sum_cons] at this ⊢
      rw [this]

theorem seqCost_hard {r c : List Nat} (hl : r.length = c.length) :
    seqCost (fun x b => if x = b then 0 else 1) r c = diffCount r c := by
  induction r generalizing c with
  | nil => cases c <;> simp [diffCount, seqCost] at hl ⊢
  | cons x r ih =>
    cases c with
    | nil => simp at hl
    | cons y c =>
      have := ih (c := c) (by simpa using hl)
      simp only [diffCount, seqCost, List.zipWith_cons_cons, List.sum_cons] at this ⊢
      rw [this]

theorem soft_sample : IsSampleMetric softMetric (fun _ => True) (fun x b => if b ≠ 0 then negLL1 x else negLL0 x) := by
  intro r c hl _ _
  unfold softMetric
  rw [if_pos hl]; rfl

theorem unq_sample : IsSampleMetric unquantizedMetric (fun _ => True) (fun x b => (x - (2 * (b : ℝ) - 1)) ^ 2) := by
  intro r c hl _ _
  unfold unquantizedMetric euclidDist broadcast2
  rw [if_pos (by simpa using hl)]
  simp only [bind, Except.bind, pure, Except.pure, seqCost]
  congr 2
  rw [List.zipWith_map_right]
  congr 1
  funext x b
  ring

/-- C38 for hard decisions: the decoded bits are those of a path whose output has minimal Hamming distance to the
received bits (followed by the padding zeros). -/
theorem C38_hard {t : Trellis} (h : t.Balanced) (jk : VitJunk Nat) {N : Nat} {coded : List Nat}
    (hl : coded.length = N * t.n) (hc : ∀ x ∈ coded, x < 2) (hT : 2 ≤ N + t.M / t.k)
    (hB : t.k = 1 ∨ (t.M / t.k - 1) * t.k ≤ N + t.M / t.k) :
    ∃ us, IsInput t (N + t.M / t.k - 1) us ∧
      (∀ vs, IsInput t (N + t.M / t.k - 1) vs →
        diffCount (paddedRx t 0 coded) (t.runOut 0 us) ≤ diffCount (paddedRx t 0 coded) (t.runOut 0 vs)) ∧
      ∃ coded', viterbiHard t jk (N * t.k) (N + t.M / t.k) coded = .ok ((us.take N).flatMap (toBits t.k), coded') := by
  obtain ⟨us, h1, h2, h3⟩ := C38_maximum_likelihood h hard_sample (pad := 0) (by decide) true jk hl hc hT hB
  have hq := h.one_le
  have hlen : ∀ vs, IsInput t (N + t.M / t.k - 1) vs → (paddedRx t 0 coded).length = (t.runOut 0 vs).length := by
    intro vs hvs
    rw [Trellis.runOut_length, hvs.1, paddedRx, List.length_append, List.length_replicate, hl, ← Nat.add_mul]
    congr 1; omega
  refine ⟨us, h1, fun vs hvs => ?_, h3⟩
  have := h2 vs hvs
  rw [seqCost_hard (hlen us h1), seqCost_hard (hlen vs hvs)] at this
  exact this

/-- Probability that a transmitted bit was `b` given its log-likelihood ratio `r = log P(1)/P(0)` (specification). -/
noncomputable def bitProb (r : ℝ) (b : Nat) : ℝ := if b ≠ 0 then Real.exp r / (1 + Real.exp r) else 1 / (1 + Real.exp r)

/-- Likelihood of a code sequence given LLRs (specification). -/
noncomputable def seqProb (r : List ℝ) (c : List Nat) : ℝ := (List.zipWith bitProb r c).prod

theorem bitProb_pos (r : ℝ) (b : Nat) : 0 < bitProb r b := by
  unfold bitProb
  have := Real.exp_pos r
  split <;> positivity

theorem negLL_eq (r : ℝ) (b : Nat) : (if b ≠ 0 then negLL1 r else negLL0 r) = -Real.log (bitProb r b) := by
  unfold bitProb negLL1 negLL0
  have := Real.exp_pos r
  split
  · rw [Real.log_div (by positivity) (by positivity), Real.log_exp, add_comm 1]; ring
  · rw [Real.log_div (by norm_num) (by positivity), Real.log_one, add_comm 1]; ring

theorem seqCost_soft (r : List ℝ) (c : List Nat) :
    seqCost (fun x b => if b ≠ 0 then negLL1 x else negLL0 x) r c = -Real.log (seqProb r c) ∧ 0 < seqProb r c := by
  induction r generalizing c with
  | nil => simp [seqCost, seqProb]
  | cons x r ih =>
    cases c with
    | nil => simp [seqCost, seqProb]
    | cons b c =>
      obtain ⟨h1, h2⟩ := ih c
      have hb := bitProb_pos x b
      simp only [seqCost, seqProb, List.zipWith_cons_cons, List.sum_cons, List.prod_cons] at h1 h2 ⊢
      refine ⟨?_, by positivity⟩
      rw [h1, negLL_eq, Real.log_mul hb.ne' h2.ne']; ring

/-- C38 for soft decisions: the decoded bits are those of a path whose output has maximal probability given the LLRs
(clipped to ±500, followed by zero LLRs); the caller's array is unchanged. -/
theorem C38_soft {t : Trellis} (h : t.Balanced) (jk : VitJunk ℝ) {N : Nat} {llr : List ℝ}
    (hl : llr.length = N * t.n) (hT : 2 ≤ N + t.M / t.k) (hB : t.k = 1 ∨ (t.M / t.k - 1) * t.k ≤ N + t.M / t.k) :
    ∃ us, IsInput t (N + t.M / t.k - 1) us ∧
      (∀ vs, IsInput t (N + t.M / t.k - 1) vs →
        seqProb (paddedRx t 0 (llr.map clip500)) (t.runOut 0 vs) ≤ seqProb (paddedRx t 0 (llr.map clip500)) (t.runOut 0 us)) ∧
      viterbiDecode "soft" t jk (N * t.k) (N + t.M / t.k) llr = .ok ((us.take N).flatMap (toBits t.k), llr) := by
  obtain ⟨us, h1, h2, c', h3⟩ := C38_maximum_likelihood h soft_sample (pad := 0) trivial false jk
    (coded := llr.map clip500) (by simpa using hl) (fun _ _ => trivial) hT hB
  refine ⟨us, h1, fun vs hvs => ?_, ?_⟩
  · have := h2 vs hvs
    obtain ⟨e1, p1⟩ := seqCost_soft (paddedRx t 0 (llr.map clip500)) (t.runOut 0 us)
    obtain ⟨e2, p2⟩ := seqCost_soft (paddedRx t 0 (llr.map clip500)) (t.runOut 0 vs)
    rw [e1, e2, neg_le_neg_iff] at this
    exact (Real.log_le_log_iff p2 p1).1 this
  · unfold viterbiDecode
    have e : branchMetric "soft" = softMetric := by funext r c; simp [branchMetric]
    have e2 : padValue "soft" = some 0 := by simp [padValue]
    rw [if_pos rfl, e, e2, h3]
    rfl

/-- C38 for unquantized decisions: minimal squared Euclidean distance to the ±1 image of the code sequence. -/
theorem C38_unquantized {t : Trellis} (h : t.Balanced) (jk : VitJunk ℝ) {N : Nat} {coded : List ℝ}
    (hl : coded.length = N * t.n) (hT : 2 ≤ N + t.M / t.k) (hB : t.k = 1 ∨ (t.M / t.k - 1) * t.k ≤ N + t.M / t.k) :
    ∃ us, IsInput t (N + t.M / t.k - 1) us ∧
      (∀ vs, IsInput t (N + t.M / t.k - 1) vs →
        (List.zipWith (fun x (b : Nat) => (x - (2 * (b : ℝ) - 1)) ^ 2) (paddedRx t (-1) coded) (t.runOut 0 us)).sum ≤
          (List.zipWith (fun x (b : Nat) => (x - (2 * (b : ℝ) - 1)) ^ 2) (paddedRx t (-1) coded) (t.runOut 0 vs)).sum) ∧
      ∃ coded', viterbiDecode "unquantized" t jk (N * t.k) (N + t.M / t.k) coded =
        .ok ((us.take N).flatMap (toBits t.k), coded') := by
  obtain ⟨us, h1, h2, c', h3⟩ := C38_maximum_likelihood h unq_sample (pad := -1) trivial true jk
    hl (fun _ _ => trivial) hT hB
  refine ⟨us, h1, h2, c', ?_⟩
  unfold viterbiDecode
  have e : branchMetric "unquantized" = unquantizedMetric := by funext r c; simp [branchMetric]
  have e2 : padValue "unquantized" = some (-1) := by simp [padValue]
  rw [if_neg (by decide), e, e2, h3]

/-- C38, which trellises are balanced: every feed-forward encoder whose shift registers all have at least one stage. -/
theorem C38_feedforward_balanced {memory : List Nat} {G : List (List Nat)} {n : Nat} {fmt : String}
    (h : TrellisArgs memory G n none fmt) (hm : ∀ m ∈ memory, 0 < m) (junk : Nat → Nat → Nat) (rsc : Bool) :
    ∃ t, mkTrellis junk memory G n none rsc fmt = .ok t ∧ t.Balanced :=
  ⟨_, mkTrellis_ok h, ff_balanced h hm⟩

/-- C38: also every one-input encoder with feedback polynomial of constant coefficient 1. -/
theorem C38_feedback_balanced {M n f : Nat} {g : List Nat} {fmt : String}
    (h : TrellisArgs [M] [g] n (some [[f]]) fmt) (hM : 0 < M) (hc0 : polyCoef fmt (M + 1) f 0 = 1)
    (junk : Nat → Nat → Nat) (rsc : Bool) :
    ∃ t, mkTrellis junk [M] [g] n (some [[f]]) rsc fmt = .ok t ∧ t.Balanced :=
  ⟨_, mkTrellis_ok h, fb1_balanced h hM (by simpa [effFeedback, matAt] using hc0)⟩

/-- C38: and every trellis of the backwards compatible constructor (one input, memory at least 1). -/
theorem C38_legacy_balanced {M f : Nat} {g : List Nat} {rsc : Bool} (hM : 0 < M)
    (hf : f < 2 ^ (M + 1)) (hg : ∀ p ∈ g, p < 2 ^ (M + 1)) :
    ∃ t, mkTrellisLegacy M g f rsc = .ok t ∧ t.Balanced := by
  refine ⟨_, mkTrellisLegacy_eq (fun _ _ => 0) hM hf hg, fb1_balanced (legacyArgs hf hg) hM ?_⟩
  have := legacyFb_coef (M := M) (f := f) (d := 0) (by omega)
  simpa [effFeedback, matAt] using this

theorem viterbiEx_args : TrellisArgs [2] [[5, 7]] 2 none "MSB" :=
  ⟨by simp, by simp, rfl, ⟨rfl, by simp⟩, by decide, by simp, by simp⟩

/-- The hypotheses of C38 for the (5,7) code and three received blocks with an error. -/
example (jk : VitJunk Nat) : ∃ t us coded', mkTrellis (fun _ _ => 0) [2] [[5, 7]] 2 none false "MSB" = .ok t ∧
    (∀ vs, IsInput t 4 vs → diffCount [1, 1, 1, 1, 1, 1, 0, 0] (t.runOut 0 us) ≤ diffCount [1, 1, 1, 1, 1, 1, 0, 0] (t.runOut 0 vs)) ∧
    viterbiHard t jk 3 5 [1, 1, 1, 1, 1, 1] = .ok ((us.take 3).flatMap (toBits 1), coded') := by
  have hbal := ff_balanced (junk := fun _ _ => 0) (rsc := false) viterbiEx_args (by simp)
  obtain ⟨us, -, hm, coded', h⟩ := C38_hard hbal jk (N := 3) (coded := [1, 1, 1, 1, 1, 1]) rfl (by decide) (by decide) (Or.inl rfl)
  exact ⟨_, us, coded', mkTrellis_ok viterbiEx_args, hm, h⟩
/-! ### Noiseless decoding -/

theorem toBits_seq_zero {c : List Nat} : diffCount c c = 0 := by
  induction c with
  | nil => rfl
  | cons x c ih => simp [diffCount, ih]

theorem diffCount_pos {a b : List Nat} (hl : a.length = b.length) (h : a ≠ b) : 0 < diffCount a b := by
  induction a generalizing b with
  | nil => cases b with
    | nil => exact absurd rfl h
    | cons y b => simp at hl
  | cons x a ih =>
    cases b with
    | nil => simp at hl
    | cons y b =>
      simp only [diffCount]
      by_cases hxy : x = y
      · subst hxy
        have : a ≠ b := fun e => h (by rw [e])
        have := ih (by simpa using hl) this
        omega
      · simp [hxy]

theorem runOut_block {t : Trellis} (w : List Nat) (s i : Nat) (hi : i < w.length) :
    ((t.runOut s w).drop (i * t.n)).take t.n = toBits t.n (t.out (t.runState s (w.take i)) w[i]) := by
  induction w generalizing s i with
  | nil => simp at hi
  | cons u w ih =>
    cases i with
    | zero => simp [Trellis.runOut, Trellis.runState]
    | succ i =>
      have hi' : i < w.length := by simpa using hi
      have hd : (toBits t.n (t.out s u) ++ t.runOut (t.next s u) w).drop ((i + 1) * t.n) =
          (t.runOut (t.next s u) w).drop (i * t.n) := by
        rw [show (i + 1) * t.n = (toBits t.n (t.out s u)).length + i * t.n by rw [toBits_length]; ring,
          List.drop_length_add_append]
      rw [Trellis.runOut, hd, ih _ _ hi']
      simp [Trellis.runState_cons]

/-- States of a path that stays in state 0. -/
theorem runState_zeros {t : Trellis} (h0 : t.next 0 0 = 0) (m : Nat) : t.runState 0 (List.replicate m 0) = 0 := by
  induction m with
  | zero => rfl
  | succ m ih => rw [List.replicate_succ, Trellis.runState_cons, h0, ih]

theorem toBits_of_zero (n : Nat) : toBits n 0 = List.replicate n 0 := by
  unfold toBits
  rw [List.eq_replicate_iff]
  refine ⟨by simp, ?_⟩
  intro b hb
  rw [List.mem_map] at hb
  obtain ⟨i, _, rfl⟩ := hb
  simp

/-- The noiseless decoder on the output of a path `w` of `N` steps which ends in state 0 if padding steps follow. -/
theorem viterbiHard_noiseless {t : Trellis} (h : t.Balanced)
    (hdist : ∀ s < 2 ^ t.M, ∀ u < 2 ^ t.k, ∀ v < 2 ^ t.k, t.out s u = t.out s v → u = v)
    (jk : VitJunk Nat) {N tb : Nat} (htb : 2 ≤ tb) (htb2 : tb ≤ N + t.M / t.k) (hB : t.k = 1 ∨ (t.M / t.k - 1) * t.k ≤ tb)
    {w : List Nat} (hw : IsInput t N w)
    (hend : t.M / t.k ≤ 1 ∨ t.runState 0 w = 0 ∧ t.next 0 0 = 0 ∧ t.out 0 0 = 0) :
    ∃ coded', viterbiHard t jk (N * t.k) tb (t.runOut 0 w) = .ok (w.flatMap (toBits t.k), coded') := by
  have hk := h.wf.k_pos
  have hq := h.one_le
  have hcl : (t.runOut 0 w).length = N * t.n := by rw [Trellis.runOut_length, hw.1]
  have hpos : (0 : Nat) < 2 ^ t.M := Nat.two_pow_pos _
  -- the true path, continued in state 0
  set w' := w ++ List.replicate (t.M / t.k - 1) 0 with hw'
  have hw'len : w'.length = N + t.M / t.k - 1 := by rw [hw', List.length_append, hw.1, List.length_replicate]; omega
  have hw'in : IsInput t (N + t.M / t.k - 1) w' := by
    refine ⟨hw'len, ?_⟩
    intro u hu
    rw [hw', List.mem_append] at hu
    rcases hu with hu | hu
    · exact hw.2 u hu
    · rw [List.eq_of_mem_replicate hu]; exact Nat.two_pow_pos _
  have hlt : ∀ m, t.runState 0 (w'.take m) < 2 ^ t.M :=
    fun m => h.wf.runState_lt hpos (fun u hu => hw'in.2 u (List.mem_of_mem_take hu))
  -- the received block of step `i + 1` is the output of the true path
  have hblock : ∀ i (hi : i < w'.length), rxBlock t (N * t.k) 0 (t.runOut 0 w) (1 + i) =
      toBits t.n (t.out (t.runState 0 (w'.take i)) w'[i]) := by
    intro i hi
    unfold rxBlock
    rw [Nat.mul_div_cancel _ hk]
    by_cases hiN : 1 + i ≤ N
    · rw [if_pos hiN, Nat.add_sub_cancel_left, runOut_block w 0 i (by rw [hw.1]; omega)]
      have e1 : w'.take i = w.take i := by
        rw [hw', List.take_append_of_le_length (by rw [hw.1]; omega)]
      have e2 : w'[i] = w[i]'(by rw [hw.1]; omega) := by
        simp only [hw']
        rw [List.getElem_append_left]
      rw [e1, e2]
    · rw [if_neg hiN]
      obtain ⟨e1, e2, e3⟩ := hend.resolve_left (by rw [hw'len] at hi; omega)
      have e4 : w'.take i = w ++ List.replicate (min (i - N) (t.M / t.k - 1)) 0 := by
        rw [hw', List.take_append, List.take_of_length_le (by rw [hw.1]; omega), List.take_replicate, hw.1]
      have e5 : w'[i] = 0 := by
        simp only [hw']
        rw [List.getElem_append_right (by rw [hw.1]; omega)]
        simp
      rw [e4, e5, Trellis.runState_append, e1, runState_zeros e2, e3, toBits_of_zero]
  have hbm := sample_bm (t := t) (N := N) (pad := 0) (coded := t.runOut 0 w) hard_sample hk (by decide)
    (t.runOut_lt_two 0 w) hcl (N + t.M / t.k - 1)
  have hcost : ∀ j, 1 ≤ j → ∀ p u, seqCost (fun x b => if x = b then 0 else 1) (rxBlock t (N * t.k) 0 (t.runOut 0 w) j)
      (toBits t.n (t.out p u)) = diffCount (rxBlock t (N * t.k) 0 (t.runOut 0 w) j) (toBits t.n (t.out p u)) :=
    fun j hj p u => seqCost_hard (by rw [rxBlock_length hk hcl hj, toBits_length])
  have hu := viterbi_unique (b := fun _ => 0) (w := w') (inPlace := true) h jk htb htb2 hB hcl hbm
    (fun _ _ _ _ _ _ _ => Nat.zero_le _) ?_ hw'in ?_
  · have e : w'.take N = w := by
      rw [hw', List.take_append_of_le_length (by rw [hw.1]), List.take_of_length_le (by rw [hw.1])]
    rw [e] at hu
    exact ⟨_, hu⟩
  · intro j h1 h2 p hp u hu v hv hv0 hne
    rw [hcost j h1] at hv0 ⊢
    apply diffCount_pos (by rw [rxBlock_length hk hcl h1, toBits_length])
    intro e
    apply hne
    apply hdist p hp u hu v hv
    apply toBits_inj (h.wf.out_lt hp hu) (h.wf.out_lt hp hv)
    rw [← e]
    by_contra hc
    have := diffCount_pos (by rw [rxBlock_length hk hcl h1, toBits_length]) hc
    omega
  · intro i hi
    rw [hcost _ (by omega), hblock i hi]
    exact toBits_seq_zero

theorem flatMap_inSyms {k : Nat} (hk : 0 < k) {bits : List Nat} (hb : ∀ b ∈ bits, b < 2) {N : Nat} (hl : bits.length = N * k) :
    (inSyms k bits).flatMap (toBits k) = bits := by
  unfold inSyms
  rw [hl, Nat.mul_div_cancel _ hk, List.flatMap_map]
  have := take_blocks (k := k) (f := fun i => toBits k (bitarray2dec ((bits.drop (i * k)).take k))) N (bits := bits)
    (by rw [hl]) (by
      intro i hi
      have := symAt_bits (k := k) hb (t := i) (by rw [hl]; exact Nat.mul_le_mul_right _ hi)
      unfold symAt at this
      rw [this]; rfl)
  rw [← this, ← hl, List.take_length]

/-- The code word of a terminated encoding that ends in state `S` is the output of a path of `N` steps that ends in state `S` and starts with
the message. -/
theorem encoded_path {t : Trellis} (h : t.Balanced) {S : Nat} {outLen : Nat → Nat} {msg c : List Nat} (hb : ∀ b ∈ msg, b < 2) {q : Nat}
    (hq : msg.length = t.k * q) {N : Nat}
    (hN : codedInputLen t msg.length "term" = N * t.k) (hout : outLen (N * t.k) = N * t.n)
    (henc : convEncodeRun outLen t msg "term" = .ok (S, c)) :
    ∃ w, IsInput t N w ∧ t.runState 0 w = S ∧ c = t.runOut 0 w ∧ w.take q = inSyms t.k msg ∧ q ≤ N := by
  have hkp := h.wf.k_pos
  by_cases hr : t.rsc = true
  · have hNq : N = q + t.M := by
      have : N * t.k = (q + t.M) * t.k := by
        rw [← hN]; simp only [codedInputLen, hr, if_true]; rw [if_neg (by decide), hq]; ring
      exact Nat.eq_of_mul_eq_mul_right hkp this
    have hNk : msg.length + t.k * t.M = N * t.k := by
      rw [← hN]; simp only [codedInputLen, hr, if_true]; rw [if_neg (by decide)]
    have hdq : msg.length / t.k = q := by rw [hq, Nat.mul_div_cancel_left _ hkp]
    have hrun := convEncodeRun_rsc h.wf (outLen := outLen) hb hr (by rw [hNk, hout, hdq, hNq])
    rw [hrun] at henc
    simp only [Except.ok.injEq, Prod.mk.injEq] at henc
    obtain ⟨e1, e2⟩ := henc
    rw [hNk, hout] at e2
    refine ⟨inSyms t.k msg ++ (List.range t.M).map (fun i =>
      bitarray2dec (((toBits t.M (t.runState 0 (inSyms t.k msg))).reverse.drop (i * t.k)).take t.k)),
      ⟨by rw [List.length_append, inSyms_length, hdq]; simp [hNq], ?_⟩, ?_, ?_, ?_, by omega⟩
    · intro u hu
      rw [List.mem_append] at hu
      rcases hu with hu | hu
      · exact inSyms_lt hb _ u hu
      · rw [List.mem_map] at hu
        obtain ⟨i, _, rfl⟩ := hu
        exact bitarray2dec_group_lt (fun x hx => toBits_lt_two (List.mem_reverse.1 hx)) _ _
    · rw [Trellis.runState_append]; exact e1
    · rw [← e2, hdq, hNq]; simp
    · rw [List.take_append_of_le_length (by rw [inSyms_length, hdq]), List.take_of_length_le (by rw [inSyms_length, hdq])]
  · have hr' : t.rsc = false := by simpa using hr
    have hNk : msg.length + (t.M + t.M % t.k) = N * t.k := by
      rw [← hN]; simp only [codedInputLen, hr']; rw [if_neg (by decide)]; simp
    have hdq : msg.length / t.k = q := by rw [hq, Nat.mul_div_cancel_left _ hkp]
    have e1 : (encInput t msg "term").1 = msg ++ List.replicate (t.M + t.M % t.k) 0 := by
      rw [encInput_fst]; simp [hr']
    have e2 : (encInput t msg "term").2 = N * t.k := by
      rw [encInput_snd]; simp [hr', hNk]
    have hl : (msg ++ List.replicate (t.M + t.M % t.k) 0).length = N * t.k := by
      rw [List.length_append, List.length_replicate, hNk]
    have hb' : ∀ b ∈ msg ++ List.replicate (t.M + t.M % t.k) 0, b < 2 := by
      intro b hbm
      rw [List.mem_append] at hbm
      rcases hbm with hbm | hbm
      · exact hb b hbm
      · rw [List.eq_of_mem_replicate hbm]; omega
    have hrun := convEncodeRun_main h.wf (outLen := outLen) hb (term := "term") (by rw [hr']; simp)
      (by rw [e1, e2, hout, hl, Nat.mul_div_cancel _ hkp])
    rw [hrun, e1, e2, hout, hl, Nat.mul_div_cancel _ hkp] at henc
    simp only [Except.ok.injEq, Prod.mk.injEq, Nat.sub_self, List.replicate_zero, List.append_nil] at henc
    refine ⟨inSyms t.k (msg ++ List.replicate (t.M + t.M % t.k) 0), ⟨by rw [inSyms_length, hl, Nat.mul_div_cancel _ hkp],
      inSyms_lt hb' _⟩, henc.1, henc.2.symm, ?_, ?_⟩
    · unfold inSyms
      rw [hl, Nat.mul_div_cancel _ hkp, hdq, ← List.map_take, List.take_range]
      have hqN : q ≤ N := by
        have : q * t.k ≤ N * t.k := by rw [← hNk, hq]; rw [Nat.mul_comm]; omega
        exact Nat.le_of_mul_le_mul_right this hkp
      rw [Nat.min_eq_left hqN]
      apply List.map_congr_left
      intro i hi
      rw [List.mem_range] at hi
      have : (i + 1) * t.k ≤ msg.length := by rw [hq, Nat.mul_comm t.k]; exact Nat.mul_le_mul_right _ hi
      rw [Nat.succ_mul] at this
      rw [List.drop_append_of_le_length (by omega), List.take_append_of_le_length (by rw [List.length_drop]; omega)]
    · have : q * t.k ≤ N * t.k := by rw [← hNk, hq]; rw [Nat.mul_comm]; omega
      exact Nat.le_of_mul_le_mul_right this hkp

theorem terminated_path {t : Trellis} (h : t.Balanced) {outLen : Nat → Nat} {msg c : List Nat} (hb : ∀ b ∈ msg, b < 2) {q : Nat}
    (hq : msg.length = t.k * q) {N : Nat}
    (hN : codedInputLen t msg.length "term" = N * t.k) (hout : outLen (N * t.k) = N * t.n)
    (henc : convEncodeRun outLen t msg "term" = .ok (0, c)) :
    ∃ w, IsInput t N w ∧ t.runState 0 w = 0 ∧ c = t.runOut 0 w ∧ w.take q = inSyms t.k msg ∧ q ≤ N :=
  encoded_path h hb hq hN hout henc

/-- C39. Decoding a terminated encoding.  For every balanced trellis with distinct outputs on the branches out of every
state, every message of whole input groups that `conv_encode(..., 'term')` leaves in state 0, every traceback depth
from 2 up to the whole block and any content of uninitialised memory: hard-decision decoding of the code word
succeeds and returns the message followed by its termination bits. -/
theorem C39_terminated {t : Trellis} (h : t.Balanced) (hn : 0 < t.n)
    (hdist : ∀ s < 2 ^ t.M, ∀ u < 2 ^ t.k, ∀ v < 2 ^ t.k, t.out s u = t.out s v → u = v)
    (h0 : t.next 0 0 = 0) (ho0 : t.out 0 0 = 0)
    {outLen : Nat → Nat} {msg c : List Nat} (hb : ∀ b ∈ msg, b < 2) (hk : t.k ∣ msg.length) {N : Nat}
    (hN : codedInputLen t msg.length "term" = N * t.k) (hout : outLen (N * t.k) = N * t.n)
    (henc : convEncodeRun outLen t msg "term" = .ok (0, c))
    (jk : VitJunk Nat) {tb : Nat} (htb : 2 ≤ tb) (htb2 : tb ≤ N + t.M / t.k) (hB : t.k = 1 ∨ (t.M / t.k - 1) * t.k ≤ tb) :
    convEncode outLen t msg "term" none = .ok c ∧ c.length = N * t.n ∧
    ∃ d coded', viterbiHard t jk (N * t.k) tb c = .ok (d, coded') ∧ d.length = N * t.k ∧ d.take msg.length = msg := by
  have hkp := h.wf.k_pos
  obtain ⟨q, hq⟩ := hk
  have key := terminated_path h hb hq hN hout henc
  obtain ⟨w, hw, hw0, rfl, hwq, hqN⟩ := key
  refine ⟨by rw [convEncode_none hkp hn, henc]; rfl, by rw [Trellis.runOut_length, hw.1], ?_⟩
  obtain ⟨coded', hv⟩ := viterbiHard_noiseless h hdist jk htb htb2 hB hw (Or.inr ⟨hw0, h0, ho0⟩)
  refine ⟨_, coded', hv, ?_, ?_⟩
  · rw [List.length_flatMap]
    simp [hw.1]
  · have e := flatMap_inSyms hkp hb (N := q) (by rw [hq, Nat.mul_comm])
    rw [← hwq] at e
    conv_lhs => rw [← List.take_append_drop q w, List.flatMap_append, e]
    rw [List.take_append_of_le_length (le_refl _), List.take_length]

/-! ### One-input encoders -/

theorem fits_one (fmt : String) (M n : Nat) (g : List Nat) : FitsMemory fmt [M] n [g] := by
  intro i hi j _ d h1 h2
  simp only [List.length_cons, List.length_nil] at hi
  have : i = 0 := by omega
  subst this
  rw [memMax_single] at h2
  simp only [List.getD_cons_zero] at h1
  omega

theorem fitsFb_one (fmt : String) (M : Nat) (F : List (List Nat)) : FitsMemoryFb fmt [M] F := by
  intro l _ c hc d h1 h2
  simp only [List.length_cons, List.length_nil] at hc
  have : c = 0 := by omega
  subst this
  rw [memMax_single] at h2
  simp only [List.getD_cons_zero] at h1
  omega

theorem Trellis.Linear.zero {t : Trellis} (hl : t.Linear) : t.next 0 0 = 0 ∧ t.out 0 0 = 0 := by
  have hM : (0 : Nat) < 2 ^ t.M := Nat.two_pow_pos _
  have hk : (0 : Nat) < 2 ^ t.k := Nat.two_pow_pos _
  constructor
  · have := hl.next 0 hM 0 hM 0 hk 0 hk
    simpa using this
  · have := hl.out 0 hM 0 hM 0 hk 0 hk
    simpa using this

/-- In a linear trellis the branches out of a state have distinct outputs if no non-zero input symbol gives output 0 in
state 0. -/
theorem Trellis.Linear.distinct {t : Trellis} (hl : t.Linear) (hne : ∀ u < 2 ^ t.k, u ≠ 0 → t.out 0 u ≠ 0) :
    ∀ s < 2 ^ t.M, ∀ u < 2 ^ t.k, ∀ v < 2 ^ t.k, t.out s u = t.out s v → u = v := by
  intro s hs u hu v hv h
  by_contra huv
  have hx : u ^^^ v < 2 ^ t.k := Nat.xor_lt_two_pow hu hv
  refine hne (u ^^^ v) hx (fun h0 => huv (Nat.xor_eq_zero_iff.1 h0)) ?_
  have := hl.out s hs s hs u hu v hv
  rw [Nat.xor_self, h, Nat.xor_self] at this
  exact this

theorem one_input_out {junk : Nat → Nat → Nat} {M n : Nat} {g : List Nat} {feedback : Option (List (List Nat))}
    {rsc : Bool} {fmt : String}
    {j : Nat} (hj : j < n) (hg : polyCoef fmt (M + 1) (matAt [g] 0 j) 0 = 1) :
    ∀ u < 2 ^ (trellisOf junk [M] [g] n feedback rsc fmt).k, u ≠ 0 →
      (trellisOf junk [M] [g] n feedback rsc fmt).out 0 u ≠ 0 := by
  intro u hu hu0 h0
  have hu1 : u = 1 := by
    have : u < 2 := by simpa [trellisOf] using hu
    omega
  subst hu1
  rw [trellisOf_out (Nat.two_pow_pos _) (by simp)] at h0
  have hbits : ∀ x ∈ outBitsOf junk [M] [g] n fmt 0 1, x < 2 := by
    intro x hx
    simp only [outBitsOf, List.mem_map] at hx
    obtain ⟨i, _, rfl⟩ := hx
    exact Nat.mod_lt _ (by omega)
  have h1 := toBits_bitarray2dec hbits
  rw [h0, toBits_of_zero] at h1
  have h2 := congrArg (fun l => l.getD j 0) h1
  simp only [outBitsOf, List.length_map, List.length_range] at h2
  rw [getD_map_range _ _ hj, outBit_sum hj] at h2
  simp only [List.length_cons, List.length_nil, Nat.zero_add, Finset.sum_range_one] at h2
  rw [memMax_single, Finset.sum_eq_single 0] at h2
  · rw [hg, srOf_single, if_pos rfl] at h2
    simp [List.getD_eq_getElem _ _ (show j < (List.replicate n 0).length by simpa using hj)] at h2
  · intro r hr hr0
    rw [Finset.mem_range] at hr
    rw [srOf_single, if_neg hr0, if_pos (by omega), toBits_of_zero]
    rw [List.getD_eq_getElem _ _ (by simp; omega)]
    simp
  · intro hn; exact absurd (Finset.mem_range.2 (by omega)) hn

/-- C39 for rate-1/n feed-forward encoders: if some generator polynomial has constant coefficient 1, then for every
message and every traceback depth from 2 up to the whole block, decoding the terminated encoding gives back
the message (followed by the termination bits). -/
theorem C39_feedforward {M n : Nat} {g : List Nat} {fmt : String} (h : TrellisArgs [M] [g] n none fmt) (hM : 0 < M)
    {j : Nat} (hj : j < n) (hg : polyCoef fmt (M + 1) (matAt [g] 0 j) 0 = 1) (junk : Nat → Nat → Nat) :
    ∃ t, mkTrellis junk [M] [g] n none false fmt = .ok t ∧
      ∀ (msg : List Nat) (outLen : Nat → Nat) (jk : VitJunk Nat) (tb : Nat), (∀ b ∈ msg, b < 2) →
        outLen (msg.length + M) = (msg.length + M) * n → 2 ≤ tb → tb ≤ msg.length + 2 * M →
        ∃ c d coded', convEncode outLen t msg "term" none = .ok c ∧
          viterbiHard t jk (msg.length + M) tb c = .ok (d, coded') ∧ d.length = msg.length + M ∧
          d.take msg.length = msg := by
  obtain ⟨t, ht, hz⟩ := C34_zero_tail h junk
  refine ⟨t, ht, ?_⟩
  intro msg outLen jk tb hb ho htb htb2
  have hteq : t = trellisOf junk [M] [g] n none false fmt := by
    have := mkTrellis_ok (junk := junk) (rsc := false) h
    rw [ht] at this
    exact Except.ok.inj this
  have hk : t.k = 1 := by rw [hteq]; rfl
  have hMt : t.M = M := by rw [hteq]; simp [trellisOf]
  have hnt : t.n = n := by rw [hteq]; rfl
  have hrsc : t.rsc = false := by rw [hteq]; rfl
  have hbal : t.Balanced := by rw [hteq]; exact ff_balanced h (by simpa using hM)
  have hlin : t.Linear := by rw [hteq]; exact trellisOf_linear h (fits_one _ _ _ _) (fun F _ => fitsFb_one _ _ _)
  have hne : ∀ u < 2 ^ t.k, u ≠ 0 → t.out 0 u ≠ 0 := by rw [hteq]; exact one_input_out hj hg
  obtain ⟨c, hc⟩ := hz msg outLen hb ho
  have hN : codedInputLen t msg.length "term" = (msg.length + M) * t.k := by
    simp [codedInputLen, hrsc, hk, hMt, Nat.mod_one]
  obtain ⟨h1, h2, d, c', h3, h4, h5⟩ := C39_terminated hbal (by rw [hnt]; omega) (hlin.distinct hne) hlin.zero.1 hlin.zero.2
    (outLen := outLen) hb (by rw [hk]; exact one_dvd _) hN (by rw [hk, hnt, Nat.mul_one]; exact ho) hc jk htb
    (by rw [hk, hMt, Nat.div_one]; omega) (Or.inl hk)
  rw [hk, Nat.mul_one] at h3 h4
  exact ⟨c, d, c', h1, h3, h4, h5⟩

example : TrellisArgs [2] [[5, 7]] 2 none "MSB" ∧ polyCoef "MSB" 3 (matAt [[5, 7]] 0 0) 0 = 1 ∧
    (do let t ← mkTrellis (fun _ _ => 0) [2] [[5, 7]] 2 none false "MSB"
        let c ← convEncode (· * 2) t [1, 1, 0, 1] "term" none
        viterbiHard t ⟨fun _ _ => 3, fun _ => 9, fun _ _ => ⊤, fun _ _ => (0, 0)⟩ 6 5 c) =
      .ok ([1, 1, 0, 1, 0, 0], [1, 1, 1, 0, 1, 0, 0, 0, 0, 1, 0, 0]) := by
  refine ⟨⟨by simp, by simp, rfl, ⟨rfl, by simp⟩, by decide, by simp, by simp⟩, by decide, by decide +kernel⟩

/-- C40, the part that holds: when the trellis has fewer than `2k` memory elements (so that no padding steps are
appended), hard-decision decoding of a continuous encoding returns the message, for every message of whole input groups. -/
theorem C40_continuous_partial {t : Trellis} (h : t.Balanced) (hn : 0 < t.n) (hM : t.M < 2 * t.k)
    (hdist : ∀ s < 2 ^ t.M, ∀ u < 2 ^ t.k, ∀ v < 2 ^ t.k, t.out s u = t.out s v → u = v)
    {outLen : Nat → Nat} {msg : List Nat} (hb : ∀ b ∈ msg, b < 2) {N : Nat} (hN : msg.length = N * t.k)
    (hout : outLen (N * t.k) = N * t.n) (jk : VitJunk Nat) {tb : Nat} (htb : 2 ≤ tb) (htb2 : tb ≤ N + 1) :
    ∃ c coded', convEncode outLen t msg "cont" none = .ok c ∧ viterbiHard t jk (N * t.k) tb c = .ok (msg, coded') := by
  have hk := h.wf.k_pos
  have hq := h.one_le
  have hq1 : t.M / t.k = 1 := by
    have : t.M / t.k < 2 := (Nat.div_lt_iff_lt_mul hk).2 (by omega)
    omega
  have hrun := convEncode_main h.wf hn (outLen := outLen) hb (term := "cont") (by simp)
    (by rw [encInput_fst, encInput_snd]; simp only [true_or, if_true]; rw [hN, hout, Nat.mul_div_cancel _ hk])
  rw [encInput_fst, encInput_snd] at hrun
  simp only [true_or, if_true] at hrun
  rw [hN, hout, Nat.mul_div_cancel _ hk, Nat.sub_self, List.replicate_zero, List.append_nil] at hrun
  have hw : IsInput t N (inSyms t.k msg) := ⟨by rw [inSyms_length, hN, Nat.mul_div_cancel _ hk], inSyms_lt hb _⟩
  obtain ⟨c', hv⟩ := viterbiHard_noiseless h hdist jk htb (by rw [hq1]; exact htb2) (Or.inr (by rw [hq1]; simp)) hw
    (Or.inl (by omega))
  rw [flatMap_inSyms hk hb hN] at hv
  exact ⟨_, c', hrun, hv⟩

/-- C40 as stated is false: with three memory elements the padding steps can outvote the true path. -/
theorem C40_continuous_refuted :
    ∃ msg d c', (do let t ← mkTrellis (fun _ _ => 0) [3] [[11, 15]] 2 none false "MSB"
                    let c ← convEncode (· * 2) t msg "cont" none
                    viterbiHard t ⟨fun _ _ => 0, fun _ => 0, fun _ _ => 0, fun _ _ => (0, 0)⟩ 6 (defaultDepth t 6) c) =
        .ok (d, c') ∧ msg.length = 6 ∧ d ≠ msg :=
  ⟨[0, 0, 0, 0, 1, 1], [0, 0, 0, 0, 0, 0], [0, 0, 0, 0, 0, 0, 0, 0, 1, 1, 0, 0], by decide +kernel, rfl, by decide⟩

example : (do let t ← mkTrellis (fun _ _ => 0) [1, 1] [[1, 0, 3], [0, 1, 2]] 3 none false "MSB"
              let c ← convEncode (fun N => N * 3 / 2) t [1, 0, 1, 1, 0, 1] "cont" none
              viterbiHard t ⟨fun _ _ => 3, fun _ => 9, fun _ _ => ⊤, fun _ _ => (0, 0)⟩ 6 4 c) =
      .ok ([1, 0, 1, 1, 0, 1], [1, 0, 1, 1, 1, 0, 0, 1, 0]) ∧
    (do let t ← mkTrellis (fun _ _ => 0) [1, 1] [[1, 0, 3], [0, 1, 2]] 3 none false "MSB"
        pure (t.M, t.k) : Py (Nat × Nat)) = .ok (2, 2) := by decide +kernel

theorem exists_dec {x : Py (List Nat × List Nat)} {a : List Nat} {b : List Nat} {c : List Nat} (h : x = .ok (c, b))
    (e : b = a) : ∃ c, x = .ok (c, a) := ⟨c, by rw [h, e]⟩

/-- C41, hard decisions: the caller's array after decoding `N ≥ 1` blocks.  It is unchanged if the trellis has fewer than
`2k` memory elements; otherwise its last block of `n` bits has been overwritten with zeros. -/
theorem C41_input_after_hard {t : Trellis} (h : t.Balanced) (jk : VitJunk Nat) {N tb : Nat} {coded : List Nat}
    (hl : coded.length = N * t.n) (hc : ∀ x ∈ coded, x < 2) (hN : 0 < N) (htb : 2 ≤ tb) (htb2 : tb ≤ N + t.M / t.k)
    (hB : t.k = 1 ∨ (t.M / t.k - 1) * t.k ≤ tb) :
    ∃ d, viterbiHard t jk (N * t.k) tb coded =
      .ok (d, if t.M < 2 * t.k then coded else coded.take ((N - 1) * t.n) ++ List.replicate t.n 0) := by
  have hk := h.wf.k_pos
  have hq := h.one_le
  have hv := viterbi_blocks (inPlace := true) h jk htb htb2 hB hl (sample_bm hard_sample hk (pad := 0) (by decide) hc hl _)
  refine exists_dec hv ?_
  have hiff : t.M / t.k ≤ 1 ↔ t.M < 2 * t.k := by
    rw [← Nat.lt_succ_iff, Nat.div_lt_iff_lt_mul hk]
  by_cases h2 : t.M < 2 * t.k
  · rw [if_pos h2, if_pos (hiff.2 h2)]
  · rw [if_neg h2, if_neg (fun hc => h2 (hiff.1 hc))]
    unfold paddedCoded
    rw [Nat.mul_div_cancel _ hk, if_pos ⟨rfl, hN⟩, List.drop_of_length_le (by rw [hl]), List.append_nil]

/-- C41, soft decisions: the caller's array is never modified. -/
theorem C41_input_after_soft (t : Trellis) (jk : VitJunk ℝ) (L tb : Nat) (llr d : List ℝ) (bits : List Nat)
    (h : viterbiDecode "soft" t jk L tb llr = .ok (bits, d)) : d = llr := by
  unfold viterbiDecode at h
  rw [if_pos rfl] at h
  cases hv : viterbi t (branchMetric "soft") (padValue "soft") false jk L tb (llr.map clip500) with
  | error e => rw [hv] at h; simp [Except.map] at h
  | ok r => rw [hv] at h; simp only [Except.map, Except.ok.injEq, Prod.mk.injEq] at h; exact h.2.symm

/-- C41 as stated is false: decoding with the (5,7) code zeroes the last two received bits of the caller's array. -/
theorem C41_input_modified_refuted :
    ∃ coded d coded', (do let t ← mkTrellis (fun _ _ => 0) [2] [[5, 7]] 2 none false "MSB"
                          viterbiHard t ⟨fun _ _ => 0, fun _ => 0, fun _ _ => 0, fun _ _ => (0, 0)⟩ 4
                            (defaultDepth t 4) coded) = .ok (d, coded') ∧ coded' ≠ coded :=
  ⟨[1, 1, 0, 1, 0, 0, 1, 1], [1, 0, 1, 0], [1, 1, 0, 1, 0, 0, 0, 0], by decide +kernel, by decide⟩

/-! ### Error correction -/

theorem diffCount_triangle {a b c : List Nat} (h1 : a.length = b.length) (h2 : b.length = c.length) :
    diffCount a c ≤ diffCount a b + diffCount b c := by
  induction a generalizing b c with
  | nil => simp [diffCount]
  | cons x a ih =>
    cases b with
    | nil => simp at h1
    | cons y b =>
      cases c with
      | nil => simp at h2
      | cons z c =>
        have := ih (b := b) (c := c) (by simpa using h1) (by simpa using h2)
        simp only [diffCount]
        by_cases e1 : x = y <;> by_cases e2 : y = z <;> by_cases e3 : x = z <;> simp [e1, e2, e3] <;> first | omega | skip
        all_goals (try subst e1; try subst e2; first | omega | exact absurd rfl (by assumption))

theorem diffCount_comm (a b : List Nat) : diffCount a b = diffCount b a := by
  induction a generalizing b with
  | nil => cases b <;> rfl
  | cons x a ih =>
    cases b with
    | nil => rfl
    | cons y b =>
      simp only [diffCount, ih b]
      by_cases e : x = y
      · simp [e]
      · have : y ≠ x := fun h => e h.symm
        simp [e, this]

theorem diffCount_append {a b c d : List Nat} (h : a.length = c.length) :
    diffCount (a ++ b) (c ++ d) = diffCount a c + diffCount b d := by
  induction a generalizing c with
  | nil => cases c with
    | nil => simp [diffCount]
    | cons y c => simp at h
  | cons x a ih =>
    cases c with
    | nil => simp at h
    | cons y c =>
      simp only [List.cons_append, diffCount]
      rw [ih (by simpa using h)]; omega

theorem inSyms_flatMap {k : Nat} (hk : 0 < k) {us : List Nat} (hu : ∀ u ∈ us, u < 2 ^ k) :
    inSyms k (us.flatMap (toBits k)) = us := by
  have hl : (us.flatMap (toBits k)).length = us.length * k := by
    rw [List.length_flatMap]; simp
  unfold inSyms
  rw [hl, Nat.mul_div_cancel _ hk]
  apply List.ext_getElem (by simp)
  intro i h1 h2
  simp only [List.getElem_map, List.getElem_range]
  have : ∀ (us : List Nat) (i : Nat) (h : i < us.length),
      ((us.flatMap (toBits k)).drop (i * k)).take k = toBits k us[i] := by
    intro us
    induction us with
    | nil => intro i h; simp at h
    | cons u us ih =>
      intro i h
      cases i with
      | zero => simp
      | succ i =>
        rw [List.flatMap_cons, show (i + 1) * k = (toBits k u).length + i * k by rw [toBits_length]; ring,
          List.drop_length_add_append, ih i (by simpa using h)]
        rfl
  rw [this us i h2, bitarray2dec_toBits (hu _ (List.getElem_mem _))]

theorem runOut_zeros {t : Trellis} (h0 : t.next 0 0 = 0) (ho : t.out 0 0 = 0) (m : Nat) :
    t.runOut 0 (List.replicate m 0) = List.replicate (m * t.n) 0 := by
  induction m with
  | zero => simp [Trellis.runOut]
  | succ m ih =>
    rw [List.replicate_succ, Trellis.runOut, h0, ih, ho, toBits_of_zero, ← List.replicate_add]
    congr 1; ring

theorem convEncode_cont {t : Trellis} (h : t.WF) (hn : 0 < t.n) {outLen : Nat → Nat} {msg : List Nat}
    (hb : ∀ b ∈ msg, b < 2) {N : Nat} (hN : msg.length = N * t.k) (hout : outLen (N * t.k) = N * t.n) :
    convEncode outLen t msg "cont" none = .ok (t.runOut 0 (inSyms t.k msg)) := by
  have hk := h.k_pos
  have hrun := convEncode_main h hn (outLen := outLen) hb (term := "cont") (by simp)
    (by rw [encInput_fst, encInput_snd]; simp only [true_or, if_true]; rw [hN, hout, Nat.mul_div_cancel _ hk])
  rw [encInput_fst, encInput_snd] at hrun
  simp only [true_or, if_true] at hrun
  rw [hN, hout, Nat.mul_div_cancel _ hk, Nat.sub_self, List.replicate_zero, List.append_nil] at hrun
  exact hrun

/-- C42. Hard-decision decoding with a window covering the block corrects fewer errors than half the distance.
`bits` is the encoder input including its termination (`N` groups of `k` bits), `c` its code word, which the encoder
leaves in state 0 (`henc`; not needed when the decoder appends no padding).  If the received word `rx` differs from `c`
in fewer than half as many positions as the code word of every other input sequence of the decoder's length
`N + M/k - 1` does (`c` continued with zeros), the decoder returns `bits`. -/
theorem C42_half_distance {t : Trellis} (h : t.Balanced) (hn : 0 < t.n) {outLen : Nat → Nat}
    (hout : ∀ m, outLen (m * t.k) = m * t.n) {bits c rx : List Nat} (hb : ∀ b ∈ bits, b < 2) {N : Nat}
    (hN : bits.length = N * t.k) (henc : convEncode outLen t bits "cont" none = .ok c)
    (hend : t.M < 2 * t.k ∨
      convEncodeRun outLen t bits "cont" = .ok (0, c) ∧ t.next 0 0 = 0 ∧ t.out 0 0 = 0)
    (hrx : rx.length = N * t.n) (hrb : ∀ x ∈ rx, x < 2) (hT : 2 ≤ N + t.M / t.k)
    (hB : t.k = 1 ∨ (t.M / t.k - 1) * t.k ≤ N + t.M / t.k)
    (hdist : ∀ other c', (∀ b ∈ other, b < 2) → other.length = (N + t.M / t.k - 1) * t.k → other.take (N * t.k) ≠ bits →
      convEncode outLen t other "cont" none = .ok c' →
        2 * diffCount rx c < diffCount (c ++ List.replicate ((t.M / t.k - 1) * t.n) 0) c')
    (jk : VitJunk Nat) :
    ∃ coded', viterbiHard t jk (N * t.k) (N + t.M / t.k) rx = .ok (bits, coded') := by
  have hk := h.wf.k_pos
  have hq := h.one_le
  have hce := convEncode_cont h.wf hn hb hN (hout N)
  rw [hce] at henc
  have hc : c = t.runOut 0 (inSyms t.k bits) := (Except.ok.inj henc).symm
  obtain ⟨us, hus, hmin, coded', hv⟩ := C38_hard h jk hrx hrb hT hB
  refine ⟨coded', ?_⟩
  rw [hv]
  congr 2
  by_contra hne
  -- the true path
  set w := inSyms t.k bits ++ List.replicate (t.M / t.k - 1) 0 with hw
  have hwi : IsInput t (N + t.M / t.k - 1) w := by
    refine ⟨by rw [hw, List.length_append, inSyms_length, hN, Nat.mul_div_cancel _ hk, List.length_replicate]; omega, ?_⟩
    intro u hu
    rw [hw, List.mem_append] at hu
    rcases hu with hu | hu
    · exact inSyms_lt hb _ u hu
    · rw [List.eq_of_mem_replicate hu]; exact Nat.two_pow_pos _
  have hwo : t.runOut 0 w = c ++ List.replicate ((t.M / t.k - 1) * t.n) 0 := by
    rw [hw, Trellis.runOut_append, ← hc]
    congr 1
    rcases hend with hlt | ⟨hs, h0, ho⟩
    · have : t.M / t.k - 1 = 0 := by
        have : t.M / t.k < 2 := (Nat.div_lt_iff_lt_mul hk).2 (by omega)
        omega
      rw [this]; simp [Trellis.runOut]
    · have hrun := convEncodeRun_main h.wf (outLen := outLen) hb (term := "cont") (by simp)
        (by rw [encInput_fst, encInput_snd]; simp only [true_or, if_true]; rw [hN, hout, Nat.mul_div_cancel _ hk])
      rw [encInput_fst, encInput_snd] at hrun
      simp only [true_or, if_true] at hrun
      rw [hs] at hrun
      have := congrArg Prod.fst (Except.ok.inj hrun)
      simp only at this
      rw [← this, runOut_zeros h0 ho]
  -- the decoded path has another beginning
  have hl2 : (us.flatMap (toBits t.k)).length = (N + t.M / t.k - 1) * t.k := by
    rw [List.length_flatMap]; simp [hus.1]
  have htake : (us.flatMap (toBits t.k)).take (N * t.k) = (us.take N).flatMap (toBits t.k) := by
    conv_lhs => rw [← List.take_append_drop N us, List.flatMap_append]
    have : ((us.take N).flatMap (toBits t.k)).length = N * t.k := by
      rw [List.length_flatMap]; simp [hus.1]; left; omega
    rw [List.take_append_of_le_length (by omega), List.take_of_length_le (by omega)]
  have hoe := convEncode_cont h.wf hn (msg := us.flatMap (toBits t.k)) (outLen := outLen) (by
    intro b hbm
    rw [List.mem_flatMap] at hbm
    obtain ⟨u, _, hbu⟩ := hbm
    exact toBits_lt_two hbu) hl2 (hout _)
  rw [inSyms_flatMap hk hus.2] at hoe
  have hd := hdist _ _ (by
    intro b hbm
    rw [List.mem_flatMap] at hbm
    obtain ⟨u, _, hbu⟩ := hbm
    exact toBits_lt_two hbu) hl2 (by rw [htake]; exact hne) hoe
  have hm := hmin w hwi
  rw [hwo] at hm
  have hlr : (paddedRx t 0 rx).length = (N + t.M / t.k - 1) * t.n := by
    rw [paddedRx, List.length_append, List.length_replicate, hrx, ← Nat.add_mul]; congr 1; omega
  have hlw : (c ++ List.replicate ((t.M / t.k - 1) * t.n) 0).length = (N + t.M / t.k - 1) * t.n := by
    rw [← hwo, Trellis.runOut_length, hwi.1]
  have hlu : (t.runOut 0 us).length = (N + t.M / t.k - 1) * t.n := by rw [Trellis.runOut_length, hus.1]
  have htri := diffCount_triangle (a := c ++ List.replicate ((t.M / t.k - 1) * t.n) 0) (b := paddedRx t 0 rx)
    (c := t.runOut 0 us) (by rw [hlw, hlr]) (by rw [hlr, hlu])
  rw [diffCount_comm (c ++ _) (paddedRx t 0 rx)] at htri
  have hlc : rx.length = c.length := by
    rw [hrx, hc, Trellis.runOut_length, inSyms_length, hN, Nat.mul_div_cancel _ hk]
  have he : diffCount (paddedRx t 0 rx) (c ++ List.replicate ((t.M / t.k - 1) * t.n) 0) = diffCount rx c := by
    rw [paddedRx, diffCount_append hlc, toBits_seq_zero]; omega
  rw [he] at htri hm
  omega

/-- The (5,7) code, one bit of the code word of `1 0 0` wrong: C42's hypotheses hold and the message is returned. -/
example (jk : VitJunk Nat) : ∃ t c coded', mkTrellis (fun _ _ => 0) [2] [[5, 7]] 2 none false "MSB" = .ok t ∧
    convEncode (fun m => 2 * m) t [1, 0, 0] "cont" none = .ok c ∧ diffCount [1, 1, 1, 1, 1, 1] c = 1 ∧
    viterbiHard t jk 3 5 [1, 1, 1, 1, 1, 1] = .ok ([1, 0, 0], coded') := by
  have hbal := ff_balanced (junk := fun _ _ => 0) (rsc := false) viterbiEx_args (by simp)
  have henc : convEncode (fun m => 2 * m) (trellisOf (fun _ _ => 0) [2] [[5, 7]] 2 none false "MSB") [1, 0, 0] "cont" none =
      .ok [1, 1, 0, 1, 1, 1] := by decide +kernel
  have hdist : ∀ other c', (∀ b ∈ other, b < 2) → other.length = 4 → other.take 3 ≠ [1, 0, 0] →
      convEncode (fun m => 2 * m) (trellisOf (fun _ _ => 0) [2] [[5, 7]] 2 none false "MSB") other "cont" none = .ok c' →
      2 * diffCount [1, 1, 1, 1, 1, 1] [1, 1, 0, 1, 1, 1] < diffCount ([1, 1, 0, 1, 1, 1] ++ List.replicate 2 0) c' := by
    intro other c' hb hl hne hc'
    have h := convEncode_cont (N := 4) hbal.wf (by decide) (outLen := fun m => 2 * m) hb hl rfl
    rw [h] at hc'
    rw [← Except.ok.inj hc']
    match other, hl with
    | [a, b, c, d], _ =>
      have hall : ∀ a < (2 : Nat), ∀ b < (2 : Nat), ∀ c < (2 : Nat), ∀ d < (2 : Nat), [a, b, c, d].take 3 ≠ [1, 0, 0] →
        2 < diffCount ([1, 1, 0, 1, 1, 1] ++ List.replicate 2 0)
          ((trellisOf (fun _ _ => 0) [2] [[5, 7]] 2 none false "MSB").runOut 0
            (inSyms 1 [a, b, c, d])) := by decide +kernel
      exact hall a (hb a (by simp)) b (hb b (by simp)) c (hb c (by simp)) d (hb d (by simp)) (by simpa using hne)
  obtain ⟨coded', h⟩ := C42_half_distance hbal (by decide) (outLen := fun m => 2 * m) (bits := [1, 0, 0]) (N := 3)
    (rx := [1, 1, 1, 1, 1, 1]) (fun m => by show 2 * (m * 1) = m * 2; ring) (by decide) rfl henc
    (Or.inr ⟨by decide +kernel, by decide +kernel, by decide +kernel⟩) rfl (by decide) (by decide) (Or.inl rfl) hdist jk
  exact ⟨_, _, coded', mkTrellis_ok viterbiEx_args, henc, by decide, h⟩

/-! ### Unknown decoding types -/

theorem mapM_error {α β : Type} {f : α → Py β} {x : α} {xs : List α} {e : PyErr} (h : f x = .error e) :
    (x :: xs).mapM f = .error e := by
  rw [List.mapM_cons, h]; rfl

/-- C43, what happens instead: with any other decoding type, every non-empty received sequence makes
`viterbi_decode` raise TypeError (from adding `None` to a path metric) and never the documented ValueError. -/
theorem C43_unknown_type_typeError {t : Trellis} (h : t.Balanced) {dtype : String} (h1 : dtype ≠ "hard")
    (h2 : dtype ≠ "soft") (h3 : dtype ≠ "unquantized") (jk : VitJunk ℝ) {N tb : Nat} {coded : List ℝ}
    (hN : 0 < N) (htb : 0 < tb) :
    viterbiDecode dtype t jk (N * t.k) tb coded = .error .typeError := by
  have hk := h.wf.k_pos
  have hq := h.one_le
  have hpos : (0 : Nat) < 2 ^ t.M := Nat.two_pow_pos _
  have hbm : ∀ r c, branchMetric dtype r c = .error .typeError := by
    intro r c; simp [branchMetric, h1, h2, h3]
  unfold viterbiDecode
  rw [if_neg h2]
  unfold viterbi
  rw [if_neg (by omega), if_neg (by omega)]
  obtain ⟨m, hm⟩ : ∃ m, (N * t.k + t.M) / t.k - 1 = m + 1 := by
    have := vitSteps_blocks hk N
    unfold vitSteps at this
    exact ⟨N + t.M / t.k - 2, by omega⟩
  rw [hm, List.range_succ_eq_map, List.map_cons, List.foldlM_cons]
  have hstep : ∀ st : VitState ℝ ℝ, st.pm.length = 2 ^ t.M →
      vitStep t (branchMetric dtype) (padValue dtype) true jk (N * t.k) tb st (0 + 1) = .error .typeError := by
    intro st _
    unfold vitStep
    have hrx : vitRx t (padValue dtype) true (N * t.k) st.coded (0 + 1) =
        .ok ((st.coded.drop ((0 + 1 - 1) * t.n)).take t.n, st.coded) := by
      unfold vitRx
      rw [if_pos (by rw [Nat.mul_div_cancel _ hk]; omega)]
    rw [hrx]
    simp only [bind, Except.bind]
    obtain ⟨S, hS⟩ : ∃ S, 2 ^ t.M = S + 1 := ⟨2 ^ t.M - 1, by omega⟩
    have hacs : ∀ x y, acsState t (branchMetric dtype) ((st.coded.drop ((0 + 1 - 1) * t.n)).take t.n) st.pm (x, y, []) 0 =
        .error .typeError := by
      intro x y
      have hf := h.fan_in 0 hpos
      have hkM : 2 ^ t.k ≤ 2 ^ t.M := Nat.pow_le_pow_right (by omega) h.k_le
      unfold acsState
      simp only
      rw [if_neg (by omega), if_neg (by omega)]
      cases hp : preds t 0 with
      | nil => exact absurd hp (h.preds_ne hpos)
      | cons e es =>
        rw [mapM_error (e := .typeError)]
        · rfl
        · have hmem : e ∈ preds t 0 := by rw [hp]; simp
          obtain ⟨p, u⟩ := e
          obtain ⟨hp1, hu1, _⟩ := (mem_preds h.wf).1 hmem
          have e1 := tableGet_ok (tbl := t.outTable) h.wf.out_len (fun r hr => (h.wf.out_row r hr).1) hp1 hu1
          have e3 := dec2bitarray_ok (h.wf.out_lt hp1 hu1)
          unfold Trellis.out at e3
          simp only [e1, bind, Except.bind, e3, hbm]
    conv_lhs => rw [hS]
    rw [List.range_succ_eq_map, List.foldlM_cons]
    rw [hacs]
    rfl
  rw [hstep _ (by simp [vitInit])]
  rfl

/-- C43 as stated is false. -/
theorem C43_unknown_type_refuted :
    ∃ t, mkTrellis (fun _ _ => 0) [2] [[5, 7]] 2 none false "MSB" = .ok t ∧
      ∀ jk, viterbiDecode "HARD" t jk (1 * t.k) 2 [1, 1] ≠ .error .valueError := by
  have hargs : TrellisArgs [2] [[5, 7]] 2 none "MSB" :=
    ⟨by simp, by simp, rfl, ⟨rfl, by simp⟩, by decide, by simp, by simp⟩
  refine ⟨_, mkTrellis_ok hargs, ?_⟩
  intro jk hc
  rw [C43_unknown_type_typeError (ff_balanced hargs (by simp)) (by decide) (by decide) (by decide) jk (by omega)
    (by omega)] at hc
  cases hc

/-! ### The soft metric -/

/-- C44. The soft metric is minus the logarithm of the probability of the code bits given the LLRs. -/
theorem C44_soft_loglikelihood (r : List ℝ) (c : List Nat) (h : r.length = c.length) :
    softMetric r c = .ok (-Real.log (seqProb r c)) := by
  unfold softMetric
  rw [if_pos h]
  congr 1
  exact (seqCost_soft r c).1

/-- C44. It orders code words by likelihood. -/
theorem C44_soft_order (r : List ℝ) (c c' : List Nat) (h : r.length = c.length) (h' : r.length = c'.length) :
    ∃ m m', softMetric r c = .ok m ∧ softMetric r c' = .ok m' ∧ (m < m' ↔ seqProb r c' < seqProb r c) := by
  refine ⟨_, _, C44_soft_loglikelihood r c h, C44_soft_loglikelihood r c' h', ?_⟩
  rw [neg_lt_neg_iff, Real.log_lt_log_iff (seqCost_soft r c').2 (seqCost_soft r c).2]

/-- C44, erasures: a zero LLR inserted anywhere adds the constant log 2 whatever the code bit. -/
theorem C44_erasure_constant (r1 r2 : List ℝ) (c1 c2 : List Nat) (b : Nat) (h1 : r1.length = c1.length)
    (h2 : r2.length = c2.length) :
    ∃ m, softMetric (r1 ++ r2) (c1 ++ c2) = .ok m ∧
      softMetric (r1 ++ 0 :: r2) (c1 ++ b :: c2) = .ok (m + Real.log 2) := by
  have e1 := soft_sample (r1 ++ r2) (c1 ++ c2)
  refine ⟨seqCost (fun x b => if b ≠ 0 then negLL1 x else negLL0 x) (r1 ++ r2) (c1 ++ c2), ?_, ?_⟩
  · unfold softMetric
    rw [if_pos (by simp [h1, h2])]; rfl
  · unfold softMetric
    rw [if_pos (by simp [h1, h2])]
    congr 1
    show seqCost _ (r1 ++ 0 :: r2) (c1 ++ b :: c2) = _
    rw [seqCost_append h1, seqCost_append h1]
    have : seqCost (fun x b => if b ≠ 0 then negLL1 x else negLL0 x) (0 :: r2) (b :: c2) =
        Real.log 2 + seqCost (fun x b => if b ≠ 0 then negLL1 x else negLL0 x) r2 c2 := by
      unfold seqCost
      rw [List.zipWith_cons_cons, List.sum_cons]
      congr 1
      unfold negLL1 negLL0
      rw [Real.exp_zero, sub_zero, ite_self]
      norm_num
    rw [this]; ring

/-- C44, erasures never influence the comparison: code words that agree wherever the LLR is not zero have the same
metric. -/
theorem C44_erasure_neutral (r : List ℝ) (c c' : List Nat) (h : r.length = c.length) (h' : r.length = c'.length)
    (hag : ∀ i < r.length, r.getD i 0 ≠ 0 → c.getD i 0 = c'.getD i 0) : softMetric r c = softMetric r c' := by
  unfold softMetric
  rw [if_pos h, if_pos h']
  congr 2
  apply List.ext_getElem (by simp; omega)
  intro i h1 h2
  simp only [List.length_zipWith] at h1 h2
  simp only [List.getElem_zipWith]
  have hi : i < r.length := by omega
  by_cases h0 : r[i] = 0
  · rw [h0]
    unfold negLL1
    simp
  · have := hag i hi (by rw [List.getD_eq_getElem _ _ hi]; exact h0)
    rw [List.getD_eq_getElem _ _ (by omega), List.getD_eq_getElem _ _ (by omega)] at this
    rw [this]

example : ∃ m m', softMetric [2, 0, -1] [1, 0, 0] = .ok m ∧ softMetric [2, 0, -1] [0, 1, 0] = .ok m' ∧ m < m' := by
  obtain ⟨m, m', h1, h2, h3⟩ := C44_soft_order [2, 0, -1] [1, 0, 0] [0, 1, 0] rfl rfl
  refine ⟨m, m', h1, h2, h3.2 ?_⟩
  simp only [seqProb, bitProb, List.zipWith_cons_cons, List.zipWith_nil_left, List.prod_cons, List.prod_nil]
  have : (1 : ℝ) < Real.exp 2 := by
    have := Real.add_one_lt_exp (x := 2) (by norm_num); linarith
  have h0 := Real.exp_pos (-1)
  simp only [ne_eq, not_true_eq_false, if_false, one_ne_zero, not_false_eq_true, if_true, Real.exp_zero]
  have e : (0 : ℝ) < 1 / (1 + Real.exp 2) := by positivity
  have e2 : 1 / (1 + Real.exp 2) < Real.exp 2 / (1 + Real.exp 2) := by
    apply div_lt_div_of_pos_right this; positivity
  have e3 : (0 : ℝ) < 1 / (1 + Real.exp (-1)) := by positivity
  nlinarith [mul_lt_mul_of_pos_right e2 e3]

/-! ### Uninitialised memory -/

/-- C45, the part that holds: whenever the traceback depth is at least 2 and at most `N + M/k`, the result does not depend
on the contents of uninitialised memory (any additive metric, any padding). -/
theorem C45_determined {R α : Type} [LinearOrder R] [AddCommMonoid R] {t : Trellis} (h : t.Balanced)
    {bm : List α → List Nat → Py R} {P : α → Prop} {cost : α → Nat → R} (hbm : IsSampleMetric bm P cost) {pad : α}
    (hp : P pad) (inPlace : Bool) {N tb : Nat} {coded : List α} (hl : coded.length = N * t.n) (hc : ∀ x ∈ coded, P x)
    (htb : 2 ≤ tb) (htb2 : tb ≤ N + t.M / t.k) (hB : t.k = 1 ∨ (t.M / t.k - 1) * t.k ≤ tb) (jk jk' : VitJunk R) :
    viterbi t bm (some pad) inPlace jk (N * t.k) tb coded = viterbi t bm (some pad) inPlace jk' (N * t.k) tb coded := by
  have hk := h.wf.k_pos
  rw [viterbi_blocks h jk htb htb2 hB hl (sample_bm hbm hk hp hc hl _),
    viterbi_blocks h jk' htb htb2 hB hl (sample_bm hbm hk hp hc hl _)]

/-- C45 for one-input codes with the default traceback depth: determined for every block of at least two bits. -/
theorem C45_default_depth_one_input {t : Trellis} (h : t.Balanced) (hk : t.k = 1) {N : Nat} (hN : 2 ≤ N)
    {coded : List Nat} (hl : coded.length = N * t.n) (hc : ∀ x ∈ coded, x < 2) (jk jk' : VitJunk Nat) :
    ∃ d coded', d.length = N ∧ viterbiHard t jk N (defaultDepth t N) coded = .ok (d, coded') ∧
      viterbiHard t jk' N (defaultDepth t N) coded = .ok (d, coded') := by
  have hM : 1 ≤ t.M := by have := h.k_le; omega
  have a : 2 ≤ defaultDepth t N := by unfold defaultDepth; omega
  have b : defaultDepth t N ≤ N + t.M / t.k := le_trans (Nat.min_le_right _ _) (Nat.le_add_right _ _)
  have e1 := C45_determined h hard_sample (pad := 0) (by decide) true hl hc a b (Or.inl hk) jk jk'
  have e2 := viterbi_blocks (inPlace := true) h jk a b (Or.inl hk) hl
    (sample_bm hard_sample (by omega) (pad := 0) (by decide) hc hl _)
  rw [hk, Nat.mul_one] at e1
  rw [show N * t.k = N by rw [hk, Nat.mul_one]] at e2
  exact ⟨_, _, by rw [List.length_flatMap]; simp [hk], e2, e1.symm.trans e2⟩

/-- C45 as stated is false: with two inputs, two memory elements and four message bits the default depth 4 exceeds the
number of steps, no traceback ever happens and the decoder returns uninitialised memory. -/
theorem C45_default_depth_refuted :
    ∃ coded jk jk', (do let t ← mkTrellis (fun _ _ => 0) [1, 1] [[1, 0, 3], [0, 1, 2]] 3 none false "MSB"
                        viterbiHard t jk 4 (defaultDepth t 4) coded) ≠
      (do let t ← mkTrellis (fun _ _ => 0) [1, 1] [[1, 0, 3], [0, 1, 2]] 3 none false "MSB"
          viterbiHard t jk' 4 (defaultDepth t 4) coded) :=
  ⟨[0, 0, 0, 0, 0, 0], ⟨fun _ _ => 0, fun _ => 0, fun _ _ => 0, fun _ _ => (0, 0)⟩,
    ⟨fun _ _ => 0, fun _ => 1, fun _ _ => 0, fun _ _ => (0, 0)⟩, by decide +kernel⟩

end Verif
