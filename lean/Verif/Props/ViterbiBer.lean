import Verif.Props.ViterbiTransfer
import Mathlib.Analysis.Complex.ExponentialBounds
/-
C126: the error probability of a convolutionally encoded link with Viterbi decoding, for every message, code, noise level and traceback depth.
-/
namespace Verif
open MeasureTheory ProbabilityTheory Finset

variable {Ω : Type*} [MeasurableSpace Ω] {μ : Measure Ω}

/-- The union bound in terms of the message, for any metric that is a sum over the samples. -/
theorem union_message [IsFiniteMeasure μ] {R α : Type} [LinearOrder R] [AddCommMonoid R] [IsOrderedCancelAddMonoid R] {t : Trellis} (h : t.Balanced) (hl : t.Linear)
    (hne : ∀ u < 2 ^ t.k, u ≠ 0 → t.out 0 u ≠ 0) {bm : List α → List Nat → Py R} {P : α → Prop}
    {cost : α → Nat → R} (hbm : IsSampleMetric bm P cost) (φ : R →+ ℝ) (hφ : Monotone φ) {pad : α} (hp : P pad) (jk : VitJunk R)
    {outLen : Nat → Nat} {msg c : List Nat} (hb : ∀ b ∈ msg, b < 2) (hk : t.k ∣ msg.length) {N : Nat}
    (hN : codedInputLen t msg.length "term" = N * t.k) (hout : outLen (N * t.k) = N * t.n) (henc : convEncodeRun outLen t msg "term" = .ok (0, c))
    {tb : Nat} (htb : 2 ≤ tb) (htb2 : tb ≤ N + t.M / t.k) (hB : t.k = 1 ∨ (t.M / t.k - 1) * t.k ≤ tb)
    {rx : Ω → List α} (hrl : ∀ ω, (rx ω).length = c.length) (hrP : ∀ ω, ∀ x ∈ rx ω, P x) {q : Nat → ℝ}
    (hpair : (∀ x ∈ c, x < 2) → ∀ m, PairwiseBound μ (fun ω => metricLoss (fun x b => φ (cost x b)) pad (paddedRx t pad (rx ω)) (c ++ List.replicate m 0)) q) :
    (∀ K, K * t.k ≤ msg.length →
      μ.real {ω | ¬ ∃ dec coded', viterbi t bm (some pad) true jk (N * t.k) tb (rx ω) = .ok (dec, coded') ∧ dec.length = N * t.k ∧
        dec.take (K * t.k) = msg.take (K * t.k)} ≤ unionBound t q (N + t.M / t.k - 1) tb K) ∧
    (∀ j < msg.length,
      μ.real {ω | ¬ ∃ dec coded', viterbi t bm (some pad) true jk (N * t.k) tb (rx ω) = .ok (dec, coded') ∧ dec.length = N * t.k ∧
        dec.getD j 0 = msg.getD j 0} ≤ bitBound t q (N + t.M / t.k - 1) tb (j / t.k) (j % t.k)) := by
  have hkp := h.wf.k_pos
  obtain ⟨m, hm⟩ := hk
  obtain ⟨w, hw, hw0, rfl, hwq, hqN⟩ := encoded_path h hb hm hN hout henc
  have hcl : (t.runOut 0 w).length = N * t.n := by rw [Trellis.runOut_length, hw.1]
  have hcb : ∀ x ∈ t.runOut 0 w, x < 2 := t.runOut_lt_two 0 w
  refine ⟨?_, ?_⟩
  · intro K hK
    have hKq : K ≤ m := by rw [hm, Nat.mul_comm] at hK; exact Nat.le_of_mul_le_mul_left hK hkp
    rw [← take_message hkp hb hm hw.1 hwq hqN hKq]
    exact union_groups h hl hne hbm φ hφ hp true jk (fun ω => by rw [hrl, hcl]) hrP htb htb2 hB hw (Or.inr hw0) (hpair hcb _) (by omega)
  · intro j hj
    have hjm : j / t.k < m := by
      rw [Nat.div_lt_iff_lt_mul hkp]; rw [hm, Nat.mul_comm] at hj; exact hj
    have hjd : j / t.k * t.k + j % t.k = j := by rw [Nat.mul_comm]; exact Nat.div_add_mod j t.k
    have e : msg.getD j 0 = (w.flatMap (toBits t.k)).getD j 0 := by
      have e1 := take_message hkp hb hm hw.1 hwq hqN (le_refl m)
      rw [List.take_of_length_le (l := msg) (by rw [hm, Nat.mul_comm])] at e1
      conv_rhs => rw [← List.take_append_drop m w, List.flatMap_append, e1]
      rw [List.getD_append _ _ _ _ hj]
    rw [e]
    have := union_bit h hl hne hbm φ hφ hp true jk (rx := rx) (fun ω => by rw [hrl, hcl]) hrP htb htb2 hB hw (Or.inr hw0) (hpair hcb _) (i := j / t.k) (β := j % t.k) (by omega)
      (Nat.mod_lt _ hkp)
    rwa [hjd] at this

theorem noisyBits_length (c : List Nat) (σ : ℝ) (z : ℕ → ℝ) : (noisyBits c σ z).length = c.length := by simp [noisyBits]

/-- C126, unquantized decisions.  A message encoded with termination in state 0 by a linear code, sent as `±1` over white Gaussian noise of standard deviation `σ`
and decoded with any traceback depth: the probability that the first `K` message groups are not all returned is at most the union bound over the error events with
the pairwise error probability `Q(√d / σ)`; the same for every single message bit. -/
theorem C126_unquantized {t : Trellis} (h : t.Balanced) (hl : t.Linear) (hne : ∀ u < 2 ^ t.k, u ≠ 0 → t.out 0 u ≠ 0)
    {outLen : Nat → Nat} {msg c : List Nat} (hb : ∀ b ∈ msg, b < 2) (hk : t.k ∣ msg.length) {N : Nat}
    (hN : codedInputLen t msg.length "term" = N * t.k) (hout : outLen (N * t.k) = N * t.n) (henc : convEncodeRun outLen t msg "term" = .ok (0, c))
    {tb : Nat} (htb : 2 ≤ tb) (htb2 : tb ≤ N + t.M / t.k) (hB : t.k = 1 ∨ (t.M / t.k - 1) * t.k ≤ tb)
    {z : Ω → ℕ → ℝ} (hz : NormalDraws μ z) (hind : iIndepFun (fun i ω => z ω i) μ) {σ : ℝ} (hσ : 0 < σ) (jk : VitJunk ℝ) :
    (∀ K, K * t.k ≤ msg.length →
      μ.real {ω | ¬ ∃ dec coded', viterbiDecode "unquantized" t jk (N * t.k) tb (noisyBits c σ (z ω)) = .ok (dec, coded') ∧ dec.length = N * t.k ∧
        dec.take (K * t.k) = msg.take (K * t.k)} ≤ unionBound t (fun d => qFunction (Real.sqrt d / σ)) (N + t.M / t.k - 1) tb K) ∧
    (∀ j < msg.length,
      μ.real {ω | ¬ ∃ dec coded', viterbiDecode "unquantized" t jk (N * t.k) tb (noisyBits c σ (z ω)) = .ok (dec, coded') ∧ dec.length = N * t.k ∧
        dec.getD j 0 = msg.getD j 0} ≤ bitBound t (fun d => qFunction (Real.sqrt d / σ)) (N + t.M / t.k - 1) tb (j / t.k) (j % t.k)) := by
  have hv : ∀ L tb rx, viterbiDecode "unquantized" t jk L tb rx = viterbi t unquantizedMetric (some (-1)) true jk L tb rx := by
    intro L tb rx
    unfold viterbiDecode
    have e : branchMetric "unquantized" = unquantizedMetric := by funext r c; simp [branchMetric]
    have e2 : padValue "unquantized" = some (-1) := by simp [padValue]
    rw [if_neg (by decide), e, e2]
  simp only [hv]
  have := hind.isProbabilityMeasure
  exact union_message h hl hne unq_sample (AddMonoidHom.id ℝ) monotone_id trivial jk hb hk hN hout henc htb htb2 hB (fun ω => noisyBits_length _ _ _)
    (fun _ _ _ => trivial) (fun hcb m => pairwise_unq hz hind hσ hcb m)

/-- C126, hard decisions over the binary symmetric channel with crossover probability `0 < p ≤ 1/2`: the same with the Bhattacharyya bound `(2 √(p (1-p)))^d`. -/
theorem C126_hard {t : Trellis} (h : t.Balanced) (hl : t.Linear) (hne : ∀ u < 2 ^ t.k, u ≠ 0 → t.out 0 u ≠ 0)
    {outLen : Nat → Nat} {msg c : List Nat} (hb : ∀ b ∈ msg, b < 2) (hk : t.k ∣ msg.length) {N : Nat}
    (hN : codedInputLen t msg.length "term" = N * t.k) (hout : outLen (N * t.k) = N * t.n) (henc : convEncodeRun outLen t msg "term" = .ok (0, c))
    {tb : Nat} (htb : 2 ≤ tb) (htb2 : tb ≤ N + t.M / t.k) (hB : t.k = 1 ∨ (t.M / t.k - 1) * t.k ≤ tb)
    {u : Ω → ℕ → ℝ} (hu : UniformDraws μ u) (hind : iIndepFun (fun i ω => u ω i) μ) {p : ℝ} (h0 : 0 < p) (h1 : p ≤ 1 / 2) (jk : VitJunk Nat) :
    (∀ K, K * t.k ≤ msg.length →
      μ.real {ω | ¬ ∃ dec coded', viterbiHard t jk (N * t.k) tb (bscBits c p (u ω)) = .ok (dec, coded') ∧ dec.length = N * t.k ∧
        dec.take (K * t.k) = msg.take (K * t.k)} ≤ unionBound t (fun d => (2 * Real.sqrt (p * (1 - p))) ^ d) (N + t.M / t.k - 1) tb K) ∧
    (∀ j < msg.length,
      μ.real {ω | ¬ ∃ dec coded', viterbiHard t jk (N * t.k) tb (bscBits c p (u ω)) = .ok (dec, coded') ∧ dec.length = N * t.k ∧
        dec.getD j 0 = msg.getD j 0} ≤ bitBound t (fun d => (2 * Real.sqrt (p * (1 - p))) ^ d) (N + t.M / t.k - 1) tb (j / t.k) (j % t.k)) := by
  have hcb : ∀ x ∈ c, x < 2 := by
    obtain ⟨m, hm⟩ := hk
    obtain ⟨w, -, -, rfl, -, -⟩ := encoded_path h hb hm hN hout henc
    exact t.runOut_lt_two 0 w
  have := hind.isProbabilityMeasure
  exact union_message h hl hne hard_sample (Nat.castAddMonoidHom ℝ) (fun a b hab => by simpa using hab) (by decide) jk hb hk hN hout henc htb htb2 hB
    (fun ω => (bsc_bits hcb p (u ω)).1) (fun ω => (bsc_bits hcb p (u ω)).2.1) (fun hcb m => pairwise_hard hu hind h0 h1 hcb m)

/-! ### The (5,7) code -/

/-- What the closed forms use of the (5,7) code. -/
structure Is57 (t : Trellis) : Prop where
  k : t.k = 1
  M : t.M = 2
  n : t.n = 2
  wf : t.WF
  next : t.next 0 1 = 2 ∧ t.next 1 0 = 0 ∧ t.next 1 1 = 2 ∧ t.next 2 0 = 1 ∧ t.next 2 1 = 3 ∧ t.next 3 0 = 1 ∧ t.next 3 1 = 3
  weight : branchWeight t 0 1 = 2 ∧ branchWeight t 1 0 = 2 ∧ branchWeight t 1 1 = 0 ∧ branchWeight t 2 0 = 1 ∧ branchWeight t 2 1 = 1 ∧ branchWeight t 3 0 = 1 ∧ branchWeight t 3 1 = 1

theorem Is57.sum {t : Trellis} (h : Is57 t) (f : Nat → ℝ) : ∑ u ∈ range (2 ^ t.k), f u = f 0 + f 1 := by
  rw [h.k, pow_one, sum_range_succ, sum_range_one]

theorem Is57.sum_erase {t : Trellis} (h : Is57 t) (f : Nat → ℝ) : ∑ u ∈ (range (2 ^ t.k)).erase 0, f u = f 1 := by
  have : (range (2 ^ t.k)).erase 0 = {1} := by rw [h.k]; decide
  rw [this, sum_singleton]

/-- The potentials of the (5,7) code: paths that return, their message bits, and paths that have not returned. -/
noncomputable def ret57 (x : ℝ) (s : Nat) : ℝ := if s = 0 then 1 else if s = 1 then x ^ 2 + x ^ 3 / (1 - 2 * x) else x ^ 3 / (1 - 2 * x)
noncomputable def retBits57 (x : ℝ) (s : Nat) : ℝ :=
  if s = 0 then 0 else if s = 1 then x ^ 3 / (1 - 2 * x) + 2 * x ^ 4 / (1 - 2 * x) ^ 2 else 2 * x ^ 4 / (1 - 2 * x) ^ 2
noncomputable def open57 (x : ℝ) (s : Nat) : ℝ := if s = 1 then 1 + (1 + x) / (1 - 2 * x) else (1 + x) / (1 - 2 * x)

/-- The potentials of the paths that have not returned after `m` more steps. -/
noncomputable def tail57 (x : ℝ) : Nat → ℝ
  | 0 => (1 + x) / (1 - 2 * x)
  | 1 => 3 * x / (1 - 2 * x)
  | m + 2 => x * (tail57 x m + tail57 x (m + 1))

theorem lt_four {t : Trellis} (h : Is57 t) {s : Nat} (hs : s < 2 ^ t.M) (h0 : s ≠ 0) : s = 1 ∨ s = 2 ∨ s = 3 := by
  rw [h.M] at hs; omega

theorem openPot57 {t : Trellis} (h : Is57 t) {x : ℝ} (hx : x < 1 / 2) : ∀ m,
    openPot t x (open57 x) m 2 = tail57 x m ∧ openPot t x (open57 x) m 3 = tail57 x m ∧ openPot t x (open57 x) (m + 1) 1 = tail57 x m ∧
      openPot t x (open57 x) (m + 1) 2 = tail57 x (m + 1) ∧ openPot t x (open57 x) (m + 1) 3 = tail57 x (m + 1) := by
  have hd : 1 - 2 * x ≠ 0 := by linarith
  have hy := mul_inv_cancel₀ hd
  have hz : ∀ m, openPot t x (open57 x) m 0 = 0 := by intro m; cases m <;> rw [openPot, if_pos rfl]
  obtain ⟨n1, n2, n3, n4, n5, n6, n7⟩ := h.next
  obtain ⟨w1, w2, w3, w4, w5, w6, w7⟩ := h.weight
  have r1 : ∀ m, openPot t x (open57 x) (m + 1) 1 = openPot t x (open57 x) m 2 := by
    intro m
    rw [openPot, if_neg (by decide), h.sum, n2, n3, w2, w3, hz]; ring
  have r2 : ∀ m, openPot t x (open57 x) (m + 1) 2 = x * (openPot t x (open57 x) m 1 + openPot t x (open57 x) m 3) := by
    intro m
    rw [openPot, if_neg (by decide), h.sum, n4, n5, w4, w5]; ring
  have r3 : ∀ m, openPot t x (open57 x) (m + 1) 3 = x * (openPot t x (open57 x) m 1 + openPot t x (open57 x) m 3) := by
    intro m
    rw [openPot, if_neg (by decide), h.sum, n6, n7, w6, w7]; ring
  have z1 : openPot t x (open57 x) 0 1 = 1 + (1 + x) / (1 - 2 * x) := by rw [openPot, if_neg (by decide)]; rfl
  have z2 : openPot t x (open57 x) 0 2 = (1 + x) / (1 - 2 * x) := by rw [openPot, if_neg (by decide)]; rfl
  have z3 : openPot t x (open57 x) 0 3 = (1 + x) / (1 - 2 * x) := by rw [openPot, if_neg (by decide)]; rfl
  intro m
  induction m with
  | zero =>
    refine ⟨z2, z3, by rw [r1, z2]; rfl, ?_, ?_⟩
    · rw [r2, z1, z3, tail57]; simp only [div_eq_mul_inv]; linear_combination (-x) * hy
    · rw [r3, z1, z3, tail57]; simp only [div_eq_mul_inv]; linear_combination (-x) * hy
  | succ m ih =>
    obtain ⟨i1, i2, i3, i4, i5⟩ := ih
    refine ⟨i4, i5, by rw [r1, i4], ?_, ?_⟩
    · rw [r2, i3, i5, tail57]
    · rw [r3, i3, i5, tail57]

theorem openBound57 {t : Trellis} (h : Is57 t) {x : ℝ} (hx : x < 1 / 2) (m : Nat) : openBound t x (open57 x) m = x ^ 2 * tail57 x m := by
  unfold openBound
  rw [h.sum_erase, h.next.1, h.weight.1, (openPot57 h hx m).1]

theorem tail57_nonneg {x : ℝ} (h0 : 0 ≤ x) (h1 : x < 1 / 2) : ∀ m, 0 ≤ tail57 x m ∧ 0 ≤ tail57 x (m + 1)
  | 0 => ⟨div_nonneg (by linarith) (by linarith), div_nonneg (by linarith) (by linarith)⟩
  | m + 1 => ⟨(tail57_nonneg h0 h1 m).2, mul_nonneg h0 (add_nonneg (tail57_nonneg h0 h1 m).1 (tail57_nonneg h0 h1 m).2)⟩

theorem pot57 {t : Trellis} (h : Is57 t) {x : ℝ} (h0 : 0 ≤ x) (h1 : x < 1 / 2) :
    (∀ s < 2 ^ t.M, 0 ≤ ret57 x s) ∧ (∀ s < 2 ^ t.M, s ≠ 0 → ∑ u ∈ range (2 ^ t.k), x ^ branchWeight t s u * ret57 x (t.next s u) ≤ ret57 x s) ∧
    (∀ s < 2 ^ t.M, 0 ≤ retBits57 x s) ∧
    (∀ s < 2 ^ t.M, s ≠ 0 → ∑ u ∈ range (2 ^ t.k), x ^ branchWeight t s u * (((toBits t.k u).getD 0 0 : ℕ) * ret57 x (t.next s u) + retBits57 x (t.next s u)) ≤ retBits57 x s) ∧
    (∀ s < 2 ^ t.M, 0 ≤ open57 x s) ∧ (∀ s < 2 ^ t.M, s ≠ 0 → 1 + ∑ u ∈ range (2 ^ t.k), x ^ branchWeight t s u * openPot t x (open57 x) 0 (t.next s u) ≤ open57 x s) := by
  have hd : 0 < 1 - 2 * x := by linarith
  have hd' := hd.ne'
  have hy := mul_inv_cancel₀ hd'
  obtain ⟨n1, n2, n3, n4, n5, n6, n7⟩ := h.next
  obtain ⟨w1, w2, w3, w4, w5, w6, w7⟩ := h.weight
  have b0 : ((toBits 1 0).getD 0 0 : ℕ) = 0 := by decide
  have b1 : ((toBits 1 1).getD 0 0 : ℕ) = 1 := by decide
  have a3 : 0 ≤ x ^ 3 / (1 - 2 * x) := by positivity
  have a4 : 0 ≤ 2 * x ^ 4 / (1 - 2 * x) ^ 2 := by positivity
  have ag : 0 ≤ (1 + x) / (1 - 2 * x) := by positivity
  refine ⟨?_, ?_, ?_, ?_, ?_, ?_⟩
  · intro s _
    unfold ret57
    split
    · norm_num
    · split
      · positivity
      · exact a3
  · intro s hs hs0
    rw [h.sum]
    apply le_of_eq
    rcases lt_four h hs hs0 with rfl | rfl | rfl
    · rw [n2, n3, w2, w3]; simp only [ret57]; norm_num
    · rw [n4, n5, w4, w5]; simp only [ret57]; norm_num; simp only [div_eq_mul_inv]; linear_combination (-x ^ 3) * hy
    · rw [n6, n7, w6, w7]; simp only [ret57]; norm_num; simp only [div_eq_mul_inv]; linear_combination (-x ^ 3) * hy
  · intro s _
    unfold retBits57
    split
    · norm_num
    · split
      · positivity
      · exact a4
  · intro s hs hs0
    rw [h.sum, h.k, b0, b1]
    apply le_of_eq
    rcases lt_four h hs hs0 with rfl | rfl | rfl
    · rw [n2, n3, w2, w3]; simp only [ret57, retBits57]; norm_num
    · rw [n4, n5, w4, w5]; simp only [ret57, retBits57]; norm_num; simp only [div_eq_mul_inv, ← inv_pow]; linear_combination (-2 * x ^ 4 * (1 - 2 * x)⁻¹) * hy
    · rw [n6, n7, w6, w7]; simp only [ret57, retBits57]; norm_num; simp only [div_eq_mul_inv, ← inv_pow]; linear_combination (-2 * x ^ 4 * (1 - 2 * x)⁻¹) * hy
  · intro s _
    unfold open57
    split
    · positivity
    · exact ag
  · intro s hs hs0
    rw [h.sum]
    apply le_of_eq
    rcases lt_four h hs hs0 with rfl | rfl | rfl
    · rw [n2, n3, w2, w3]; simp only [openPot, open57]; norm_num
    · rw [n4, n5, w4, w5]; simp only [openPot, open57]; norm_num; simp only [div_eq_mul_inv]; linear_combination (-(1 + x)) * hy
    · rw [n6, n7, w6, w7]; simp only [openPot, open57]; norm_num; simp only [div_eq_mul_inv]; linear_combination (-(1 + x)) * hy

theorem union57 {t : Trellis} (h : Is57 t) {x : ℝ} (h0 : 0 ≤ x) (h1 : x < 1 / 2) {q : Nat → ℝ} (hq : ∀ d, q d ≤ x ^ d) {T tb : Nat} (htb : 2 ≤ tb) :
    (∀ K m, K + m ≤ T → unionBound t q T tb K ≤ K * (x ^ 5 / (1 - 2 * x) + x ^ 2 * tail57 x (tb - 2)) + x ^ 2 * tail57 x m) ∧
    (∀ i m, i + m + 1 ≤ T → bitBound t q T tb i 0 ≤ x ^ 5 / (1 - 2 * x) ^ 2 + x ^ 2 * tail57 x (tb - 2) + x ^ 2 * tail57 x m) := by
  obtain ⟨p1, p2, p3, p4, p5, p6⟩ := pot57 h h0 h1
  have hd : 0 < 1 - 2 * x := by linarith
  have hd' := hd.ne'
  refine ⟨?_, ?_⟩
  · intro K m hK
    have := unionBound_le h.wf h0 (R := ret57 x) (by simp [ret57]) p1 p2 p5 p6 hq htb hK
    rw [h.sum_erase, openBound57 h h1, openBound57 h h1, h.next.1, h.weight.1] at this
    refine this.trans (le_of_eq ?_)
    simp only [ret57]
    norm_num
    left
    ring
  · intro i m hi
    have := bitBound_le h.wf h0 (R := ret57 x) (by simp [ret57]) p1 p2 p3 p4 p5 p6 hq htb hi
    rw [h.sum_erase, openBound57 h h1, openBound57 h h1, h.next.1, h.weight.1, h.k] at this
    refine this.trans (le_of_eq ?_)
    have b1 : ((toBits 1 1).getD 0 0 : ℕ) = 1 := by decide
    rw [b1]
    simp only [ret57, retBits57]
    norm_num
    field_simp
    ring

theorem tail57_3 (x : ℝ) : tail57 x 3 = 4 * x ^ 2 * (1 + x) / (1 - 2 * x) := by
  simp only [tail57]; ring

theorem tail57_8 (x : ℝ) : tail57 x 8 = x ^ 4 * (1 + 19 * x + 41 * x ^ 2 + 24 * x ^ 3 + 4 * x ^ 4) / (1 - 2 * x) := by
  simp only [tail57]; ring

/-- `channels.awgn` on the antipodal signal of the bits `c`: real noise of variance `1 / (rate * snr)`. -/
theorem awgn_bits {c : List Nat} (hc : ∀ x ∈ c, x < 2) (hne : c ≠ []) (snrDb : ℝ) {rate : ℝ} (hr : 0 < rate) (z : ℕ → ℝ) :
    awgn (.real (c.map fun (b : Nat) => 2 * (b : ℝ) - 1)) snrDb rate z =
      .ok ((noisyBits c (Real.sqrt (1 / (rate * (10 : ℝ) ^ (snrDb / 10)))) z).map fun (y : ℝ) => (y : ℂ)) := by
  have hs : (0 : ℝ) < (10 : ℝ) ^ (snrDb / 10) := Real.rpow_pos_of_pos (by norm_num) _
  have e1 : Signal.toC (.real (c.map fun (b : Nat) => 2 * (b : ℝ) - 1)) = c.map fun (b : Nat) => ((2 * (b : ℝ) - 1 : ℝ) : ℂ) := by
    simp only [Signal.toC, List.map_map]; rfl
  have e2 : ((c.map fun (b : Nat) => ((2 * (b : ℝ) - 1 : ℝ) : ℂ)).map fun x => ‖x‖ * ‖x‖).sum = (c.length : ℝ) := by
    rw [List.map_map]
    have : c.map ((fun (x : ℂ) => ‖x‖ * ‖x‖) ∘ fun (b : Nat) => ((2 * (b : ℝ) - 1 : ℝ) : ℂ)) = c.map fun _ => (1 : ℝ) := by
      apply List.map_congr_left
      intro b hb
      have := hc b hb
      simp only [Function.comp_apply, Complex.norm_real, Real.norm_eq_abs, abs_mul_abs_self]
      have : b = 0 ∨ b = 1 := by omega
      rcases this with rfl | rfl <;> norm_num
    rw [this]; simp
  have hl : (c.length : ℝ) ≠ 0 := by
    have := List.length_pos_of_ne_nil hne
    exact Nat.cast_ne_zero.2 (by omega)
  unfold awgn
  rw [e1, if_neg (by simpa using hne)]
  dsimp only
  rw [e2, List.length_map, div_self hl]
  congr 1
  apply List.ext_getElem
  · simp [noisyBits]
  · intro i h1 h2
    have hi : i < c.length := by simpa [noisyBits] using h2
    simp only [List.getElem_zipWith, List.getElem_map, List.getElem_range, noisyBits, awgnNoise, Signal.isComplex, Bool.false_eq_true, if_false]
    rw [List.getD_eq_getElem _ _ hi]
    push_cast
    congr 4
    field_simp

theorem is57 (junk : Nat → Nat → Nat) : Is57 (trellisOf junk [2] [[5, 7]] 2 none false "MSB") := by
  refine ⟨rfl, rfl, rfl, (ff_balanced args57 (by simp)).wf, ?_, ?_⟩
  · rw [trellisOf_junk _ (fun _ _ => 0)]; decide +kernel
  · rw [trellisOf_junk _ (fun _ _ => 0)]; decide +kernel

theorem tail57_succ_le {x : ℝ} (h0 : 0 ≤ x) (h1 : x < 1 / 2) : ∀ m, tail57 x (m + 2) ≤ tail57 x (m + 1) ∧ tail57 x (m + 3) ≤ tail57 x (m + 2)
  | 0 => by
    have hd : 0 < 1 - 2 * x := by linarith
    simp only [tail57]
    constructor
    · rw [← add_div, mul_div_assoc', div_le_div_iff_of_pos_right hd]; nlinarith
    · rw [← add_div, mul_div_assoc', ← add_div, mul_div_assoc', div_le_div_iff_of_pos_right hd]; nlinarith [mul_nonneg h0 h0]
  | m + 1 => by
    obtain ⟨i1, i2⟩ := tail57_succ_le h0 h1 m
    have n1 := (tail57_nonneg h0 h1 (m + 1)).1
    have n2 := (tail57_nonneg h0 h1 (m + 1)).2
    refine ⟨i2, ?_⟩
    have e1 : tail57 x (m + 1 + 3) = x * (tail57 x (m + 2) + tail57 x (m + 3)) := rfl
    have e2 : tail57 x (m + 1 + 2) = x * (tail57 x (m + 1) + tail57 x (m + 2)) := rfl
    rw [e1, e2]
    exact mul_le_mul_of_nonneg_left (add_le_add i1 i2) h0

theorem tail57_anti {x : ℝ} (h0 : 0 ≤ x) (h1 : x < 1 / 2) {m m' : Nat} (hm : 1 ≤ m) (h : m ≤ m') : tail57 x m' ≤ tail57 x m := by
  induction m', h using Nat.le_induction with
  | base => exact le_rfl
  | succ k hk ih =>
    refine le_trans ?_ ih
    obtain ⟨j, rfl⟩ : ∃ j, k = j + 1 := ⟨k - 1, by omega⟩
    exact (tail57_succ_le h0 h1 j).1

/-- The bound on the frame error probability of `K` message bits of the (5,7) code: `x = exp(-SNR/2)` or `x = 2 √(p (1-p))`. -/
noncomputable def frame57 (K : Nat) (x : ℝ) : ℝ :=
  (K * (x ^ 5 + x ^ 6 * (1 + 19 * x + 41 * x ^ 2 + 24 * x ^ 3 + 4 * x ^ 4)) + 4 * x ^ 4 * (1 + x)) / (1 - 2 * x)

/-- The bound on the error probability of one message bit of the (5,7) code that is at least six bits before the end. -/
noncomputable def bit57 (x : ℝ) : ℝ :=
  x ^ 5 / (1 - 2 * x) ^ 2 + 2 * x ^ 6 * (1 + 19 * x + 41 * x ^ 2 + 24 * x ^ 3 + 4 * x ^ 4) / (1 - 2 * x)

theorem bounds57 {t : Trellis} (h : Is57 t) {x : ℝ} (h0 : 0 ≤ x) (h1 : x < 1 / 2) {q : Nat → ℝ} (hq : ∀ d, q d ≤ x ^ d) {L : Nat} :
    unionBound t q (L + 2 + t.M / t.k - 1) 10 L ≤ frame57 L x ∧ ∀ j, j + 6 ≤ L → bitBound t q (L + 2 + t.M / t.k - 1) 10 j 0 ≤ bit57 x := by
  obtain ⟨u1, u2⟩ := union57 h h0 h1 hq (T := L + 2 + t.M / t.k - 1) (tb := 10) (by omega)
  have hT : L + 2 + t.M / t.k - 1 = L + 3 := by rw [h.M, h.k]; omega
  rw [hT] at u1 u2 ⊢
  refine ⟨?_, ?_⟩
  · refine (u1 L 3 (le_refl _)).trans (le_of_eq ?_)
    rw [tail57_3, tail57_8, frame57]; ring
  · intro j hj
    refine (u2 j 8 (by omega)).trans (le_of_eq ?_)
    rw [tail57_8, bit57]; ring

/-- C126, the (5,7) code of the documentation over `channels.awgn` with unquantized decisions and the default traceback depth.  With `x = exp(-rate * SNR / 2) < 1/2`, any
message of at least 8 bits is returned except with probability `frame57`, and each of its bits but the last five except with probability `bit57`
(about `x⁵`: the free distance of the code is 5). -/
theorem C126_57_awgn (junk : Nat → Nat → Nat) :
    ∃ t, mkTrellis junk [2] [[5, 7]] 2 none false "MSB" = .ok t ∧
      ∀ (outLen : Nat → Nat) (msg : List Nat), (∀ b ∈ msg, b < 2) → 8 ≤ msg.length → outLen (msg.length + 2) = (msg.length + 2) * 2 →
        ∃ c, convEncode outLen t msg "term" none = .ok c ∧
          ∀ {Ω : Type*} [MeasurableSpace Ω] {P : Measure Ω} {z : Ω → ℕ → ℝ}, NormalDraws P z → iIndepFun (fun i ω => z ω i) P →
            ∀ (snrDb rate : ℝ) (jk : VitJunk ℝ), 0 < rate → Real.exp (-(rate * (10 : ℝ) ^ (snrDb / 10)) / 2) < 1 / 2 →
              P.real {ω | ¬ ∃ y dec coded', awgn (.real (c.map fun (b : Nat) => 2 * (b : ℝ) - 1)) snrDb rate (z ω) = .ok y ∧
                viterbiDecode "unquantized" t jk (msg.length + 2) (defaultDepth t (msg.length + 2)) (y.map Complex.re) = .ok (dec, coded') ∧
                dec.length = msg.length + 2 ∧ dec.take msg.length = msg} ≤ frame57 msg.length (Real.exp (-(rate * (10 : ℝ) ^ (snrDb / 10)) / 2)) ∧
              ∀ j, j + 6 ≤ msg.length →
                P.real {ω | ¬ ∃ y dec coded', awgn (.real (c.map fun (b : Nat) => 2 * (b : ℝ) - 1)) snrDb rate (z ω) = .ok y ∧
                  viterbiDecode "unquantized" t jk (msg.length + 2) (defaultDepth t (msg.length + 2)) (y.map Complex.re) = .ok (dec, coded') ∧
                  dec.length = msg.length + 2 ∧ dec.getD j 0 = msg.getD j 0} ≤ bit57 (Real.exp (-(rate * (10 : ℝ) ^ (snrDb / 10)) / 2)) := by
  obtain ⟨t, ht, hz⟩ := C34_zero_tail args57 junk
  refine ⟨t, ht, ?_⟩
  intro outLen msg hb hlen ho
  have hteq : t = trellisOf junk [2] [[5, 7]] 2 none false "MSB" := by
    have := mkTrellis_ok (junk := junk) (rsc := false) args57
    rw [ht] at this
    exact Except.ok.inj this
  have hk : t.k = 1 := by rw [hteq]; rfl
  have hMt : t.M = 2 := by rw [hteq]; rfl
  have hnt : t.n = 2 := by rw [hteq]; rfl
  have hrsc : t.rsc = false := by rw [hteq]; rfl
  have hbal : t.Balanced := by rw [hteq]; exact ff_balanced args57 (by simp)
  have hlin : t.Linear := by rw [hteq]; exact trellisOf_linear args57 (fits_one _ _ _ _) (fun F _ => fitsFb_one _ _ _)
  have h57 : Is57 t := by rw [hteq]; exact is57 junk
  have hne : ∀ u < 2 ^ t.k, u ≠ 0 → t.out 0 u ≠ 0 := by rw [hteq, trellisOf_junk _ (fun _ _ => 0)]; decide +kernel
  obtain ⟨c, hc⟩ := hz msg outLen hb ho
  refine ⟨c, by rw [convEncode_none hbal.wf.k_pos (by rw [hnt]; decide), hc]; rfl, ?_⟩
  intro Ω _ P z hz hind snrDb rate jk hr hx
  have hN : codedInputLen t msg.length "term" = (msg.length + 2) * t.k := by simp [codedInputLen, hrsc, hk, hMt, Nat.mod_one]
  have hout : outLen ((msg.length + 2) * t.k) = (msg.length + 2) * t.n := by rw [hk, hnt, Nat.mul_one]; exact ho
  obtain ⟨w, hw, -, hcw, -, -⟩ := encoded_path hbal hb (q := msg.length) (by rw [hk, Nat.one_mul]) hN hout hc
  have hcb : ∀ x ∈ c, x < 2 := by rw [hcw]; exact t.runOut_lt_two 0 w
  have hcn : c ≠ [] := by
    intro h0
    have : c.length = (msg.length + 2) * t.n := by rw [hcw, Trellis.runOut_length, hw.1]
    rw [h0, hnt] at this
    simp at this
  have htb : defaultDepth t (msg.length + 2) = 10 := by rw [defaultDepth, hMt]; omega
  set s := rate * (10 : ℝ) ^ (snrDb / 10) with hs
  have hspos : 0 < s := mul_pos hr (Real.rpow_pos_of_pos (by norm_num) _)
  have hσ : 0 < Real.sqrt (1 / s) := Real.sqrt_pos.2 (by positivity)
  have hq : ∀ d : ℕ, qFunction (Real.sqrt d / Real.sqrt (1 / s)) ≤ Real.exp (-s / 2) ^ d := by
    intro d
    refine (q_le (by positivity)).trans (le_of_eq ?_)
    rw [← Real.exp_nat_mul, div_pow, Real.sq_sqrt (Nat.cast_nonneg d), Real.sq_sqrt (by positivity)]
    congr 1
    field_simp
  obtain ⟨B1, B2⟩ := bounds57 h57 (Real.exp_pos _).le hx hq (L := msg.length)
  obtain ⟨A1, A2⟩ := C126_unquantized hbal hlin hne hb (by rw [hk]; exact one_dvd _) hN hout hc (tb := 10) (by decide)
    (by rw [hk, hMt]; omega) (Or.inl hk) hz hind hσ jk
  have hset : ∀ φ : List Nat → Prop, {ω | ¬ ∃ y dec coded', awgn (.real (c.map fun (b : Nat) => 2 * (b : ℝ) - 1)) snrDb rate (z ω) = .ok y ∧
      viterbiDecode "unquantized" t jk (msg.length + 2) (defaultDepth t (msg.length + 2)) (y.map Complex.re) = .ok (dec, coded') ∧ dec.length = msg.length + 2 ∧ φ dec} =
      {ω | ¬ ∃ dec coded', viterbiDecode "unquantized" t jk ((msg.length + 2) * t.k) 10 (noisyBits c (Real.sqrt (1 / s)) (z ω)) = .ok (dec, coded') ∧
        dec.length = (msg.length + 2) * t.k ∧ φ dec} := by
    intro φ
    ext ω
    simp only [Set.mem_setOf_eq]
    rw [awgn_bits hcb hcn snrDb hr, htb, hk, Nat.mul_one, ← hs]
    have e : ((noisyBits c (Real.sqrt (1 / s)) (z ω)).map fun (y : ℝ) => (y : ℂ)).map Complex.re = noisyBits c (Real.sqrt (1 / s)) (z ω) := by
      rw [List.map_map]; exact List.map_id _
    rw [not_iff_not]
    constructor
    · rintro ⟨y, dec, cc, hy, h⟩
      obtain rfl := Except.ok.inj hy
      rw [e] at h
      exact ⟨dec, cc, h⟩
    · rintro ⟨dec, cc, h⟩
      exact ⟨_, dec, cc, rfl, by rw [e]; exact h⟩
  refine ⟨?_, ?_⟩
  · rw [hset (fun dec => dec.take msg.length = msg)]
    have := A1 msg.length (by rw [hk, Nat.mul_one])
    simp only [hk, Nat.mul_one, List.take_length] at this ⊢
    have B1' := B1
    rw [hk] at B1'
    exact this.trans B1'
  · intro j hj
    rw [hset (fun dec => dec.getD j 0 = msg.getD j 0)]
    have := A2 j (by omega)
    simp only [hk, Nat.div_one, Nat.mod_one, Nat.mul_one] at this ⊢
    have B2' := B2 j hj
    simp only [hk, Nat.div_one] at B2'
    exact this.trans B2'

/-- C126, the (5,7) code over `channels.bsc` with hard decisions and the default traceback depth: the same with `x = 2 √(p (1-p)) < 1/2`. -/
theorem C126_57_bsc (junk : Nat → Nat → Nat) :
    ∃ t, mkTrellis junk [2] [[5, 7]] 2 none false "MSB" = .ok t ∧
      ∀ (outLen : Nat → Nat) (msg : List Nat), (∀ b ∈ msg, b < 2) → 8 ≤ msg.length → outLen (msg.length + 2) = (msg.length + 2) * 2 →
        ∃ c, convEncode outLen t msg "term" none = .ok c ∧
          ∀ {Ω : Type*} [MeasurableSpace Ω] {P : Measure Ω} {u : Ω → ℕ → ℝ}, UniformDraws P u → iIndepFun (fun i ω => u ω i) P →
            ∀ (p : ℝ) (jk : VitJunk Nat), 0 < p → p ≤ 1 / 2 → 2 * Real.sqrt (p * (1 - p)) < 1 / 2 →
              P.real {ω | ¬ ∃ dec coded', viterbiHard t jk (msg.length + 2) (defaultDepth t (msg.length + 2)) (bscBits c p (u ω)) = .ok (dec, coded') ∧
                dec.length = msg.length + 2 ∧ dec.take msg.length = msg} ≤ frame57 msg.length (2 * Real.sqrt (p * (1 - p))) ∧
              ∀ j, j + 6 ≤ msg.length →
                P.real {ω | ¬ ∃ dec coded', viterbiHard t jk (msg.length + 2) (defaultDepth t (msg.length + 2)) (bscBits c p (u ω)) = .ok (dec, coded') ∧
                  dec.length = msg.length + 2 ∧ dec.getD j 0 = msg.getD j 0} ≤ bit57 (2 * Real.sqrt (p * (1 - p))) := by
  obtain ⟨t, ht, hz⟩ := C34_zero_tail args57 junk
  refine ⟨t, ht, ?_⟩
  intro outLen msg hb hlen ho
  have hteq : t = trellisOf junk [2] [[5, 7]] 2 none false "MSB" := by
    have := mkTrellis_ok (junk := junk) (rsc := false) args57
    rw [ht] at this
    exact Except.ok.inj this
  have hk : t.k = 1 := by rw [hteq]; rfl
  have hMt : t.M = 2 := by rw [hteq]; rfl
  have hnt : t.n = 2 := by rw [hteq]; rfl
  have hrsc : t.rsc = false := by rw [hteq]; rfl
  have hbal : t.Balanced := by rw [hteq]; exact ff_balanced args57 (by simp)
  have hlin : t.Linear := by rw [hteq]; exact trellisOf_linear args57 (fits_one _ _ _ _) (fun F _ => fitsFb_one _ _ _)
  have h57 : Is57 t := by rw [hteq]; exact is57 junk
  have hne : ∀ u < 2 ^ t.k, u ≠ 0 → t.out 0 u ≠ 0 := by rw [hteq, trellisOf_junk _ (fun _ _ => 0)]; decide +kernel
  obtain ⟨c, hc⟩ := hz msg outLen hb ho
  refine ⟨c, by rw [convEncode_none hbal.wf.k_pos (by rw [hnt]; decide), hc]; rfl, ?_⟩
  intro Ω _ P u hu hind p jk h0 h1 hx
  have hN : codedInputLen t msg.length "term" = (msg.length + 2) * t.k := by simp [codedInputLen, hrsc, hk, hMt, Nat.mod_one]
  have hout : outLen ((msg.length + 2) * t.k) = (msg.length + 2) * t.n := by rw [hk, hnt, Nat.mul_one]; exact ho
  have htb : defaultDepth t (msg.length + 2) = 10 := by rw [defaultDepth, hMt]; omega
  obtain ⟨B1, B2⟩ := bounds57 h57 (x := 2 * Real.sqrt (p * (1 - p))) (by positivity) hx (fun d => le_refl _) (L := msg.length)
  obtain ⟨A1, A2⟩ := C126_hard hbal hlin hne hb (by rw [hk]; exact one_dvd _) hN hout hc (tb := 10) (by decide)
    (by rw [hk, hMt]; omega) (Or.inl hk) hu hind h0 h1 jk
  rw [htb]
  refine ⟨?_, ?_⟩
  · have := A1 msg.length (by rw [hk, Nat.mul_one])
    rw [hk, Nat.mul_one, Nat.mul_one, List.take_length] at this
    rw [hk] at B1
    exact this.trans B1
  · intro j hj
    have := A2 j (by omega)
    simp only [hk, Nat.div_one, Nat.mod_one, Nat.mul_one] at this
    have B2' := B2 j hj
    simp only [hk, Nat.div_one] at B2'
    exact this.trans B2'

/-- The hypotheses are met: at `SNR = 10` dB and rate 1 the second bit of the message `1,0,1,1,0,0,1,0` is wrong with probability at most
`10⁻⁹`.  (Uncoded, a bit would be wrong with probability `Q(√10)`, about `8 · 10⁻⁴`.) -/
example : ∃ (Ω : Type) (_ : MeasurableSpace Ω) (P : Measure Ω) (z : Ω → ℕ → ℝ), NormalDraws P z ∧ iIndepFun (fun i ω => z ω i) P ∧
    ∃ t c, mkTrellis (fun _ _ => 0) [2] [[5, 7]] 2 none false "MSB" = .ok t ∧ convEncode (· * 2) t [1, 0, 1, 1, 0, 0, 1, 0] "term" none = .ok c ∧
      P.real {ω | ¬ ∃ y dec coded', awgn (.real (c.map fun (b : Nat) => 2 * (b : ℝ) - 1)) 10 1 (z ω) = .ok y ∧
        viterbiDecode "unquantized" t ⟨fun _ _ => 0, fun _ => 0, fun _ _ => 0, fun _ _ => (0, 0)⟩ 10 (defaultDepth t 10) (y.map Complex.re) = .ok (dec, coded') ∧
        dec.length = 10 ∧ dec.getD 1 0 = 0} ≤ 1 / 10 ^ 9 := by
  have hz : NormalDraws (Measure.infinitePi fun _ : ℕ => gaussianReal 0 1) (fun ω i => ω i) := by
    intro i
    have := measurePreserving_eval_infinitePi (fun _ : ℕ => gaussianReal 0 1) i
    exact ⟨this.measurable.aemeasurable, this.map_eq⟩
  have hi : iIndepFun (fun i (ω : ℕ → ℝ) => ω i) (Measure.infinitePi fun _ : ℕ => gaussianReal 0 1) :=
    iIndepFun_infinitePi (X := fun _ x => x) (fun _ => measurable_id)
  obtain ⟨t, ht, H⟩ := C126_57_awgn (fun _ _ => 0)
  obtain ⟨c, hc, H2⟩ := H (· * 2) [1, 0, 1, 1, 0, 0, 1, 0] (by decide) (by decide) rfl
  refine ⟨ℕ → ℝ, inferInstance, _, fun ω i => ω i, hz, hi, t, c, ht, hc, ?_⟩
  have e10 : (1 : ℝ) * (10 : ℝ) ^ ((10 : ℝ) / 10) = 10 := by norm_num
  have hx : Real.exp (-(1 * (10 : ℝ) ^ ((10 : ℝ) / 10)) / 2) ≤ 1 / 100 := by
    rw [e10]
    have h1 : (271 / 100 : ℝ) ≤ Real.exp 1 := by have := Real.exp_one_gt_d9; linarith
    have h2 : Real.exp (-(10 : ℝ) / 2) = (Real.exp 1 ^ 5)⁻¹ := by rw [← Real.exp_nat_mul, ← Real.exp_neg]; norm_num
    rw [h2, one_div]
    apply inv_anti₀ (by norm_num)
    refine le_trans ?_ (pow_le_pow_left₀ (by norm_num) h1 5)
    norm_num
  obtain ⟨-, H3⟩ := H2 hz hi 10 1 ⟨fun _ _ => 0, fun _ => 0, fun _ _ => 0, fun _ _ => (0, 0)⟩ one_pos (lt_of_le_of_lt hx (by norm_num))
  refine (H3 1 (by decide)).trans ?_
  set x := Real.exp (-(1 * (10 : ℝ) ^ ((10 : ℝ) / 10)) / 2)
  have hx0 : 0 ≤ x := (Real.exp_pos _).le
  have hd : (98 / 100 : ℝ) ≤ 1 - 2 * x := by linarith
  unfold bit57
  have p5 : x ^ 5 ≤ (1 / 100) ^ 5 := pow_le_pow_left₀ hx0 hx 5
  have p6 : x ^ 6 ≤ (1 / 100) ^ 6 := pow_le_pow_left₀ hx0 hx 6
  have b1 : x ^ 5 / (1 - 2 * x) ^ 2 ≤ (1 / 100) ^ 5 / (98 / 100) ^ 2 := div_le_div₀ (by norm_num) p5 (by norm_num) (pow_le_pow_left₀ (by norm_num) hd 2)
  have b2 : 2 * x ^ 6 * (1 + 19 * x + 41 * x ^ 2 + 24 * x ^ 3 + 4 * x ^ 4) / (1 - 2 * x) ≤ 2 * (1 / 100) ^ 6 * (1 + 19 * (1 / 100) + 41 * (1 / 100) ^ 2 + 24 * (1 / 100) ^ 3 + 4 * (1 / 100) ^ 4) / (98 / 100) := by
    gcongr
  refine (add_le_add b1 b2).trans ?_
  norm_num

/-- The hypotheses are met: at `p = 1/1000` the message `1,0,1,1,0,0,1,0` is returned over the binary symmetric channel except with probability `1/2000`. -/
example : ∃ (Ω : Type) (_ : MeasurableSpace Ω) (P : Measure Ω) (u : Ω → ℕ → ℝ), UniformDraws P u ∧ iIndepFun (fun i ω => u ω i) P ∧
    ∃ t c, mkTrellis (fun _ _ => 0) [2] [[5, 7]] 2 none false "MSB" = .ok t ∧ convEncode (· * 2) t [1, 0, 1, 1, 0, 0, 1, 0] "term" none = .ok c ∧
      P.real {ω | ¬ ∃ dec coded', viterbiHard t ⟨fun _ _ => 0, fun _ => 0, fun _ _ => 0, fun _ _ => (0, 0)⟩ 10 (defaultDepth t 10) (bscBits c (1 / 1000) (u ω)) = .ok (dec, coded') ∧
        dec.length = 10 ∧ dec.take 8 = [1, 0, 1, 1, 0, 0, 1, 0]} ≤ 1 / 2000 := by
  have : IsProbabilityMeasure (volume.restrict (Set.Ico (0 : ℝ) 1)) := ⟨by simp⟩
  have hu : UniformDraws (Measure.infinitePi fun _ : ℕ => volume.restrict (Set.Ico (0 : ℝ) 1)) (fun ω i => ω i) := by
    intro i
    have := measurePreserving_eval_infinitePi (fun _ : ℕ => volume.restrict (Set.Ico (0 : ℝ) 1)) i
    exact ⟨this.measurable.aemeasurable, this.map_eq⟩
  have hi : iIndepFun (fun i (ω : ℕ → ℝ) => ω i) (Measure.infinitePi fun _ : ℕ => volume.restrict (Set.Ico (0 : ℝ) 1)) :=
    iIndepFun_infinitePi (X := fun _ x => x) (fun _ => measurable_id)
  obtain ⟨t, ht, H⟩ := C126_57_bsc (fun _ _ => 0)
  obtain ⟨c, hc, H2⟩ := H (· * 2) [1, 0, 1, 1, 0, 0, 1, 0] (by decide) (by decide) rfl
  refine ⟨ℕ → ℝ, inferInstance, _, fun ω i => ω i, hu, hi, t, c, ht, hc, ?_⟩
  have hx : 2 * Real.sqrt ((1 / 1000 : ℝ) * (1 - 1 / 1000)) ≤ 64 / 1000 := by
    have : Real.sqrt ((1 / 1000 : ℝ) * (1 - 1 / 1000)) ≤ 32 / 1000 := by
      rw [Real.sqrt_le_left (by norm_num)]; norm_num
    linarith
  obtain ⟨H3, -⟩ := H2 hu hi (1 / 1000) ⟨fun _ _ => 0, fun _ => 0, fun _ _ => 0, fun _ _ => (0, 0)⟩ (by norm_num) (by norm_num) (lt_of_le_of_lt hx (by norm_num))
  refine H3.trans ?_
  have hx0 : 0 ≤ 2 * Real.sqrt ((1 / 1000 : ℝ) * (1 - 1 / 1000)) := by positivity
  revert hx hx0
  generalize 2 * Real.sqrt ((1 / 1000 : ℝ) * (1 - 1 / 1000)) = x
  intro hx hx0
  have hd : (872 / 1000 : ℝ) ≤ 1 - 2 * x := by linarith
  unfold frame57
  refine le_trans (b := ((8 : ℝ) * ((64 / 1000) ^ 5 + (64 / 1000) ^ 6 * (1 + 19 * (64 / 1000) + 41 * (64 / 1000) ^ 2 + 24 * (64 / 1000) ^ 3 + 4 * (64 / 1000) ^ 4)) +
    4 * (64 / 1000) ^ 4 * (1 + 64 / 1000)) / (872 / 1000)) ?_ (by norm_num)
  have e8 : (([1, 0, 1, 1, 0, 0, 1, 0] : List ℕ).length : ℝ) = 8 := by norm_num
  rw [e8]
  gcongr

end Verif
