import Verif.Lemmas.ViterbiNear
import Verif.Props.ViterbiBpsk
import Verif.Props.SoftRound
import Verif.Props.AwgnErrors
/-
C140: the error probability of coded links with the Viterbi decoder in floating-point arithmetic.
-/
namespace Verif
open MeasureTheory ProbabilityTheory Finset

section
variable {D : VitFloats} {u δ : ℝ}

theorem softErr_mono (hu : 0 ≤ u) (hδ : 0 ≤ δ) {τ T : Nat} (h : τ ≤ T) (n : Nat) : softErr u δ τ n ≤ softErr u δ T n := by
  unfold softErr
  have h1 : (1 + u) ^ (τ + n) ≤ (1 + u) ^ (T + n) := pow_le_pow_right₀ (by linarith) (by omega)
  have h2 : (1 : ℝ) ≤ (1 + u) ^ (τ + n) := one_le_pow₀ (by linarith)
  have h3 : (τ : ℝ) ≤ T := by exact_mod_cast h
  have h4 : (1 + u) ^ (τ + n) * (501 + δ) ≤ (1 + u) ^ (T + n) * (501 + δ) := mul_le_mul_of_nonneg_right h1 (by linarith)
  have h5 : (0 : ℝ) ≤ (1 + u) ^ (τ + n) * (501 + δ) - 501 := by nlinarith
  refine mul_le_mul h3 (mul_le_mul_of_nonneg_left (by linarith) (Nat.cast_nonneg _)) (mul_nonneg (Nat.cast_nonneg _) h5) (Nat.cast_nonneg _)

/-- The float decoder with soft decisions reads the groups off paths that are almost the cheapest ones of their traceback windows. -/
theorem softF_paths (hu : 0 ≤ u) (hD : D.OK u δ) {t : Trellis} (h : t.Balanced) (hn : 0 < t.n) (jk : VitJunk (Dbl D.fl)) {N tb : Nat}
    {llr : List ℝ} (hl : llr.length = N * t.n) (htb : 2 ≤ tb) (htb2 : tb ≤ N + t.M / t.k) (hB : t.k = 1 ∨ (t.M / t.k - 1) * t.k ≤ tb) :
    ∃ paths : Nat → List Nat,
      (∀ i < N, NearMin t (fun j p u => seqCost softCost (rxBlock t (N * t.k) 0 (llr.map clip500) j) (toBits t.n (t.out p u))) (min (N + t.M / t.k - 1) (i + tb - 1))
        (2 * softErr u δ (N + t.M / t.k - 1) t.n) (paths i)) ∧
      viterbiDecodeF D "soft" t jk (N * t.k) tb llr = .ok ((List.range N).flatMap (fun i => toBits t.k ((paths i).getD i 0)), llr) := by
  classical
  have hk := h.wf.k_pos
  set cl := llr.map clip500 with hcl
  have hl' : cl.length = N * t.n := by rw [hcl, List.length_map, hl]
  have hab : ∀ j, ∀ x ∈ rxBlock t (N * t.k) 0 cl j, |x| ≤ 500 := rxBlock_mem (P := fun x => |x| ≤ 500) (by norm_num) (by
    intro x hx
    obtain ⟨y, -, rfl⟩ := List.mem_map.1 hx
    exact clip500_abs y)
  set T := N + t.M / t.k - 1 with hTd
  have hδ : 0 ≤ δ := (abs_nonneg _).trans (hD.ll0 0 (by norm_num))
  have hex : ∀ j p v, ∃ m, 1 ≤ j → branchMetricF D "soft" (rxBlock t (N * t.k) 0 cl j) (toBits t.n (t.out p v)) = .ok m ∧
      |m.val - seqCost softCost (rxBlock t (N * t.k) 0 cl j) (toBits t.n (t.out p v))| ≤ t.n * ((1 + u) ^ t.n * (501 + δ) - 501) ∧
      |seqCost softCost (rxBlock t (N * t.k) 0 cl j) (toBits t.n (t.out p v))| ≤ t.n * 501 := by
    intro j p v
    by_cases hj : 1 ≤ j
    · have hbl := rxBlock_length (pad := (0 : ℝ)) hk hl' hj
      obtain ⟨m, h1, h2, h3⟩ := softF_close hu hD (hab j) (c := toBits t.n (t.out p v)) (by rw [hbl, toBits_length]) (by omega)
      rw [hbl] at h2 h3
      exact ⟨m, fun _ => ⟨h1, h2, h3⟩⟩
    · exact ⟨⟨0⟩, fun h => absurd h hj⟩
  choose μF hμF using hex
  have hη : (0 : ℝ) ≤ t.n * ((1 + u) ^ t.n * (501 + δ) - 501) := by
    refine mul_nonneg (Nat.cast_nonneg _) ?_
    have : 1 ≤ (1 + u) ^ t.n := one_le_pow₀ (by linarith)
    nlinarith
  have hlc := leftCost_close hu hη (B := t.n * 501) (by positivity) hD.fl h.wf (μF := μF)
    (μ := fun j p v => seqCost softCost (rxBlock t (N * t.k) 0 cl j) (toBits t.n (t.out p v))) (T := T)
    (fun j h1 _ p _ v _ => (hμF j p v h1).2)
  refine ⟨fun i => bestPath t μF (min T (i + tb - 1)), ?_, ?_⟩
  · intro i _
    have hτ : min T (i + tb - 1) ≤ T := min_le_left _ _
    obtain ⟨b1, b2⟩ := bestPath_left (dbl_add_le hD.fl) h μF (min T (i + tb - 1))
    have hE : ∀ us, IsInput t (min T (i + tb - 1)) us → |(leftCost t μF 0 0 0 us).val - pathCost t (fun j p u => seqCost softCost (rxBlock t (N * t.k) 0 cl j) (toBits t.n (t.out p u))) 0 0 us| ≤
        softErr u δ T t.n := by
      intro us hus
      refine (hlc us (hus.1.le.trans hτ) hus.2).1.trans (le_trans (le_of_eq ?_) (softErr_mono hu hδ hτ t.n))
      rw [hus.1]
      unfold softErr
      rw [pow_add]; ring
    refine ⟨b1, fun vs hv => ?_⟩
    have e1 := abs_le.1 (hE _ b1)
    have e2 := abs_le.1 (hE vs hv)
    have e3 : (leftCost t μF 0 0 0 (bestPath t μF (min T (i + tb - 1)))).val ≤ (leftCost t μF 0 0 0 vs).val := b2 vs hv
    linarith [e1.1, e1.2, e2.1, e2.2]
  · have e := viterbi_blocks (inPlace := false) h jk htb htb2 hB hl' (fun j h1 _ p _ v _ => (hμF j p v h1).1)
    unfold viterbiDecodeF
    rw [if_pos rfl, show padValue "soft" = some 0 by simp [padValue], e]
    rfl

theorem ShowsEvents.mono {t : Trellis} {T tb N : Nat} {w : List Nat} {dg : Nat → Nat} {L L' : Nat → ℝ} {c : ℝ} (h : ShowsEvents t T tb N w dg L c) (hL : ∀ p, L p ≤ L' p) :
    ShowsEvents t T tb N w dg L' c := by
  intro i hi hne
  obtain ⟨a, b, v, h1, h2, h3, h4, h5, h6, h7, h8⟩ := h i hi hne
  exact ⟨a, b, v, h1, h2, h3, h4, h5, h6, h7, h8.trans (sum_le_sum fun p _ => hL p)⟩

end

variable {Ω : Type*} [MeasurableSpace Ω] {μ : Measure Ω}

/-- The pairwise bound of one place, with rounding errors: `ε` in the comparison of the paths and `η` in each soft value. -/
noncomputable def softBase (σ lam η : ℝ) : ℝ := Real.exp (η / (lam * σ ^ 2)) * (Real.exp (-1 / (2 * σ ^ 2)) + Real.exp (-500 / (lam * σ ^ 2)))

/-- C140, general.  Soft values of any code sequence, computed with errors of at most `η` after the cut at 500, decoded in floating-point arithmetic with any traceback depth: the union
bounds of C127 with the factors `exp(2 E / (lam σ²))` per event (`E` bounds the rounding errors of the metric of a path) and `exp(η / (lam σ²))` per place. -/
theorem C140_general {D : VitFloats} {u δ : ℝ} (hu : 0 ≤ u) (hD : D.OK u δ) {t : Trellis} (h : t.Balanced) (hn : 0 < t.n) (hl : t.Linear) (hne : ∀ u < 2 ^ t.k, u ≠ 0 → t.out 0 u ≠ 0)
    {N : Nat} {w : List Nat} (hw : IsInput t N w)
    {tb : Nat} (htb : 2 ≤ tb) (htb2 : tb ≤ N + t.M / t.k) (hB : t.k = 1 ∨ (t.M / t.k - 1) * t.k ≤ tb)
    {keep : Nat → Bool} {y : Ω → ℕ → ℝ} (hy : ∀ p < N * t.n, keep p = true → HasLaw (fun ω => y ω p) (gaussianReal 0 1) μ)
    (hind : iIndepFun (fun (p : {p // p < N * t.n ∧ keep p = true}) ω => y ω p) μ) {σ lam : ℝ} (hσ : σ ≠ 0) (hlam : 0 < lam) (jk : VitJunk (Dbl D.fl))
    {η : ℝ} {rx : Ω → List ℝ} (hrl : ∀ ω, (rx ω).length = N * t.n)
    (hrx : ∀ ω, ∀ p < N * t.n, |clip500 ((rx ω).getD p 0) - clip500 ((softValues (t.runOut 0 w) keep lam σ (y ω)).getD p 0)| ≤ if keep p then η else 0) :
    (∀ K, K ≤ N →
      μ.real {ω | ¬ ∃ dec coded', viterbiDecodeF D "soft" t jk (N * t.k) tb (rx ω) = .ok (dec, coded') ∧ dec.length = N * t.k ∧
        dec.take (K * t.k) = (w.take K).flatMap (toBits t.k)} ≤
          puncturedUnionBound t keep (fun d => Real.exp (2 * softErr u δ (N + t.M / t.k - 1) t.n / (lam * σ ^ 2)) * softBase σ lam η ^ d) N tb K) ∧
    (∀ j < N * t.k,
      μ.real {ω | ¬ ∃ dec coded', viterbiDecodeF D "soft" t jk (N * t.k) tb (rx ω) = .ok (dec, coded') ∧ dec.length = N * t.k ∧
        dec.getD j 0 = (w.flatMap (toBits t.k)).getD j 0} ≤
          puncturedBitBound t keep (fun d => Real.exp (2 * softErr u δ (N + t.M / t.k - 1) t.n / (lam * σ ^ 2)) * softBase σ lam η ^ d) N tb (j / t.k) (j % t.k)) := by
  have := hind.isProbabilityMeasure
  have hkp := h.wf.k_pos
  have hq1 := h.one_le
  have hcl : (t.runOut 0 w).length = N * t.n := by rw [Trellis.runOut_length, hw.1]
  have hcb : ∀ x ∈ t.runOut 0 w, x < 2 := t.runOut_lt_two 0 w
  set llr : Ω → List ℝ := fun ω => softValues (t.runOut 0 w) keep lam σ (y ω) with hllr
  have hllen : ∀ ω, (llr ω).length = (t.runOut 0 w).length := fun ω => softValues_length _ _ _ _ _
  set d := t.runOut (t.runState 0 w) (List.replicate (t.M / t.k - 1) 0) with hd
  have hdb : ∀ x ∈ d, x < 2 := t.runOut_lt_two _ _
  have happ : t.runOut 0 (w ++ List.replicate (t.M / t.k - 1) 0) = t.runOut 0 w ++ d := Trellis.runOut_append _ _ _ _
  set ε := 2 * softErr u δ (N + t.M / t.k - 1) t.n with hε
  set L₀ : Ω → ℕ → ℝ := fun ω => metricLoss softCost 0 (paddedRx t 0 ((llr ω).map clip500)) (t.runOut 0 w ++ d) with hL₀
  set L : Ω → ℕ → ℝ := fun ω p => L₀ ω p + if p < N * t.n ∧ keep p = true then η else 0 with hL
  have hres : ∀ ω, ∃ (dg : Nat → Nat) (coded' : List ℝ), viterbiDecodeF D "soft" t jk (N * t.k) tb (rx ω) = .ok ((List.range N).flatMap fun i => toBits t.k (dg i), coded') ∧
      ShowsEvents t N tb N w dg (L ω) (-ε) := by
    intro ω
    obtain ⟨paths, hp, hv⟩ := softF_paths hu hD h hn jk (hrl ω) htb htb2 hB
    have H := near_shows (pad := (0 : ℝ)) h hl (coded := (rx ω).map clip500) (by rw [List.length_map, hrl]) htb hp hw
    rw [happ] at H
    refine ⟨_, rx ω, hv, ShowsEvents.mono (ShowsEvents.cut (T := N + t.M / t.k - 1) H (by omega) ?_) ?_⟩
    · intro p hp
      have := soft_loss (t := t) (l := rx ω) hcb hdb (by rw [hrl, hcl]) p
      rwa [if_neg (by rw [hcl]; omega)] at this
    · intro p
      have e1 := soft_loss (t := t) (l := rx ω) hcb hdb (by rw [hrl, hcl]) p
      have e2 := soft_loss (t := t) (l := llr ω) hcb hdb (hllen ω) p
      rw [hL, hL₀]
      dsimp only
      rw [e1, e2, hcl]
      by_cases hpN : p < N * t.n
      · rw [if_pos hpN, if_pos hpN]
        have e3 := abs_le.1 (hrx ω p hpN)
        have hb : (t.runOut 0 w).getD p 0 < 2 := hcb _ (by rw [List.getD_eq_getElem _ _ (by omega)]; exact List.getElem_mem _)
        have e4 : (if p < N * t.n ∧ keep p = true then η else 0) = if keep p = true then η else 0 := by simp [hpN]
        rw [e4]
        have : (t.runOut 0 w).getD p 0 = 0 ∨ (t.runOut 0 w).getD p 0 = 1 := by omega
        rcases this with h0 | h0 <;> rw [h0] <;> push_cast <;> linarith [e3.1, e3.2]
      · rw [if_neg hpN, if_neg hpN, if_neg (by tauto), add_zero]
  have hpair : PairwiseSetBound μ L (fun D => Real.exp (ε / (lam * σ ^ 2)) * softBase σ lam η ^ (D.filter fun p => keep p = true).card) (N * t.n) (-ε) := by
    intro S hS hSB
    have := pairwise_soft_slack (t := t) (-ε - η * (S.filter fun p => keep p = true).card) (c := t.runOut 0 w) (d := d) (by rw [hcl]; exact hy) (by rw [hcl]; exact hind) hσ hlam hcb hdb
    rw [hcl] at this
    have := this S hS hSB
    refine le_trans (le_of_eq ?_) (this.trans (le_of_eq ?_))
    · congr 1
      ext ω
      simp only [Set.mem_setOf_eq]
      have e : ∑ p ∈ S, L ω p = ∑ p ∈ S, L₀ ω p + η * (S.filter fun p => keep p = true).card := by
        rw [hL]
        dsimp only
        rw [sum_add_distrib]
        congr 1
        rw [← sum_filter, sum_const, nsmul_eq_mul, mul_comm]
        congr 3
        exact filter_congr fun p hp => ⟨fun h => h.2, fun h => ⟨hSB p hp, h⟩⟩
      rw [e]
      constructor <;> intro h' <;> linarith
    · unfold softBase
      dsimp only
      rw [mul_pow, ← Real.exp_nat_mul, ← mul_assoc, ← Real.exp_add]
      congr 2
      ring
  refine ⟨?_, ?_⟩
  · intro K hK
    have := groups_of_sets h hne (le_refl N) hw hres hpair hK
    simp only [eventPlaces_kept] at this
    exact this
  · intro j hj
    have hjm : j / t.k < N := by rwa [Nat.div_lt_iff_lt_mul hkp]
    have hjd : j / t.k * t.k + j % t.k = j := by rw [Nat.mul_comm]; exact Nat.div_add_mod j t.k
    have := bit_of_sets h hne (le_refl N) hw hres hpair (i := j / t.k) (β := j % t.k) hjm (Nat.mod_lt _ hkp)
    simp only [eventPlaces_kept] at this
    rwa [hjd] at this

theorem clip500_lipschitz (x y : ℝ) : |clip500 x - clip500 y| ≤ |x - y| := by
  unfold clip500
  exact (abs_min_sub_min_le_max _ _ _ _).trans (max_le ((abs_max_sub_max_le_max _ _ _ _).trans (max_le le_rfl (by simp))) (by simp))

/-- C140, soft decisions.  A message encoded with termination, sent as `±1` over Gaussian noise; the soft values `lam * (±1 + σ z)` are computed with errors of at most `η` and
decoded in floating-point arithmetic with any traceback depth. -/
theorem C140_soft {D : VitFloats} {u δ : ℝ} (hu : 0 ≤ u) (hD : D.OK u δ) {t : Trellis} (h : t.Balanced) (hn : 0 < t.n) (hl : t.Linear) (hne : ∀ u < 2 ^ t.k, u ≠ 0 → t.out 0 u ≠ 0)
    {outLen : Nat → Nat} {msg c : List Nat} (hb : ∀ b ∈ msg, b < 2) (hk : t.k ∣ msg.length) {N : Nat}
    (hN : codedInputLen t msg.length "term" = N * t.k) (hout : outLen (N * t.k) = N * t.n) (henc : convEncodeRun outLen t msg "term" = .ok (0, c))
    {tb : Nat} (htb : 2 ≤ tb) (htb2 : tb ≤ N + t.M / t.k) (hB : t.k = 1 ∨ (t.M / t.k - 1) * t.k ≤ tb)
    {z : Ω → ℕ → ℝ} (hz : NormalDraws μ z) (hind : iIndepFun (fun i ω => z ω i) μ) {σ lam : ℝ} (hσ : σ ≠ 0) (hlam : 0 < lam) (jk : VitJunk (Dbl D.fl))
    {η : ℝ} {rx : Ω → List ℝ} (hrl : ∀ ω, (rx ω).length = c.length)
    (hrx : ∀ ω, ∀ p < c.length, |(rx ω).getD p 0 - ((noisyBits c σ (z ω)).map (lam * ·)).getD p 0| ≤ η) :
    (∀ K, K * t.k ≤ msg.length →
      μ.real {ω | ¬ ∃ dec coded', viterbiDecodeF D "soft" t jk (N * t.k) tb (rx ω) = .ok (dec, coded') ∧ dec.length = N * t.k ∧
        dec.take (K * t.k) = msg.take (K * t.k)} ≤ Real.exp (2 * softErr u δ (N + t.M / t.k - 1) t.n / (lam * σ ^ 2)) * unionBound t (fun d => softBase σ lam η ^ d) N tb K) ∧
    (∀ j < msg.length,
      μ.real {ω | ¬ ∃ dec coded', viterbiDecodeF D "soft" t jk (N * t.k) tb (rx ω) = .ok (dec, coded') ∧ dec.length = N * t.k ∧
        dec.getD j 0 = msg.getD j 0} ≤ Real.exp (2 * softErr u δ (N + t.M / t.k - 1) t.n / (lam * σ ^ 2)) * bitBound t (fun d => softBase σ lam η ^ d) N tb (j / t.k) (j % t.k)) := by
  have := hind.isProbabilityMeasure
  have hkp := h.wf.k_pos
  have hq1 := h.one_le
  obtain ⟨m, hm⟩ := hk
  obtain ⟨w, hw, hw0, rfl, hwq, hqN⟩ := encoded_path h hb hm hN hout henc
  have hcl : (t.runOut 0 w).length = N * t.n := by rw [Trellis.runOut_length, hw.1]
  have hall : iIndepFun (fun (p : {p : ℕ // p < N * t.n ∧ (fun _ => true) p = true}) ω => z ω p) μ := hind.precomp Subtype.val_injective
  obtain ⟨A1, A2⟩ := C140_general hu hD h hn hl hne hw htb htb2 hB (keep := fun _ => true) (fun p _ _ => hz p) hall hσ hlam jk (η := η) (rx := rx) (fun ω => by rw [hrl, hcl]) (by
    intro ω p hp
    rw [softValues_all]
    exact (clip500_lipschitz _ _).trans (hrx ω p (by rw [hcl]; exact hp)))
  simp only [puncturedUnionBound_all, puncturedBitBound_all] at A1 A2
  have m1 : ∀ (A : ℝ) (q : Nat → ℝ) (T tb K : Nat), unionBound t (fun d => A * q d) T tb K = A * unionBound t q T tb K := by
    intro A q T tb K
    unfold unionBound
    simp only [mul_sum]
  have m2 : ∀ (A : ℝ) (q : Nat → ℝ) (T tb i β : Nat), bitBound t (fun d => A * q d) T tb i β = A * bitBound t q T tb i β := by
    intro A q T tb i β
    unfold bitBound
    simp only [mul_sum]
  simp only [m1, m2] at A1 A2
  refine ⟨?_, ?_⟩
  · intro K hK
    have hKq : K ≤ m := by rw [hm, Nat.mul_comm] at hK; exact Nat.le_of_mul_le_mul_left hK hkp
    rw [← take_message hkp hb hm hw.1 hwq hqN hKq]
    exact A1 K (by omega)
  · intro j hj
    have e : msg.getD j 0 = (w.flatMap (toBits t.k)).getD j 0 := by
      have e1 := take_message hkp hb hm hw.1 hwq hqN (le_refl m)
      rw [List.take_of_length_le (l := msg) (by rw [hm, Nat.mul_comm])] at e1
      conv_rhs => rw [← List.take_append_drop m w, List.flatMap_append, e1]
      rw [List.getD_append _ _ _ _ hj]
    rw [e]
    refine A2 j (lt_of_lt_of_le hj ?_)
    rw [hm, Nat.mul_comm]
    exact Nat.mul_le_mul_right _ hqN

/-- `channels.awgn` on the BPSK signal of the bits `c`: the samples and the exact outputs of the soft demodulator. -/
theorem awgn_bpsk_samples {c : List Nat} (hc : ∀ x ∈ c, x < 2) (hne : c ≠ []) (snrDb : ℝ) {rate : ℝ} (hr : 0 < rate) (z : ℕ → ℝ) {v : ℝ} (hv : 0 < v) :
    ∃ ys, awgn (.cplx (c.map fun (b : Nat) => 1 - 2 * (b : ℂ))) snrDb rate z = .ok ys ∧ ys.length = c.length ∧
      (∀ y ∈ ys, ∃ i < c.length, ∃ e : ℂ, (e = 1 ∨ e = -1) ∧ (y - e).re = Real.sqrt (1 / (2 * rate * (10 : ℝ) ^ (snrDb / 10))) * z i ∧
        (y - e).im = Real.sqrt (1 / (2 * rate * (10 : ℝ) ^ (snrDb / 10))) * z (c.length + i)) ∧
      demodulate ⟨[1, -1], 1, 2, 1⟩ ys "soft" v = .ok (.llrs ((noisyBits c (-Real.sqrt (1 / (2 * rate * (10 : ℝ) ^ (snrDb / 10)))) z).map (4 / v * ·))) := by
  obtain ⟨ys, h1, h2⟩ := awgn_bpsk hc hne snrDb hr z hv
  have e2 : ((c.map fun (b : Nat) => 1 - 2 * (b : ℂ)).map fun x => ‖x‖ * ‖x‖).sum = (c.length : ℝ) := by
    rw [List.map_map]
    have : c.map ((fun (x : ℂ) => ‖x‖ * ‖x‖) ∘ fun (b : Nat) => 1 - 2 * (b : ℂ)) = c.map fun _ => (1 : ℝ) := by
      apply List.map_congr_left
      intro b hb
      have := hc b hb
      have : b = 0 ∨ b = 1 := by omega
      rcases this with rfl | rfl <;> norm_num
    rw [this]; simp
  have hl : (c.length : ℝ) ≠ 0 := by
    have := List.length_pos_of_ne_nil hne
    exact Nat.cast_ne_zero.2 (by omega)
  have h3 := h1
  unfold awgn at h3
  have hnil : (Signal.cplx (c.map fun (b : Nat) => 1 - 2 * (b : ℂ))).toC ≠ [] := by simpa [Signal.toC] using hne
  rw [if_neg hnil] at h3
  simp only [Signal.toC] at h3
  rw [e2, List.length_map, div_self hl] at h3
  have h4 := Except.ok.inj h3
  refine ⟨ys, h1, by rw [← h4]; simp, ?_, h2⟩
  intro y hy
  rw [← h4] at hy
  obtain ⟨i, hi, rfl⟩ := List.mem_iff_getElem.1 hy
  have hi' : i < c.length := by simpa using hi
  refine ⟨i, hi', 1 - 2 * (c[i] : ℂ), ?_, ?_, ?_⟩
  · have := hc c[i] (List.getElem_mem _)
    have : c[i] = 0 ∨ c[i] = 1 := by omega
    rcases this with h | h <;> rw [h] <;> norm_num
  · simp only [List.getElem_zipWith, List.getElem_map, List.getElem_range, awgnNoise, Signal.isComplex, if_true]
    simp
  · simp only [List.getElem_zipWith, List.getElem_map, List.getElem_range, awgnNoise, Signal.isComplex, if_true]
    simp

/-- C140, the whole chain with the BPSK modem (cf. C127): demodulator and decoder in floating-point arithmetic.  The bounds of C127 hold with `x` multiplied by `exp(2⁻³¹ v s / 2)`
(errors of the demodulator), the result multiplied by `exp(E v s)` (errors of the decoder), and with an additional term for samples so far away that the exponentials of the demodulator
underflow; here any `r ≥ 0` with `(r+2)² + r² ≤ 650 v` may be used. -/
theorem C140_57_bpsk (junk : Nat → Nat → Nat) :
    ∃ t modem, mkTrellis junk [2] [[5, 7]] 2 none false "MSB" = .ok t ∧ pskModem 2 = .ok modem ∧
      ∀ (outLen : Nat → Nat) (msg : List Nat), (∀ b ∈ msg, b < 2) → 8 ≤ msg.length → outLen (msg.length + 2) = (msg.length + 2) * 2 →
        ∃ c syms, convEncode outLen t msg "term" none = .ok c ∧ modulate modem c = .ok syms ∧
          ∀ {Ω : Type*} [MeasurableSpace Ω] {P : Measure Ω} {z : Ω → ℕ → ℝ}, NormalDraws P z → iIndepFun (fun i ω => z ω i) P →
            ∀ (D : VitFloats) (u δ : ℝ), 0 ≤ u → D.OK u δ → ∀ (S : SoftFloats), SoftAccuracy S →
            ∀ (snrDb rate v r s x A : ℝ) (jk : VitJunk (Dbl D.fl)), 0 < rate → 2⁻¹ ^ 500 ≤ v → 0 ≤ r → (r + 2) ^ 2 + r ^ 2 ≤ 650 * v →
              s = rate * (10 : ℝ) ^ (snrDb / 10) → x = Real.exp (2⁻¹ ^ 32 * v * s) * (Real.exp (-s) + Real.exp (-(250 * v * s))) →
              A = Real.exp (softErr u δ (msg.length + 3) 2 * v * s) → x < 1 / 2 →
              P.real {ω | ¬ ∃ y dec coded', awgn (.cplx syms) snrDb rate (z ω) = .ok y ∧
                viterbiDecodeF D "soft" t jk (msg.length + 2) (defaultDepth t (msg.length + 2)) (demodSoftR S modem y v) = .ok (dec, coded') ∧
                dec.length = msg.length + 2 ∧ dec.take msg.length = msg} ≤ A * softFrame57 msg.length x + 8 * (msg.length + 2) * Real.exp (-(r ^ 2 * s)) ∧
              ∀ j, j + 7 ≤ msg.length →
                P.real {ω | ¬ ∃ y dec coded', awgn (.cplx syms) snrDb rate (z ω) = .ok y ∧
                  viterbiDecodeF D "soft" t jk (msg.length + 2) (defaultDepth t (msg.length + 2)) (demodSoftR S modem y v) = .ok (dec, coded') ∧
                  dec.length = msg.length + 2 ∧ dec.getD j 0 = msg.getD j 0} ≤ A * bit57 x + 8 * (msg.length + 2) * Real.exp (-(r ^ 2 * s)) := by
  obtain ⟨t, ht, hz⟩ := C34_zero_tail args57 junk
  refine ⟨t, _, ht, bpsk_modem, ?_⟩
  intro outLen msg hb hlen ho
  have hteq : t = trellisOf junk [2] [[5, 7]] 2 none false "MSB" := by
    have := mkTrellis_ok (junk := junk) (rsc := false) args57
    rw [ht] at this
    exact Except.ok.inj this
  have hk : t.k = 1 := by rw [hteq]; rfl
  have hMt : t.M = 2 := by rw [hteq]; rfl
  have hnt : t.n = 2 := by rw [hteq]; rfl
  have hrsc : t.rsc = false := by rw [hteq]; rfl
  have hbal : t.Balanced := by rw [hteq]; exact ff_balanced args57 (by simp)
  have hlin : t.Linear := by rw [hteq]; exact trellisOf_linear args57 (fits_one _ _ _ _) (fun F _ => fitsFb_one _ _ _)
  have h57 : Is57 t := by rw [hteq]; exact is57 junk
  have hne : ∀ u < 2 ^ t.k, u ≠ 0 → t.out 0 u ≠ 0 := by rw [hteq, trellisOf_junk _ (fun _ _ => 0)]; decide +kernel
  obtain ⟨c, hc⟩ := hz msg outLen hb ho
  have hN : codedInputLen t msg.length "term" = (msg.length + 2) * t.k := by simp [codedInputLen, hrsc, hk, hMt, Nat.mod_one]
  have hout : outLen ((msg.length + 2) * t.k) = (msg.length + 2) * t.n := by rw [hk, hnt, Nat.mul_one]; exact ho
  obtain ⟨w, hw, -, hcw, -, -⟩ := encoded_path hbal hb (q := msg.length) (by rw [hk, Nat.one_mul]) hN hout hc
  have hcb : ∀ x ∈ c, x < 2 := by rw [hcw]; exact t.runOut_lt_two 0 w
  have hclen : c.length = (msg.length + 2) * 2 := by rw [hcw, Trellis.runOut_length, hw.1, hnt]
  have hcn : c ≠ [] := by
    intro h0
    rw [h0] at hclen
    simp at hclen
  refine ⟨c, _, by rw [convEncode_none hbal.wf.k_pos (by rw [hnt]; decide), hc]; rfl, bpsk_modulate hcb hcn, ?_⟩
  intro Ω _ P z hz hind D u δ hu hD S hS snrDb rate v r s x A jk hr hv hr0 hrv hs hx hA hx2
  have hprob := hind.isProbabilityMeasure
  have htb : defaultDepth t (msg.length + 2) = 10 := by rw [defaultDepth, hMt]; omega
  have hv0 : 0 < v := lt_of_lt_of_le (by positivity) hv
  have hspos : 0 < s := by rw [hs]; exact mul_pos hr (Real.rpow_pos_of_pos (by norm_num) _)
  have hσ0 : 0 < Real.sqrt (1 / (2 * s)) := Real.sqrt_pos.2 (by positivity)
  have hsq1 : Real.sqrt (1 / (2 * s)) ^ 2 = 1 / (2 * s) := Real.sq_sqrt (by positivity)
  have hσ : -Real.sqrt (1 / (2 * s)) ≠ 0 := neg_ne_zero.2 hσ0.ne'
  have hsq : (-Real.sqrt (1 / (2 * s))) ^ 2 = 1 / (2 * s) := by rw [neg_sq, hsq1]
  have hbase : softBase (-Real.sqrt (1 / (2 * s))) (4 / v) (2⁻¹ ^ 31) = x := by
    unfold softBase
    rw [hsq, hx]
    congr 2
    · field_simp; norm_num
    · congr 1
      field_simp
    · congr 1
      field_simp; norm_num
  -- the samples
  have hys := fun ω => awgn_bpsk_samples hcb hcn snrDb hr (z ω) hv0
  rw [show 2 * rate * (10 : ℝ) ^ (snrDb / 10) = 2 * s by rw [hs]; ring] at hys
  choose ys y1 y2 y3 y4 using hys
  set bad : Set Ω := {ω | ∃ i < c.length, r ≤ |Real.sqrt (1 / (2 * s)) * z ω i| ∨ r ≤ |Real.sqrt (1 / (2 * s)) * z ω (c.length + i)|} with hbad
  have hbadP : P.real bad ≤ 8 * (msg.length + 2) * Real.exp (-(r ^ 2 * s)) := by
    have := noise_tail hz c.length hσ0 hr0
    rw [hsq1, show r ^ 2 / (2 * (1 / (2 * s))) = r ^ 2 * s by field_simp] at this
    refine (ENNReal.toReal_le_of_le_ofReal (by positivity) this).trans (le_of_eq ?_)
    rw [hclen]
    push_cast; ring
  have hmodem : Modem.Consistent ⟨[1, -1], 1, 2, 1⟩ := ⟨rfl, rfl, by norm_num⟩
  have hgood : ∀ ω, ω ∉ bad → (demodSoftR S ⟨[1, -1], 1, 2, 1⟩ (ys ω) v).length = c.length ∧
      ∀ p < c.length, |(demodSoftR S ⟨[1, -1], 1, 2, 1⟩ (ys ω) v).getD p 0 - ((noisyBits c (-Real.sqrt (1 / (2 * s))) (z ω)).map (4 / v * ·)).getD p 0| ≤ 2⁻¹ ^ 31 := by
    intro ω hω
    have hreach : ∀ y ∈ ys ω, ∀ j < 1, ∀ b < 2, ∃ l < 2, (toBits 1 l).getD j 0 = b ∧ ‖y - ([1, -1] : List ℂ).getD l 0‖ ^ 2 ≤ 650 * v := by
      intro y hy j hj b hb2
      obtain ⟨i, hi, e, he, hre, him⟩ := y3 ω y hy
      have n1 : |(y - e).re| ≤ r := by
        rw [hre]
        by_contra hcon
        exact hω ⟨i, hi, Or.inl (le_of_lt (not_le.1 hcon))⟩
      have n2 : |(y - e).im| ≤ r := by
        rw [him]
        by_contra hcon
        exact hω ⟨i, hi, Or.inr (le_of_lt (not_le.1 hcon))⟩
      have key : ∀ e' : ℂ, (e' = 1 ∨ e' = -1) → ‖y - e'‖ ^ 2 ≤ 650 * v := by
        intro e' he'
        refine le_trans ?_ hrv
        have d1 : |(e - e').re| ≤ 2 := by rcases he with rfl | rfl <;> rcases he' with rfl | rfl <;> norm_num
        have d2 : (e - e').im = 0 := by rcases he with rfl | rfl <;> rcases he' with rfl | rfl <;> norm_num
        have e1 : (y - e').re = (y - e).re + (e - e').re := by simp
        have e2 : (y - e').im = (y - e).im := by
          have : (y - e').im = (y - e).im + (e - e').im := by simp
          rw [this, d2, add_zero]
        rw [← Complex.normSq_eq_norm_sq, Complex.normSq_apply, ← sq, ← sq, e2]
        refine add_le_add ?_ ?_
        · rw [← sq_abs]
          refine pow_le_pow_left₀ (abs_nonneg _) ?_ 2
          rw [e1]
          exact (abs_add_le _ _).trans (add_le_add n1 d1)
        · rw [← sq_abs]
          exact pow_le_pow_left₀ (abs_nonneg _) n2 2
      have hj0 : j = 0 := by omega
      subst hj0
      have : b = 0 ∨ b = 1 := by omega
      rcases this with rfl | rfl
      · exact ⟨0, by norm_num, by decide, key _ (by simp)⟩
      · exact ⟨1, by norm_num, by decide, key _ (by simp)⟩
    obtain ⟨L, l1, l2, l3, l4⟩ := C135_llr hS hmodem (by norm_num) hv (ys ω) hreach
    rw [y4 ω] at l1
    injection l1 with l1
    injection l1 with l1
    subst l1
    have hLl : ((noisyBits c (-Real.sqrt (1 / (2 * s))) (z ω)).map (4 / v * ·)).length = c.length := by simp [noisyBits]
    rw [hLl] at l3 l4
    exact ⟨l3, l4⟩
  classical
  set rx : Ω → List ℝ := fun ω => if ω ∈ bad then (noisyBits c (-Real.sqrt (1 / (2 * s))) (z ω)).map (4 / v * ·) else demodSoftR S ⟨[1, -1], 1, 2, 1⟩ (ys ω) v with hrx
  obtain ⟨B1, B2⟩ := softBounds57 h57 (x := x) (by rw [hx]; positivity) hx2 (fun d => le_refl _) (L := msg.length)
  obtain ⟨A1, A2⟩ := C140_soft hu hD hbal (by rw [hnt]; decide) hlin hne hb (by rw [hk]; exact one_dvd _) hN hout hc (tb := 10) (by decide)
    (by rw [hk, hMt]; omega) (Or.inl hk) hz hind hσ (lam := 4 / v) (by positivity) jk (η := 2⁻¹ ^ 31) (rx := rx) (by
      intro ω
      rw [hrx]
      dsimp only
      split
      · simp [noisyBits]
      · rename_i hω
        exact (hgood ω hω).1) (by
      intro ω p hp
      rw [hrx]
      dsimp only
      split
      · rw [sub_self, abs_zero]; positivity
      · rename_i hω
        exact (hgood ω hω).2 p hp)
  have hAe : Real.exp (2 * softErr u δ (msg.length + 2 + t.M / t.k - 1) t.n / (4 / v * (-Real.sqrt (1 / (2 * s))) ^ 2)) = A := by
    rw [hA, hsq, hk, hMt, hnt, show msg.length + 2 + 2 / 1 - 1 = msg.length + 3 by omega]
    congr 1
    field_simp
    ring
  rw [hbase, hAe] at A1 A2
  have hA0 : 0 ≤ A := by rw [hA]; positivity
  have hset : ∀ φ : List Nat → Prop, P.real {ω | ¬ ∃ y dec coded', awgn (.cplx (c.map fun (b : Nat) => 1 - 2 * (b : ℂ))) snrDb rate (z ω) = .ok y ∧
      viterbiDecodeF D "soft" t jk (msg.length + 2) (defaultDepth t (msg.length + 2)) (demodSoftR S ⟨[1, -1], 1, 2, 1⟩ y v) = .ok (dec, coded') ∧ dec.length = msg.length + 2 ∧ φ dec} ≤
      P.real {ω | ¬ ∃ dec coded', viterbiDecodeF D "soft" t jk ((msg.length + 2) * t.k) 10 (rx ω) = .ok (dec, coded') ∧
        dec.length = (msg.length + 2) * t.k ∧ φ dec} + 8 * (msg.length + 2) * Real.exp (-(r ^ 2 * s)) := by
    intro φ
    refine le_trans (le_trans (measureReal_mono ?_ (measure_ne_top _ _)) (measureReal_union_le _ bad)) (add_le_add_right hbadP _)
    intro ω hω
    by_cases hb' : ω ∈ bad
    · exact Or.inr hb'
    · left
      rintro ⟨dec, cc, h1, h2, h3⟩
      apply hω
      rw [hrx] at h1
      dsimp only at h1
      rw [if_neg hb', hk, Nat.mul_one] at h1
      rw [hk, Nat.mul_one] at h2
      exact ⟨ys ω, dec, cc, y1 ω, by rw [htb]; exact h1, h2, h3⟩
  refine ⟨?_, ?_⟩
  · refine (hset (fun dec => dec.take msg.length = msg)).trans ?_
    have := A1 msg.length (by rw [hk, Nat.mul_one])
    simp only [hk, Nat.mul_one, List.take_length] at this ⊢
    have := this.trans (mul_le_mul_of_nonneg_left B1 hA0)
    linarith
  · intro j hj
    refine (hset (fun dec => dec.getD j 0 = msg.getD j 0)).trans ?_
    have := A2 j (by omega)
    simp only [hk, Nat.div_one, Nat.mod_one, Nat.mul_one] at this ⊢
    have := this.trans (mul_le_mul_of_nonneg_left (B2 j hj) hA0)
    linarith

/-! ### Unquantized decisions -/

theorem sqDistBits_nonneg (r : List ℝ) (c : List Nat) : 0 ≤ sqDistBits r c := by
  unfold sqDistBits
  refine List.sum_nonneg fun x hx => ?_
  obtain ⟨i, hi, rfl⟩ := List.mem_iff_getElem.1 hx
  rw [List.getElem_zipWith]; positivity

theorem sqDistBits_take_le (r : List ℝ) (c : List Nat) (m : Nat) : sqDistBits (r.take m) (c.take m) ≤ sqDistBits r c := by
  have e : sqDistBits r c = sqDistBits (r.take m) (c.take m) + sqDistBits (r.drop m) (c.drop m) := by
    unfold sqDistBits
    rw [← List.take_zipWith, ← List.drop_zipWith, List.sum_take_add_sum_drop]
  have := sqDistBits_nonneg (r.drop m) (c.drop m)
  linarith

/-- Squared distance of the noisy, padded sequence to the true one. -/
theorem sqDistBits_noise {t : Trellis} {c : List Nat} {σ r : ℝ} {z : ℕ → ℝ} (hz : ∀ i < c.length, |z i| ≤ r) (m : Nat) :
    sqDistBits (paddedRx t (-1) (noisyBits c σ z)) (c ++ List.replicate m 0) ≤ c.length * (σ * r) ^ 2 := by
  rw [sqDistBits_eq, paddedRx]
  have h1 : (noisyBits c σ z).length = c.length := noisyBits_length _ _ _
  rw [seqCost_append (by rw [h1])]
  have h2 : seqCost (fun x (b : Nat) => (x - (2 * (b : ℝ) - 1)) ^ 2) (List.replicate ((t.M / t.k - 1) * t.n) (-1)) (List.replicate m 0) = 0 := by
    unfold seqCost
    rw [List.zipWith_replicate, List.sum_replicate]
    simp
  rw [h2, add_zero, seqCost_sum _ 0 _ _ h1]
  refine (sum_le_card_nsmul _ _ ((σ * r) ^ 2) ?_).trans (by rw [card_range, nsmul_eq_mul])
  intro j hj
  rw [mem_range] at hj
  have e : (noisyBits c σ z).getD j 0 = 2 * (c.getD j 0 : ℝ) - 1 + σ * z j := by
    rw [List.getD_eq_getElem _ _ (by rw [h1]; exact hj)]
    unfold noisyBits
    rw [List.getElem_map, List.getElem_range]
  rw [e, add_sub_cancel_left, ← sq_abs, abs_mul, mul_pow, mul_pow, sq_abs]
  exact mul_le_mul_of_nonneg_left (pow_le_pow_left₀ (abs_nonneg _) (hz j hj) 2) (sq_nonneg _)

/-- Paths that are almost the cheapest ones in the relative sense are so in the absolute sense. -/
theorem near_of_ratio {a b ρ R cw : ℝ} (hρ : 1 ≤ ρ) (hR : 0 ≤ R) (h1 : a ≤ ρ * b) (h2 : a ≤ ρ * cw) (h3 : cw ≤ R) : a ≤ b + ρ * (ρ - 1) * R := by
  by_cases hb : b ≤ ρ * R
  · have : (ρ - 1) * b ≤ (ρ - 1) * (ρ * R) := mul_le_mul_of_nonneg_left hb (by linarith)
    nlinarith
  · have : ρ * cw ≤ ρ * R := mul_le_mul_of_nonneg_left h3 (by linarith)
    have : 0 ≤ ρ * (ρ - 1) * R := mul_nonneg (mul_nonneg (by linarith) (by linarith)) hR
    linarith [not_le.1 hb]

/-- C140, unquantized decisions.  A message encoded with termination, sent as `±1` over white Gaussian noise of standard deviation `σ` and decoded in floating-point arithmetic with any
traceback depth: the bounds of C126 hold with a slightly larger standard deviation `σ / (1 - ε/4)` and an additional term for large noise samples.  Here
`ρ = ((1+u)/(1-u))^(T+n+2)` is the relative error of the metric of a path, `ε = ρ(ρ-1) N n (σ r)²`, and `r ≥ 0` is any number for which `ε < 4`. -/
theorem C140_unquantized {D : VitFloats} {u δ : ℝ} (hu : 0 ≤ u) (hu1 : u < 1) (hD : D.OK u δ) {t : Trellis} (h : t.Balanced) (hn : 0 < t.n) (hl : t.Linear)
    (hne : ∀ u < 2 ^ t.k, u ≠ 0 → t.out 0 u ≠ 0)
    {outLen : Nat → Nat} {msg c : List Nat} (hb : ∀ b ∈ msg, b < 2) (hk : t.k ∣ msg.length) {N : Nat}
    (hN : codedInputLen t msg.length "term" = N * t.k) (hout : outLen (N * t.k) = N * t.n) (henc : convEncodeRun outLen t msg "term" = .ok (0, c))
    {tb : Nat} (htb : 2 ≤ tb) (htb2 : tb ≤ N + t.M / t.k) (hB : t.k = 1 ∨ (t.M / t.k - 1) * t.k ≤ tb)
    {z : Ω → ℕ → ℝ} (hz : NormalDraws μ z) (hind : iIndepFun (fun i ω => z ω i) μ) {σ : ℝ} (hσ : 0 < σ) (jk : VitJunk (Dbl D.fl))
    {r ρ ε σ' : ℝ} (hr : 0 ≤ r) (hρ : (1 + u) ^ (N + t.M / t.k - 1 + t.n + 2) ≤ ρ * (1 - u) ^ (N + t.M / t.k - 1 + t.n + 2)) (hε : ε = ρ * (ρ - 1) * (N * t.n * (σ * r) ^ 2)) (hε4 : ε < 4)
    (hσ' : σ' = σ / (1 - ε / 4)) :
    (∀ K, K * t.k ≤ msg.length →
      μ.real {ω | ¬ ∃ dec coded', viterbiDecodeF D "unquantized" t jk (N * t.k) tb (noisyBits c σ (z ω)) = .ok (dec, coded') ∧ dec.length = N * t.k ∧
        dec.take (K * t.k) = msg.take (K * t.k)} ≤ unionBound t (fun d => qFunction (Real.sqrt d / σ')) (N + t.M / t.k - 1) tb K + 2 * (N * t.n) * Real.exp (-(r ^ 2 / 2))) ∧
    (∀ j < msg.length,
      μ.real {ω | ¬ ∃ dec coded', viterbiDecodeF D "unquantized" t jk (N * t.k) tb (noisyBits c σ (z ω)) = .ok (dec, coded') ∧ dec.length = N * t.k ∧
        dec.getD j 0 = msg.getD j 0} ≤ bitBound t (fun d => qFunction (Real.sqrt d / σ')) (N + t.M / t.k - 1) tb (j / t.k) (j % t.k) + 2 * (N * t.n) * Real.exp (-(r ^ 2 / 2))) := by
  classical
  have := hind.isProbabilityMeasure
  have hkp := h.wf.k_pos
  have hq1 := h.one_le
  obtain ⟨m, hm⟩ := hk
  obtain ⟨w, hw, hw0, rfl, hwq, hqN⟩ := encoded_path h hb hm hN hout henc
  have hcl : (t.runOut 0 w).length = N * t.n := by rw [Trellis.runOut_length, hw.1]
  have hcb : ∀ x ∈ t.runOut 0 w, x < 2 := t.runOut_lt_two 0 w
  set c := t.runOut 0 w with hc
  set T := N + t.M / t.k - 1 with hT
  set w' := w ++ List.replicate (t.M / t.k - 1) 0 with hw'
  have hw'in : IsInput t T w' := by
    refine ⟨by rw [hw', List.length_append, hw.1, List.length_replicate]; omega, ?_⟩
    intro u hu
    rw [hw', List.mem_append] at hu
    rcases hu with hu | hu
    · exact hw.2 u hu
    · rw [List.eq_of_mem_replicate hu]; exact Nat.two_pow_pos _
  have hpad : t.runOut 0 w' = c ++ List.replicate ((t.M / t.k - 1) * t.n) 0 := runOut_pad hl (Or.inr hw0)
  have hu2 : (0 : ℝ) < 1 - u := by linarith
  have hρ1 : 1 ≤ ρ := by
    have h1 : (1 - u) ^ (T + t.n + 2) ≤ (1 + u) ^ (T + t.n + 2) := pow_le_pow_left₀ hu2.le (by linarith) _
    have h2 := h1.trans hρ
    exact le_of_mul_le_mul_right (by linarith) (pow_pos hu2 (T + t.n + 2))
  -- the ratio for shorter windows
  have hρτ : ∀ τ ≤ T, (1 + u) ^ (τ + t.n + 2) ≤ ρ * (1 - u) ^ (τ + t.n + 2) := by
    intro τ hτ
    have e1 : (1 + u) ^ (T + t.n + 2) = (1 + u) ^ (T - τ) * (1 + u) ^ (τ + t.n + 2) := by rw [← pow_add]; congr 1; omega
    have e2 : (1 - u) ^ (T + t.n + 2) = (1 - u) ^ (T - τ) * (1 - u) ^ (τ + t.n + 2) := by rw [← pow_add]; congr 1; omega
    rw [e1, e2] at hρ
    have h1 : (1 - u) ^ (T - τ) ≤ (1 + u) ^ (T - τ) := pow_le_pow_left₀ hu2.le (by linarith) _
    have h2 : (1 - u) ^ (T - τ) * (1 + u) ^ (τ + t.n + 2) ≤ (1 + u) ^ (T - τ) * (1 + u) ^ (τ + t.n + 2) := mul_le_mul_of_nonneg_right h1 (by positivity)
    refine le_of_mul_le_mul_left ?_ (pow_pos hu2 (T - τ))
    linarith
  set bad : Set Ω := {ω | ∃ i < N * t.n, r ≤ |z ω i|} with hbad
  have hbadP : μ.real bad ≤ 2 * (N * t.n) * Real.exp (-(r ^ 2 / 2)) := by
    have hsub : bad ⊆ ⋃ i ∈ range (N * t.n), {ω | r ≤ |z ω i|} := by
      rintro ω ⟨i, hi, h⟩
      simp only [Set.mem_iUnion]
      exact ⟨i, mem_range.2 hi, h⟩
    refine (measureReal_mono hsub (measure_ne_top _ _)).trans ((measureReal_biUnion_finset_le _ _).trans ?_)
    have : ∀ i ∈ range (N * t.n), μ.real {ω | r ≤ |z ω i|} ≤ 2 * Real.exp (-(r ^ 2 / 2)) :=
      fun i _ => ENNReal.toReal_le_of_le_ofReal (by positivity) (normal_tail (hz i) hr)
    refine (sum_le_sum this).trans (le_of_eq ?_)
    rw [sum_const, card_range, nsmul_eq_mul]
    push_cast; ring
  set κ := 1 - ε / 4 with hκ
  have hκ0 : 0 < κ := by rw [hκ]; linarith
  have hε0 : 0 ≤ ε := by
    rw [hε]
    exact mul_nonneg (mul_nonneg (by linarith) (by linarith)) (by positivity)
  set g : ℕ → ℝ := fun p => if p < c.length then (2 * (c.getD p 0 : ℝ) - 1) * σ else 0 with hg
  set L : Ω → ℕ → ℝ := fun ω p => -4 - 4 * (g p / κ * z ω p) with hL
  have hpair : PairwiseBoundOn μ L (fun d => qFunction (Real.sqrt d / σ')) (T * t.n) := by
    have := pairwise_gauss hz hind (σ := σ') (by rw [hσ']; positivity) (g := fun p => g p / κ) (by
      intro p
      rw [hσ', div_pow, div_pow]
      refine div_le_div_of_nonneg_right ?_ (by positivity)
      rw [hg]
      dsimp only
      by_cases hp : p < c.length
      · rw [if_pos hp]
        have hb : c.getD p 0 < 2 := hcb _ (by rw [List.getD_eq_getElem _ _ hp]; exact List.getElem_mem _)
        have : c.getD p 0 = 0 ∨ c.getD p 0 = 1 := by omega
        rcases this with h | h <;> rw [h] <;> push_cast <;> apply le_of_eq <;> ring
      · rw [if_neg hp]
        nlinarith [sq_nonneg σ]) (loss := L) (fun ω p => rfl)
    exact fun D hD _ => this D hD
  set res : Ω → Py (List Nat × List ℝ) := fun ω => if ω ∈ bad then .ok ((List.range N).flatMap fun i => toBits t.k (w.getD i 0), [])
    else viterbiDecodeF D "unquantized" t jk (N * t.k) tb (noisyBits c σ (z ω)) with hresd
  have hres : ∀ ω, ∃ (dg : Nat → Nat) (coded' : List ℝ), res ω = .ok ((List.range N).flatMap fun i => toBits t.k (dg i), coded') ∧ ShowsEvents t T tb N w dg (L ω) := by
    intro ω
    by_cases hω : ω ∈ bad
    · exact ⟨fun i => w.getD i 0, [], by rw [hresd]; dsimp only; rw [if_pos hω], fun i _ hne => absurd rfl hne⟩
    · have hzr : ∀ i < c.length, |z ω i| ≤ r := by
        intro i hi
        by_contra hcon
        exact hω ⟨i, by rw [← hcl]; exact hi, (not_le.1 hcon).le⟩
      obtain ⟨path, coded', hv, hp⟩ := C133_window hu hu1.le hD h hn jk (by rw [noisyBits_length, hcl] : (noisyBits c σ (z ω)).length = N * t.n) htb htb2 hB
      have hlen : (noisyBits c σ (z ω)).length = N * t.n := by rw [noisyBits_length, hcl]
      have hnear : ∀ i < N, NearMin t (fun j p u => seqCost (fun x (b : Nat) => (x - (2 * (b : ℝ) - 1)) ^ 2) (rxBlock t (N * t.k) (-1) (noisyBits c σ (z ω)) j) (toBits t.n (t.out p u)))
          (min T (i + tb - 1)) ε (path i) := by
        intro i hi
        obtain ⟨p1, p2⟩ := hp i hi
        rw [← hT] at p1 p2
        set τ := min T (i + tb - 1) with hτ
        have hτT : τ ≤ T := min_le_left _ _
        have hwτ : IsInput t τ (w'.take τ) := ⟨by rw [List.length_take, hw'in.1]; omega, fun u hu => hw'in.2 u (List.mem_of_mem_take hu)⟩
        have hrat : ∀ vs, IsInput t τ vs → sqDistBits ((paddedRx t (-1) (noisyBits c σ (z ω))).take (τ * t.n)) (t.runOut 0 (path i)) ≤
            ρ * sqDistBits ((paddedRx t (-1) (noisyBits c σ (z ω))).take (τ * t.n)) (t.runOut 0 vs) := by
          intro vs hvs
          have h1 := (p2 vs hvs).trans (mul_le_mul_of_nonneg_right (hρτ τ hτT) (sqDistBits_nonneg _ _))
          refine le_of_mul_le_mul_left ?_ (pow_pos hu2 (τ + t.n + 2))
          refine h1.trans (le_of_eq ?_)
          ring
        have hcw : sqDistBits ((paddedRx t (-1) (noisyBits c σ (z ω))).take (τ * t.n)) (t.runOut 0 (w'.take τ)) ≤ N * t.n * (σ * r) ^ 2 := by
          rw [runOut_take_event t w' τ (by rw [hw'in.1]; exact hτT), hpad]
          refine (sqDistBits_take_le _ _ _).trans ((sqDistBits_noise hzr _).trans (le_of_eq ?_))
          rw [hcl]; push_cast; ring
        refine ⟨p1, fun vs hvs => ?_⟩
        rw [pathCost_take h hlen hτT p1.1, pathCost_take h hlen hτT hvs.1, ← sqDistBits_eq, ← sqDistBits_eq, hε]
        exact near_of_ratio hρ1 (by positivity) (hrat vs hvs) (hrat _ hwτ) hcw
      have H := near_shows h hl hlen htb hnear hw
      rw [← hT, ← hw', hpad] at H
      refine ⟨fun i => (path i).getD i 0, coded', by rw [hresd]; dsimp only; rw [if_neg hω]; exact hv, ?_⟩
      intro i hi hne'
      obtain ⟨a, b, v, h1, h2, h3, h4, h5, h6, h7, h8⟩ := H i hi hne'
      refine ⟨a, b, v, h1, h2, h3, h4, h5, h6, h7, ?_⟩
      have hcard : 1 ≤ (eventPlaces t a v).card := by rw [eventPlaces_card]; exact codeWeight_pos h.wf hne h4
      have hcard' : (1 : ℝ) ≤ (eventPlaces t a v).card := by exact_mod_cast hcard
      have s1 : ∑ p ∈ eventPlaces t a v, metricLoss (fun x (b : Nat) => (x - (2 * (b : ℝ) - 1)) ^ 2) (-1) (paddedRx t (-1) (noisyBits c σ (z ω))) (c ++ List.replicate ((t.M / t.k - 1) * t.n) 0) p =
          -4 * (eventPlaces t a v).card - 4 * ∑ p ∈ eventPlaces t a v, g p * z ω p := by
        rw [sum_congr rfl (fun p _ => unq_loss hcb σ (z ω) _ p), sum_sub_distrib, sum_const, nsmul_eq_mul, mul_sum]
        congr 1
        ring
      have s2 : ∑ p ∈ eventPlaces t a v, L ω p = -4 * (eventPlaces t a v).card - 4 / κ * ∑ p ∈ eventPlaces t a v, g p * z ω p := by
        rw [hL]
        dsimp only
        rw [sum_sub_distrib, sum_const, nsmul_eq_mul, mul_sum]
        congr 1
        · ring
        · refine sum_congr rfl fun p _ => by ring
      rw [s1] at h8
      rw [s2]
      set X := ∑ p ∈ eventPlaces t a v, g p * z ω p
      set d : ℝ := ((eventPlaces t a v).card : ℝ)
      have k1 : d * κ ≤ -X := by
        rw [hκ]
        nlinarith
      have k2 : d ≤ -X / κ := by rwa [le_div_iff₀ hκ0]
      have k3 : 4 / κ * X = -4 * (-X / κ) := by ring
      rw [k3]
      linarith
  have hset : ∀ φ : List Nat → Prop, μ.real {ω | ¬ ∃ dec coded', viterbiDecodeF D "unquantized" t jk (N * t.k) tb (noisyBits c σ (z ω)) = .ok (dec, coded') ∧ dec.length = N * t.k ∧ φ dec} ≤
      μ.real {ω | ¬ ∃ dec coded', res ω = .ok (dec, coded') ∧ dec.length = N * t.k ∧ φ dec} + 2 * (N * t.n) * Real.exp (-(r ^ 2 / 2)) := by
    intro φ
    refine le_trans (le_trans (measureReal_mono ?_ (measure_ne_top _ _)) (measureReal_union_le _ bad)) (add_le_add_right hbadP _)
    intro ω hω
    by_cases hb' : ω ∈ bad
    · exact Or.inr hb'
    · left
      rintro ⟨dec, cc, h1, h2, h3⟩
      apply hω
      rw [hresd] at h1
      dsimp only at h1
      rw [if_neg hb'] at h1
      exact ⟨dec, cc, h1, h2, h3⟩
  refine ⟨?_, ?_⟩
  · intro K hK
    have hKq : K ≤ m := by rw [hm, Nat.mul_comm] at hK; exact Nat.le_of_mul_le_mul_left hK hkp
    rw [← take_message hkp hb hm hw.1 hwq hqN hKq]
    exact (hset _).trans (add_le_add_left (groups_of_events h hne (by omega) hw hres hpair (by omega)) _)
  · intro j hj
    have hjm : j / t.k < m := by
      rw [Nat.div_lt_iff_lt_mul hkp]; rw [hm, Nat.mul_comm] at hj; exact hj
    have hjd : j / t.k * t.k + j % t.k = j := by rw [Nat.mul_comm]; exact Nat.div_add_mod j t.k
    have e : msg.getD j 0 = (w.flatMap (toBits t.k)).getD j 0 := by
      have e1 := take_message hkp hb hm hw.1 hwq hqN (le_refl m)
      rw [List.take_of_length_le (l := msg) (by rw [hm, Nat.mul_comm])] at e1
      conv_rhs => rw [← List.take_append_drop m w, List.flatMap_append, e1]
      rw [List.getD_append _ _ _ _ hj]
    rw [e]
    have := bit_of_events h hne (by omega) hw hres hpair (i := j / t.k) (β := j % t.k) (by omega) (Nat.mod_lt _ hkp)
    rw [hjd] at this
    exact (hset _).trans (add_le_add_left this _)

/-- C140, hard decisions over the binary symmetric channel: for up to `2^53` received bits (with padding) rounding has no influence, and the bounds of C126 hold as they are. -/
theorem C140_hard {D : VitFloats} (hfl : ∀ m : ℕ, m ≤ 2 ^ 53 → D.fl m = m) {t : Trellis} (h : t.Balanced) (hn : 0 < t.n) (hl : t.Linear) (hne : ∀ u < 2 ^ t.k, u ≠ 0 → t.out 0 u ≠ 0)
    {outLen : Nat → Nat} {msg c : List Nat} (hb : ∀ b ∈ msg, b < 2) (hk : t.k ∣ msg.length) {N : Nat}
    (hN : codedInputLen t msg.length "term" = N * t.k) (hout : outLen (N * t.k) = N * t.n) (henc : convEncodeRun outLen t msg "term" = .ok (0, c))
    {tb : Nat} (htb : 2 ≤ tb) (htb2 : tb ≤ N + t.M / t.k) (hB : t.k = 1 ∨ (t.M / t.k - 1) * t.k ≤ tb) (hbig : (N + t.M / t.k - 1) * t.n ≤ 2 ^ 53)
    {u : Ω → ℕ → ℝ} (hu : UniformDraws μ u) (hind : iIndepFun (fun i ω => u ω i) μ) {p : ℝ} (h0 : 0 < p) (h1 : p ≤ 1 / 2) (jk : VitJunk (Dbl D.fl)) :
    (∀ K, K * t.k ≤ msg.length →
      μ.real {ω | ¬ ∃ dec coded', viterbiDecodeF D "hard" t jk (N * t.k) tb ((bscBits c p (u ω)).map fun (b : Nat) => (b : ℝ)) = .ok (dec, coded') ∧ dec.length = N * t.k ∧
        dec.take (K * t.k) = msg.take (K * t.k)} ≤ unionBound t (fun d => (2 * Real.sqrt (p * (1 - p))) ^ d) (N + t.M / t.k - 1) tb K) ∧
    (∀ j < msg.length,
      μ.real {ω | ¬ ∃ dec coded', viterbiDecodeF D "hard" t jk (N * t.k) tb ((bscBits c p (u ω)).map fun (b : Nat) => (b : ℝ)) = .ok (dec, coded') ∧ dec.length = N * t.k ∧
        dec.getD j 0 = msg.getD j 0} ≤ bitBound t (fun d => (2 * Real.sqrt (p * (1 - p))) ^ d) (N + t.M / t.k - 1) tb (j / t.k) (j % t.k)) := by
  have := hind.isProbabilityMeasure
  obtain ⟨A1, A2⟩ := C126_hard h hl hne hb hk hN hout henc htb htb2 hB hu hind h0 h1 ⟨fun _ _ => 0, fun _ => 0, fun _ _ => 0, fun _ _ => (0, 0)⟩
  obtain ⟨hcl, hcb⟩ : c.length = N * t.n ∧ ∀ x ∈ c, x < 2 := by
    obtain ⟨m, hm⟩ := hk
    obtain ⟨w, hw, -, rfl, -, -⟩ := encoded_path h hb hm hN hout henc
    exact ⟨by rw [Trellis.runOut_length, hw.1], t.runOut_lt_two 0 w⟩
  have hsub : ∀ φ : List Nat → Prop, {ω | ¬ ∃ dec coded', viterbiDecodeF D "hard" t jk (N * t.k) tb ((bscBits c p (u ω)).map fun (b : Nat) => (b : ℝ)) = .ok (dec, coded') ∧ dec.length = N * t.k ∧ φ dec} ⊆
      {ω | ¬ ∃ dec coded', viterbiHard t ⟨fun _ _ => 0, fun _ => 0, fun _ _ => 0, fun _ _ => (0, 0)⟩ (N * t.k) tb (bscBits c p (u ω)) = .ok (dec, coded') ∧ dec.length = N * t.k ∧ φ dec} := by
    intro φ ω hω
    rintro ⟨dec, cc, e1, e2⟩
    apply hω
    obtain ⟨bits, after, b1, b2⟩ := C133_hard hfl h hn jk ⟨fun _ _ => 0, fun _ => 0, fun _ _ => 0, fun _ _ => (0, 0)⟩ (coded := bscBits c p (u ω))
      (by rw [(bsc_bits hcb p (u ω)).1, hcl]) (bsc_bits hcb p (u ω)).2.1 htb htb2 hB hbig
    rw [e1] at b2
    injection b2 with b2
    injection b2 with b2 b3
    subst b2
    exact ⟨dec, _, b1, e2⟩
  exact ⟨fun K hK => (measureReal_mono (hsub _) (measure_ne_top _ _)).trans (A1 K hK), fun j hj => (measureReal_mono (hsub _) (measure_ne_top _ _)).trans (A2 j hj)⟩

/-- C140, the (5,7) code over `channels.bsc` with hard decisions in doubles and the default traceback depth, for messages of up to `2^51` bits: the bounds of C126 as they are. -/
theorem C140_57_bsc (junk : Nat → Nat → Nat) :
    ∃ t, mkTrellis junk [2] [[5, 7]] 2 none false "MSB" = .ok t ∧
      ∀ (outLen : Nat → Nat) (msg : List Nat), (∀ b ∈ msg, b < 2) → 8 ≤ msg.length → msg.length ≤ 2 ^ 51 → outLen (msg.length + 2) = (msg.length + 2) * 2 →
        ∃ c, convEncode outLen t msg "term" none = .ok c ∧
          ∀ {Ω : Type*} [MeasurableSpace Ω] {P : Measure Ω} {u : Ω → ℕ → ℝ}, UniformDraws P u → iIndepFun (fun i ω => u ω i) P →
            ∀ (D : VitFloats), (∀ m : ℕ, m ≤ 2 ^ 53 → D.fl m = m) → ∀ (p : ℝ) (jk : VitJunk (Dbl D.fl)), 0 < p → p ≤ 1 / 2 → 2 * Real.sqrt (p * (1 - p)) < 1 / 2 →
              P.real {ω | ¬ ∃ dec coded', viterbiDecodeF D "hard" t jk (msg.length + 2) (defaultDepth t (msg.length + 2)) ((bscBits c p (u ω)).map fun (b : Nat) => (b : ℝ)) = .ok (dec, coded') ∧
                dec.length = msg.length + 2 ∧ dec.take msg.length = msg} ≤ frame57 msg.length (2 * Real.sqrt (p * (1 - p))) ∧
              ∀ j, j + 6 ≤ msg.length →
                P.real {ω | ¬ ∃ dec coded', viterbiDecodeF D "hard" t jk (msg.length + 2) (defaultDepth t (msg.length + 2)) ((bscBits c p (u ω)).map fun (b : Nat) => (b : ℝ)) = .ok (dec, coded') ∧
                  dec.length = msg.length + 2 ∧ dec.getD j 0 = msg.getD j 0} ≤ bit57 (2 * Real.sqrt (p * (1 - p))) := by
  obtain ⟨t, ht, hz⟩ := C34_zero_tail args57 junk
  refine ⟨t, ht, ?_⟩
  intro outLen msg hb hlen hbig ho
  have hteq : t = trellisOf junk [2] [[5, 7]] 2 none false "MSB" := by
    have := mkTrellis_ok (junk := junk) (rsc := false) args57
    rw [ht] at this
    exact Except.ok.inj this
  have hk : t.k = 1 := by rw [hteq]; rfl
  have hMt : t.M = 2 := by rw [hteq]; rfl
  have hnt : t.n = 2 := by rw [hteq]; rfl
  have hrsc : t.rsc = false := by rw [hteq]; rfl
  have hbal : t.Balanced := by rw [hteq]; exact ff_balanced args57 (by simp)
  have hlin : t.Linear := by rw [hteq]; exact trellisOf_linear args57 (fits_one _ _ _ _) (fun F _ => fitsFb_one _ _ _)
  have h57 : Is57 t := by rw [hteq]; exact is57 junk
  have hne : ∀ u < 2 ^ t.k, u ≠ 0 → t.out 0 u ≠ 0 := by rw [hteq, trellisOf_junk _ (fun _ _ => 0)]; decide +kernel
  obtain ⟨c, hc⟩ := hz msg outLen hb ho
  refine ⟨c, by rw [convEncode_none hbal.wf.k_pos (by rw [hnt]; decide), hc]; rfl, ?_⟩
  intro Ω _ P u hu hind D hfl p jk h0 h1 hx
  have hN : codedInputLen t msg.length "term" = (msg.length + 2) * t.k := by simp [codedInputLen, hrsc, hk, hMt, Nat.mod_one]
  have hout : outLen ((msg.length + 2) * t.k) = (msg.length + 2) * t.n := by rw [hk, hnt, Nat.mul_one]; exact ho
  have htb : defaultDepth t (msg.length + 2) = 10 := by rw [defaultDepth, hMt]; omega
  obtain ⟨B1, B2⟩ := bounds57 h57 (x := 2 * Real.sqrt (p * (1 - p))) (by positivity) hx (fun d => le_refl _) (L := msg.length)
  obtain ⟨A1, A2⟩ := C140_hard hfl hbal (by rw [hnt]; decide) hlin hne hb (by rw [hk]; exact one_dvd _) hN hout hc (tb := 10) (by decide)
    (by rw [hk, hMt]; omega) (Or.inl hk) (by rw [hk, hMt, hnt]; norm_num at hbig ⊢; omega) hu hind h0 h1 jk
  rw [htb]
  refine ⟨?_, ?_⟩
  · have := A1 msg.length (by rw [hk, Nat.mul_one])
    rw [hk, Nat.mul_one, Nat.mul_one, List.take_length] at this
    rw [hk] at B1
    exact this.trans B1
  · intro j hj
    have := A2 j (by omega)
    simp only [hk, Nat.div_one, Nat.mod_one, Nat.mul_one] at this
    have B2' := B2 j hj
    simp only [hk, Nat.div_one] at B2'
    exact this.trans B2'

/-- C140, the (5,7) code over `channels.awgn` with unquantized decisions in doubles and the default traceback depth, for messages of up to `10⁹` bits: the bounds of C126 with
`x = exp(-s/2)` replaced by `exp(-(1-ε/4)² s/2)`, `ε` a little more than `2⁻²⁰ (L+2) r² / s`, and an additional term for noise samples larger than `r` standard deviations;
`s` is the signal-to-noise ratio and `r ≥ 0` any number with `ε < 4`. -/
theorem C140_57_awgn (junk : Nat → Nat → Nat) :
    ∃ t, mkTrellis junk [2] [[5, 7]] 2 none false "MSB" = .ok t ∧
      ∀ (outLen : Nat → Nat) (msg : List Nat), (∀ b ∈ msg, b < 2) → 8 ≤ msg.length → msg.length ≤ 10 ^ 9 → outLen (msg.length + 2) = (msg.length + 2) * 2 →
        ∃ c, convEncode outLen t msg "term" none = .ok c ∧
          ∀ {Ω : Type*} [MeasurableSpace Ω] {P : Measure Ω} {z : Ω → ℕ → ℝ}, NormalDraws P z → iIndepFun (fun i ω => z ω i) P →
            ∀ (D : VitFloats) (δ : ℝ), D.OK ((2 : ℝ) ^ (-53 : ℤ)) δ → ∀ (snrDb rate s r ε x : ℝ) (jk : VitJunk (Dbl D.fl)), 0 < rate → s = rate * (10 : ℝ) ^ (snrDb / 10) →
              0 ≤ r → ε = (1 + 2 ^ (-21 : ℤ)) * 2 ^ (-20 : ℤ) * (msg.length + 2) * r ^ 2 / s → ε < 4 → x = Real.exp (-((1 - ε / 4) ^ 2 * s) / 2) → x < 1 / 2 →
              P.real {ω | ¬ ∃ y dec coded', awgn (.real (c.map fun (b : Nat) => 2 * (b : ℝ) - 1)) snrDb rate (z ω) = .ok y ∧
                viterbiDecodeF D "unquantized" t jk (msg.length + 2) (defaultDepth t (msg.length + 2)) (y.map Complex.re) = .ok (dec, coded') ∧
                dec.length = msg.length + 2 ∧ dec.take msg.length = msg} ≤ frame57 msg.length x + 4 * (msg.length + 2) * Real.exp (-(r ^ 2 / 2)) ∧
              ∀ j, j + 6 ≤ msg.length →
                P.real {ω | ¬ ∃ y dec coded', awgn (.real (c.map fun (b : Nat) => 2 * (b : ℝ) - 1)) snrDb rate (z ω) = .ok y ∧
                  viterbiDecodeF D "unquantized" t jk (msg.length + 2) (defaultDepth t (msg.length + 2)) (y.map Complex.re) = .ok (dec, coded') ∧
                  dec.length = msg.length + 2 ∧ dec.getD j 0 = msg.getD j 0} ≤ bit57 x + 4 * (msg.length + 2) * Real.exp (-(r ^ 2 / 2)) := by
  obtain ⟨t, ht, hz⟩ := C34_zero_tail args57 junk
  refine ⟨t, ht, ?_⟩
  intro outLen msg hb hlen hbig ho
  have hteq : t = trellisOf junk [2] [[5, 7]] 2 none false "MSB" := by
    have := mkTrellis_ok (junk := junk) (rsc := false) args57
    rw [ht] at this
    exact Except.ok.inj this
  have hk : t.k = 1 := by rw [hteq]; rfl
  have hMt : t.M = 2 := by rw [hteq]; rfl
  have hnt : t.n = 2 := by rw [hteq]; rfl
  have hrsc : t.rsc = false := by rw [hteq]; rfl
  have hbal : t.Balanced := by rw [hteq]; exact ff_balanced args57 (by simp)
  have hlin : t.Linear := by rw [hteq]; exact trellisOf_linear args57 (fits_one _ _ _ _) (fun F _ => fitsFb_one _ _ _)
  have h57 : Is57 t := by rw [hteq]; exact is57 junk
  have hne : ∀ u < 2 ^ t.k, u ≠ 0 → t.out 0 u ≠ 0 := by rw [hteq, trellisOf_junk _ (fun _ _ => 0)]; decide +kernel
  obtain ⟨c, hc⟩ := hz msg outLen hb ho
  refine ⟨c, by rw [convEncode_none hbal.wf.k_pos (by rw [hnt]; decide), hc]; rfl, ?_⟩
  intro Ω _ P z hz hind D δ hD snrDb rate s r ε x jk hr hs hr0 hε hε4 hxe hx
  have hN : codedInputLen t msg.length "term" = (msg.length + 2) * t.k := by simp [codedInputLen, hrsc, hk, hMt, Nat.mod_one]
  have hout : outLen ((msg.length + 2) * t.k) = (msg.length + 2) * t.n := by rw [hk, hnt, Nat.mul_one]; exact ho
  obtain ⟨w, hw, -, hcw, -, -⟩ := encoded_path hbal hb (q := msg.length) (by rw [hk, Nat.one_mul]) hN hout hc
  have hcb : ∀ x ∈ c, x < 2 := by rw [hcw]; exact t.runOut_lt_two 0 w
  have hcn : c ≠ [] := by
    intro h0
    have : c.length = (msg.length + 2) * t.n := by rw [hcw, Trellis.runOut_length, hw.1]
    rw [h0, hnt] at this
    simp at this
  have htb : defaultDepth t (msg.length + 2) = 10 := by rw [defaultDepth, hMt]; omega
  have hspos : 0 < s := by rw [hs]; exact mul_pos hr (Real.rpow_pos_of_pos (by norm_num) _)
  have hσ : 0 < Real.sqrt (1 / s) := Real.sqrt_pos.2 (by positivity)
  have hκ : 0 < 1 - ε / 4 := by linarith
  have hq : ∀ d : ℕ, qFunction (Real.sqrt d / (Real.sqrt (1 / s) / (1 - ε / 4))) ≤ x ^ d := by
    intro d
    refine (q_le (by positivity)).trans (le_of_eq ?_)
    rw [hxe, ← Real.exp_nat_mul, div_pow, div_pow, Real.sq_sqrt (Nat.cast_nonneg d), Real.sq_sqrt (by positivity)]
    congr 1
    field_simp
  obtain ⟨B1, B2⟩ := bounds57 h57 (by rw [hxe]; exact (Real.exp_pos _).le) hx hq (L := msg.length)
  have hT : msg.length + 2 + t.M / t.k - 1 + t.n + 2 ≤ 2 ^ 30 := by rw [hk, hMt, hnt]; norm_num at hbig ⊢; omega
  obtain ⟨A1, A2⟩ := C140_unquantized (zpow_nonneg (by norm_num) _) (by norm_num) hD hbal (by rw [hnt]; decide) hlin hne hb (by rw [hk]; exact one_dvd _) hN hout hc (tb := 10) (by decide)
    (by rw [hk, hMt]; omega) (Or.inl hk) hz hind hσ jk (r := r) (ρ := 1 + 2 ^ (-21 : ℤ)) (ε := ε) hr0 (double_ratio hT) (by
      rw [hε, mul_pow, Real.sq_sqrt (by positivity), hnt]
      push_cast
      have : ((2 : ℝ) ^ (-20 : ℤ)) = 2 * 2 ^ (-21 : ℤ) := by norm_num
      rw [this]
      field_simp
      ring) hε4 rfl
  have hset : ∀ φ : List Nat → Prop, {ω | ¬ ∃ y dec coded', awgn (.real (c.map fun (b : Nat) => 2 * (b : ℝ) - 1)) snrDb rate (z ω) = .ok y ∧
      viterbiDecodeF D "unquantized" t jk (msg.length + 2) (defaultDepth t (msg.length + 2)) (y.map Complex.re) = .ok (dec, coded') ∧ dec.length = msg.length + 2 ∧ φ dec} =
      {ω | ¬ ∃ dec coded', viterbiDecodeF D "unquantized" t jk ((msg.length + 2) * t.k) 10 (noisyBits c (Real.sqrt (1 / s)) (z ω)) = .ok (dec, coded') ∧
        dec.length = (msg.length + 2) * t.k ∧ φ dec} := by
    intro φ
    ext ω
    simp only [Set.mem_setOf_eq]
    rw [awgn_bits hcb hcn snrDb hr, htb, hk, Nat.mul_one, ← hs]
    have e : ((noisyBits c (Real.sqrt (1 / s)) (z ω)).map fun (y : ℝ) => (y : ℂ)).map Complex.re = noisyBits c (Real.sqrt (1 / s)) (z ω) := by
      rw [List.map_map]; exact List.map_id _
    rw [not_iff_not]
    constructor
    · rintro ⟨y, dec, cc, hy, h⟩
      obtain rfl := Except.ok.inj hy
      rw [e] at h
      exact ⟨dec, cc, h⟩
    · rintro ⟨dec, cc, h⟩
      exact ⟨_, dec, cc, rfl, by rw [e]; exact h⟩
  have htail : 2 * (((msg.length + 2 : ℕ) : ℝ) * ((t.n : ℕ) : ℝ)) * Real.exp (-(r ^ 2 / 2)) = 4 * (msg.length + 2) * Real.exp (-(r ^ 2 / 2)) := by
    rw [hnt]; push_cast; ring
  rw [htail] at A1 A2
  refine ⟨?_, ?_⟩
  · rw [hset (fun dec => dec.take msg.length = msg)]
    have := A1 msg.length (by rw [hk, Nat.mul_one])
    simp only [hk, Nat.mul_one, List.take_length] at this ⊢
    have B1' := B1
    rw [hk] at B1'
    exact this.trans (add_le_add_left B1' _)
  · intro j hj
    rw [hset (fun dec => dec.getD j 0 = msg.getD j 0)]
    have := A2 j (by omega)
    simp only [hk, Nat.div_one, Nat.mod_one, Nat.mul_one] at this ⊢
    have B2' := B2 j hj
    simp only [hk, Nat.div_one] at B2'
    exact this.trans (add_le_add_left B2' _)

/-- The hypotheses of `C140_57_awgn` are met: at `SNR = 10` dB and rate 1, with the decoder correctly rounded to 53 bits, the second bit of the message `1,0,1,1,0,0,1,0` is wrong with probability
at most `10⁻⁹`, as for exact arithmetic (C126). -/
example (jk : VitJunk (Dbl rnd53)) : ∃ (Ω : Type) (_ : MeasurableSpace Ω) (P : Measure Ω) (z : Ω → ℕ → ℝ), NormalDraws P z ∧ iIndepFun (fun i ω => z ω i) P ∧
    ∃ t c, mkTrellis (fun _ _ => 0) [2] [[5, 7]] 2 none false "MSB" = .ok t ∧ convEncode (· * 2) t [1, 0, 1, 1, 0, 0, 1, 0] "term" none = .ok c ∧
      P.real {ω | ¬ ∃ y dec coded', awgn (.real (c.map fun (b : Nat) => 2 * (b : ℝ) - 1)) 10 1 (z ω) = .ok y ∧
        viterbiDecodeF vitFloats53 "unquantized" t jk 10 (defaultDepth t 10) (y.map Complex.re) = .ok (dec, coded') ∧
        dec.length = 10 ∧ dec.getD 1 0 = 0} ≤ 1 / 10 ^ 9 := by
  have hz : NormalDraws (Measure.infinitePi fun _ : ℕ => gaussianReal 0 1) (fun ω i => ω i) := by
    intro i
    have := measurePreserving_eval_infinitePi (fun _ : ℕ => gaussianReal 0 1) i
    exact ⟨this.measurable.aemeasurable, this.map_eq⟩
  have hi : iIndepFun (fun i (ω : ℕ → ℝ) => ω i) (Measure.infinitePi fun _ : ℕ => gaussianReal 0 1) :=
    iIndepFun_infinitePi (X := fun _ x => x) (fun _ => measurable_id)
  obtain ⟨t, ht, H⟩ := C140_57_awgn (fun _ _ => 0)
  obtain ⟨c, hc, H2⟩ := H (· * 2) [1, 0, 1, 1, 0, 0, 1, 0] (by decide) (by decide) (by decide) rfl
  refine ⟨ℕ → ℝ, inferInstance, _, fun ω i => ω i, hz, hi, t, c, ht, hc, ?_⟩
  have e10 : (1 : ℝ) * (10 : ℝ) ^ ((10 : ℝ) / 10) = 10 := by norm_num
  have h1 : (271 / 100 : ℝ) ≤ Real.exp 1 := by have := Real.exp_one_gt_d9; linarith
  have hε : ((1 : ℝ) + 2 ^ (-21 : ℤ)) * 2 ^ (-20 : ℤ) * (([1, 0, 1, 1, 0, 0, 1, 0].length : ℕ) + 2) * 10 ^ 2 / 10 ≤ 1 / 1000 := by norm_num
  have hε0 : 0 ≤ ((1 : ℝ) + 2 ^ (-21 : ℤ)) * 2 ^ (-20 : ℤ) * (([1, 0, 1, 1, 0, 0, 1, 0].length : ℕ) + 2) * 10 ^ 2 / 10 := by positivity
  obtain ⟨ε, hεd⟩ : ∃ ε, ε = ((1 : ℝ) + 2 ^ (-21 : ℤ)) * 2 ^ (-20 : ℤ) * (([1, 0, 1, 1, 0, 0, 1, 0].length : ℕ) + 2) * 10 ^ 2 / 10 := ⟨_, rfl⟩
  rw [← hεd] at hε hε0
  have hx : Real.exp (-((1 - ε / 4) ^ 2 * 10) / 2) ≤ 1 / 100 := by
    have h2 : Real.exp (-((1 - ε / 4) ^ 2 * 10) / 2) ≤ Real.exp (-(49 / 10)) := Real.exp_le_exp.2 (by nlinarith)
    have h3 : Real.exp (-(49 / 10 : ℝ)) ^ 10 ≤ (1 / 100) ^ 10 := by
      rw [← Real.exp_nat_mul, show ((10 : ℕ) : ℝ) * -(49 / 10) = -((49 : ℕ) * 1) by norm_num, Real.exp_neg, Real.exp_nat_mul]
      refine (inv_anti₀ (by positivity) (pow_le_pow_left₀ (by norm_num) h1 49)).trans ?_
      norm_num
    exact h2.trans ((pow_le_pow_iff_left₀ (Real.exp_pos _).le (by norm_num) (by norm_num)).1 h3)
  obtain ⟨-, H3⟩ := H2 hz hi vitFloats53 0 vitFloats53_ok 10 1 10 10 ε _ jk one_pos e10.symm (by norm_num) hεd (by linarith) rfl (lt_of_le_of_lt hx (by norm_num))
  refine (H3 1 (by decide)).trans ?_
  have hT : 4 * ((([1, 0, 1, 1, 0, 0, 1, 0].length : ℕ) : ℝ) + 2) * Real.exp (-(10 ^ 2 / 2)) ≤ 1 / 10 ^ 19 := by
    have h2 : Real.exp (-(10 ^ 2 / 2 : ℝ)) = (Real.exp 1 ^ 50)⁻¹ := by rw [← Real.exp_nat_mul, ← Real.exp_neg]; norm_num
    have h5 : (Real.exp 1 ^ 50)⁻¹ ≤ ((271 / 100 : ℝ) ^ 50)⁻¹ := inv_anti₀ (by positivity) (pow_le_pow_left₀ (by norm_num) h1 50)
    rw [h2]
    refine (mul_le_mul_of_nonneg_left h5 (by positivity)).trans ?_
    norm_num
  set x := Real.exp (-((1 - ε / 4) ^ 2 * 10) / 2)
  have hx0 : 0 ≤ x := (Real.exp_pos _).le
  clear_value x
  have hd : (98 / 100 : ℝ) ≤ 1 - 2 * x := by linarith
  have b1 : x ^ 5 / (1 - 2 * x) ^ 2 ≤ (1 / 100) ^ 5 / (98 / 100) ^ 2 :=
    div_le_div₀ (by norm_num) (pow_le_pow_left₀ hx0 hx 5) (by norm_num) (pow_le_pow_left₀ (by norm_num) hd 2)
  have b2 : 2 * x ^ 6 * (1 + 19 * x + 41 * x ^ 2 + 24 * x ^ 3 + 4 * x ^ 4) / (1 - 2 * x) ≤ 2 * (1 / 100) ^ 6 * (1 + 19 * (1 / 100) + 41 * (1 / 100) ^ 2 + 24 * (1 / 100) ^ 3 + 4 * (1 / 100) ^ 4) / (98 / 100) := by
    gcongr
  unfold bit57
  refine (add_le_add (add_le_add b1 b2) hT).trans ?_
  norm_num

/-- The hypotheses of `C140_57_bsc` are met: at `p = 1/1000`, with correct rounding to 53 bits, the message `1,0,1,1,0,0,1,0` is returned except with probability `1/2000`. -/
example (jk : VitJunk (Dbl rnd53)) : ∃ (Ω : Type) (_ : MeasurableSpace Ω) (P : Measure Ω) (u : Ω → ℕ → ℝ), UniformDraws P u ∧ iIndepFun (fun i ω => u ω i) P ∧
    ∃ t c, mkTrellis (fun _ _ => 0) [2] [[5, 7]] 2 none false "MSB" = .ok t ∧ convEncode (· * 2) t [1, 0, 1, 1, 0, 0, 1, 0] "term" none = .ok c ∧
      P.real {ω | ¬ ∃ dec coded', viterbiDecodeF vitFloats53 "hard" t jk 10 (defaultDepth t 10) ((bscBits c (1 / 1000) (u ω)).map fun (b : Nat) => (b : ℝ)) = .ok (dec, coded') ∧
        dec.length = 10 ∧ dec.take 8 = [1, 0, 1, 1, 0, 0, 1, 0]} ≤ 1 / 2000 := by
  have : IsProbabilityMeasure (volume.restrict (Set.Ico (0 : ℝ) 1)) := ⟨by simp⟩
  have hu : UniformDraws (Measure.infinitePi fun _ : ℕ => volume.restrict (Set.Ico (0 : ℝ) 1)) (fun ω i => ω i) := by
    intro i
    have := measurePreserving_eval_infinitePi (fun _ : ℕ => volume.restrict (Set.Ico (0 : ℝ) 1)) i
    exact ⟨this.measurable.aemeasurable, this.map_eq⟩
  have hi : iIndepFun (fun i (ω : ℕ → ℝ) => ω i) (Measure.infinitePi fun _ : ℕ => volume.restrict (Set.Ico (0 : ℝ) 1)) :=
    iIndepFun_infinitePi (X := fun _ x => x) (fun _ => measurable_id)
  obtain ⟨t, ht, H⟩ := C140_57_bsc (fun _ _ => 0)
  obtain ⟨c, hc, H2⟩ := H (· * 2) [1, 0, 1, 1, 0, 0, 1, 0] (by decide) (by decide) (by decide) rfl
  refine ⟨ℕ → ℝ, inferInstance, _, fun ω i => ω i, hu, hi, t, c, ht, hc, ?_⟩
  have hx : 2 * Real.sqrt ((1 / 1000 : ℝ) * (1 - 1 / 1000)) ≤ 64 / 1000 := by
    have : Real.sqrt ((1 / 1000 : ℝ) * (1 - 1 / 1000)) ≤ 32 / 1000 := by
      rw [Real.sqrt_le_left (by norm_num)]; norm_num
    linarith
  obtain ⟨H3, -⟩ := H2 hu hi vitFloats53 rnd53_nat (1 / 1000) jk (by norm_num) (by norm_num) (lt_of_le_of_lt hx (by norm_num))
  refine H3.trans ?_
  have hx0 : 0 ≤ 2 * Real.sqrt ((1 / 1000 : ℝ) * (1 - 1 / 1000)) := by positivity
  revert hx hx0
  generalize 2 * Real.sqrt ((1 / 1000 : ℝ) * (1 - 1 / 1000)) = x
  intro hx hx0
  have hd : (872 / 1000 : ℝ) ≤ 1 - 2 * x := by linarith
  unfold frame57
  refine le_trans (b := ((8 : ℝ) * ((64 / 1000) ^ 5 + (64 / 1000) ^ 6 * (1 + 19 * (64 / 1000) + 41 * (64 / 1000) ^ 2 + 24 * (64 / 1000) ^ 3 + 4 * (64 / 1000) ^ 4)) +
    4 * (64 / 1000) ^ 4 * (1 + 64 / 1000)) / (872 / 1000)) ?_ (by norm_num)
  have e8 : (([1, 0, 1, 1, 0, 0, 1, 0] : List ℕ).length : ℝ) = 8 := by norm_num
  rw [e8]
  gcongr

/-- The hypotheses of `C140_57_bpsk` are met: with all operations of demodulator and decoder correctly rounded to 53 bits, at `Es/N0 = 10` dB with the matching noise variance 1/10, the second
bit of `1,0,1,1,0,0,1,0` is wrong with probability at most `10⁻¹⁹`. -/
example (jk : VitJunk (Dbl rnd53)) : ∃ (Ω : Type) (_ : MeasurableSpace Ω) (P : Measure Ω) (z : Ω → ℕ → ℝ), NormalDraws P z ∧ iIndepFun (fun i ω => z ω i) P ∧
    ∃ t modem c syms, mkTrellis (fun _ _ => 0) [2] [[5, 7]] 2 none false "MSB" = .ok t ∧ pskModem 2 = .ok modem ∧
      convEncode (· * 2) t [1, 0, 1, 1, 0, 0, 1, 0] "term" none = .ok c ∧ modulate modem c = .ok syms ∧
      P.real {ω | ¬ ∃ y dec coded', awgn (.cplx syms) 10 1 (z ω) = .ok y ∧
        viterbiDecodeF vitFloats53 "soft" t jk 10 (defaultDepth t 10)
          (demodSoftR ⟨⟨fun a b => rnd53 (a - b), fun a b => rnd53 (Real.sqrt (a ^ 2 + b ^ 2))⟩, fun x => rnd53 (x ^ 2), rnd53,
            fun x => rnd53 (Real.exp x), fun x => rnd53 (Real.log x)⟩ modem y (1 / 10)) = .ok (dec, coded') ∧
        dec.length = 10 ∧ dec.getD 1 0 = 0} ≤ 1 / 10 ^ 19 := by
  have hz : NormalDraws (Measure.infinitePi fun _ : ℕ => gaussianReal 0 1) (fun ω i => ω i) := by
    intro i
    have := measurePreserving_eval_infinitePi (fun _ : ℕ => gaussianReal 0 1) i
    exact ⟨this.measurable.aemeasurable, this.map_eq⟩
  have hi : iIndepFun (fun i (ω : ℕ → ℝ) => ω i) (Measure.infinitePi fun _ : ℕ => gaussianReal 0 1) :=
    iIndepFun_infinitePi (X := fun _ x => x) (fun _ => measurable_id)
  obtain ⟨t, modem, ht, hm, H⟩ := C140_57_bpsk (fun _ _ => 0)
  obtain ⟨c, syms, hc, hsy, H2⟩ := H (· * 2) [1, 0, 1, 1, 0, 0, 1, 0] (by decide) (by decide) rfl
  refine ⟨ℕ → ℝ, inferInstance, _, fun ω i => ω i, hz, hi, t, modem, c, syms, ht, hm, hc, hsy, ?_⟩
  have e10 : (1 : ℝ) * (10 : ℝ) ^ ((10 : ℝ) / 10) = 10 := by norm_num
  have h1 : (27 / 10 : ℝ) ≤ Real.exp 1 := by have := Real.exp_one_gt_d9; linarith
  have hsmall : ∀ y : ℝ, y ≤ 1 / 100 → Real.exp y ≤ 102 / 100 := by
    intro y hy
    have : 1 - y ≤ Real.exp (-y) := by have := Real.add_one_le_exp (-y); linarith
    rw [Real.exp_neg] at this
    have h0 := Real.exp_pos y
    have h3 : (99 / 100 : ℝ) ≤ (Real.exp y)⁻¹ := le_trans (by linarith) this
    have h4 : Real.exp y ≤ (99 / 100 : ℝ)⁻¹ := by
      rw [le_inv_comm₀ h0 (by norm_num)]; exact h3
    exact h4.trans (by norm_num)
  have hx : Real.exp (2⁻¹ ^ 32 * (1 / 10) * 10) * (Real.exp (-10) + Real.exp (-(250 * (1 / 10) * 10))) ≤ 1 / 10000 := by
    have h2 : Real.exp (-(10 : ℝ)) = (Real.exp 1 ^ 10)⁻¹ := by rw [← Real.exp_nat_mul, ← Real.exp_neg]; norm_num
    have h3 : Real.exp (-(250 * (1 / 10) * (10 : ℝ))) ≤ Real.exp (-12) := Real.exp_le_exp.2 (by norm_num)
    have h4 : Real.exp (-(12 : ℝ)) = (Real.exp 1 ^ 12)⁻¹ := by rw [← Real.exp_nat_mul, ← Real.exp_neg]; norm_num
    have h5 : (Real.exp 1 ^ 10)⁻¹ ≤ ((27 / 10 : ℝ) ^ 10)⁻¹ := inv_anti₀ (by positivity) (pow_le_pow_left₀ (by norm_num) h1 10)
    have h6 : (Real.exp 1 ^ 12)⁻¹ ≤ ((27 / 10 : ℝ) ^ 12)⁻¹ := inv_anti₀ (by positivity) (pow_le_pow_left₀ (by norm_num) h1 12)
    rw [h2]
    rw [h4] at h3
    refine (mul_le_mul (hsmall _ (by norm_num)) (add_le_add h5 (h3.trans h6)) (by positivity) (by norm_num)).trans ?_
    norm_num
  obtain ⟨-, H3⟩ := H2 hz hi vitFloats53 _ 0 (zpow_nonneg (by norm_num) _) vitFloats53_ok _ softFloats_exist 10 1 (1 / 10) 4 10
    (Real.exp (2⁻¹ ^ 32 * (1 / 10) * 10) * (Real.exp (-10) + Real.exp (-(250 * (1 / 10) * 10)))) _ jk
    one_pos ((pow_le_pow_of_le_one (by norm_num) (by norm_num) (show 4 ≤ 500 by decide)).trans (by norm_num)) (by norm_num) (by norm_num) e10.symm rfl rfl (lt_of_le_of_lt hx (by norm_num))
  refine (H3 1 (by decide)).trans ?_
  have hA : Real.exp (softErr ((2 : ℝ) ^ (-53 : ℤ)) 0 ([1, 0, 1, 1, 0, 0, 1, 0].length + 3) 2 * (1 / 10) * 10) ≤ 102 / 100 := by
    refine hsmall _ ?_
    have := C133_soft_double (δ := 0) (zpow_nonneg (by norm_num) _) le_rfl (T := 11) (n := 2) (by decide)
    have e : (([1, 0, 1, 1, 0, 0, 1, 0].length + 3 : ℕ)) = 11 := rfl
    rw [e]
    norm_num at this ⊢
    linarith
  have hT : 8 * ((([1, 0, 1, 1, 0, 0, 1, 0].length : ℕ) : ℝ) + 2) * Real.exp (-(4 ^ 2 * 10)) ≤ 1 / 10 ^ 30 := by
    have h2 : Real.exp (-(4 ^ 2 * 10 : ℝ)) = (Real.exp 1 ^ 160)⁻¹ := by rw [← Real.exp_nat_mul, ← Real.exp_neg]; norm_num
    have h5 : (Real.exp 1 ^ 160)⁻¹ ≤ ((27 / 10 : ℝ) ^ 160)⁻¹ := inv_anti₀ (by positivity) (pow_le_pow_left₀ (by norm_num) h1 160)
    rw [h2]
    refine (mul_le_mul_of_nonneg_left h5 (by positivity)).trans ?_
    norm_num
  have hx0 : 0 ≤ Real.exp (2⁻¹ ^ 32 * (1 / 10) * 10) * (Real.exp (-10) + Real.exp (-(250 * (1 / 10) * 10))) := by positivity
  revert hx hx0
  generalize Real.exp (2⁻¹ ^ 32 * (1 / 10) * 10) * (Real.exp (-10) + Real.exp (-(250 * (1 / 10) * 10))) = x
  intro hx hx0
  have hd : (9998 / 10000 : ℝ) ≤ 1 - 2 * x := by linarith
  have b1 : x ^ 5 / (1 - 2 * x) ^ 2 ≤ (1 / 10000) ^ 5 / (9998 / 10000) ^ 2 :=
    div_le_div₀ (by norm_num) (pow_le_pow_left₀ hx0 hx 5) (by norm_num) (pow_le_pow_left₀ (by norm_num) hd 2)
  have b2 : 2 * x ^ 6 * (1 + 19 * x + 41 * x ^ 2 + 24 * x ^ 3 + 4 * x ^ 4) / (1 - 2 * x) ≤
      2 * (1 / 10000) ^ 6 * (1 + 19 * (1 / 10000) + 41 * (1 / 10000) ^ 2 + 24 * (1 / 10000) ^ 3 + 4 * (1 / 10000) ^ 4) / (9998 / 10000) := by
    gcongr
  have hb : bit57 x ≤ (1 / 10000) ^ 5 / (9998 / 10000) ^ 2 +
      2 * (1 / 10000) ^ 6 * (1 + 19 * (1 / 10000) + 41 * (1 / 10000) ^ 2 + 24 * (1 / 10000) ^ 3 + 4 * (1 / 10000) ^ 4) / (9998 / 10000) := by
    unfold bit57
    exact add_le_add b1 b2
  refine (add_le_add (mul_le_mul hA hb ?_ (by norm_num)) hT).trans ?_
  · unfold bit57
    have : 0 < 1 - 2 * x := by linarith
    positivity
  · norm_num

end Verif
