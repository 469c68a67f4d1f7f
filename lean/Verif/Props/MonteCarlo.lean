import Verif.Spec.MonteCarlo
import Verif.Props.Links
import Mathlib.Probability.StrongLaw
/-
C124: the bit error ratio reported by `link_performance` as an estimate of the bit error probability.
-/
namespace Verif
open MeasureTheory ProbabilityTheory Finset Filter Topology

variable {σ Sym V G C : Type}

theorem map_range_sum (e : Nat → Int) (n : Nat) : ((List.range n).map e).sum = ∑ i ∈ range n, e i := by
  induction n with
  | zero => simp
  | succ n ih => rw [List.range_succ, List.map_append, List.sum_append, ih, sum_range_succ]; simp

theorem sent_range {Chunk : σ → Int → σ → Prop} {ws : Nat → σ} {e : Nat → Int} (h : ∀ i, Chunk (ws i) (e i) (ws (i + 1))) (n : Nat) :
    Sent Chunk (ws 0) ((List.range n).map e) (ws n) := by
  induction n generalizing ws e with
  | zero => exact .nil _
  | succ n ih =>
    rw [List.range_succ_eq_map, List.map_cons, List.map_map]
    exact .cons (h 0) (ih (ws := fun i => ws (i + 1)) (e := fun i => e (i + 1)) fun i => h (i + 1))

/-- The first number of chunks at which the loop stops. -/
theorem exists_stop {chunk : Nat} (hc : 0 < chunk) {sendMax errMin : Int} (hs : 0 < sendMax) (he : 0 < errMin) (e : Nat → Int) :
    ∃ τ : Nat, 1 ≤ τ ∧ (sendMax ≤ τ * chunk ∨ errMin ≤ ∑ i ∈ range τ, e i) ∧ ∀ j < τ, (j : Int) * chunk < sendMax ∧ ∑ i ∈ range j, e i < errMin := by
  classical
  have hex : ∃ j : Nat, sendMax ≤ j * chunk ∨ errMin ≤ ∑ i ∈ range j, e i := by
    refine ⟨sendMax.toNat, Or.inl ?_⟩
    have : (1 : Int) ≤ chunk := by exact_mod_cast hc
    have : (sendMax.toNat : Int) = sendMax := Int.toNat_of_nonneg hs.le
    rw [this]
    nlinarith
  refine ⟨Nat.find hex, ?_, Nat.find_spec hex, fun j hj => ?_⟩
  · rcases Nat.eq_zero_or_pos (Nat.find hex) with h | h
    · have := Nat.find_spec hex
      rw [h] at this
      simp at this
      omega
    · exact h
  · have := Nat.find_min hex hj
    push Not at this
    exact this

/-- Deterministic part: the ratio reported, for a given sequence of chunk errors. -/
theorem reportsBer {lk : Link σ Sym V G C} {bufLen : ℚ → Nat → Nat} {junk : σ → Nat → ℝ} (hB : 0 < lk.bitsPerSymbol) (hT : 0 < lk.nbTx) {rate : ℚ}
    (hr : 0 < rate) {d : Nat} (hd : linkDivider lk.bitsPerSymbol lk.nbTx rate = .ok d) {sc : Int} {snr : ℝ} {w w1 : σ}
    (hset : lk.setSnr w snr rate lk.Es = .ok w1) {e : Nat → Int} (hrun : ChunkErrors lk (bufLen rate) junk (linkChunk d sc) w1 e)
    {sendMax errMin : Int} {τ : Nat} (h1 : 1 ≤ τ) (h2 : sendMax ≤ τ * (linkChunk d sc : Nat) ∨ errMin ≤ ∑ i ∈ range τ, e i)
    (h3 : ∀ j < τ, (j : Int) * (linkChunk d sc : Nat) < sendMax ∧ ∑ i ∈ range j, e i < errMin) :
    ReportsBer lk bufLen junk snr sendMax errMin sc rate w (((∑ i ∈ range τ, e i : Int) : ℚ) / (τ * (linkChunk d sc : Nat))) := by
  obtain ⟨ws, rfl, hws⟩ := hrun
  have hone : OneSnr (lk.Chunk (bufLen rate) junk (linkChunk d sc)) (linkChunk d sc) sendMax errMin (ws 0) ((List.range τ).map e) (ws τ) := by
    refine ⟨sent_range hws τ, ?_, ?_, ?_⟩
    · intro h0
      have := congrArg List.length h0
      simp at this
      omega
    · rw [map_range_sum, List.length_map, List.length_range]
      exact h2
    · intro j hj
      rw [List.length_map, List.length_range] at hj
      rw [← List.map_take, List.take_range, min_eq_left hj.le, map_range_sum]
      exact h3 j hj
  have hval : ((((List.range τ).map e).sum : Int) : ℚ) / (((List.range τ).map e).length * (linkChunk d sc : Nat)) =
      ((∑ i ∈ range τ, e i : Int) : ℚ) / (τ * (linkChunk d sc : Nat)) := by
    rw [map_range_sum, List.length_map, List.length_range]
  refine ⟨ws τ, ?_⟩
  obtain ⟨d', hd', hiff⟩ := C81_performance lk bufLen junk sendMax.toNat [snr] sendMax errMin (some sc) rate w (ws τ)
    [((∑ i ∈ range τ, e i : Int) : ℚ) / (τ * (linkChunk d sc : Nat))] hB hT hr le_rfl
  rw [hd] at hd'
  cases hd'
  rw [hiff, ← hval]
  by_cases hlt : ((List.range τ).map e).sum < errMin
  · exact SnrRun.stop hset hone hlt
  · exact SnrRun.go hset hone (not_lt.1 hlt) (.nil _)

theorem reportsBer_unique {lk : Link σ Sym V G C} {bufLen : ℚ → Nat → Nat} {junk : σ → Nat → ℝ} {snr : ℝ} {sendMax errMin sc : Int} {rate : ℚ} {w : σ}
    {b b' : ℚ} (h : ReportsBer lk bufLen junk snr sendMax errMin sc rate w b) (h' : ReportsBer lk bufLen junk snr sendMax errMin sc rate w b') : b = b' := by
  obtain ⟨w1, h1⟩ := h
  obtain ⟨w2, h2⟩ := h'
  rw [h1] at h2
  have := Except.ok.inj h2
  simp only [Prod.mk.injEq, List.cons.injEq] at this
  exact this.1.1

theorem cast_sum (e : Nat → Int) (n : Nat) : (((∑ i ∈ range n, e i : Int) : ℚ) : ℝ) = ∑ i ∈ range n, (e i : ℝ) := by
  push_cast
  rfl

/-- C124, consistency: let the errors of successive chunks be pairwise independent, identically distributed and integrable.  Almost surely, whatever the
sequence of settings `send_max → ∞`, `err_min → ∞`, the ratio reported tends to the bit error probability (the mean number of errors of a chunk divided by
its length). -/
theorem C124_consistent {lk : Link σ Sym V G C} {bufLen : ℚ → Nat → Nat} {junk : σ → Nat → ℝ} (hB : 0 < lk.bitsPerSymbol) (hT : 0 < lk.nbTx) {rate : ℚ}
    (hr : 0 < rate) (sc : Int) (snr : ℝ) :
    ∃ d, linkDivider lk.bitsPerSymbol lk.nbTx rate = .ok d ∧
    ∀ {Ω : Type*} [MeasurableSpace Ω] {P : Measure Ω} {w w1 : Ω → σ} {e : Nat → Ω → Int},
      (∀ᵐ ω ∂P, lk.setSnr (w ω) snr rate lk.Es = .ok (w1 ω) ∧ ChunkErrors lk (bufLen rate) junk (linkChunk d sc) (w1 ω) fun i => e i ω) →
      Integrable (fun ω => (e 0 ω : ℝ)) P → (Pairwise fun i j => IndepFun (fun ω => (e i ω : ℝ)) (fun ω => (e j ω : ℝ)) P) →
      (∀ i, IdentDistrib (fun ω => (e i ω : ℝ)) (fun ω => (e 0 ω : ℝ)) P P) →
      ∀ᵐ ω ∂P, ∀ sendMax errMin : Nat → Int, (∀ j, 0 < sendMax j) → (∀ j, 0 < errMin j) → Tendsto sendMax atTop atTop → Tendsto errMin atTop atTop →
        ∃ ber : Nat → ℚ, (∀ j, ReportsBer lk bufLen junk snr (sendMax j) (errMin j) sc rate (w ω) (ber j)) ∧
          Tendsto (fun j => (ber j : ℝ)) atTop (𝓝 ((∫ ω, (e 0 ω : ℝ) ∂P) / (linkChunk d sc : ℝ))) := by
  obtain ⟨d, hd, hc, -⟩ := C80_chunk (B := lk.bitsPerSymbol) (T := lk.nbTx) hB hT hr sc
  refine ⟨d, hd, ?_⟩
  intro Ω _ P w w1 e hrun hint hind hid
  filter_upwards [hrun, strong_law_ae_real (fun i ω => (e i ω : ℝ)) hint hind hid] with ω hω hlim
  intro sendMax errMin hs he hts hte
  choose τ h1 h2 h3 using fun j => exists_stop hc (hs j) (he j) (fun i => e i ω)
  refine ⟨fun j => ((∑ i ∈ range (τ j), e i ω : Int) : ℚ) / (τ j * (linkChunk d sc : Nat)), fun j => ?_, ?_⟩
  · exact reportsBer hB hT hr hd hω.1 hω.2 (h1 j) (h2 j) (h3 j)
  · have hτ : Tendsto τ atTop atTop := by
      rw [tendsto_atTop]
      intro K
      have hb : ∃ B : Int, ∀ j < K, ∑ i ∈ range j, e i ω ≤ B := by
        refine ⟨∑ j ∈ range K, |∑ i ∈ range j, e i ω|, fun j hj => ?_⟩
        exact (le_abs_self _).trans (single_le_sum (f := fun j => |∑ i ∈ range j, e i ω|) (fun i _ => abs_nonneg _) (mem_range.2 hj))
      obtain ⟨B, hB⟩ := hb
      filter_upwards [hts.eventually_gt_atTop ((K : Int) * (linkChunk d sc : Nat)), hte.eventually_gt_atTop B] with j hj1 hj2
      by_contra hlt
      push Not at hlt
      rcases h2 j with h | h
      · have : ((τ j : Nat) : Int) * (linkChunk d sc : Nat) ≤ (K : Int) * (linkChunk d sc : Nat) :=
          mul_le_mul_of_nonneg_right (by exact_mod_cast hlt.le) (by positivity)
        omega
      · have := hB _ hlt
        omega
    have h4 := (hlim.comp hτ).div_const (linkChunk d sc : ℝ)
    refine h4.congr fun j => ?_
    simp only [Function.comp]
    push_cast
    rw [div_div]

/-! ### Bias -/

/-- Number of chunks sent when the loop is not stopped by errors. -/
theorem exists_chunks {chunk : Nat} (hc : 0 < chunk) {sendMax : Int} (hs : 0 < sendMax) :
    ∃ T : Nat, 1 ≤ T ∧ sendMax ≤ T * chunk ∧ ∀ j : Nat, j < T → (j : Int) * chunk < sendMax := by
  obtain ⟨T, h1, h2, h3⟩ := exists_stop hc hs (errMin := 1) (by norm_num) (fun _ => 0)
  refine ⟨T, h1, ?_, fun j hj => (h3 j hj).1⟩
  rcases h2 with h | h
  · exact h
  · simp at h

/-- Running averages: errors per bit after `j` chunks. -/
noncomputable def runAvg (chunk : Nat) (x : Nat → ℝ) (j : Nat) : ℝ := (∑ i ∈ range j, x i) / (j * chunk)

/-- The ratio reported, written as the ratio of the full run plus the changes caused by stopping early. -/
noncomputable def stoppedAvg (chunk : Nat) (errMin : Int) (T : Nat) (x : Nat → ℝ) : ℝ :=
  runAvg chunk x T + ∑ j ∈ Ico 1 T, open Classical in if (errMin : ℝ) ≤ ∑ i ∈ range j, x i then runAvg chunk x j - runAvg chunk x (j + 1) else 0

theorem stoppedAvg_eq {chunk : Nat} (hc : 0 < chunk) {sendMax errMin : Int} {e : Nat → Int} (he : ∀ i, 0 ≤ e i) {T : Nat} (hT : sendMax ≤ T * chunk)
    (hT' : ∀ j : Nat, j < T → (j : Int) * chunk < sendMax) {τ : Nat} (h1 : 1 ≤ τ) (h2 : sendMax ≤ τ * chunk ∨ errMin ≤ ∑ i ∈ range τ, e i)
    (h3 : ∀ j < τ, (j : Int) * chunk < sendMax ∧ ∑ i ∈ range j, e i < errMin) :
    ((((∑ i ∈ range τ, e i : Int) : ℚ) / (τ * chunk) : ℚ) : ℝ) = stoppedAvg chunk errMin T fun i => (e i : ℝ) := by
  classical
  have hτT : τ ≤ T := by
    by_contra hlt
    push Not at hlt
    have := (h3 T hlt).1
    omega
  have hiff : ∀ j ∈ Ico 1 T, ((errMin : ℝ) ≤ ∑ i ∈ range j, (e i : ℝ) ↔ τ ≤ j) := by
    intro j hj
    rw [mem_Ico] at hj
    have hcast : (∑ i ∈ range j, (e i : ℝ)) = ((∑ i ∈ range j, e i : Int) : ℝ) := by push_cast; rfl
    rw [hcast, Int.cast_le]
    constructor
    · intro h
      by_contra hlt
      push Not at hlt
      have := (h3 j hlt).2
      omega
    · intro hle
      have hτ : errMin ≤ ∑ i ∈ range τ, e i := by
        rcases h2 with h | h
        · have := hT' τ (by omega)
          omega
        · exact h
      exact hτ.trans (sum_le_sum_of_subset_of_nonneg (range_subset_range.2 hle) fun i _ _ => he i)
  have hsum : (∑ j ∈ Ico 1 T, if (errMin : ℝ) ≤ ∑ i ∈ range j, (e i : ℝ) then runAvg chunk (fun i => (e i : ℝ)) j - runAvg chunk (fun i => (e i : ℝ)) (j + 1) else 0) =
      runAvg chunk (fun i => (e i : ℝ)) τ - runAvg chunk (fun i => (e i : ℝ)) T := by
    rw [sum_congr rfl (g := fun j => if τ ≤ j then runAvg chunk (fun i => (e i : ℝ)) j - runAvg chunk (fun i => (e i : ℝ)) (j + 1) else 0) (by
      intro j hj
      by_cases h : τ ≤ j
      · rw [if_pos h, if_pos ((hiff j hj).2 h)]
      · rw [if_neg h, if_neg (fun h' => h ((hiff j hj).1 h'))]), ← sum_filter]
    have : (Ico 1 T).filter (fun j => τ ≤ j) = Ico τ T := by
      ext j
      simp only [mem_filter, mem_Ico]
      omega
    rw [this]
    have hIco := sum_Ico_sub (fun j => -runAvg chunk (fun i => (e i : ℝ)) j) hτT
    rw [show runAvg chunk (fun i => (e i : ℝ)) τ - runAvg chunk (fun i => (e i : ℝ)) T =
      -runAvg chunk (fun i => (e i : ℝ)) T - -runAvg chunk (fun i => (e i : ℝ)) τ by ring, ← hIco]
    exact sum_congr rfl fun j _ => by ring
  unfold stoppedAvg
  rw [hsum]
  unfold runAvg
  push_cast
  ring

section
variable {Ω : Type*} [MeasurableSpace Ω] {P : Measure Ω} [IsProbabilityMeasure P] {X : Nat → Ω → ℝ} {μ : ℝ}

omit [IsProbabilityMeasure P] in
theorem integral_runAvg (hi : ∀ i, Integrable (X i) P) (hμ : ∀ i, ∫ ω, X i ω ∂P = μ) {chunk T : Nat} (hc : 0 < chunk) (hT : 1 ≤ T) :
    Integrable (fun ω => runAvg chunk (fun i => X i ω) T) P ∧ ∫ ω, runAvg chunk (fun i => X i ω) T ∂P = μ / chunk := by
  have hs : Integrable (fun ω => ∑ i ∈ range T, X i ω) P := integrable_finsetSum _ fun i _ => hi i
  refine ⟨hs.div_const _, ?_⟩
  unfold runAvg
  rw [integral_div, integral_finsetSum _ fun i _ => hi i, sum_congr rfl fun i _ => hμ i, sum_const, card_range, nsmul_eq_mul]
  have : (T : ℝ) ≠ 0 := by positivity
  have : (chunk : ℝ) ≠ 0 := by positivity
  field_simp

theorem early_stop_nonneg (hm : ∀ i, Measurable (X i)) (hi : ∀ i, Integrable (X i) P) (hμ : ∀ i, ∫ ω, X i ω ∂P = μ) (hind : iIndepFun X P)
    {chunk j : Nat} (hj : 1 ≤ j) (r : ℝ) :
    Integrable (fun ω => open Classical in if r ≤ ∑ i ∈ range j, X i ω then runAvg chunk (fun i => X i ω) j - runAvg chunk (fun i => X i ω) (j + 1) else 0) P ∧
    0 ≤ ∫ ω, (open Classical in if r ≤ ∑ i ∈ range j, X i ω then runAvg chunk (fun i => X i ω) j - runAvg chunk (fun i => X i ω) (j + 1) else 0) ∂P := by
  classical
  set S : Ω → ℝ := fun ω => ∑ i ∈ range j, X i ω with hS
  have hSm : Measurable S := Finset.measurable_fun_sum _ fun i _ => hm i
  have hSi : Integrable S P := integrable_finsetSum _ fun i _ => hi i
  have hSμ : ∫ ω, S ω ∂P = j * μ := by
    rw [hS, integral_finsetSum _ fun i _ => hi i, sum_congr rfl fun i _ => hμ i, sum_const, card_range, nsmul_eq_mul]
  set A : Set Ω := {ω | r ≤ S ω} with hA
  have hAm : MeasurableSet A := measurableSet_le measurable_const hSm
  set k : ℝ := 1 / (j * (j + 1) * chunk) with hk
  have hk0 : 0 ≤ k := by positivity
  have hjR : (j : ℝ) ≠ 0 := by positivity
  have hform : (fun ω => if r ≤ ∑ i ∈ range j, X i ω then runAvg chunk (fun i => X i ω) j - runAvg chunk (fun i => X i ω) (j + 1) else 0) =
      fun ω => k * (A.indicator S ω - j * A.indicator (X j) ω) := by
    funext ω
    by_cases h : r ≤ S ω
    · rw [if_pos h, Set.indicator_of_mem (show ω ∈ A from h), Set.indicator_of_mem (show ω ∈ A from h)]
      unfold runAvg
      rw [sum_range_succ, hk]
      show S ω / _ - (S ω + _) / _ = _
      rcases Nat.eq_zero_or_pos chunk with rfl | hc
      · simp
      · have : (chunk : ℝ) ≠ 0 := by positivity
        have : (j : ℝ) + 1 ≠ 0 := by positivity
        push_cast
        field_simp
        ring
    · rw [if_neg h, Set.indicator_of_notMem (show ω ∉ A from h), Set.indicator_of_notMem (show ω ∉ A from h)]
      simp
  have i1 : Integrable (A.indicator S) P := hSi.indicator hAm
  have i2 : Integrable (A.indicator (X j)) P := (hi j).indicator hAm
  rw [hform]
  refine ⟨(i1.sub (i2.const_mul _)).const_mul _, ?_⟩
  rw [integral_const_mul, integral_sub i1 (i2.const_mul _), integral_const_mul]
  refine mul_nonneg hk0 ?_
  -- independence of the next chunk
  have hindep : IndepFun S (X j) P := by
    have := hind.indepFun_finsetSum_of_notMem hm (s := range j) (i := j) (by simp)
    convert this using 1
    funext ω
    simp [hS]
  have hg : Measurable (fun x : ℝ => if r ≤ x then (1 : ℝ) else 0) := Measurable.ite (measurableSet_le measurable_const measurable_id) measurable_const measurable_const
  have hindep2 : IndepFun (fun ω => if r ≤ S ω then (1 : ℝ) else 0) (X j) P := hindep.comp hg measurable_id
  have e1 : ∫ ω, A.indicator (X j) ω ∂P = (∫ ω, (if r ≤ S ω then (1 : ℝ) else 0) ∂P) * μ := by
    rw [← hμ j, ← hindep2.integral_fun_mul_eq_mul_integral (hg.comp hSm).aestronglyMeasurable (hm j).aestronglyMeasurable]
    refine integral_congr_ae (Eventually.of_forall fun ω => ?_)
    by_cases h : r ≤ S ω
    · simp only [if_pos h, one_mul]
      exact Set.indicator_of_mem (show ω ∈ A from h) _
    · simp only [if_neg h, zero_mul]
      exact Set.indicator_of_notMem (show ω ∉ A from h) _
  have i3 : Integrable (fun ω => if r ≤ S ω then (1 : ℝ) else 0) P :=
    Integrable.of_bound (hg.comp hSm).aestronglyMeasurable 1 (Eventually.of_forall fun ω => by
      split <;> simp)
  rw [e1]
  rcases le_total (j * μ) r with hrj | hrj
  · -- on the event the sum exceeds its mean
    have : (j : ℝ) * ((∫ ω, (if r ≤ S ω then (1 : ℝ) else 0) ∂P) * μ) = ∫ ω, (if r ≤ S ω then (1 : ℝ) else 0) * (j * μ) ∂P := by
      rw [integral_mul_const]; ring
    rw [this, ← integral_sub i1 (i3.mul_const _)]
    refine integral_nonneg fun ω => ?_
    dsimp only [Pi.zero_apply]
    by_cases h : r ≤ S ω
    · rw [if_pos h, Set.indicator_of_mem (show ω ∈ A from h)]; linarith
    · rw [if_neg h, Set.indicator_of_notMem (show ω ∉ A from h)]; simp
  · -- outside the event the sum is below its mean
    have : (j : ℝ) * ((∫ ω, (if r ≤ S ω then (1 : ℝ) else 0) ∂P) * μ) = ∫ ω, (if r ≤ S ω then (1 : ℝ) else 0) * (j * μ) ∂P := by
      rw [integral_mul_const]; ring
    rw [this]
    have h0 : ∫ ω, (S ω - j * μ) ∂P = 0 := by
      rw [integral_sub hSi (integrable_const _), hSμ]
      simp
    rw [← integral_sub i1 (i3.mul_const _)]
    refine le_of_eq_of_le h0.symm ?_
    refine integral_mono (hSi.sub (integrable_const _)) (i1.sub (i3.mul_const _)) fun ω => ?_
    dsimp only [Pi.sub_apply]
    by_cases h : r ≤ S ω
    · rw [if_pos h, Set.indicator_of_mem (show ω ∈ A from h)]; linarith
    · rw [if_neg h, Set.indicator_of_notMem (show ω ∉ A from h)]
      push Not at h
      linarith

end

/-- C124, bias: when the errors of the chunks are independent, non-negative and have the same mean, the mean of the ratio reported is at least the bit error
probability, whatever `send_max` and `err_min`: stopping at `err_min` errors can only bias the estimate upwards. -/
theorem C124_bias {lk : Link σ Sym V G C} {bufLen : ℚ → Nat → Nat} {junk : σ → Nat → ℝ} (hB : 0 < lk.bitsPerSymbol) (hT : 0 < lk.nbTx) {rate : ℚ}
    (hr : 0 < rate) (sc : Int) (snr : ℝ) :
    ∃ d, linkDivider lk.bitsPerSymbol lk.nbTx rate = .ok d ∧
    ∀ {Ω : Type*} [MeasurableSpace Ω] {P : Measure Ω} [IsProbabilityMeasure P] {w w1 : Ω → σ} {e : Nat → Ω → Int},
      (∀ᵐ ω ∂P, lk.setSnr (w ω) snr rate lk.Es = .ok (w1 ω) ∧ ChunkErrors lk (bufLen rate) junk (linkChunk d sc) (w1 ω) fun i => e i ω) →
      (∀ i ω, 0 ≤ e i ω) → (∀ i, Measurable (e i)) → (∀ i, Integrable (fun ω => (e i ω : ℝ)) P) → (∀ i, ∫ ω, (e i ω : ℝ) ∂P = ∫ ω, (e 0 ω : ℝ) ∂P) →
      iIndepFun (fun i ω => (e i ω : ℝ)) P →
      ∀ sendMax errMin : Int, 0 < sendMax → 0 < errMin →
        ∃ ber : Ω → ℚ, (∀ᵐ ω ∂P, ReportsBer lk bufLen junk snr sendMax errMin sc rate (w ω) (ber ω)) ∧
          Integrable (fun ω => (ber ω : ℝ)) P ∧ (∫ ω, (e 0 ω : ℝ) ∂P) / (linkChunk d sc : ℝ) ≤ ∫ ω, (ber ω : ℝ) ∂P := by
  obtain ⟨d, hd, hc, -⟩ := C80_chunk (B := lk.bitsPerSymbol) (T := lk.nbTx) hB hT hr sc
  refine ⟨d, hd, ?_⟩
  intro Ω _ P _ w w1 e hrun he0 hm hi hμ hind sendMax errMin hs he
  obtain ⟨T, t1, t2, t3⟩ := exists_chunks hc hs
  choose τ h1 h2 h3 using fun ω => exists_stop hc hs he (fun i => e i ω)
  have hmR : ∀ i, Measurable (fun ω => (e i ω : ℝ)) := fun i => (measurable_from_top (f := fun z : Int => (z : ℝ))).comp (hm i)
  have hval : (fun ω => ((((∑ i ∈ range (τ ω), e i ω : Int) : ℚ) / (τ ω * (linkChunk d sc : Nat)) : ℚ) : ℝ)) =
      fun ω => stoppedAvg (linkChunk d sc) errMin T fun i => (e i ω : ℝ) := by
    funext ω
    exact stoppedAvg_eq hc (fun i => he0 i ω) t2 t3 (h1 ω) (h2 ω) (h3 ω)
  obtain ⟨a1, a2⟩ := integral_runAvg hi hμ hc t1
  have hB : ∀ j ∈ Ico 1 T, _ := fun j hj => early_stop_nonneg hmR hi hμ hind (chunk := linkChunk d sc) (j := j) (mem_Ico.1 hj).1 (errMin : ℝ)
  refine ⟨fun ω => ((∑ i ∈ range (τ ω), e i ω : Int) : ℚ) / (τ ω * (linkChunk d sc : Nat)), ?_, ?_⟩
  · filter_upwards [hrun] with ω hω
    exact reportsBer ‹_› hT hr hd hω.1 hω.2 (h1 ω) (h2 ω) (h3 ω)
  · rw [hval]
    have i1 := integrable_finsetSum (Ico 1 T) fun j hj => (hB j hj).1
    refine ⟨a1.add i1, ?_⟩
    unfold stoppedAvg
    rw [integral_add a1 i1, a2, integral_finsetSum _ fun j hj => (hB j hj).1]
    have := sum_nonneg fun j hj => (hB j hj).2
    linarith

/-- C124, no early stopping: when `err_min ≥ send_max` (and no chunk has more errors than bits) the ratio reported is the average over a fixed number of chunks; its mean is the
bit error probability, and for pairwise independent chunks its variance is that of one chunk divided by the number `T` of chunks (and the square of the chunk length). -/
theorem C124_unbiased {lk : Link σ Sym V G C} {bufLen : ℚ → Nat → Nat} {junk : σ → Nat → ℝ} (hB : 0 < lk.bitsPerSymbol) (hT : 0 < lk.nbTx) {rate : ℚ}
    (hr : 0 < rate) (sc : Int) (snr : ℝ) :
    ∃ d, linkDivider lk.bitsPerSymbol lk.nbTx rate = .ok d ∧
    ∀ {Ω : Type*} [MeasurableSpace Ω] {P : Measure Ω} [IsProbabilityMeasure P] {w w1 : Ω → σ} {e : Nat → Ω → Int},
      (∀ᵐ ω ∂P, lk.setSnr (w ω) snr rate lk.Es = .ok (w1 ω) ∧ ChunkErrors lk (bufLen rate) junk (linkChunk d sc) (w1 ω) fun i => e i ω) →
      (∀ i ω, e i ω ≤ linkChunk d sc) → (∀ i, MemLp (fun ω => (e i ω : ℝ)) 2 P) →
      (∀ i, IdentDistrib (fun ω => (e i ω : ℝ)) (fun ω => (e 0 ω : ℝ)) P P) →
      ∀ sendMax errMin : Int, 0 < sendMax → sendMax ≤ errMin →
        ∃ (T : Nat) (ber : Ω → ℚ), (T : Int) * linkChunk d sc < sendMax + linkChunk d sc ∧ sendMax ≤ T * linkChunk d sc ∧
          (∀ᵐ ω ∂P, ReportsBer lk bufLen junk snr sendMax errMin sc rate (w ω) (ber ω)) ∧
          MemLp (fun ω => (ber ω : ℝ)) 2 P ∧ ∫ ω, (ber ω : ℝ) ∂P = (∫ ω, (e 0 ω : ℝ) ∂P) / (linkChunk d sc : ℝ) ∧
          ((Pairwise fun i j => IndepFun (fun ω => (e i ω : ℝ)) (fun ω => (e j ω : ℝ)) P) →
            variance (fun ω => (ber ω : ℝ)) P = variance (fun ω => (e 0 ω : ℝ)) P / (T * (linkChunk d sc : ℝ) ^ 2)) := by
  obtain ⟨d, hd, hc, -⟩ := C80_chunk (B := lk.bitsPerSymbol) (T := lk.nbTx) hB hT hr sc
  refine ⟨d, hd, ?_⟩
  intro Ω _ P _ w w1 e hrun hle hL hid sendMax errMin hs he
  obtain ⟨T, t1, t2, t3⟩ := exists_chunks hc hs
  have hcI : (0 : Int) < linkChunk d sc := by exact_mod_cast hc
  have hsum : ∀ ω (j : Nat), ∑ i ∈ range j, e i ω ≤ j * linkChunk d sc := by
    intro ω j
    refine (sum_le_sum fun i _ => hle i ω).trans ?_
    rw [sum_const, card_range, nsmul_eq_mul]
  have h3 : ∀ ω, ∀ j < T, (j : Int) * (linkChunk d sc : Nat) < sendMax ∧ ∑ i ∈ range j, e i ω < errMin := by
    intro ω j hj
    have := t3 j hj
    have := hsum ω j
    exact ⟨t3 j hj, by omega⟩
  have hi : ∀ i, Integrable (fun ω => (e i ω : ℝ)) P := fun i => (hL i).integrable (by norm_num)
  have hμ : ∀ i, ∫ ω, (e i ω : ℝ) ∂P = ∫ ω, (e 0 ω : ℝ) ∂P := fun i => (hid i).integral_eq
  obtain ⟨-, a2⟩ := integral_runAvg hi hμ hc t1
  have hval : (fun ω => ((((∑ i ∈ range T, e i ω : Int) : ℚ) / (T * (linkChunk d sc : Nat)) : ℚ) : ℝ)) = fun ω => runAvg (linkChunk d sc) (fun i => (e i ω : ℝ)) T := by
    funext ω
    unfold runAvg
    push_cast
    rfl
  refine ⟨T, fun ω => ((∑ i ∈ range T, e i ω : Int) : ℚ) / (T * (linkChunk d sc : Nat)), ?_, t2, ?_, ?_, ?_, ?_⟩
  · have := t3 (T - 1) (by omega)
    have e1 : ((T - 1 : Nat) : Int) = T - 1 := by omega
    rw [e1] at this
    linarith
  · filter_upwards [hrun] with ω hω
    exact reportsBer hB hT hr hd hω.1 hω.2 t1 (Or.inl t2) (h3 ω)
  · rw [hval]
    have hsumL : MemLp (fun ω => ∑ i ∈ range T, (e i ω : ℝ)) 2 P := memLp_finset_sum (range T) fun i _ => hL i
    have e1 : (fun ω => runAvg (linkChunk d sc) (fun i => (e i ω : ℝ)) T) = fun ω => (1 / (T * (linkChunk d sc : ℝ))) * ∑ i ∈ range T, (e i ω : ℝ) := by
      funext ω
      unfold runAvg
      ring
    rw [e1]
    exact hsumL.const_mul _
  · rw [hval, a2]
  · intro hind
    rw [hval]
    have e1 : (fun ω => runAvg (linkChunk d sc) (fun i => (e i ω : ℝ)) T) = fun ω => (1 / (T * (linkChunk d sc : ℝ))) * (∑ i ∈ range T, fun ω => (e i ω : ℝ)) ω := by
      funext ω
      unfold runAvg
      rw [Finset.sum_apply]
      ring
    rw [e1, variance_const_mul, IndepFun.variance_sum (fun i _ => hL i) (fun i _ j _ hij => hind hij), sum_congr rfl fun i _ => (hid i).variance_eq, sum_const, card_range,
      nsmul_eq_mul]
    have : (T : ℝ) ≠ 0 := by positivity
    have : (linkChunk d sc : ℝ) ≠ 0 := by positivity
    field_simp

end Verif
