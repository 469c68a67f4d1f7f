import Verif.Lemmas.Turbo
import Verif.Props.TurboEncode
/-
C50-C53: /repo/commpy/channelcoding/turbo.py.
-/
namespace Verif

theorem gaussian_pair (v : NNReal) (c0 c1 : Nat) (r0 r1 : ℝ) :
    ProbabilityTheory.gaussianPDFReal (bpskAmp c0) v r0 * ProbabilityTheory.gaussianPDFReal (bpskAmp c1) v r1 =
      ((Real.sqrt (2 * Real.pi * v))⁻¹ * (Real.sqrt (2 * Real.pi * v))⁻¹) * branchProb c0 c1 r0 r1 v := by
  unfold ProbabilityTheory.gaussianPDFReal branchProb bpskAmp
  simp only
  rw [mul_mul_mul_comm, ← Real.exp_add]
  congr 2
  ring

theorem llrProb_eq_pri (lint : List ℝ) (τ : Nat) (u : Fin 2) : llrProb (lint.getD τ 0) u = pri lint τ u := by
  have he := Real.exp_pos (lint.getD τ 0)
  have hu : u = 0 ∨ u = 1 := by omega
  rcases hu with rfl | rfl
  · simp [llrProb, pri]
  · simp only [llrProb, pri, if_true, Fin.val_one, one_ne_zero, if_false]
    field_simp
    ring

theorem bitDensity_eq (t : Trellis) (v : NNReal) (L : Nat) (ys yp lint : List ℝ) (i : Fin L) (b : Fin 2) :
    bitDensity t v L (fun i => ys.getD i 0) (fun i => yp.getD i 0) (fun i => lint.getD i 0) i b =
      ((Real.sqrt (2 * Real.pi * v))⁻¹ * (Real.sqrt (2 * Real.pi * v))⁻¹) ^ L * gsum (wgt t v ys yp lint) t.next b L i 0 0 := by
  rw [← gsum_eq, Finset.mul_sum]
  unfold bitDensity
  refine Finset.sum_congr rfl fun us _ => ?_
  unfold jointDensity pathProd
  rw [show ((Real.sqrt (2 * Real.pi * v))⁻¹ * (Real.sqrt (2 * Real.pi * v))⁻¹) ^ L =
    ∏ _i : Fin L, ((Real.sqrt (2 * Real.pi * v))⁻¹ * (Real.sqrt (2 * Real.pi * v))⁻¹) by simp, ← Finset.prod_mul_distrib]
  refine Finset.prod_congr rfl fun j _ => ?_
  rw [mul_assoc, gaussian_pair, llrProb_eq_pri, Nat.zero_add]
  simp only [wgt, gam, codeBit, Trellis.runState]
  ring

/-- The decoder's LLR is the a posteriori LLR. -/
theorem posteriorBit_eq (t : Trellis) (v : NNReal) (hv : 0 < v) (L : Nat) (ys yp lint : List ℝ) (i : Fin L) :
    posteriorBit t v L (fun i => ys.getD i 0) (fun i => yp.getD i 0) (fun i => lint.getD i 0) i = mapLlr t v ys yp lint L i := by
  have hv' : (0 : ℝ) < v := hv
  have hK : 0 < ((Real.sqrt (2 * Real.pi * v))⁻¹ * (Real.sqrt (2 * Real.pi * v))⁻¹) ^ L := by
    have := Real.sqrt_pos.2 (show 0 < 2 * Real.pi * v by positivity)
    positivity
  unfold posteriorBit mapLlr
  rw [bitDensity_eq, bitDensity_eq, mul_div_mul_left _ _ hK.ne']
  rfl

/-- C51: for every trellis with one input bit and at least two output bits per step, every block of received values, all a
priori LLRs and every positive noise variance, the values returned by `map_decode` are the a posteriori LLRs of the input bits. -/
theorem C51_posterior {t : Trellis} (h : t.WF) (hk : t.k = 1) (hn : 2 ≤ t.n) (v : NNReal) (hv : 0 < v) {L : Nat} {ys yp lint : List ℝ}
    (hy : ys.length = L) (hyp : L ≤ yp.length) (hl : lint.length = L) (mode : String) :
    ∃ llr bits, mapDecode t v ys yp lint mode = .ok (llr, bits) ∧ llr.length = L ∧ ∀ i : Fin L, llr[(i : Nat)]? =
      some (posteriorBit t v L (fun i => ys.getD i 0) (fun i => yp.getD i 0) (fun i => lint.getD i 0) i) := by
  refine ⟨_, _, mapDecode_ok h hk hn hy hyp hl mode, by simp, fun i => ?_⟩
  rw [posteriorBit_eq t v hv]
  simp

/-- C52: in 'decode' mode the bits returned are 1 exactly when 1 is more probable than 0 given the received values; in every other
mode they are all 0. -/
theorem C52_decisions {t : Trellis} (h : t.WF) (hk : t.k = 1) (hn : 2 ≤ t.n) (v : NNReal) (hv : 0 < v) {L : Nat} {ys yp lint : List ℝ}
    (hy : ys.length = L) (hyp : L ≤ yp.length) (hl : lint.length = L) (mode : String) :
    ∃ llr bits, mapDecode t v ys yp lint mode = .ok (llr, bits) ∧ bits.length = L ∧
      (mode ≠ "decode" → bits = List.replicate L 0) ∧
      (mode = "decode" → ∀ i : Fin L, (bits[(i : Nat)]? = some 0 ∨ bits[(i : Nat)]? = some 1) ∧
        (bits[(i : Nat)]? = some 1 ↔ bitDensity t v L (fun i => ys.getD i 0) (fun i => yp.getD i 0) (fun i => lint.getD i 0) i 0 <
          bitDensity t v L (fun i => ys.getD i 0) (fun i => yp.getD i 0) (fun i => lint.getD i 0) i 1)) := by
  refine ⟨_, _, mapDecode_ok h hk hn hy hyp hl mode, by simp, ?_, ?_⟩
  · intro hm
    simp [hm]
  · intro hm i
    have hv' : (0 : ℝ) < v := hv
    have hK : 0 < ((Real.sqrt (2 * Real.pi * v))⁻¹ * (Real.sqrt (2 * Real.pi * v))⁻¹) ^ L := by
      have := Real.sqrt_pos.2 (show 0 < 2 * Real.pi * v by positivity)
      positivity
    have hnx : ∀ s < 2 ^ t.M, ∀ u < 2, t.next s u < 2 ^ t.M := fun s hs u hu => h.next_lt hs (by rw [hk]; omega)
    have hg : ∀ b : Fin 2, 0 < gsum (wgt t v ys yp lint) t.next b L i 0 0 := fun b =>
      gsum_pos _ (fun τ s _ u _ => wgt_pos ..) hnx b b.2 _ _ _ _ i.2 (by positivity)
    simp only [hm, if_true, List.getElem?_map, List.getElem?_range i.2, Option.map_some]
    have hiff : mapLlr t v ys yp lint L i > 0 ↔ bitDensity t v L (fun i => ys.getD i 0) (fun i => yp.getD i 0) (fun i => lint.getD i 0) i 0 <
          bitDensity t v L (fun i => ys.getD i 0) (fun i => yp.getD i 0) (fun i => lint.getD i 0) i 1 := by
      rw [bitDensity_eq, bitDensity_eq, mul_lt_mul_iff_right₀ hK]
      unfold mapLlr
      have h0 := hg 0
      have h1 := hg 1
      simp only [Fin.val_zero, Fin.val_one] at h0 h1 ⊢
      rw [gt_iff_lt, Real.log_pos_iff (div_pos h1 h0).le, lt_div_iff₀ h0, one_mul]
    rw [← hiff]
    by_cases hp : mapLlr t v ys yp lint L i > 0
    · simp [hp]
    · simp [hp]

/-- C51: a priori LLRs of another length (other than one) are rejected. -/
theorem C51_bad_priors (t : Trellis) (σ2 : ℝ) {ys lint : List ℝ} (yp : List ℝ) (mode : String) (h : lint.length ≠ ys.length) (h1 : lint.length ≠ 1) :
    mapDecode t σ2 ys yp lint mode = .error .valueError := by
  have : mapPriors ys.length lint = .error .valueError := by
    simp only [mapPriors]
    rw [if_neg h]
    rcases lint with _ | ⟨a, _ | ⟨b, l⟩⟩
    · rfl
    · simp at h1
    · rfl
  simp only [mapDecode, this, bind, Except.bind]

/-- C51: fewer parity values than systematic values are rejected. -/
theorem C51_short_parity {t : Trellis} (h : t.WF) (hn : 2 ≤ t.n) (σ2 : ℝ) {ys yp lint : List ℝ} (hl : lint.length = ys.length)
    (hy : yp.length < ys.length) (mode : String) : mapDecode t σ2 ys yp lint mode = .error .indexError := by
  obtain ⟨m, hm⟩ : ∃ m, ys.length = m + 1 := ⟨ys.length - 1, by omega⟩
  have hp : ∃ pr, mapPriors ys.length lint = .ok pr := by
    simp only [mapPriors]
    rw [if_pos hl]
    exact ⟨_, rfl⟩
  obtain ⟨pr, hp⟩ := hp
  have h2M : 0 < 2 ^ t.M := by positivity
  have h2k : 0 < 2 ^ t.k := by positivity
  have hin : ∀ st, backInput t σ2 ys yp pr (([List.replicate (2 ^ t.M) (1 : ℝ)] : List (List ℝ)).headD []) m 0 st 0 = .error .indexError := by
    intro st
    have e1 : tableGet t.nextTable 0 0 = .ok (t.next 0 0) := tableGet_ok h.next_len (fun row hr => (h.next_row row hr).1) h2M h2k
    have e2 : tableGet t.outTable 0 0 = .ok (t.out 0 0) := tableGet_ok h.out_len (fun row hr => (h.out_row row hr).1) h2M h2k
    have e3 := dec2bitarray_ok (h.out_lt h2M h2k)
    have e4 := pyGet_ok (l := toBits t.n (t.out 0 0)) (i := 1) (by simp; omega)
    have e5 := pyGet_ok (l := toBits t.n (t.out 0 0)) (i := 0) (by simp; omega)
    have e6 := pyGet_ok (l := ys) (i := m) (by omega)
    have e7 := pyGet_out (l := yp) (i := m) (by omega)
    simp only [Nat.cast_one, Nat.cast_zero] at e4 e5
    simp only [backInput, e1, e2, e3, e4, e5, e6, e7, bind, Except.bind]
  have hcell : backCell t σ2 ys yp pr (([List.replicate (2 ^ t.M) (1 : ℝ)] : List (List ℝ)).headD []) m 0 = .error .indexError := by
    unfold backCell
    obtain ⟨K, hK⟩ : ∃ K, 2 ^ t.k = K + 1 := ⟨2 ^ t.k - 1, by omega⟩
    rw [hK, List.range_succ_eq_map, List.foldlM_cons, hin]
    rfl
  have hstep : backStep t σ2 ys yp pr ([List.replicate (2 ^ t.M) 1], []) m = .error .indexError := by
    unfold backStep
    obtain ⟨K, hK⟩ : ∃ K, 2 ^ t.M = K + 1 := ⟨2 ^ t.M - 1, by omega⟩
    have : (List.range (2 ^ t.M)).mapM (backCell t σ2 ys yp pr (([List.replicate (2 ^ t.M) (1 : ℝ)] : List (List ℝ)).headD []) m) = .error .indexError := by
      rw [show List.range (2 ^ t.M) = 0 :: (List.range K).map Nat.succ by rw [hK, List.range_succ_eq_map], List.mapM_cons, hcell]
      rfl
    simp only [this, bind, Except.bind]
  have hback : backwardRec t σ2 ys yp pr = .error .indexError := by
    unfold backwardRec
    rw [hm, List.range_succ, List.reverse_append, List.reverse_singleton, List.singleton_append, List.foldlM_cons, hstep]
    rfl
  simp only [mapDecode, hp, hback, bind, Except.bind]

/-- The hypotheses of C51 and C52 are met: the trellis of C50, three noisy values, some a priori knowledge. -/
example (v : NNReal) (hv : 0 < v) : ∃ llr bits, mapDecode turboTrellis v [9, -12, 1] [1, 3, -7] [0, 5, -2] "decode" = .ok (llr, bits) ∧ llr.length = 3 := by
  obtain ⟨llr, bits, h1, h2, -⟩ := C51_posterior turboTrellis_WF rfl (by decide) v hv (ys := [9, -12, 1]) (yp := [1, 3, -7]) (lint := [0, 5, -2]) (L := 3)
    (by simp) (by simp) (by simp) "decode"
  exact ⟨llr, bits, h1, h2⟩

end Verif
