import Verif.Props.TurboRoundtrip
/-
C106: decoding does not depend on which codeword was sent (`map_decode`, `turbo_decode`).
-/
namespace Verif

open ProbabilityTheory

theorem neg_one_pow_bit {b : Nat} (hb : b < 2) : ((-1 : ℝ)) ^ b = -bpskAmp b := by
  rcases bpsk_cases hb with ⟨h, rfl⟩ | ⟨h, rfl⟩ <;> rw [h] <;> norm_num

theorem neg_one_pow_sq (b : Nat) : ((-1 : ℝ)) ^ b * (-1) ^ b = 1 := by
  rw [← mul_pow]; norm_num

theorem gaussian_flip {a b : Nat} (ha : a < 2) (hb : b < 2) (v : NNReal) (y : ℝ) :
    gaussianPDFReal (bpskAmp ((a + b) % 2)) v ((-1) ^ b * y) = gaussianPDFReal (bpskAmp a) v y := by
  rw [bpsk_add ha hb, neg_one_pow_bit hb]
  unfold gaussianPDFReal
  congr 2
  have := bpsk_sq hb
  rw [show (-bpskAmp b * y - -(bpskAmp a * bpskAmp b)) ^ 2 = (bpskAmp b * bpskAmp b) * (y - bpskAmp a) ^ 2 by ring,
    this, one_mul]

theorem llrProb_flip (a b : Fin 2) (l : ℝ) : llrProb ((-1) ^ (b : Nat) * l) (a + b) = llrProb l a := by
  have e : Real.exp (-l) = 1 / Real.exp l := by rw [Real.exp_neg, one_div]
  have hp := Real.exp_pos l
  fin_cases a <;> fin_cases b <;> simp [llrProb] <;> rw [Real.exp_neg] <;> field_simp <;> ring

variable {t : Trellis} {L : Nat}

theorem jointDensity_flip (hw : t.WF) (hk : t.k = 1) (hl : t.Linear) (v : NNReal) (m : Fin L → Fin 2)
    {ys yp lam ys' yp' lam' : Nat → ℝ}
    (h1 : ∀ i : Fin L, ys' i = (-1) ^ codeBit t m i 0 * ys i) (h2 : ∀ i : Fin L, yp' i = (-1) ^ codeBit t m i 1 * yp i)
    (h3 : ∀ i : Fin L, lam' i = (-1) ^ (m i : Nat) * lam i) (us : Fin L → Fin 2) :
    jointDensity t v ys' yp' lam' (us + m) = jointDensity t v ys yp lam us := by
  unfold jointDensity
  refine Finset.prod_congr rfl (fun i _ => ?_)
  rw [h1, h2, h3, codeBit_add hw hk hl, codeBit_add hw hk hl, gaussian_flip (codeBit_lt ..) (codeBit_lt ..),
    gaussian_flip (codeBit_lt ..) (codeBit_lt ..), Pi.add_apply, llrProb_flip]

theorem bitDensity_flip (hw : t.WF) (hk : t.k = 1) (hl : t.Linear) (v : NNReal) (m : Fin L → Fin 2)
    {ys yp lam ys' yp' lam' : Nat → ℝ}
    (h1 : ∀ i : Fin L, ys' i = (-1) ^ codeBit t m i 0 * ys i) (h2 : ∀ i : Fin L, yp' i = (-1) ^ codeBit t m i 1 * yp i)
    (h3 : ∀ i : Fin L, lam' i = (-1) ^ (m i : Nat) * lam i) (i : Fin L) (b : Fin 2) :
    bitDensity t v L ys' yp' lam' i (b + m i) = bitDensity t v L ys yp lam i b := by
  unfold bitDensity
  symm
  refine Finset.sum_bij (fun us _ => us + m) ?_ ?_ ?_ ?_
  · intro us hus
    simp only [Finset.mem_filter, Finset.mem_univ, true_and] at hus ⊢
    rw [Pi.add_apply, hus]
  · intro a _ b _ hab
    exact add_right_cancel hab
  · intro us hus
    simp only [Finset.mem_filter, Finset.mem_univ, true_and] at hus
    refine ⟨us - m, ?_, sub_add_cancel us m⟩
    simp only [Finset.mem_filter, Finset.mem_univ, true_and]
    rw [Pi.sub_apply, hus]; exact add_sub_cancel_right b (m i)
  · intro us _
    exact (jointDensity_flip hw hk hl v m h1 h2 h3 us).symm

theorem posteriorBit_flip (hw : t.WF) (hk : t.k = 1) (hl : t.Linear) (v : NNReal) (m : Fin L → Fin 2)
    {ys yp lam ys' yp' lam' : Nat → ℝ}
    (h1 : ∀ i : Fin L, ys' i = (-1) ^ codeBit t m i 0 * ys i) (h2 : ∀ i : Fin L, yp' i = (-1) ^ codeBit t m i 1 * yp i)
    (h3 : ∀ i : Fin L, lam' i = (-1) ^ (m i : Nat) * lam i) (i : Fin L) :
    posteriorBit t v L ys' yp' lam' i = (-1) ^ (m i : Nat) * posteriorBit t v L ys yp lam i := by
  have e0 := bitDensity_flip hw hk hl v m h1 h2 h3 i 0
  have e1 := bitDensity_flip hw hk hl v m h1 h2 h3 i 1
  unfold posteriorBit
  have hm : m i = 0 ∨ m i = 1 := by have := (m i).2; omega
  rcases hm with hm | hm
  · rw [hm] at e0 e1 ⊢
    simp only [add_zero] at e0 e1
    rw [e0, e1]; simp
  · rw [hm] at e0 e1 ⊢
    rw [show (0 : Fin 2) + 1 = 1 by decide] at e0
    rw [show (1 : Fin 2) + 1 = 0 by decide] at e1
    rw [e0, e1, ← inv_div, Real.log_inv]; simp

theorem posteriorAt_flip (hw : t.WF) (hk : t.k = 1) (hl : t.Linear) (v : NNReal) {msg : List Nat} (hL : msg.length = L)
    (hb : ∀ b ∈ msg, b < 2) {ys yp lam ys' yp' lam' : Nat → ℝ}
    (h1 : ∀ i < L, ys' i = (-1) ^ ((t.outputs 0 msg).getD i 0) * ys i)
    (h2 : ∀ i < L, yp' i = (-1) ^ ((t.outputs 1 msg).getD i 0) * yp i)
    (h3 : ∀ i < L, lam' i = (-1) ^ (msg.getD i 0) * lam i) {i : Nat} (hi : i < L) :
    posteriorAt t v L ys' yp' lam' i = (-1) ^ (msg.getD i 0) * posteriorAt t v L ys yp lam i := by
  unfold posteriorAt
  rw [dif_pos hi, dif_pos hi, posteriorBit_flip hw hk hl v (bitsFn msg L) (ys := ys) (yp := yp) (lam := lam)
    (fun i => by rw [codeBit_bitsFn t hL hb]; exact h1 i i.2) (fun i => by rw [codeBit_bitsFn t hL hb]; exact h2 i i.2)
    (fun i => by rw [bitsFn_val hL hb]; exact h3 i i.2), bitsFn_val hL hb]

/-- C106, `map_decode`: flip the signs of the received values and a priori LLRs by the codeword of a message; the LLRs
returned are flipped by the message, and the decisions are XORed with it wherever the LLR is not exactly zero (where
both decisions are 0). -/
theorem C106_map (hw : t.WF) (hk : t.k = 1) (hl : t.Linear) (hn : 2 ≤ t.n) {v : NNReal} (hv : 0 < v)
    {msg : List Nat} (hL : msg.length = L) (hb : ∀ b ∈ msg, b < 2)
    {ys yp lint ys' yp' lint' : List ℝ} (hy : ys.length = L) (hyp : L ≤ yp.length) (hll : lint.length = L)
    (hy' : ys'.length = L) (hyp' : L ≤ yp'.length) (hll' : lint'.length = L)
    (h1 : ∀ i < L, ys'.getD i 0 = (-1) ^ ((t.outputs 0 msg).getD i 0) * ys.getD i 0)
    (h2 : ∀ i < L, yp'.getD i 0 = (-1) ^ ((t.outputs 1 msg).getD i 0) * yp.getD i 0)
    (h3 : ∀ i < L, lint'.getD i 0 = (-1) ^ (msg.getD i 0) * lint.getD i 0) :
    ∃ llr bits llr' bits', mapDecode t v ys yp lint "decode" = .ok (llr, bits) ∧
      mapDecode t v ys' yp' lint' "decode" = .ok (llr', bits') ∧ llr.length = L ∧ llr'.length = L ∧
      bits.length = L ∧ bits'.length = L ∧
      (∀ i < L, llr'.getD i 0 = (-1) ^ (msg.getD i 0) * llr.getD i 0) ∧
      (∀ i < L, llr.getD i 0 ≠ 0 → bits'.getD i 0 = (bits.getD i 0 + msg.getD i 0) % 2) ∧
      (∀ i < L, llr.getD i 0 = 0 → bits'.getD i 0 = 0 ∧ bits.getD i 0 = 0) := by
  have key : ∀ i < L, mapLlr t v ys' yp' lint' L i = (-1) ^ (msg.getD i 0) * mapLlr t v ys yp lint L i := by
    intro i hi
    have := posteriorAt_flip hw hk hl v hL hb h1 h2 h3 hi
    unfold posteriorAt at this
    rw [dif_pos hi, dif_pos hi, posteriorBit_eq t v hv, posteriorBit_eq t v hv] at this
    exact this
  refine ⟨_, _, _, _, mapDecode_ok hw hk hn hy hyp hll _, mapDecode_ok hw hk hn hy' hyp' hll' _, by simp, by simp,
    by simp, by simp, ?_, ?_, ?_⟩
  · intro i hi
    rw [getD_map_range' (L := L) _ _ hi, getD_map_range' (L := L) _ _ hi, key i hi]
  · intro i hi hne
    rw [getD_map_range' (L := L) _ _ hi] at hne
    rw [getD_map_range' (L := L) _ _ hi, getD_map_range' (L := L) _ _ hi, key i hi]
    have hm : msg.getD i 0 < 2 := by
      rw [List.getD_eq_getElem _ _ (by omega)]; exact hb _ (List.getElem_mem _)
    simp only [if_true]
    rcases lt_or_gt_of_ne hne with h | h
    · have hm' : msg.getD i 0 = 0 ∨ msg.getD i 0 = 1 := by omega
      rcases hm' with e | e <;> rw [e]
      · rw [pow_zero, one_mul, if_neg (by linarith)]
      · rw [pow_one, if_pos (by linarith), if_neg (by linarith)]
    · have hm' : msg.getD i 0 = 0 ∨ msg.getD i 0 = 1 := by omega
      rcases hm' with e | e <;> rw [e]
      · rw [pow_zero, one_mul, if_pos h]
      · rw [pow_one, if_neg (by linarith), if_pos h]
  · intro i hi h0
    rw [getD_map_range' (L := L) _ _ hi] at h0
    rw [getD_map_range' (L := L) _ _ hi, getD_map_range' (L := L) _ _ hi, key i hi]
    simp [h0]

/-- C106, `turbo_decode`: flip the signs of the received values by the turbo codeword of a message; the decoded bits are
XORed with the message, except where the final a posteriori LLR is exactly zero (there both decisions are 0). -/
theorem C106_turbo (hw : t.WF) (hk : t.k = 1) (hl : t.Linear) (hs : t.Systematic) (hn : 2 ≤ t.n) {v : NNReal} (hv : 0 < v)
    {msg : List Nat} (hL : msg.length = L) (hb : ∀ b ∈ msg, b < 2) {p : List Nat} (hp : p.Perm (List.range L))
    {ys yp1 yp2 lint ys' yp1' yp2' lint' : List ℝ} (hy : ys.length = L) (hy1 : L ≤ yp1.length) (hy2 : L ≤ yp2.length)
    (hll : lint.length = L) (hy' : ys'.length = L) (hy1' : L ≤ yp1'.length) (hy2' : L ≤ yp2'.length)
    (hll' : lint'.length = L)
    (h0 : ∀ i < L, lint'.getD i 0 = (-1) ^ (msg.getD i 0) * lint.getD i 0)
    (h1 : ∀ i < L, ys'.getD i 0 = (-1) ^ (msg.getD i 0) * ys.getD i 0)
    (h2 : ∀ i < L, yp1'.getD i 0 = (-1) ^ ((t.outputs 1 msg).getD i 0) * yp1.getD i 0)
    (h3 : ∀ i < L, yp2'.getD i 0 = (-1) ^ ((t.outputs 1 (p.map fun i => msg.getD i 0)).getD i 0) * yp2.getD i 0)
    (n : Nat) :
    ∃ bits bits', turboDecode t v ys yp1 yp2 ((n : Int) + 1) p (some lint) = .ok bits ∧
      turboDecode t v ys' yp1' yp2' ((n : Int) + 1) p (some lint') = .ok bits' ∧ bits.length = L ∧ bits'.length = L ∧
      ∀ i < L,
        (turboPosterior t v L p (fun i => ys.getD i 0) (fun i => yp1.getD i 0) (fun i => yp2.getD i 0)
          (turboPrior t v L p (fun i => ys.getD i 0) (fun i => yp1.getD i 0) (fun i => yp2.getD i 0) (fun i => lint.getD i 0) n)
          (p.idxOf i) ≠ 0 → bits'.getD i 0 = (bits.getD i 0 + msg.getD i 0) % 2) ∧
        (turboPosterior t v L p (fun i => ys.getD i 0) (fun i => yp1.getD i 0) (fun i => yp2.getD i 0)
          (turboPrior t v L p (fun i => ys.getD i 0) (fun i => yp1.getD i 0) (fun i => yp2.getD i 0) (fun i => lint.getD i 0) n)
          (p.idxOf i) = 0 → bits'.getD i 0 = 0 ∧ bits.getD i 0 = 0) := by
  have hpl : p.length = L := by simpa using hp.length_eq
  have hplt : ∀ j < L, p.getD j 0 < L := by
    intro j hj
    rw [List.getD_eq_getElem _ _ (by omega)]
    exact perm_lt hp (List.getElem_mem _)
  have hout0 : ∀ (m : List Nat), m.length = L → (∀ b ∈ m, b < 2) → ∀ i < L, (t.outputs 0 m).getD i 0 = m.getD i 0 := by
    intro m hm hmb i hi
    unfold Trellis.outputs
    rw [getD_map_range' (L := m.length) _ _ (by omega)]
    have hlt : ∀ u ∈ m.take i, u < 2 ^ t.k := by
      intro u hu; rw [hk]; exact hmb u (List.mem_of_mem_take hu)
    refine hs _ (hw.runState_lt (by positivity) hlt) _ ?_
    rw [List.getD_eq_getElem _ _ (by omega)]; exact hmb _ (List.getElem_mem _)
  set im := p.map fun i => msg.getD i 0 with him
  have himL : im.length = L := by simp [him, hpl]
  have himd : ∀ j < L, im.getD j 0 = msg.getD (p.getD j 0) 0 := by
    intro j hj
    rw [him, List.getD_eq_getElem _ _ (by simp; omega), List.getElem_map, List.getD_eq_getElem p _ (by omega)]
  have himb : ∀ b ∈ im, b < 2 := by
    intro b hbm
    rw [him, List.mem_map] at hbm
    obtain ⟨i, hi, rfl⟩ := hbm
    have := perm_lt hp hi
    rw [List.getD_eq_getElem _ _ (by omega)]
    exact hb _ (List.getElem_mem _)
  have second : ∀ lam lam' : Nat → ℝ, (∀ i < L, lam' i = (-1) ^ (msg.getD i 0) * lam i) → ∀ j < L,
      turboSecond t v L p (fun i => ys'.getD i 0) (fun i => yp1'.getD i 0) lam' j =
        (-1) ^ (im.getD j 0) * turboSecond t v L p (fun i => ys.getD i 0) (fun i => yp1.getD i 0) lam j := by
    intro lam lam' hlam j hj
    unfold turboSecond
    rw [posteriorAt_flip hw hk hl v hL hb (ys := fun i => ys.getD i 0) (yp := fun i => yp1.getD i 0) (lam := lam)
      (fun i hi => by rw [hout0 msg hL hb i hi]; exact h1 i hi) h2 hlam (hplt j hj), hlam _ (hplt j hj), himd j hj]
    ring
  have post : ∀ lam lam' : Nat → ℝ, (∀ i < L, lam' i = (-1) ^ (msg.getD i 0) * lam i) → ∀ j < L,
      turboPosterior t v L p (fun i => ys'.getD i 0) (fun i => yp1'.getD i 0) (fun i => yp2'.getD i 0) lam' j =
        (-1) ^ (im.getD j 0) *
          turboPosterior t v L p (fun i => ys.getD i 0) (fun i => yp1.getD i 0) (fun i => yp2.getD i 0) lam j := by
    intro lam lam' hlam j hj
    unfold turboPosterior
    exact posteriorAt_flip hw hk hl v himL himb
      (fun i hi => by rw [hout0 im himL himb i hi, himd i hi]; exact h1 _ (hplt i hi)) h3
      (second lam lam' hlam) hj
  have prior : ∀ k, ∀ i < L,
      turboPrior t v L p (fun i => ys'.getD i 0) (fun i => yp1'.getD i 0) (fun i => yp2'.getD i 0) (fun i => lint'.getD i 0) k i =
        (-1) ^ (msg.getD i 0) *
      turboPrior t v L p (fun i => ys.getD i 0) (fun i => yp1.getD i 0) (fun i => yp2.getD i 0) (fun i => lint.getD i 0) k i := by
    intro k
    induction k with
    | zero => exact h0
    | succ k ih =>
      intro i hi
      obtain ⟨a, b⟩ := getD_idxOf hp hi
      show turboPosterior .. - turboSecond .. = _ * (turboPosterior .. - turboSecond ..)
      rw [post _ _ ih _ a, second _ _ ih _ a, himd _ a, b]
      ring
  obtain ⟨bits, e1, e2, e3⟩ := C53_turbo hw hk hn hv hp hy hy1 hy2 hll n
  obtain ⟨bits', f1, f2, f3⟩ := C53_turbo hw hk hn hv hp hy' hy1' hy2' hll' n
  refine ⟨bits, bits', e1, f1, e2, f2, ?_⟩
  intro i hi
  obtain ⟨a, b⟩ := getD_idxOf hp hi
  have g1 := e3 (p.idxOf i) a
  have g2 := f3 (p.idxOf i) a
  rw [post _ _ (prior n) _ a, himd _ a] at g2
  rw [b] at g1 g2
  have hm : msg.getD i 0 < 2 := by
    rw [List.getD_eq_getElem _ _ (by omega)]; exact hb _ (List.getElem_mem _)
  have opt : ∀ (l : List Nat) (j x : Nat), l[j]? = some x → l.getD j 0 = x := by
    intro l j x h; rw [List.getD_eq_getElem?_getD, h, Option.getD_some]
  have q1 := opt _ _ _ g1
  have q2 := opt _ _ _ g2
  rw [q1, q2]
  clear q1 q2 g1 g2
  generalize turboPosterior t v L p (fun i => ys.getD i 0) (fun i => yp1.getD i 0) (fun i => yp2.getD i 0)
          (turboPrior t v L p (fun i => ys.getD i 0) (fun i => yp1.getD i 0) (fun i => yp2.getD i 0) (fun i => lint.getD i 0) n)
          (p.idxOf i) = X
  refine ⟨fun hne => ?_, fun h0 => by simp [h0]⟩
  have hm' : msg.getD i 0 = 0 ∨ msg.getD i 0 = 1 := by omega
  rcases lt_or_gt_of_ne hne with h | h <;> rcases hm' with e | e <;> rw [e]
  · rw [pow_zero, one_mul, if_neg (by linarith)]
  · rw [pow_one, if_pos (by linarith), if_neg (by linarith)]
  · rw [pow_zero, one_mul, if_pos h]
  · rw [pow_one, if_neg (by linarith), if_pos h]

/-- The hypotheses are met: message 1 0 1 over the (1, 7/5) trellis with the interleaver 2 0 1. -/
example (v : NNReal) (hv : 0 < v) : ∃ bits bits',
    turboDecode turboTrellis v [9, -1, 2] [3, 1, 5] [1, 2, 7, -4] 4 [2, 0, 1] (some [0, -3, 0]) = .ok bits ∧
    turboDecode turboTrellis v [-9, -1, -2] [-3, -1, -5] [-1, 2, -7, 6] 4 [2, 0, 1] (some [0, -3, 0]) = .ok bits' ∧
    bits.length = 3 ∧ bits'.length = 3 := by
  obtain ⟨t, e, hw, hl, hs, hk, hn2, -⟩ := C92_trellis (M := 2) (f := 5) (g0 := 1) (g1 := 7) (by norm_num) (by norm_num) (by norm_num) (by norm_num) (by norm_num)
  have e' : mkTrellisLegacy 2 [1, 7] 5 true = .ok turboTrellis := by decide +kernel
  rw [e'] at e
  cases e
  have o1 : turboTrellis.outputs 1 [1, 0, 1] = [1, 1, 1] := by decide
  have o2 : turboTrellis.outputs 1 ([2, 0, 1].map fun i => [1, 0, 1].getD i 0) = [1, 0, 1] := by decide
  have cases3 : ∀ i < 3, i = 0 ∨ i = 1 ∨ i = 2 := by omega
  obtain ⟨bits, bits', a, b, c, d, -⟩ := C106_turbo hw hk hl hs (by omega) hv (msg := [1, 0, 1]) (L := 3) rfl (by decide)
    (p := [2, 0, 1]) (by decide)
    (ys := [9, -1, 2]) (yp1 := [3, 1, 5]) (yp2 := [1, 2, 7, -4]) (lint := [0, -3, 0])
    (ys' := [-9, -1, -2]) (yp1' := [-3, -1, -5]) (yp2' := [-1, 2, -7, 6]) (lint' := [0, -3, 0])
    rfl (by simp) (by simp) rfl rfl (by simp) (by simp) rfl
    (by intro i hi; rcases cases3 i hi with rfl | rfl | rfl <;> norm_num)
    (by intro i hi; rcases cases3 i hi with rfl | rfl | rfl <;> norm_num)
    (by rw [o1]; intro i hi; rcases cases3 i hi with rfl | rfl | rfl <;> norm_num)
    (by rw [o2]; intro i hi; rcases cases3 i hi with rfl | rfl | rfl <;> norm_num) 3
  exact ⟨bits, bits', a, b, c, d⟩

end Verif
