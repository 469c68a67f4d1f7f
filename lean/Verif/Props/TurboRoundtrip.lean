import Verif.Props.TurboDecode
import Verif.Lemmas.TurboSign
import Verif.Props.TurboEncode
/-
C91, C92: `turbo_decode` recovers the message when every received value has the right sign; round trip with `turbo_encode`.
-/
namespace Verif

/-- The bits of a list as a function. -/
def bitsFn (msg : List Nat) (L : Nat) : Fin L → Fin 2 := fun i => Fin.ofNat 2 (msg.getD i 0)

theorem bitsFn_val {msg : List Nat} {L : Nat} (hL : msg.length = L) (hb : ∀ b ∈ msg, b < 2) (i : Fin L) : (bitsFn msg L i : Nat) = msg.getD i 0 := by
  unfold bitsFn
  rw [Fin.val_ofNat]
  refine Nat.mod_eq_of_lt ?_
  rw [List.getD_eq_getElem _ _ (by omega)]
  exact hb _ (List.getElem_mem _)

theorem codeBit_bitsFn (t : Trellis) {msg : List Nat} {L : Nat} (hL : msg.length = L) (hb : ∀ b ∈ msg, b < 2) (i : Fin L) (j : Nat) :
    codeBit t (bitsFn msg L) i j = (t.outputs j msg).getD i 0 := by
  have e : (List.ofFn (bitsFn msg L)).map Fin.val = msg := by
    refine List.ext_getElem (by simp [hL]) fun k h1 h2 => ?_
    rw [List.getElem_map, List.getElem_ofFn, bitsFn_val hL hb, List.getD_eq_getElem _ _ h2]
  unfold codeBit Trellis.outputs
  rw [getD_map_range' (L := msg.length) _ _ (by omega), List.map_take, e, bitsFn_val hL hb]

variable {t : Trellis} (hw : t.WF) (hk : t.k = 1) (hl : t.Linear) (hs : t.Systematic) {v : NNReal} (hv : 0 < v) {L : Nat}

include hw hk hl hs hv in
theorem posteriorAt_right {msg : List Nat} (hL : msg.length = L) (hb : ∀ b ∈ msg, b < 2) (ys yp lam : Nat → ℝ)
    (h1 : ∀ i < L, 0 ≤ bpskAmp (msg.getD i 0) * lam i) (h2 : ∀ i < L, 0 < bpskAmp (msg.getD i 0) * ys i)
    (h3 : ∀ i < L, 0 ≤ bpskAmp ((t.outputs 1 msg).getD i 0) * yp i) :
    (∀ i < L, 0 < bpskAmp (msg.getD i 0) * posteriorAt t v L ys yp lam i) ∧
    (∀ i < L, 0 < bpskAmp (msg.getD i 0) * (posteriorAt t v L ys yp lam i - lam i)) := by
  have main : ∀ lam : Nat → ℝ, (∀ i < L, 0 ≤ bpskAmp (msg.getD i 0) * lam i) → ∀ i : Fin L, 0 < bpskAmp (msg.getD i 0) * posteriorBit t v L ys yp lam i := by
    intro lam h1 i
    have := posterior_right hw hk hl hs hv (bitsFn msg L) ys yp lam (fun i => by rw [bitsFn_val hL hb]; exact h1 i i.2)
      (fun i => by rw [bitsFn_val hL hb]; exact (h2 i i.2).le) (fun i => by rw [codeBit_bitsFn t hL hb]; exact h3 i i.2) i
      (by rw [bitsFn_val hL hb]; exact h2 i i.2)
    rwa [bitsFn_val hL hb] at this
  refine ⟨fun i hi => ?_, fun i hi => ?_⟩
  · unfold posteriorAt
    rw [dif_pos hi]
    exact main lam h1 ⟨i, hi⟩
  · unfold posteriorAt
    rw [dif_pos hi]
    have e := posterior_extrinsic t hv ys yp lam ⟨i, hi⟩
    rw [e]
    refine main (Function.update lam i 0) (fun j hj => ?_) ⟨i, hi⟩
    by_cases hji : j = i
    · rw [hji, Function.update_self, mul_zero]
    · rw [Function.update_of_ne hji]; exact h1 j hj

include hw hk hl hs hv in
/-- C91: if every received value has the sign of the transmitted symbol (strictly for the systematic values, parity values may be
zero, that is erased), `turbo_decode` returns the message: for every linear systematic trellis with one input bit, every message,
permutation, positive noise variance and number of iterations, whatever the amplitudes. -/
theorem C91_right_signs (hn : 2 ≤ t.n) {msg : List Nat} (hL : msg.length = L) (hb : ∀ b ∈ msg, b < 2) {p : List Nat} (hp : p.Perm (List.range L))
    {ys yp1 yp2 lint : List ℝ} (hy : ys.length = L) (hy1 : L ≤ yp1.length) (hy2 : L ≤ yp2.length) (hll : lint.length = L)
    (h0 : ∀ i < L, 0 ≤ bpskAmp (msg.getD i 0) * lint.getD i 0)
    (h1 : ∀ i < L, 0 < bpskAmp (msg.getD i 0) * ys.getD i 0)
    (h2 : ∀ i < L, 0 ≤ bpskAmp ((t.outputs 1 msg).getD i 0) * yp1.getD i 0)
    (h3 : ∀ i < L, 0 ≤ bpskAmp ((t.outputs 1 (p.map fun i => msg.getD i 0)).getD i 0) * yp2.getD i 0) {n : Int} (hn1 : 1 ≤ n) :
    turboDecode t v ys yp1 yp2 n p (some lint) = .ok msg := by
  obtain ⟨n, rfl⟩ : ∃ k : Nat, n = (k : Int) + 1 := ⟨(n - 1).toNat, by omega⟩
  have hpl : p.length = L := by simpa using hp.length_eq
  have hplt : ∀ j < L, p.getD j 0 < L := by
    intro j hj
    rw [List.getD_eq_getElem _ _ (by omega)]
    exact perm_lt hp (List.getElem_mem _)
  set im := p.map fun i => msg.getD i 0 with him
  have himL : im.length = L := by simp [him, hpl]
  have himd : ∀ j < L, im.getD j 0 = msg.getD (p.getD j 0) 0 := by
    intro j hj
    rw [him, List.getD_eq_getElem _ _ (by simp; omega), List.getElem_map, List.getD_eq_getElem p _ (by omega)]
  have himb : ∀ b ∈ im, b < 2 := by
    intro b hbm
    rw [him, List.mem_map] at hbm
    obtain ⟨i, hi, rfl⟩ := hbm
    have := perm_lt hp hi
    rw [List.getD_eq_getElem _ _ (by omega)]
    exact hb _ (List.getElem_mem _)
  -- one iteration
  have step : ∀ lam : Nat → ℝ, (∀ i < L, 0 ≤ bpskAmp (msg.getD i 0) * lam i) →
      (∀ j < L, 0 < bpskAmp (im.getD j 0) * turboPosterior t v L p (fun i => ys.getD i 0) (fun i => yp1.getD i 0) (fun i => yp2.getD i 0) lam j) ∧
      (∀ j < L, 0 < bpskAmp (im.getD j 0) * (turboPosterior t v L p (fun i => ys.getD i 0) (fun i => yp1.getD i 0) (fun i => yp2.getD i 0) lam j -
        turboSecond t v L p (fun i => ys.getD i 0) (fun i => yp1.getD i 0) lam j)) := by
    intro lam hlam
    have first := (posteriorAt_right hw hk hl hs hv hL hb (fun i => ys.getD i 0) (fun i => yp1.getD i 0) lam hlam h1 h2).2
    exact posteriorAt_right hw hk hl hs hv himL himb (fun j => ys.getD (p.getD j 0) 0) (fun i => yp2.getD i 0)
      (turboSecond t v L p (fun i => ys.getD i 0) (fun i => yp1.getD i 0) lam)
      (fun j hj => by rw [himd j hj]; exact (first _ (hplt j hj)).le) (fun j hj => by rw [himd j hj]; exact h1 _ (hplt j hj)) h3
  have prior : ∀ k, ∀ i < L, 0 ≤ bpskAmp (msg.getD i 0) *
      turboPrior t v L p (fun i => ys.getD i 0) (fun i => yp1.getD i 0) (fun i => yp2.getD i 0) (fun i => lint.getD i 0) k i := by
    intro k
    induction k with
    | zero => exact h0
    | succ k ih =>
      intro i hi
      obtain ⟨a, b⟩ := getD_idxOf hp hi
      have := (step _ ih).2 (p.idxOf i) a
      rw [himd _ a, b] at this
      exact this.le
  obtain ⟨bits, e1, e2, e3⟩ := C53_turbo hw hk hn hv hp hy hy1 hy2 hll n
  rw [e1]
  congr 1
  refine List.ext_getElem (by omega) fun i g1 g2 => ?_
  have hi : i < L := by omega
  obtain ⟨a, b⟩ := getD_idxOf hp hi
  have h4 := e3 (p.idxOf i) a
  have h5 := (step _ (prior n)).1 (p.idxOf i) a
  rw [himd _ a] at h5
  rw [b] at h4 h5
  rw [List.getElem?_eq_getElem g1, Option.some.injEq] at h4
  rw [h4, ← List.getD_eq_getElem _ 0 g2]
  rcases bpsk_cases (show msg.getD i 0 < 2 by rw [List.getD_eq_getElem _ _ g2]; exact hb _ (List.getElem_mem _)) with ⟨c, d⟩ | ⟨c, d⟩
  · rw [c, one_mul] at h5
    rw [if_pos h5, d]
  · rw [c] at h5
    rw [if_neg (by linarith), d]

/-- Coefficients of the first generator of a recursive systematic trellis in the backwards compatible construction. -/
theorem legacy_first_coef {M f d : Nat} (hf1 : 2 ^ M ≤ f) (hf2 : f < 2 ^ (M + 1)) (hd : d ≤ M) :
    polyCoef "LSB" (M + 1) (f ^^^ (f % 2 ^ M)) d = if d = 0 then 1 else 0 := by
  rw [polyCoef_xor]
  unfold polyCoef
  rw [if_neg (by decide), Nat.add_sub_cancel, if_neg (by decide)]
  rcases d with _ | d
  · have h1 : f % 2 ^ M < 2 ^ M := Nat.mod_lt _ (by positivity)
    have h2 : f / 2 ^ M = 1 := by
      rw [Nat.pow_succ] at hf2
      exact Nat.div_eq_of_lt_le (by omega) (by omega)
    rw [if_pos rfl, Nat.sub_zero, Nat.div_eq_of_lt h1, h2]
  · rw [if_neg (by omega)]
    have e : 2 ^ M = 2 ^ (M - (d + 1)) * (2 * 2 ^ d) := by
      rw [← Nat.pow_succ', ← Nat.pow_add]; congr 1; omega
    rw [e, Nat.mod_mul_right_div_self, Nat.mod_mul_right_mod]
    omega

/-- C92: the trellises of the backwards compatible constructor `Trellis(array([M]), array([[g0, g1]]), feedback, 'rsc')` whose
feedback polynomial has degree `M` (as an integer, `2^M ≤ feedback < 2^(M+1)`) are well-formed, linear and systematic. -/
theorem C92_trellis {M f g0 g1 : Nat} (hM : 0 < M) (hf1 : 2 ^ M ≤ f) (hf2 : f < 2 ^ (M + 1)) (hg0 : g0 < 2 ^ (M + 1)) (hg1 : g1 < 2 ^ (M + 1)) :
    ∃ t, mkTrellisLegacy M [g0, g1] f true = .ok t ∧ t.WF ∧ t.Linear ∧ t.Systematic ∧ t.k = 1 ∧ t.n = 2 ∧ t.M = M ∧ t.rsc = true := by
  have hg : ∀ p ∈ [g0, g1], p < 2 ^ (M + 1) := by
    intro p hp
    simp only [List.mem_cons, List.not_mem_nil, or_false] at hp
    rcases hp with rfl | rfl <;> assumption
  have ha := legacyArgs (rsc := true) hf2 hg
  refine ⟨_, mkTrellisLegacy_eq (fun _ _ => 0) hM hf2 hg, trellisOf_WF ha, trellisOf_linear ha ?_ ?_, ?_, rfl, rfl, by simp [trellisOf], rfl⟩
  · intro i hi j _ d hd hd'
    have : i = 0 := by simpa using hi
    subst this
    rw [memMax_single] at hd'
    simp at hd
    omega
  · intro F hF l hl c hc d hd hd'
    have : c = 0 := by simpa using hc
    subst this
    rw [memMax_single] at hd'
    simp at hd
    omega
  · intro s hs u hu
    have hs' : s < 2 ^ [M].sum := hs
    rw [trellisOf_out hs' (by simpa using hu)]
    have hlt : ∀ x ∈ outBitsOf (fun _ _ => 0) [M] [legacyGens M [g0, g1] f true] 2 "LSB" s u, x < 2 := by
      intro x hx
      simp only [outBitsOf, List.mem_map, outBit] at hx
      obtain ⟨j, _, rfl⟩ := hx
      omega
    have hlen : (outBitsOf (fun _ _ => 0) [M] [legacyGens M [g0, g1] f true] 2 "LSB" s u).length = 2 := by simp [outBitsOf]
    have e : toBits 2 (bitarray2dec (outBitsOf (fun _ _ => 0) [M] [legacyGens M [g0, g1] f true] 2 "LSB" s u)) =
        outBitsOf (fun _ _ => 0) [M] [legacyGens M [g0, g1] f true] 2 "LSB" s u := by
      have := toBits_bitarray2dec hlt
      rwa [hlen] at this
    show (toBits 2 (bitarray2dec (outBitsOf (fun _ _ => 0) [M] [legacyGens M [g0, g1] f true] 2 "LSB" s u))).getD 0 0 = u
    rw [e]
    unfold outBitsOf
    rw [getD_map_range' (L := 2) _ _ (by omega), outBit_sum (by omega), memMax_single]
    have hz : ∀ r ∈ Finset.range (M + 1), (∑ c ∈ Finset.range [legacyGens M [g0, g1] f true].length,
        srOf (fun _ _ => 0) [M] [legacyGens M [g0, g1] f true] s u r c * polyCoef "LSB" (M + 1) (matAt [legacyGens M [g0, g1] f true] c 0) r) =
        if r = 0 then u else 0 := by
      intro r hr
      rw [Finset.mem_range] at hr
      simp only [List.length_cons, List.length_nil, Nat.zero_add, Finset.sum_range_one]
      rw [show matAt [legacyGens M [g0, g1] f true] 0 0 = f ^^^ (f % 2 ^ M) by simp [matAt, legacyGens], legacy_first_coef hf1 hf2 (by omega), srOf_single]
      by_cases h0 : r = 0
      · simp [h0, Nat.mod_eq_of_lt hu]
      · simp [h0]
    rw [Finset.sum_congr rfl hz]
    simp
    omega

include hw hk hl hs hv in
/-- C92, for a given trellis: encoding, BPSK (bit `b` sent as `2 b - 1`), and decoding give the message back. -/
theorem C92_roundtrip_trellis (hn : t.n = 2) (hM : 0 < t.M) {msg : List Nat} (hb : ∀ b ∈ msg, b < 2) {p : List Nat} (hp : p.Perm (List.range msg.length))
    {outLen : Nat → Nat} (ho : outLen (msg.length + t.M) = 2 * (msg.length + t.M)) {n : Int} (hn1 : 1 ≤ n) :
    ∃ s p1 p2, turboEncode outLen outLen t t p msg = .ok (s, p1, p2) ∧
      turboDecode t v (s.map bpskAmp) (p1.map bpskAmp) (p2.map bpskAmp) n p none = .ok msg := by
  obtain ⟨third, e1, e2, e3, -⟩ := C50_streams_partial hw hw hk hk hn hn hM hM hs hb hp ho ho
  refine ⟨_, _, _, e1, ?_⟩
  have hz : ∀ i, (List.replicate (List.map bpskAmp msg).length (0 : ℝ)).getD i 0 = 0 := by
    intro i
    rw [List.getD_eq_getElem?_getD, List.getElem?_replicate]
    split <;> rfl
  have hout : ∀ us : List Nat, ∀ i, (t.outputs 1 us).getD i 0 < 2 := by
    intro us i
    by_cases hi : i < us.length
    · unfold Trellis.outputs
      rw [getD_map_range' (L := us.length) _ _ hi, List.getD_eq_getElem _ _ (by rw [toBits_length, hn]; omega)]
      exact toBits_lt_two (List.getElem_mem _)
    · rw [List.getD_eq_default _ _ (by simp [Trellis.outputs]; omega)]; omega
  have hpl : p.length = msg.length := by simpa using hp.length_eq
  rw [C53_default]
  refine C91_right_signs hw hk hl hs hv (by omega) rfl hb hp (by simp) (by simp [Trellis.outputs]) (by simp [e3]; omega) (by simp)
    (fun i _ => by rw [hz]; simp) ?_ ?_ ?_ hn1
  · intro i hi
    rw [List.getD_eq_getElem (msg.map bpskAmp) _ (by simpa using hi), List.getElem_map, List.getD_eq_getElem _ _ hi, bpsk_sq (hb _ (List.getElem_mem _))]
    norm_num
  · intro i hi
    have hol : (t.outputs 1 msg).length = msg.length := by simp [Trellis.outputs]
    rw [List.getD_eq_getElem ((t.outputs 1 msg).map bpskAmp) _ (by simpa [hol] using hi), List.getElem_map, ← List.getD_eq_getElem (t.outputs 1 msg) 0 (by omega),
      bpsk_sq (hout _ _)]
    norm_num
  · intro i hi
    have hol : (t.outputs 1 (p.map fun i => msg.getD i 0)).length = msg.length := by simp [Trellis.outputs, hpl]
    have : third[i]'(by omega) = (t.outputs 1 (p.map fun i => msg.getD i 0)).getD i 0 := by
      rw [← e2, List.getD_eq_getElem _ _ (by rw [List.length_take]; omega), List.getElem_take]
    rw [List.getD_eq_getElem (third.map bpskAmp) _ (by simp; omega), List.getElem_map, this, bpsk_sq (hout _ _)]
    norm_num

/-- C92: for every memory `M > 0`, generators and feedback polynomial of degree `M`, every message, permutation, number of iterations and
(assumed) noise variance: `turbo_encode`, BPSK without noise and `turbo_decode` give the message back. -/
theorem C92_roundtrip {M f g0 g1 : Nat} (hM : 0 < M) (hf1 : 2 ^ M ≤ f) (hf2 : f < 2 ^ (M + 1)) (hg0 : g0 < 2 ^ (M + 1)) (hg1 : g1 < 2 ^ (M + 1))
    {v : NNReal} (hv : 0 < v) {msg : List Nat} (hb : ∀ b ∈ msg, b < 2) {p : List Nat} (hp : p.Perm (List.range msg.length))
    {outLen : Nat → Nat} (ho : outLen (msg.length + M) = 2 * (msg.length + M)) {n : Int} (hn : 1 ≤ n) :
    ∃ t s p1 p2, mkTrellisLegacy M [g0, g1] f true = .ok t ∧ turboEncode outLen outLen t t p msg = .ok (s, p1, p2) ∧
      turboDecode t v (s.map bpskAmp) (p1.map bpskAmp) (p2.map bpskAmp) n p none = .ok msg := by
  obtain ⟨t, e, hw, hl, hs, hk, hn2, hM', -⟩ := C92_trellis hM hf1 hf2 hg0 hg1
  obtain ⟨s, p1, p2, e1, e2⟩ := C92_roundtrip_trellis (outLen := outLen) hw hk hl hs hv hn2 (by omega) hb hp (by rw [hM']; exact ho) hn
  exact ⟨t, s, p1, p2, e, e1, e2⟩

/-- The hypotheses of C91 are met, by values of very different amplitudes. -/
example (v : NNReal) (hv : 0 < v) : turboDecode turboTrellis v [9, -1, 2] [3, 0, 5] [1, 0, 7, -4] 8 [2, 0, 1] (some [0, -3, 0]) = .ok [1, 0, 1] := by
  obtain ⟨t, e, hw, hl, hs, hk, hn2, -⟩ := C92_trellis (M := 2) (f := 5) (g0 := 1) (g1 := 7) (by norm_num) (by norm_num) (by norm_num) (by norm_num) (by norm_num)
  have e' : mkTrellisLegacy 2 [1, 7] 5 true = .ok turboTrellis := by decide +kernel
  rw [e'] at e
  cases e
  have o1 : turboTrellis.outputs 1 [1, 0, 1] = [1, 1, 1] := by decide
  have o2 : turboTrellis.outputs 1 ([2, 0, 1].map fun i => [1, 0, 1].getD i 0) = [1, 0, 1] := by decide
  have cases3 : ∀ i < 3, i = 0 ∨ i = 1 ∨ i = 2 := by omega
  refine C91_right_signs hw hk hl hs hv (by omega) (L := 3) rfl (by decide) (by decide) rfl (by simp) (by simp) rfl ?_ ?_ ?_ ?_ (by norm_num)
  · intro i hi; rcases cases3 i hi with rfl | rfl | rfl <;> norm_num [bpskAmp]
  · intro i hi; rcases cases3 i hi with rfl | rfl | rfl <;> norm_num [bpskAmp]
  · rw [o1]; intro i hi; rcases cases3 i hi with rfl | rfl | rfl <;> norm_num [bpskAmp]
  · rw [o2]; intro i hi; rcases cases3 i hi with rfl | rfl | rfl <;> norm_num [bpskAmp]

end Verif
