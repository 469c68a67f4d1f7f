import Verif.Lemmas.ColumnDistance
/-
C110: concrete codes.  Free distance and error correction with the default traceback depth.
-/
namespace Verif

/-- The uninitialised array plays no role if all shift registers have the same length. -/
theorem trellisOf_junk_eq (junk junk' : Nat → Nat → Nat) {memory : List Nat} {G : List (List Nat)} (n : Nat) (feedback : Option (List (List Nat)))
    (rsc : Bool) (fmt : String) (hm : ∀ c < G.length, memMax memory ≤ memory.getD c 0 ∧ memory.getD c 0 ≤ memMax memory) :
    trellisOf junk memory G n feedback rsc fmt = trellisOf junk' memory G n feedback rsc fmt := by
  have hsr : ∀ s u r c, r < memMax memory + 1 → c < G.length → srOf junk memory G s u r c = srOf junk' memory G s u r c := by
    intro s u r c hr hc
    have := hm c hc
    unfold srOf shiftReg
    by_cases h0 : r = 0
    · rw [if_pos h0, if_pos h0]
    · rw [if_neg h0, if_neg h0, if_pos (by omega), if_pos (by omega)]
  have hf : ∀ (f : List (List (List Nat))) (s u l : Nat), fbBit (memMax memory + 1) G.length f (srOf junk memory G s u) l =
      fbBit (memMax memory + 1) G.length f (srOf junk' memory G s u) l := by
    intro f s u l
    unfold fbBit
    congr 2
    apply List.map_congr_left
    intro r hr
    rw [List.mem_range] at hr
    congr 1
    apply List.map_congr_left
    intro c hc
    rw [List.mem_range] at hc
    rw [hsr s u r c hr hc]
  have ho : ∀ (f : List (List (List Nat))) (s u j : Nat), outBit (memMax memory + 1) G.length f (srOf junk memory G s u) j =
      outBit (memMax memory + 1) G.length f (srOf junk' memory G s u) j := by
    intro f s u j
    unfold outBit
    congr 2
    apply List.map_congr_left
    intro r hr
    rw [List.mem_range] at hr
    congr 1
    apply List.map_congr_left
    intro c hc
    rw [List.mem_range] at hc
    rw [hsr s u r c hr hc]
  have hn : ∀ s u, nextBitsOf junk memory G feedback fmt s u = nextBitsOf junk' memory G feedback fmt s u := by
    intro s u
    unfold nextBitsOf nextBits
    apply List.flatMap_congr
    intro c hc
    rw [List.mem_range] at hc
    have := hm c hc
    apply List.map_congr_left
    intro r hr
    rw [List.mem_range] at hr
    by_cases h0 : r = 0
    · rw [if_pos h0, if_pos h0]; exact hf _ s u c
    · rw [if_neg h0, if_neg h0, hsr s u r c (by omega) hc]
  have hob : ∀ s u, outBitsOf junk memory G n fmt s u = outBitsOf junk' memory G n fmt s u := by
    intro s u
    unfold outBitsOf
    apply List.map_congr_left
    intro j _
    exact ho _ s u j
  unfold trellisOf
  simp only [hn, hob]

/-- One shift register. -/
theorem trellisOf_junk (junk junk' : Nat → Nat → Nat) (M n : Nat) (g : List Nat) (feedback : Option (List (List Nat))) (rsc : Bool) (fmt : String) :
    trellisOf junk [M] [g] n feedback rsc fmt = trellisOf junk' [M] [g] n feedback rsc fmt := by
  apply trellisOf_junk_eq
  intro c hc
  have hc0 : c = 0 := by simpa using hc
  subst hc0
  rw [memMax_single]
  simp

/-- Terminated code words of different messages are at least as far apart as the column distance. -/
theorem C110_free_distance {t : Trellis} (h : t.Balanced) (hl : t.Linear)
    {outLen : Nat → Nat} {msg msg' c c' : List Nat} (hb : ∀ b ∈ msg, b < 2) (hb' : ∀ b ∈ msg', b < 2)
    (hk : t.k ∣ msg.length) (hlen : msg'.length = msg.length) (hne : msg ≠ msg') {N : Nat}
    (hN : codedInputLen t msg.length "term" = N * t.k) (hout : outLen (N * t.k) = N * t.n)
    (henc : convEncodeRun outLen t msg "term" = .ok (0, c)) (henc' : convEncodeRun outLen t msg' "term" = .ok (0, c'))
    {D d : Nat} (hDpos : 0 < D) (hD : ColumnDistance t D d) : d ≤ diffCount c c' := by
  have hkp := h.wf.k_pos
  obtain ⟨h0, h1⟩ := hl.zero
  obtain ⟨q, hq⟩ := hk
  obtain ⟨w, hw, hw0, rfl, hwq, hqN⟩ := terminated_path h hb hq hN hout henc
  obtain ⟨w', hw', hw0', rfl, hwq', -⟩ := terminated_path h hb' (by rw [hlen, hq]) (by rw [hlen]; exact hN) hout henc'
  have hww : w ≠ w' := by
    rintro rfl
    apply hne
    rw [← flatMap_inSyms hkp hb (N := q) (by rw [hq, Nat.mul_comm]), ← hwq, hwq',
      flatMap_inSyms hkp hb' (N := q) (by rw [hlen, hq, Nat.mul_comm])]
  have hrun := Trellis.Linear.run h.wf hl w w' 0 0 (by rw [hw.1, hw'.1]) (Nat.two_pow_pos _) (Nat.two_pow_pos _) hw.2 hw'.2
  rw [hw0, hw0', Nat.xor_self] at hrun
  rw [← sum_xor (by rw [Trellis.runOut_length, Trellis.runOut_length, hw.1, hw'.1]) (t.runOut_lt_two _ _) (t.runOut_lt_two _ _), ← hrun.2]
  have hx := hw.xor hw'
  set x := List.zipWith (· ^^^ ·) w w' with hxd
  have hxne : ∃ u ∈ x, u ≠ 0 := by
    by_contra hcon
    push Not at hcon
    apply hww
    apply List.ext_getElem (by rw [hw.1, hw'.1])
    intro i hi hi'
    have hxi : i < x.length := by rw [hx.1]; rw [hw.1] at hi; exact hi
    have := hcon x[i] (List.getElem_mem hxi)
    simp only [hxd, List.getElem_zipWith] at this
    exact Nat.xor_eq_zero_iff.1 this
  -- drop the leading zeros
  have key : ∀ (N : Nat) (x : List Nat), IsInput t N x → t.runState 0 x = 0 → (∃ u ∈ x, u ≠ 0) → d ≤ (t.runOut 0 x).sum := by
    intro N x
    induction x generalizing N with
    | nil => rintro _ _ ⟨u, hu, _⟩; simp at hu
    | cons u x ih =>
      intro hx hz he
      by_cases hu : u = 0
      · subst hu
        simp only [Trellis.runState, List.foldl_cons, h0] at hz
        have hx1 : x.length + 1 = N := by have := hx.1; simpa using this
        have := ih (N - 1) ⟨by omega, fun v hv => hx.2 v (List.mem_cons_of_mem _ hv)⟩ hz (by
          obtain ⟨v, hv, hv0⟩ := he
          rcases List.mem_cons.1 hv with rfl | hv
          · exact absurd rfl hv0
          · exact ⟨v, hv, hv0⟩)
        simp only [Trellis.runOut, List.sum_append, h0]
        omega
      · set y := u :: x with hy
        have hyl := hx.1
        by_cases hDN : D ≤ N
        · have h2 := hD (y.take D) ⟨by rw [List.length_take]; omega, fun v hv => hx.2 v (List.mem_of_mem_take hv)⟩ (by
            rw [List.getD_eq_getElem _ _ (by rw [List.length_take]; omega), List.getElem_take]
            simpa [hy] using hu)
          have h3 := runOut_sum_append t 0 (y.take D) (y.drop D)
          rw [List.take_append_drop] at h3
          omega
        · have h2 := hD (y ++ List.replicate (D - N) 0) ⟨by rw [List.length_append, List.length_replicate, hyl]; omega, by
            intro v hv
            rw [List.mem_append] at hv
            rcases hv with hv | hv
            · exact hx.2 v hv
            · rw [List.eq_of_mem_replicate hv]; exact Nat.two_pow_pos _⟩ (by simpa [hy] using hu)
          rw [runOut_sum_append, hz, runOut_zeros h0 h1, List.sum_replicate, smul_zero, Nat.add_zero] at h2
          exact h2
  exact key N x hx hrun.1 hxne

/-- C110 for rate-1/n feed-forward encoders.  The two certificates bound the column distances of orders `D` and `D'`. -/
theorem C110_feedforward {M n : Nat} {g : List Nat} {fmt : String} (h : TrellisArgs [M] [g] n none fmt) (hM : 0 < M) (hn : 0 < n)
    {D D' d d' e : Nat} (hD : columnCheck (trellisOf (fun _ _ => 0) [M] [g] n none false fmt) D d = true)
    (hD' : columnCheck (trellisOf (fun _ _ => 0) [M] [g] n none false fmt) D' d' = true) (hDD : D' ≤ D) (he : 2 * e < d) (he' : 2 * e ≤ d')
    (junk : Nat → Nat → Nat) :
    ∃ t, mkTrellis junk [M] [g] n none false fmt = .ok t ∧
      ∀ (outLen : Nat → Nat) (msg : List Nat), (∀ b ∈ msg, b < 2) → outLen (msg.length + M) = (msg.length + M) * n →
        ∃ c, convEncode outLen t msg "term" none = .ok c ∧ c.length = (msg.length + M) * n ∧
          (∀ msg' c', msg'.length = msg.length → (∀ b ∈ msg', b < 2) → msg' ≠ msg → convEncode outLen t msg' "term" none = .ok c' →
            d ≤ diffCount c c') ∧
          ∀ (rx : List Nat) (jk : VitJunk Nat) (tb : Nat), rx.length = c.length → (∀ x ∈ rx, x < 2) → diffCount rx c ≤ e →
            D + 2 ≤ tb → tb ≤ msg.length + 2 * M →
            ∃ dec coded', viterbiHard t jk (msg.length + M) tb rx = .ok (dec, coded') ∧ dec.length = msg.length + M ∧
              ∀ K ≤ msg.length, K + D' + 1 ≤ msg.length + 2 * M → dec.take K = msg.take K := by
  obtain ⟨t, ht, hz⟩ := C34_zero_tail h junk
  refine ⟨t, ht, ?_⟩
  intro outLen msg hb ho
  have hteq : t = trellisOf junk [M] [g] n none false fmt := by
    have := mkTrellis_ok (junk := junk) (rsc := false) h
    rw [ht] at this
    exact Except.ok.inj this
  have hk : t.k = 1 := by rw [hteq]; rfl
  have hMt : t.M = M := by rw [hteq]; simp [trellisOf]
  have hnt : t.n = n := by rw [hteq]; rfl
  have hrsc : t.rsc = false := by rw [hteq]; rfl
  have hbal : t.Balanced := by rw [hteq]; exact ff_balanced h (by simpa using hM)
  have hlin : t.Linear := by rw [hteq]; exact trellisOf_linear h (fits_one _ _ _ _) (fun F _ => fitsFb_one _ _ _)
  rw [trellisOf_junk _ junk, ← hteq] at hD hD'
  have hD := columnCheck_sound hbal.wf hD
  have hD' := columnCheck_sound hbal.wf hD'
  obtain ⟨c, hc⟩ := hz msg outLen hb ho
  have hN : codedInputLen t msg.length "term" = (msg.length + M) * t.k := by
    simp [codedInputLen, hrsc, hk, hMt, Nat.mod_one]
  have hout : outLen ((msg.length + M) * t.k) = (msg.length + M) * t.n := by rw [hk, hnt, Nat.mul_one]; exact ho
  have hcl : c.length = (msg.length + M) * n := by
    obtain ⟨w, hw, -, rfl, -, -⟩ := terminated_path hbal hb (q := msg.length) (by rw [hk, Nat.one_mul]) hN hout hc
    rw [Trellis.runOut_length, hw.1, hnt]
  refine ⟨c, by rw [convEncode_none hbal.wf.k_pos (by rw [hnt]; exact hn), hc]; rfl, hcl, ?_, ?_⟩
  · intro msg' c' hl' hb' hne hc'
    obtain ⟨c2, hc2⟩ := hz msg' outLen hb' (by rw [hl']; exact ho)
    have : convEncode outLen t msg' "term" none = .ok c2 := by
      rw [convEncode_none hbal.wf.k_pos (by rw [hnt]; exact hn), hc2]; rfl
    rw [hc'] at this
    rw [Except.ok.inj this]
    exact C110_free_distance hbal hlin hb hb' (by rw [hk]; exact one_dvd _) hl' (Ne.symm hne) hN hout hc hc2 (Nat.succ_pos _) hD
  · intro rx jk tb hrl hrb herr htb htb2
    have hdec : ∀ K ≤ msg.length, K + (D' + 1) ≤ msg.length + M + M → ∃ dec coded', viterbiHard t jk (msg.length + M) tb rx = .ok (dec, coded') ∧
        dec.length = msg.length + M ∧ dec.take K = msg.take K := by
      intro K hK hK'
      have := C110_errors hbal hlin hb (by rw [hk]; exact one_dvd _) hN hout hc (Nat.succ_pos _) hD (Nat.succ_pos _) hD' he he'
        (K := K) (by rw [hk, Nat.mul_one]; exact hK) (by rw [hk, hMt, Nat.div_one]; exact hK') hrl hrb herr jk (tb := tb) htb
        (by rw [hk, hMt, Nat.div_one]; omega) (Or.inl hk)
      rwa [hk, Nat.mul_one, Nat.mul_one] at this
    obtain ⟨dec, coded', h1, h2, -⟩ := hdec 0 (Nat.zero_le _) (by omega)
    refine ⟨dec, coded', h1, h2, ?_⟩
    intro K hK hK'
    obtain ⟨dec', coded'', h3, -, h5⟩ := hdec K hK (by omega)
    rw [h1] at h3
    have := Except.ok.inj h3
    rw [← (Prod.mk.inj this).1] at h5
    exact h5

theorem args57 : TrellisArgs [2] [[5, 7]] 2 none "MSB" := ⟨by simp, by simp, rfl, ⟨rfl, by simp⟩, by decide, by simp, by simp⟩
theorem args5_15 : TrellisArgs [3] [[5, 13]] 2 none "MSB" := ⟨by simp, by simp, rfl, ⟨rfl, by simp⟩, by decide, by simp, by simp⟩
theorem args133 : TrellisArgs [6] [[91, 121]] 2 none "MSB" := ⟨by simp, by simp, rfl, ⟨rfl, by simp⟩, by decide, by simp, by simp⟩

/-- C110, the (5,7) code of the documentation: code words of different messages differ in at least 5 places, and `viterbi_decode` with its default
traceback depth corrects any two channel errors, for every message of at least 5 bits. -/
theorem C110_57 (junk : Nat → Nat → Nat) :
    ∃ t, mkTrellis junk [2] [[5, 7]] 2 none false "MSB" = .ok t ∧
      ∀ (outLen : Nat → Nat) (msg : List Nat), (∀ b ∈ msg, b < 2) → outLen (msg.length + 2) = (msg.length + 2) * 2 →
        ∃ c, convEncode outLen t msg "term" none = .ok c ∧ c.length = (msg.length + 2) * 2 ∧
          (∀ msg' c', msg'.length = msg.length → (∀ b ∈ msg', b < 2) → msg' ≠ msg → convEncode outLen t msg' "term" none = .ok c' →
            5 ≤ diffCount c c') ∧
          ∀ (rx : List Nat) (jk : VitJunk Nat), 5 ≤ msg.length → rx.length = c.length → (∀ x ∈ rx, x < 2) → diffCount rx c ≤ 2 →
            ∃ dec coded', viterbiHard t jk (msg.length + 2) (defaultDepth t (msg.length + 2)) rx = .ok (dec, coded') ∧
              dec.length = msg.length + 2 ∧ dec.take msg.length = msg := by
  obtain ⟨t, ht, H⟩ := C110_feedforward args57 (by decide) (by decide) (D := 5) (D' := 3) (d := 5) (d' := 4) (e := 2)
    (by decide +kernel) (by decide +kernel) (by decide) (by decide) (by decide) junk
  have hM : t.M = 2 := by rw [mkTrellis_ok args57] at ht; rw [← Except.ok.inj ht]; rfl
  refine ⟨t, ht, ?_⟩
  intro outLen msg hb ho
  obtain ⟨c, h1, h2, h3, h4⟩ := H outLen msg hb ho
  refine ⟨c, h1, h2, h3, ?_⟩
  intro rx jk hlen hrl hrb herr
  obtain ⟨dec, c', h5, h6, h7⟩ := h4 rx jk (defaultDepth t (msg.length + 2)) hrl hrb herr (by rw [defaultDepth, hM]; omega)
    (by rw [defaultDepth, hM]; omega)
  refine ⟨dec, c', h5, h6, ?_⟩
  rw [h7 msg.length (le_refl _) (by omega), List.take_length]

/-- C110, the second code of `examples/conv_encode_decode.py` (generators 0o5 and 0o15): distance at least 5, any two channel
errors are corrected for messages of at least 6 bits. -/
theorem C110_5_15 (junk : Nat → Nat → Nat) :
    ∃ t, mkTrellis junk [3] [[5, 13]] 2 none false "MSB" = .ok t ∧
      ∀ (outLen : Nat → Nat) (msg : List Nat), (∀ b ∈ msg, b < 2) → outLen (msg.length + 3) = (msg.length + 3) * 2 →
        ∃ c, convEncode outLen t msg "term" none = .ok c ∧ c.length = (msg.length + 3) * 2 ∧
          (∀ msg' c', msg'.length = msg.length → (∀ b ∈ msg', b < 2) → msg' ≠ msg → convEncode outLen t msg' "term" none = .ok c' →
            5 ≤ diffCount c c') ∧
          ∀ (rx : List Nat) (jk : VitJunk Nat), 6 ≤ msg.length → rx.length = c.length → (∀ x ∈ rx, x < 2) → diffCount rx c ≤ 2 →
            ∃ dec coded', viterbiHard t jk (msg.length + 3) (defaultDepth t (msg.length + 3)) rx = .ok (dec, coded') ∧
              dec.length = msg.length + 3 ∧ dec.take msg.length = msg := by
  obtain ⟨t, ht, H⟩ := C110_feedforward args5_15 (by decide) (by decide) (D := 7) (D' := 5) (d := 5) (d' := 4) (e := 2)
    (by decide +kernel) (by decide +kernel) (by decide) (by decide) (by decide) junk
  have hM : t.M = 3 := by rw [mkTrellis_ok args5_15] at ht; rw [← Except.ok.inj ht]; rfl
  refine ⟨t, ht, ?_⟩
  intro outLen msg hb ho
  obtain ⟨c, h1, h2, h3, h4⟩ := H outLen msg hb ho
  refine ⟨c, h1, h2, h3, ?_⟩
  intro rx jk hlen hrl hrb herr
  obtain ⟨dec, c', h5, h6, h7⟩ := h4 rx jk (defaultDepth t (msg.length + 3)) hrl hrb herr (by rw [defaultDepth, hM]; omega)
    (by rw [defaultDepth, hM]; omega)
  refine ⟨dec, c', h5, h6, ?_⟩
  rw [h7 msg.length (le_refl _) (by omega), List.take_length]

/-- C110, the industry-standard code with generators 0o133 and 0o171 (the one that the 802.11 standard prescribes): code words of different messages differ in at
least 10 places.  With the default traceback depth `viterbi_decode` corrects any three channel errors in messages of at
least 9 bits; of a message of at least 16 bits hit by four errors it decodes all but the last five bits correctly. -/
theorem C110_133_171 (junk : Nat → Nat → Nat) :
    ∃ t, mkTrellis junk [6] [[0o133, 0o171]] 2 none false "MSB" = .ok t ∧
      ∀ (outLen : Nat → Nat) (msg : List Nat), (∀ b ∈ msg, b < 2) → outLen (msg.length + 6) = (msg.length + 6) * 2 →
        ∃ c, convEncode outLen t msg "term" none = .ok c ∧ c.length = (msg.length + 6) * 2 ∧
          (∀ msg' c', msg'.length = msg.length → (∀ b ∈ msg', b < 2) → msg' ≠ msg → convEncode outLen t msg' "term" none = .ok c' →
            10 ≤ diffCount c c') ∧
          (∀ (rx : List Nat) (jk : VitJunk Nat), 9 ≤ msg.length → rx.length = c.length → (∀ x ∈ rx, x < 2) → diffCount rx c ≤ 3 →
            ∃ dec coded', viterbiHard t jk (msg.length + 6) (defaultDepth t (msg.length + 6)) rx = .ok (dec, coded') ∧
              dec.length = msg.length + 6 ∧ dec.take msg.length = msg) ∧
          ∀ (rx : List Nat) (jk : VitJunk Nat), 16 ≤ msg.length → rx.length = c.length → (∀ x ∈ rx, x < 2) → diffCount rx c ≤ 4 →
            ∃ dec coded', viterbiHard t jk (msg.length + 6) (defaultDepth t (msg.length + 6)) rx = .ok (dec, coded') ∧
              dec.length = msg.length + 6 ∧ dec.take (msg.length - 5) = msg.take (msg.length - 5) := by
  obtain ⟨t, ht, H⟩ := C110_feedforward args133 (by decide) (by decide) (D := 13) (D' := 9) (d := 7) (d' := 6) (e := 3)
    (by decide +kernel) (by decide +kernel) (by decide) (by decide) (by decide) junk
  obtain ⟨t', ht', H'⟩ := C110_feedforward args133 (by decide) (by decide) (D := 20) (D' := 16) (d := 9) (d' := 8) (e := 4)
    (by decide +kernel) (by decide +kernel) (by decide) (by decide) (by decide) junk
  obtain ⟨t'', ht'', H''⟩ := C110_feedforward args133 (by decide) (by decide) (D := 23) (D' := 23) (d := 10) (d' := 10) (e := 0)
    (by decide +kernel) (by decide +kernel) (by decide) (by decide) (by decide) junk
  obtain rfl : t = t' := by rw [ht] at ht'; exact Except.ok.inj ht'
  obtain rfl : t = t'' := by rw [ht] at ht''; exact Except.ok.inj ht''
  have hM : t.M = 6 := by rw [mkTrellis_ok args133] at ht; rw [← Except.ok.inj ht]; rfl
  refine ⟨t, ht, ?_⟩
  intro outLen msg hb ho
  obtain ⟨c, h1, h2, -, h4⟩ := H outLen msg hb ho
  obtain ⟨c1, h1', -, -, h4'⟩ := H' outLen msg hb ho
  obtain ⟨c2, h1'', -, h3, -⟩ := H'' outLen msg hb ho
  obtain rfl : c = c1 := by rw [h1] at h1'; exact Except.ok.inj h1'
  obtain rfl : c = c2 := by rw [h1] at h1''; exact Except.ok.inj h1''
  refine ⟨c, h1, h2, h3, ?_, ?_⟩
  · intro rx jk hlen hrl hrb herr
    obtain ⟨dec, c', h5, h6, h7⟩ := h4 rx jk (defaultDepth t (msg.length + 6)) hrl hrb herr (by rw [defaultDepth, hM]; omega)
      (by rw [defaultDepth, hM]; omega)
    refine ⟨dec, c', h5, h6, ?_⟩
    rw [h7 msg.length (le_refl _) (by omega), List.take_length]
  · intro rx jk hlen hrl hrb herr
    obtain ⟨dec, c', h5, h6, h7⟩ := h4' rx jk (defaultDepth t (msg.length + 6)) hrl hrb herr (by rw [defaultDepth, hM]; omega)
      (by rw [defaultDepth, hM]; omega)
    exact ⟨dec, c', h5, h6, h7 (msg.length - 5) (by omega) (by omega)⟩

/-- C110, unquantized decisions with the (5,7) code and the default traceback depth: the message is recovered whenever the total energy of the noise is at most 4
(each coded bit is sent with energy 1). -/
theorem C110_57_unquantized (junk : Nat → Nat → Nat) :
    ∃ t, mkTrellis junk [2] [[5, 7]] 2 none false "MSB" = .ok t ∧
      ∀ (outLen : Nat → Nat) (msg : List Nat), (∀ b ∈ msg, b < 2) → 5 ≤ msg.length → outLen (msg.length + 2) = (msg.length + 2) * 2 →
        ∃ c, convEncode outLen t msg "term" none = .ok c ∧
          ∀ (rx : List ℝ) (jk : VitJunk ℝ), rx.length = c.length →
            (List.zipWith (fun x (b : Nat) => (x - (2 * (b : ℝ) - 1)) ^ 2) rx c).sum ≤ (4 : ℝ) →
            ∃ dec coded', viterbiDecode "unquantized" t jk (msg.length + 2) (defaultDepth t (msg.length + 2)) rx = .ok (dec, coded') ∧
              dec.length = msg.length + 2 ∧ dec.take msg.length = msg := by
  obtain ⟨t, ht, hz⟩ := C34_zero_tail args57 junk
  refine ⟨t, ht, ?_⟩
  intro outLen msg hb hlen ho
  have hteq : t = trellisOf junk [2] [[5, 7]] 2 none false "MSB" := by
    have := mkTrellis_ok (junk := junk) (rsc := false) args57
    rw [ht] at this
    exact Except.ok.inj this
  have hk : t.k = 1 := by rw [hteq]; rfl
  have hMt : t.M = 2 := by rw [hteq]; rfl
  have hnt : t.n = 2 := by rw [hteq]; rfl
  have hrsc : t.rsc = false := by rw [hteq]; rfl
  have hbal : t.Balanced := by rw [hteq]; exact ff_balanced args57 (by simp)
  have hlin : t.Linear := by rw [hteq]; exact trellisOf_linear args57 (fits_one _ _ _ _) (fun F _ => fitsFb_one _ _ _)
  have hD : ColumnDistance t 6 5 := columnCheck_sound hbal.wf (by rw [hteq, trellisOf_junk _ (fun _ _ => 0)]; decide +kernel)
  have hD' : ColumnDistance t 4 4 := columnCheck_sound hbal.wf (by rw [hteq, trellisOf_junk _ (fun _ _ => 0)]; decide +kernel)
  obtain ⟨c, hc⟩ := hz msg outLen hb ho
  refine ⟨c, by rw [convEncode_none hbal.wf.k_pos (by rw [hnt]; decide), hc]; rfl, ?_⟩
  intro rx jk hrl hen
  have := C110_unquantized hbal hlin hb (by rw [hk]; exact one_dvd _) (N := msg.length + 2)
    (by simp [codedInputLen, hrsc, hk, hMt, Nat.mod_one]) (by rw [hk, hnt, Nat.mul_one]; exact ho) hc (by decide) hD (by decide) hD'
    (K := msg.length) (by rw [hk, Nat.mul_one]) (by rw [hk, hMt, Nat.div_one]) hrl (by push_cast; linarith) (by push_cast; linarith) jk
    (tb := defaultDepth t (msg.length + 2)) (by rw [defaultDepth, hMt]; omega) (by rw [defaultDepth, hk, hMt, Nat.div_one]; omega) (Or.inl hk)
  rwa [hk, Nat.mul_one, Nat.mul_one, List.take_length] at this

/-- C110 as one would expect it from the distance 10 (every pattern of 4 errors is corrected) is false for the generators 0o133, 0o171: the decoder does not use that
the encoder ends in state 0, so four errors at the end of the block falsify the last message bit. -/
theorem C110_four_errors_refuted :
    ∃ rx dec coded', rx.length = 44 ∧ diffCount rx (List.replicate 44 0) = 4 ∧
      (do let t ← mkTrellis (fun _ _ => 0) [6] [[0o133, 0o171]] 2 none false "MSB"
          convEncode (· * 2) t (List.replicate 16 0) "term" none) = .ok (List.replicate 44 0) ∧
      (do let t ← mkTrellis (fun _ _ => 0) [6] [[0o133, 0o171]] 2 none false "MSB"
          viterbiHard t ⟨fun _ _ => 0, fun _ => 0, fun _ _ => 0, fun _ _ => (0, 0)⟩ 22 (defaultDepth t 22) rx) = .ok (dec, coded') ∧
      dec.take 16 ≠ List.replicate 16 0 :=
  ⟨List.replicate 30 0 ++ [1, 1, 1, 0, 0, 0, 0, 0, 1, 0, 0, 0, 0, 0], List.replicate 15 0 ++ [1, 0, 0, 1, 1, 1, 0],
   List.replicate 30 0 ++ [1, 1, 1, 0, 0, 0, 0, 0, 1, 0, 0, 0, 0, 0], by decide, by decide, by decide +kernel, by decide +kernel, by decide⟩

/-- Two errors are the limit for the (5,7) code: three errors are decoded to another message.  (The example script changes four random
coded bits.) -/
theorem C110_three_errors_refuted :
    ∃ rx dec coded', rx.length = 20 ∧ diffCount rx (List.replicate 20 0) = 3 ∧
      (do let t ← mkTrellis (fun _ _ => 0) [2] [[5, 7]] 2 none false "MSB"
          convEncode (· * 2) t (List.replicate 8 0) "term" none) = .ok (List.replicate 20 0) ∧
      (do let t ← mkTrellis (fun _ _ => 0) [2] [[5, 7]] 2 none false "MSB"
          viterbiHard t ⟨fun _ _ => 0, fun _ => 0, fun _ _ => 0, fun _ _ => (0, 0)⟩ 10 (defaultDepth t 10) rx) = .ok (dec, coded') ∧
      dec.take 8 ≠ List.replicate 8 0 :=
  ⟨[0, 0, 0, 0, 1, 1, 0, 1] ++ List.replicate 12 0, [0, 0, 1, 0, 0, 0, 0, 0, 0, 0],
   [0, 0, 0, 0, 1, 1, 0, 1] ++ List.replicate 12 0, by decide, by decide, by decide +kernel, by decide +kernel, by decide⟩

/-- A concrete case: six message bits, two errors. -/
example : (do let t ← mkTrellis (fun _ _ => 0) [2] [[5, 7]] 2 none false "MSB"
              let c ← convEncode (· * 2) t [1, 0, 1, 1, 0, 1] "term" none
              let r ← viterbiHard t ⟨fun _ _ => 3, fun _ => 9, fun _ _ => ⊤, fun _ _ => (0, 0)⟩ 8 (defaultDepth t 8) (c.set 2 1 |>.set 5 1)
              pure (diffCount (c.set 2 1 |>.set 5 1) c, r.1) : Py (Nat × List Nat)) = .ok (2, [1, 0, 1, 1, 0, 1, 0, 0]) := by decide +kernel

end Verif
