import Verif.Props.ConvDistance
/-
C110: the third trellis of /repo/commpy/examples/conv_encode_decode.py (rate 2/3, recursive).
-/
namespace Verif

theorem args3 : TrellisArgs [1, 1] [[1, 0, 0], [0, 1, 3]] 3 (some [[2, 2], [3, 1]]) "MSB" := by
  refine ⟨by simp, by simp, rfl, ⟨rfl, by simp⟩, by decide, ?_, ?_⟩
  · intro F hF; obtain rfl := Option.some.inj hF; exact ⟨rfl, by simp⟩
  · intro F hF; obtain rfl := Option.some.inj hF; decide

/-- The third trellis of the example script. -/
def trellis3 : Trellis :=
  { k := 2, n := 3, M := 2, rsc := true, nextTable := [[0, 1, 1, 0], [2, 3, 3, 2], [3, 2, 2, 3], [1, 0, 0, 1]],
    outTable := [[0, 3, 4, 7], [1, 2, 5, 6], [0, 3, 4, 7], [1, 2, 5, 6]] }

/-- The tables of the trellis do not depend on the uninitialised array. -/
theorem trellis3_eq (junk : Nat → Nat → Nat) :
    trellisOf junk [1, 1] [[1, 0, 0], [0, 1, 3]] 3 (some [[2, 2], [3, 1]]) true "MSB" = trellis3 := by
  rw [trellisOf_junk_eq junk (fun _ _ => 0)]
  · decide +kernel
  · decide

theorem trellis3_balanced : trellis3.Balanced := by
  refine ⟨?_, by decide, by decide⟩
  rw [← trellis3_eq (fun _ _ => 0)]
  exact trellisOf_WF args3

theorem trellis3_linear : trellis3.Linear := by
  rw [← trellis3_eq (fun _ _ => 0)]
  refine trellisOf_linear args3 ?_ ?_
  · intro i hi j _ d h1 h2
    have hm : memMax [1, 1] = 1 := rfl
    have : ([1, 1] : List Nat).getD i 0 = 1 := by
      have : i < 2 := by simpa using hi
      interval_cases i <;> rfl
    omega
  · intro F _ l _ c hc d h1 h2
    have hm : memMax [1, 1] = 1 := rfl
    have : ([1, 1] : List Nat).getD c 0 = 1 := by
      have : c < 2 := by simpa using hc
      interval_cases c <;> rfl
    omega

/-- C110, the rate 2/3 recursive code of the example script, default traceback depth: one channel error anywhere in the code word of any message of `q ≥ 7` groups of two bits
leaves all message bits except possibly the last two correct. -/
theorem C110_trellis3 (junk : Nat → Nat → Nat) :
    ∃ t, mkTrellis junk [1, 1] [[1, 0, 0], [0, 1, 3]] 3 (some [[2, 2], [3, 1]]) true "MSB" = .ok t ∧
      ∀ (outLen : Nat → Nat) (msg : List Nat) (q : Nat), (∀ b ∈ msg, b < 2) → msg.length = 2 * q → 7 ≤ q → outLen (2 * q + 4) = (q + 2) * 3 →
        ∃ c, convEncode outLen t msg "term" none = .ok c ∧ c.length = (q + 2) * 3 ∧
          ∀ (rx : List Nat) (jk : VitJunk Nat), rx.length = c.length → (∀ x ∈ rx, x < 2) → diffCount rx c ≤ 1 →
            ∃ dec coded', viterbiHard t jk (2 * q + 4) (defaultDepth t (2 * q + 4)) rx = .ok (dec, coded') ∧
              dec.length = 2 * q + 4 ∧ dec.take (2 * q - 2) = msg.take (2 * q - 2) := by
  refine ⟨trellis3, by rw [mkTrellis_ok args3, trellis3_eq], ?_⟩
  intro outLen msg q hb hl hq ho
  have hN : codedInputLen trellis3 msg.length "term" = (q + 2) * trellis3.k := by
    rw [hl]; simp only [codedInputLen, trellis3]; simp; ring
  have hN2 : (q + 2) * trellis3.k = 2 * q + 4 := by simp only [trellis3]; ring
  have hout : outLen ((q + 2) * trellis3.k) = (q + 2) * trellis3.n := by rw [hN2]; exact ho
  have hrun := convEncodeRun_rsc trellis3_balanced.wf (outLen := outLen) hb rfl (by
    rw [hl]; simp only [trellis3]
    rw [show 2 * q + 2 * 2 = 2 * q + 4 by ring, ho, Nat.mul_div_cancel_left _ (by decide)])
  simp only at hrun
  generalize trellis3.runState _ _ = S, (trellis3.runOut 0 _ ++ _) = c at hrun
  obtain ⟨w, hw, -, hcw, -, -⟩ := encoded_path trellis3_balanced hb (q := q) hl hN hout hrun
  refine ⟨c, by rw [convEncode_none trellis3_balanced.wf.k_pos (by decide), hrun]; rfl, by rw [hcw, Trellis.runOut_length, hw.1]; rfl, ?_⟩
  intro rx jk hrl hrb herr
  have hD : ColumnDistance trellis3 4 3 := columnCheck_sound trellis3_balanced.wf (by decide +kernel)
  have := C110_any_state trellis3_balanced trellis3_linear (by decide) hb (by rw [hl]; exact ⟨q, rfl⟩) hN hout hrun (by decide) hD (by decide) hD
    (e := 1) (by decide) (by decide) (K := q - 1) (by rw [hl]; show (q - 1) * 2 ≤ _; omega) (by omega) hrl hrb herr jk
    (tb := defaultDepth trellis3 (2 * q + 4)) (by show 5 ≤ min (5 * 2) (2 * q + 4); omega) (by show min (5 * 2) (2 * q + 4) ≤ _; omega)
  rw [hN2, show (q - 1) * trellis3.k = 2 * q - 2 by show (q - 1) * 2 = _; omega] at this
  exact this

/-- The restriction is needed: the encoder does not return to state 0, and one error in the last group of the message is decoded wrongly. -/
theorem C110_trellis3_refuted :
    ∃ msg rx dec coded', msg.length = 14 ∧ dec.take 14 ≠ msg ∧
      (do let t ← mkTrellis (fun _ _ => 0) [1, 1] [[1, 0, 0], [0, 1, 3]] 3 (some [[2, 2], [3, 1]]) true "MSB"
          let c ← convEncode (· * 3 / 2) t msg "term" none
          let r ← viterbiHard t ⟨fun _ _ => 0, fun _ => 0, fun _ _ => 0, fun _ _ => (0, 0)⟩ 18 (defaultDepth t 18) rx
          pure (diffCount rx c, r) : Py (Nat × List Nat × List Nat)) = .ok (1, dec, coded') :=
  ⟨[0, 0, 0, 0, 0, 0, 0, 0, 0, 0, 0, 1, 0, 0], [0, 0, 0, 0, 0, 0, 0, 0, 0, 0, 0, 0, 0, 0, 0, 0, 1, 1, 1, 0, 1, 0, 1, 1, 0, 0, 0],
    [0, 0, 0, 0, 0, 0, 0, 0, 0, 0, 0, 1, 1, 0, 0, 1, 0, 0], [0, 0, 0, 0, 0, 0, 0, 0, 0, 0, 0, 0, 0, 0, 0, 0, 1, 1, 1, 0, 1, 0, 1, 1, 0, 0, 0],
    rfl, by decide, by decide +kernel⟩

end Verif
