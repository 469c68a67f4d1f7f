import Verif.Props.Links
import Verif.Props.TurboRoundtrip
import Verif.Props.TurboFloatExact
/-
Concrete cases meeting the hypotheses of theorems about links and about turbo decoding that have no instance next to them.
-/
namespace Verif

/-- A link whose state counts the bits drawn: it sends the parities of consecutive numbers, the channel repeats the first bit in the place of
the second one, and the decoder takes the bits as they are. -/
noncomputable def sampleLink : Link Nat (List Int) Int Unit Unit where
  bitsPerSymbol := 2
  nbTx := 1
  Es := 1
  constellation := ()
  isMimo := false
  setSnr w _ _ _ := .ok w
  choice w n := ((List.range n).map fun i => ((w + i) % 2 : Nat), w + n)
  modulate := .ok
  propagate w x := .ok (x.set 1 (x.getD 0 0), w)
  gains _ := []
  noiseStd _ := 0
  receive _ _ _ _ := .ok []
  receiveAll out _ _ _ := .ok (out.map fun (a : Int) => if a = 0 then (0 : ℝ) else 1)
  decoder := .short fun r => .ok (r.map fun x => if x = 0 then (0 : ℝ) else 1)

/-- One chunk of four bits, of which the second one is received in error. -/
theorem sampleLink_chunk : sampleLink.Chunk (fun n => n) (fun _ _ => 0) 4 0 1 4 := by
  have hs : sampleLink.send (fun n => n) (fun _ _ => 0) 4 0 = .ok ([0, 1, 0, 1], [0, 0, 0, 1], 4) := by
    simp [Link.send, sampleLink, Link.received, Link.decode, bind, Except.bind, pure, Except.pure, List.range_succ]
  have hc : countErrors [0, 1, 0, 1] [0, 0, 0, 1] = .ok (bitErrors 4 [0, 1, 0, 1] [0, 0, 0, 1] : Int) :=
    C81_errors [0, 1, 0, 1] [0, 0, 0, 1] (by decide) (by decide) (by
      intro i hi
      have : i < 4 := hi
      interval_cases i <;> simp)
  have hb : bitErrors 4 [0, 1, 0, 1] [0, 0, 0, 1] = 1 := by
    rw [show (4 : Nat) = 0 + 1 + 1 + 1 + 1 from rfl, bitErrors_cons, bitErrors_cons, bitErrors_cons, bitErrors_cons]
    simp [bitErrors]
  rw [hb] at hc
  unfold Link.Chunk
  simp only [Link.chunkErrors, hs, hc, bind, Except.bind, pure, Except.pure]
  rfl

/-- C81_chunk_bounds applies to it. -/
example : (0 : Int) ≤ 1 ∧ (1 : Int) ≤ (4 : Nat) :=
  C81_chunk_bounds sampleLink (fun n => n) (fun _ _ => 0) 4
    (fun w n => ⟨by simp [sampleLink], by
      intro a ha
      simp only [sampleLink, List.mem_map] at ha
      obtain ⟨i, -, rfl⟩ := ha
      have : (w + i) % 2 < 2 := Nat.mod_lt _ (by decide)
      omega⟩)
    (by
      show ∀ (r : List ℝ) (d : List ℝ), (Except.ok (r.map fun x => if x = 0 then (0 : ℝ) else 1) : Py (List ℝ)) = .ok d → ∀ x ∈ d, x = 0 ∨ x = 1
      intro r d h x hx
      obtain rfl := Except.ok.inj h
      obtain ⟨a, -, rfl⟩ := List.mem_map.1 hx
      by_cases ha : a = 0
      · left; rw [if_pos ha]
      · right; rw [if_neg ha]) 0 1 4 sampleLink_chunk

/-- C81_nothing_sent: with `send_max = 0` the ratio of the first SNR is 0/0. -/
example : sampleLink.snrLoop (fun n => n) (fun _ _ => 0) 4 0 100 1 7 [3, 5] 0 = .error .zeroDivisionError :=
  C81_nothing_sent sampleLink _ _ 4 0 100 1 7 3 [5] 0 0 rfl (Or.inl le_rfl)

/-- C122_exact: the message of C91's example, decoded in floating point with exact functions. -/
example : turboDecodeF exactFloats turboTrellis 1 [9, -1, 2] [3, 0, 5] [1, 0, 7, -4] 8 [2, 0, 1] (some [0, -3, 0]) = .ok [1, 0, 1] := by
  refine C122_exact one_ne_zero ?_
  obtain ⟨t, e, hw, hl, hs, hk, hn2, -⟩ := C92_trellis (M := 2) (f := 5) (g0 := 1) (g1 := 7) (by norm_num) (by norm_num) (by norm_num) (by norm_num) (by norm_num)
  have e' : mkTrellisLegacy 2 [1, 7] 5 true = .ok turboTrellis := by decide +kernel
  rw [e'] at e
  cases e
  have o1 : turboTrellis.outputs 1 [1, 0, 1] = [1, 1, 1] := by decide
  have o2 : turboTrellis.outputs 1 ([2, 0, 1].map fun i => [1, 0, 1].getD i 0) = [1, 0, 1] := by decide
  have cases3 : ∀ i < 3, i = 0 ∨ i = 1 ∨ i = 2 := by omega
  rw [← NNReal.coe_one]
  refine C91_right_signs hw hk hl hs one_pos (by omega) (L := 3) rfl (by decide) (by decide) rfl (by simp) (by simp) rfl ?_ ?_ ?_ ?_ (by norm_num)
  · intro i hi; rcases cases3 i hi with rfl | rfl | rfl <;> norm_num [bpskAmp]
  · intro i hi; rcases cases3 i hi with rfl | rfl | rfl <;> norm_num [bpskAmp]
  · rw [o1]; intro i hi; rcases cases3 i hi with rfl | rfl | rfl <;> norm_num [bpskAmp]
  · rw [o2]; intro i hi; rcases cases3 i hi with rfl | rfl | rfl <;> norm_num [bpskAmp]

end Verif
