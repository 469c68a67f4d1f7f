import Verif.Spec.Links
/-
A simulated link as a sequence of chunks: the worlds before every chunk and the errors of every chunk.
-/
namespace Verif

variable {σ Sym V G C : Type}

/-- Simulating chunk after chunk from the world `ws 0`, without ever stopping, gives `e i` bit errors in chunk `i` (and no exception). -/
def ChunkErrors (lk : Link σ Sym V G C) (bufLen : Nat → Nat) (junk : σ → Nat → ℝ) (chunk : Nat) (w : σ) (e : Nat → Int) : Prop :=
  ∃ ws : Nat → σ, ws 0 = w ∧ ∀ i, lk.chunkErrors bufLen junk chunk (ws i) = .ok (e i, ws (i + 1))

/-- The bit error ratio that `LinkModel.link_performance` reports for one SNR. -/
def ReportsBer (lk : Link σ Sym V G C) (bufLen : ℚ → Nat → Nat) (junk : σ → Nat → ℝ) (snr : ℝ) (sendMax errMin : Int) (sendChunk : Int) (rate : ℚ) (w : σ)
    (ber : ℚ) : Prop :=
  ∃ w', lk.performance bufLen junk sendMax.toNat [snr] sendMax errMin (some sendChunk) rate w = .ok ([ber], w')

end Verif
