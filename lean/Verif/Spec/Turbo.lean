import Verif.Spec.Trellis
import Mathlib.Probability.Distributions.Gaussian.Real
/-
A posteriori probabilities of the input bits of a rate 1/2 encoder with binary input, used over an additive white Gaussian
noise channel with BPSK (bit 0 sent as -1, bit 1 as +1); and turbo decoding as an exchange of extrinsic information.
Nothing here refers to the recursions of the decoder: the probabilities are sums over all the input sequences.
-/
namespace Verif

/-- Amplitude sent for a bit. -/
noncomputable def bpskAmp (b : Nat) : ℝ := 2 * (b : ℝ) - 1

/-- Output bit `j` of the encoder at step `i`, for the input bits `us` (started in state 0). -/
def codeBit (t : Trellis) {L : Nat} (us : Fin L → Fin 2) (i : Fin L) (j : Nat) : Nat :=
  (toBits t.n (t.out (t.runState 0 (((List.ofFn us).take i).map Fin.val)) (us i))).getD j 0

/-- Probability of a bit whose log-likelihood ratio (1 against 0) is `l`. -/
noncomputable def llrProb (l : ℝ) (b : Fin 2) : ℝ := if b = 1 then Real.exp l / (1 + Real.exp l) else 1 / (1 + Real.exp l)

/-- Joint density of the input bits `us` and the received values: `ys i`, `yp i` are the values received for the first and
second output bit of step `i`, `lam i` is the a priori LLR of input bit `i`, `v` the noise variance. -/
noncomputable def jointDensity (t : Trellis) (v : NNReal) {L : Nat} (ys yp lam : Nat → ℝ) (us : Fin L → Fin 2) : ℝ :=
  ∏ i : Fin L, llrProb (lam i) (us i) * ProbabilityTheory.gaussianPDFReal (bpskAmp (codeBit t us i 0)) v (ys i) *
    ProbabilityTheory.gaussianPDFReal (bpskAmp (codeBit t us i 1)) v (yp i)

/-- Joint density of the received values and input bit `i` being `b`: the sum over all input sequences with this bit. -/
noncomputable def bitDensity (t : Trellis) (v : NNReal) (L : Nat) (ys yp lam : Nat → ℝ) (i : Fin L) (b : Fin 2) : ℝ :=
  ∑ us : Fin L → Fin 2 with us i = b, jointDensity t v ys yp lam us

/-- A posteriori LLR of input bit `i`. -/
noncomputable def posteriorBit (t : Trellis) (v : NNReal) (L : Nat) (ys yp lam : Nat → ℝ) (i : Fin L) : ℝ :=
  Real.log (bitDensity t v L ys yp lam i 1 / bitDensity t v L ys yp lam i 0)

/-- The first output bit is the input bit. -/
def Trellis.Systematic (t : Trellis) : Prop := ∀ s < 2 ^ t.M, ∀ u < 2, (toBits t.n (t.out s u)).getD 0 0 = u

/-- Output bit `j` of every step of the encoder started in state 0, for the input symbols `us`. -/
def Trellis.outputs (t : Trellis) (j : Nat) (us : List Nat) : List Nat :=
  (List.range us.length).map fun i => (toBits t.n (t.out (t.runState 0 (us.take i)) (us.getD i 0))).getD j 0

/-- `posteriorBit` as a function of a natural number (0 outside the block). -/
noncomputable def posteriorAt (t : Trellis) (v : NNReal) (L : Nat) (ys yp lam : Nat → ℝ) (i : Nat) : ℝ :=
  if h : i < L then posteriorBit t v L ys yp lam ⟨i, h⟩ else 0

/-- A priori LLRs for the second decoder: extrinsic LLRs (a posteriori minus a priori) of the first decoder, interleaved
(position `j` of the interleaved sequence is position `p[j]` of the original one). -/
noncomputable def turboSecond (t : Trellis) (v : NNReal) (L : Nat) (p : List Nat) (ys yp1 lam : Nat → ℝ) (j : Nat) : ℝ :=
  posteriorAt t v L ys yp1 lam (p.getD j 0) - lam (p.getD j 0)

/-- A posteriori LLRs of the second decoder, in interleaved order. -/
noncomputable def turboPosterior (t : Trellis) (v : NNReal) (L : Nat) (p : List Nat) (ys yp1 yp2 lam : Nat → ℝ) (j : Nat) : ℝ :=
  posteriorAt t v L (fun j => ys (p.getD j 0)) yp2 (turboSecond t v L p ys yp1 lam) j

/-- A priori LLRs of the first decoder in iteration `k` (from 0): the initial ones, then the extrinsic LLRs of the second
decoder in natural order (position `i` is at position `p.idxOf i` of the interleaved sequence). -/
noncomputable def turboPrior (t : Trellis) (v : NNReal) (L : Nat) (p : List Nat) (ys yp1 yp2 lam0 : Nat → ℝ) : Nat → Nat → ℝ
  | 0 => lam0
  | k + 1 => fun i =>
    turboPosterior t v L p ys yp1 yp2 (turboPrior t v L p ys yp1 yp2 lam0 k) (p.idxOf i) -
      turboSecond t v L p ys yp1 (turboPrior t v L p ys yp1 yp2 lam0 k) (p.idxOf i)

end Verif
