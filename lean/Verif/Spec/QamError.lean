import Verif.Spec.ModemError
/-
Textbook error probabilities of square QAM with Gray labels over complex Gaussian noise.
-/
namespace Verif
open Finset MeasureTheory

/-- K. Cho and D. Yoon, "On the general BER expression of one- and two-dimensional amplitude modulations" (IEEE Trans. Commun. 50, 2002), for `M = 4^h` points `2 / a` standard deviations
apart: `P_b = (1/h) Σ_{k=1}^{h} P_b(k)` with
`P_b(k) = (1/√M) Σ_{i=0}^{(1-2^{-k})√M - 1} (-1)^⌊i 2^{k-1} / √M⌋ (2^{k-1} - ⌊i 2^{k-1} / √M + 1/2⌋) 2 Q((2 i + 1) a)`. -/
noncomputable def qamBitError (h : Nat) (a : ℝ) : ℝ :=
  (∑ k ∈ Icc 1 h, (∑ i ∈ range (2 ^ h - 2 ^ (h - k)),
    (-1) ^ (i * 2 ^ (k - 1) / 2 ^ h) * ((2 : ℝ) ^ (k - 1) - ((i * 2 ^ (k - 1) + 2 ^ (h - 1)) / 2 ^ h : ℕ)) * (2 * qFunction ((2 * i + 1) * a))) / 2 ^ h) / h

/-- The probability that a minimum-distance receiver decides for another point than the one sent, the points being equally likely. -/
noncomputable def symbolErrorProb (cst : List ℂ) (σ : ℝ) : ℝ :=
  (∑ l ∈ range cst.length, noise2.real {n | nearestLabel cst (cst.getD l 0 + σ * (n.1 + Complex.I * n.2)) ≠ l}) / cst.length

end Verif
