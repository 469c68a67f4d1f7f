import Verif.Spec.Random
import Mathlib.Analysis.Complex.Basic
/-
The bit error probability of a constellation over complex Gaussian noise, and the random draws of a simulation.
-/
namespace Verif
open MeasureTheory ProbabilityTheory

/-- The label that a minimum-distance receiver chooses: the first one whose point is nearest to `y`. -/
noncomputable def nearestLabel (cst : List ℂ) (y : ℂ) : Nat :=
  sInf {l | l < cst.length ∧ ∀ x ∈ cst, ‖y - cst.getD l 0‖ ≤ ‖y - x‖}

/-- The number of bits, among `k`, in which two labels differ. -/
def labelDiff (k a b : Nat) : Nat := ((Finset.range k).filter fun i => a.testBit i ≠ b.testBit i).card

/-- Two independent standard normal variables. -/
noncomputable def noise2 : Measure (ℝ × ℝ) := (gaussianReal 0 1).prod (gaussianReal 0 1)

/-- Bit error probability of a constellation of `2 ^ k` points with uniform labels, a minimum-distance receiver, and Gaussian noise of standard deviation `σ`
per component: the mean number of wrong bits per bit. -/
noncomputable def bitErrorProb (cst : List ℂ) (k : Nat) (σ : ℝ) : ℝ :=
  (∑ l ∈ Finset.range (2 ^ k), ∫ n, (labelDiff k l (nearestLabel cst (cst.getD l 0 + σ * (n.1 + Complex.I * n.2))) : ℝ) ∂noise2) / (2 ^ k * k)

/-- The tail of the standard normal distribution. -/
noncomputable def qFunction (x : ℝ) : ℝ := (gaussianReal 0 1).real (Set.Ioi x)

/-- A stream of fair bits and a stream of standard normal variables, all independent. -/
structure FairDraws {Ω : Type*} [MeasurableSpace Ω] (P : Measure Ω) (b : Ω → ℕ → Int) (z : Ω → ℕ → ℝ) : Prop where
  bit : ∀ ω i, b ω i = 0 ∨ b ω i = 1
  measurable : ∀ i, Measurable fun ω => b ω i
  fair : ∀ i, P {ω | b ω i = 1} = 1 / 2
  normal : NormalDraws P z
  indep : iIndepFun (fun (j : ℕ ⊕ ℕ) ω => Sum.elim (fun i => (b ω i : ℝ)) (fun i => z ω i) j) P

end Verif
