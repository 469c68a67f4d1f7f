import Mathlib.Probability.Distributions.Gaussian.Real
import Mathlib.Probability.Moments.Variance
import Mathlib.Probability.Independence.Integration
/-
What the draws of numpy's random generator are assumed to be, in the theorems that speak of probabilities.
-/
namespace Verif
open MeasureTheory ProbabilityTheory

/-- Every draw of the stream is a standard normal variable (nothing is assumed about their dependence). -/
def NormalDraws {Ω : Type*} [MeasurableSpace Ω] (P : Measure Ω) (z : Ω → ℕ → ℝ) : Prop :=
  ∀ i, HasLaw (fun ω => z ω i) (gaussianReal 0 1) P

/-- Every draw of the stream is uniform on [0, 1). -/
def UniformDraws {Ω : Type*} [MeasurableSpace Ω] (P : Measure Ω) (u : Ω → ℕ → ℝ) : Prop :=
  ∀ i, HasLaw (fun ω => u ω i) (volume.restrict (Set.Ico (0 : ℝ) 1)) P

end Verif

namespace Verif
open MeasureTheory ProbabilityTheory

/-- The draws are standard normal variables that are pairwise independent. -/
def IndepNormalDraws {Ω : Type*} [MeasurableSpace Ω] (P : Measure Ω) (z : Ω → ℕ → ℝ) : Prop :=
  NormalDraws P z ∧ ∀ i j, i ≠ j → IndepFun (fun ω => z ω i) (fun ω => z ω j) P

end Verif
