import Verif.Spec.Random
import Mathlib.Probability.Independence.InfinitePi
import Mathlib.MeasureTheory.Measure.Lebesgue.Basic
/-
Streams of independent draws exist: the assumptions of the theorems about probabilities are met.
-/
namespace Verif
open MeasureTheory ProbabilityTheory

/-- The space of all streams of independent standard normal draws. -/
noncomputable def normalStreams : Measure (ℕ → ℝ) := Measure.infinitePi fun _ : ℕ => gaussianReal 0 1

/-- The space of all streams of independent draws uniform on [0, 1). -/
noncomputable def uniformStreams : Measure (ℕ → ℝ) := Measure.infinitePi fun _ : ℕ => volume.restrict (Set.Ico (0 : ℝ) 1)

instance : IsProbabilityMeasure normalStreams := by unfold normalStreams; infer_instance

instance unif_prob : IsProbabilityMeasure (volume.restrict (Set.Ico (0 : ℝ) 1)) := ⟨by rw [Measure.restrict_apply_univ, Real.volume_Ico]; norm_num⟩

instance : IsProbabilityMeasure uniformStreams := by unfold uniformStreams; infer_instance

theorem normalStreams_law : NormalDraws normalStreams (fun ω i => ω i) := fun i => MeasurePreserving.hasLaw (measurePreserving_eval_infinitePi _ i)

theorem uniformStreams_law : UniformDraws uniformStreams (fun ω i => ω i) := fun i => MeasurePreserving.hasLaw (measurePreserving_eval_infinitePi _ i)

theorem normalStreams_indep : iIndepFun (fun i (ω : ℕ → ℝ) => ω i) normalStreams :=
  iIndepFun_infinitePi (P := fun _ : ℕ => gaussianReal 0 1) (X := fun _ (x : ℝ) => x) (fun _ => measurable_id)

theorem uniformStreams_indep : iIndepFun (fun i (ω : ℕ → ℝ) => ω i) uniformStreams :=
  iIndepFun_infinitePi (P := fun _ : ℕ => volume.restrict (Set.Ico (0 : ℝ) 1)) (X := fun _ (x : ℝ) => x) (fun _ => measurable_id)

end Verif
