import Mathlib.Analysis.SpecialFunctions.Trigonometric.Basic
/-
Specification for C105: the textbook raised-cosine spectrum (Proakis, eq. 9.2-26), independent of the model.
-/
namespace Verif

open Classical in
/-- Raised-cosine spectrum with roll-off `α` and symbol period `T`: `T` up to `(1-α)/2T`, half a cosine period down to
zero at `(1+α)/2T`. -/
noncomputable def rcSpectrum (α T f : ℝ) : ℝ :=
  if |f| ≤ (1 - α) / (2 * T) then T
  else if |f| ≤ (1 + α) / (2 * T) then
    T / 2 * (1 + Real.cos (Real.pi * T / α * (|f| - (1 - α) / (2 * T))))
  else 0

/-- Root raised-cosine spectrum, scaled as in the code (value `T` at `f = 0`): the square is `T` times the
raised-cosine spectrum. -/
noncomputable def rrcSpectrum (α T f : ℝ) : ℝ := Real.sqrt (T * rcSpectrum α T f)

end Verif
