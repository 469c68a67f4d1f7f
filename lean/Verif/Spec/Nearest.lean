import Mathlib.Data.Real.Basic
import Mathlib.Algebra.Order.Floor.Ring
/-
Specification vocabulary: rounding to the nearest double (any rule for ties; no overflow, no underflow).
-/
namespace Verif

/-- A binary floating-point number with 53 bits, of any exponent. -/
def IsDouble (y : ℝ) : Prop := ∃ m e : ℤ, |m| ≤ 2 ^ 53 ∧ y = m * (2 : ℝ) ^ e

/-- `fl` rounds to nearest: its results are doubles, and no double is closer. -/
structure RoundsNearest (fl : ℝ → ℝ) : Prop where
  double : ∀ x, IsDouble (fl x)
  near : ∀ x y, IsDouble y → |x - fl x| ≤ |x - y|

end Verif
