import Mathlib.LinearAlgebra.Matrix.NonsingularInverse
import Mathlib.Algebra.Order.Field.Rat
/-
Specification vocabulary: single-precision numbers and matrix inversion in single precision (no overflow, no underflow).
-/
namespace Verif

/-- A binary floating-point number with 24 bits, of any exponent. -/
def IsFloat32 (x : ℚ) : Prop := ∃ m e : ℤ, |m| ≤ 2 ^ 24 ∧ x = m * (2 : ℚ) ^ e

/-- The results of `inv` are single-precision numbers, each within one half (50%) of the exact entry of the inverse. -/
structure InvFloat32 (inv : ∀ n, Matrix (Fin n) (Fin n) ℚ → Matrix (Fin n) (Fin n) ℚ) : Prop where
  float : ∀ n A i j, IsFloat32 (inv n A i j)
  near : ∀ n A i j, A.det ≠ 0 → |inv n A i j - A⁻¹ i j| ≤ 1 / 2 * |A⁻¹ i j|

end Verif
