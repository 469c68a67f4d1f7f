import Mathlib.Data.Real.Basic
import Mathlib.Algebra.Order.Floor.Ring
/-
Specification vocabulary for rounded arithmetic on real numbers (no overflow, no underflow).
-/
namespace Verif

/-- `fl` rounds real numbers to a set of floating-point numbers with relative error at most `u`: it respects the order, and the error
is at most `u` times the magnitude.  For IEEE doubles (within the range of the exponent) `u = 2^-53`. -/
structure IsRounding (u : ℝ) (fl : ℝ → ℝ) : Prop where
  mono : Monotone fl
  err : ∀ x, |fl x - x| ≤ u * |x|

/-- `FlSum fl l s`: `s` is a result of adding the numbers of the non-empty list `l` pairwise, in any order, every addition being rounded. -/
inductive FlSum (fl : ℝ → ℝ) : List ℝ → ℝ → Prop
  | one (x : ℝ) : FlSum fl [x] x
  | add {l a b : List ℝ} {s t : ℝ} (hp : l.Perm (a ++ b)) (hs : FlSum fl a s) (ht : FlSum fl b t) : FlSum fl l (fl (s + t))

end Verif
