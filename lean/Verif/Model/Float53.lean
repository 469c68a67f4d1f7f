import Mathlib.Algebra.Order.Floor.Defs
import Mathlib.Data.Rat.Floor
/-
Double-precision arithmetic used for the block lengths of the convolutional encoder and decoder:
`rate = float(k)/n` (/repo/commpy/channelcoding/convcode.py:496), `int(number_inbits/rate)` (508, 514, 520) and
`int(len(coded_bits)*rate)` (convcode.py:695, 699).

A double is `m * 2^e` with a 53-bit mantissa; results are rounded to nearest, ties to even (IEEE-754).  Exponent
range, infinities and signs are not modelled: all values here are positive and moderate.
-/
namespace Verif

/-- A non-negative binary floating point number with `p` bits of precision. -/
def IsFloat (p : ℕ) (y : ℚ) : Prop := ∃ (m : ℕ) (e : ℤ), m < 2 ^ p ∧ y = (m : ℚ) * 2 ^ e

/-- `y` is the double nearest to `x`, ties to even: any other double is farther from `x`, or as far and then `y` has
an even mantissa (that is, 52 bits are enough to represent it). -/
def Rounds (x y : ℚ) : Prop :=
  IsFloat 53 y ∧ ∀ z, IsFloat 53 z → z = y ∨ |x - y| < |x - z| ∨ |x - y| = |x - z| ∧ IsFloat 52 y

/-- `v` is the value of `int(N / (float(k)/n))` (convcode.py:496 and 508/514/520). -/
def IsOutLen (k n N v : ℕ) : Prop :=
  ∃ rate q, Rounds ((k : ℚ) / n) rate ∧ Rounds ((N : ℚ) / rate) q ∧ v = ⌊q⌋₊

/-- `v` is the value of `int(len * (k/n))` (convcode.py:695, 699). -/
def IsDecLen (k n len v : ℕ) : Prop :=
  ∃ rate q, Rounds ((k : ℚ) / n) rate ∧ Rounds ((len : ℚ) * rate) q ∧ v = ⌊q⌋₊

end Verif
