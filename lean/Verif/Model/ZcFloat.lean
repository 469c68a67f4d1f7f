import Verif.Model.FilterFloat
import Verif.Model.Sequences
/-
`zcsequence` of /repo/commpy/sequences.py in floating-point arithmetic, and with arguments that are not integers.
-/
namespace Verif

/-- sequences.py:110 `np.exp(-1j * np.pi * u * n * (n+cf+2.*q) / seq_length)`: the operands are complex numbers one of whose parts is zero, so that each product is one
rounded multiplication; numpy divides by a complex number by multiplying with the rounded reciprocal.  The integers are exact as doubles. -/
noncomputable def zcSampleF (F : FilterFloats) (u N q : Int) (n : Nat) : ℂ :=
  let a := F.fl (F.fl (-F.pi * u) * n)
  let m := F.fl (((n : Int) + N % 2 : Int) + F.fl (2 * q))
  let φ := F.fl (F.fl (a * m) * F.fl (1 / N))
  ⟨F.cos φ, F.sin φ⟩

/-- sequences.py:76-112 `zcsequence` for integer arguments, with rounding. -/
noncomputable def zcsequenceF (F : FilterFloats) (u N q : Int) : Py (List ℂ) :=
  if u ≤ 0 then .error .valueError
  else if u ≥ N then .error .valueError
  else if Int.gcd u N ≠ 1 then .error .valueError
  else .ok ((List.range N.toNat).map (zcSampleF F u N q))

/-- A Python number: an int or a float. -/
inductive PyNum where
  | int (z : Int)
  | float (x : ℚ)

/-- Its value. -/
def PyNum.val : PyNum → ℚ
  | .int z => z
  | .float x => x

/-- Whether it is an int. -/
def PyNum.isInt : PyNum → Bool
  | .int _ => true
  | .float _ => false

/-- sequences.py:76-112 `zcsequence` with ints or floats: `float(el).is_integer()` (lines 98-100), and `np.gcd` (line 105) rejects floats. -/
noncomputable def zcsequencePy (u N q : PyNum) : Py (List ℂ) :=
  if u.val.den ≠ 1 ∨ N.val.den ≠ 1 ∨ q.val.den ≠ 1 then .error .valueError
  else if u.val ≤ 0 then .error .valueError
  else if u.val ≥ N.val then .error .valueError
  else if u.isInt = false ∨ N.isInt = false then .error .typeError
  else zcsequence u.val.num N.val.num q.val.num

end Verif
