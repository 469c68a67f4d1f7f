import Verif.Model.Modulation
/-
Hard demodulation in double precision, /repo/commpy/modulation.py:121-123.  Same code as `demodHard` of `Model/Modulation`; what
changes is the arithmetic of `abs(input_symbols - self._constellation[:, None])`: `sub` is the subtraction of two doubles (numpy subtracts
the real parts and the imaginary parts), `hypot` is the function by which numpy computes the absolute value of a complex number.  Nothing is
assumed about them in this file.  Overflow and nan are not modelled.
-/
namespace Verif

/-- The elementary functions on doubles used by hard demodulation. -/
structure DemodFloats where
  sub : ℝ → ℝ → ℝ
  hypot : ℝ → ℝ → ℝ

/-- modulation.py:122: the computed `abs(y - c)`. -/
noncomputable def distF (D : DemodFloats) (y c : ℂ) : ℝ := D.hypot (D.sub y.re c.re) (D.sub y.im c.im)

/-- modulation.py:122: `abs(y - constellation).argmin()` for every symbol. -/
noncomputable def nearestIdxF (D : DemodFloats) (s : Modem) (y : ℂ) : Nat := argminFirst (s.constellation.map fun c => distF D y c)

/-- modulation.py:121-123: hard demodulation (argmin over an empty axis raises ValueError). -/
noncomputable def demodHardF (D : DemodFloats) (s : Modem) (ys : List ℂ) : Py (List Nat) :=
  if s.constellation = [] then .error .valueError
  else dec2bitarrayArr (ys.map (nearestIdxF D s)) s.nbits

end Verif
