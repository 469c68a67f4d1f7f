import Verif.Model.Mimo
/-
Types of the arrays inside `kbest`, /repo/commpy/modulation.py:325-419.
-/
namespace Verif

/-- modulation.py:380-387, 399: the hypotheses.  `firstComplex` is `isinstance(constellation[0], complex)`: true for Python complex numbers and numpy.complex128, false for
integers, floats and numpy.complex64.  When it is false, `hyp` is an array of floats, and `hyp[:nb_hyp] = repeat(constellation, nb_can)` keeps the real parts (numpy gives a
ComplexWarning, no exception). -/
noncomputable def hypPoints (firstComplex : Bool) (constellation : List ℂ) : List ℂ :=
  if firstComplex then constellation else constellation.map fun z => ((z.re : ℝ) : ℂ)

/-- modulation.py:325-419 `kbest` with the types of its arguments: `realInput` says that both `h` and `y` are arrays of real numbers, so that `yt` and `d` are.  Then
`d[coor, :nb_hyp] -= r[coor, coor] * hyp[:nb_hyp]` with complex hypotheses cannot be stored (TypeError, line 401).  Everything else as in `kbest`.  The numbers of a complex64
constellation are given exactly; rounding is not modelled. -/
noncomputable def kbestTyped (realInput firstComplex : Bool) (argsort : List ℝ → List Nat) (qr : (Nat → Nat → ℂ) → (Nat → Nat → ℂ) × (Nat → Nat → ℂ)) (junk : Nat → ℂ)
    (rows cols : Nat) (y : Nat → ℂ) (h : Nat → Nat → ℂ) (constellation : List ℂ) (K : Nat) (noiseVar : ℝ) (outputType : String)
    (demode : List ℂ → List Nat) : Py (List ℂ ⊕ List EReal) :=
  if rows < cols then .error .valueError
  else if constellation = [] then .error .indexError
  else if realInput = true ∧ firstComplex = true ∧ 0 < cols then .error .typeError
  else kbest argsort qr junk rows cols y h (hypPoints firstComplex constellation) K noiseVar outputType demode

end Verif
