import Verif.Model.Mimo
/-
`mimo_ml` of /repo/commpy/modulation.py:299-322 in floating-point arithmetic.  Same code as `mimoMl` of `Model/Mimo`; what changes is the arithmetic of
`norm(y[:, None] - dot(h, x_ideal), axis=0)`.  Nothing is assumed about the operations in this file.  Overflow and nan are not modelled.
-/
namespace Verif

/-- The floating-point operations used by `mimo_ml`: entry `i` of `dot(h, x)`, the difference of two complex numbers, and the norm of a column. -/
structure MlFloats where
  dot : (Nat → Nat → ℂ) → List ℂ → Nat → ℂ
  sub : ℂ → ℂ → ℂ
  norm : List ℂ → ℝ

/-- modulation.py:319: the computed `norm(y - dot(h, x))` for one column `x`. -/
noncomputable def residualF (D : MlFloats) (rows : Nat) (y : Nat → ℂ) (h : Nat → Nat → ℂ) (x : List ℂ) : ℝ :=
  D.norm ((List.range rows).map fun i => D.sub (y i) (D.dot h x i))

open Classical in
/-- modulation.py:299-322 `mimo_ml`. -/
noncomputable def mimoMlF (D : MlFloats) (rows n : Nat) (y : Nat → ℂ) (h : Nat → Nat → ℂ) (constellation : List ℂ) : Py (List ℂ) :=
  let column (j : Nat) : List ℂ := (List.range n).map fun i => (idealRow constellation n i).getD j 0
  let norms := (List.range (constellation.length ^ n)).map fun j => residualF D rows y h (column j)
  if norms = [] then .error .valueError else .ok (column (argminFirst norms))

/-- `dot` as a loop: products and partial sums are rounded one after the other. -/
noncomputable def dotLoop (add mul : ℂ → ℂ → ℂ) (h : Nat → Nat → ℂ) (x : List ℂ) (i : Nat) : ℂ :=
  (List.range x.length).foldl (fun acc j => add acc (mul (h i j) (x.getD j 0))) 0

end Verif
