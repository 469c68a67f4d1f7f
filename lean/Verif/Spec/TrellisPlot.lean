import Verif.Model.TrellisPlot
import Verif.Spec.Trellis
/-
Specification vocabulary for the diagrams: coordinates of the columns and rows, the smallest input between two states, arrows.
-/
namespace Verif

/-- Abscissa of time `t` in a diagram with `L` steps: `L + 1` equidistant points from 0.12 to 0.22 L. -/
noncomputable def colX (L t : Nat) : ℝ := 0.12 + t * ((0.22 * L - 0.12) / L)

/-- Ordinate of the `i`-th row from the top among `N`: equidistant from 0.5 + 0.1 N down to 0.1. -/
noncomputable def rowY (N i : Nat) : ℝ := 0.1 + ((N : ℝ) - 1 - i) * ((0.4 + 0.1 * N) / ((N : ℝ) - 1))

/-- The smallest input that leads from state `s` to state `s'`, if any. -/
def firstInput (tr : Trellis) (s s' : Nat) : Option Nat := (List.range (2 ^ tr.k)).find? (fun u => tr.next s u == s')

/-- The arrow from the right end of the circle at `(t, row i)` to the left end of the circle at `(t + 1, row j)`. -/
noncomputable def spanArrow {α : Type} (N L : Nat) (r : ℝ) (t i j : Nat) (c : α) : PlotArrow α :=
  { x := colX L t + r, y := rowY N i, dx := (colX L (t + 1) - r) - (colX L t + r), dy := rowY N j - rowY N i, color := c }

/-- The arrows of a diagram, row by row from the bottom, with colour `c u` for smallest input `u`. -/
noncomputable def allArrows {α : Type} (tr : Trellis) (L : Nat) (order : List Nat) (r : ℝ) (c : Nat → α) : List (PlotArrow α) :=
  (List.range (L - 1)).flatMap fun t => (List.range (2 ^ tr.M)).reverse.flatMap fun i => (List.range (2 ^ tr.M)).reverse.flatMap fun j =>
    (firstInput tr (order.getD i 0) (order.getD j 0)).toList.map fun u => spanArrow (2 ^ tr.M) L r t i j (c u)

/-- Distance in the plane. -/
noncomputable def planeDist (p q : ℝ × ℝ) : ℝ := Real.sqrt ((p.1 - q.1) ^ 2 + (p.2 - q.2) ^ 2)

end Verif
