import Verif.Model.Convcode
import Mathlib.Analysis.SpecialFunctions.Trigonometric.Arctan
/-
Model of the drawing methods of /repo/commpy/channelcoding/convcode.py: `Trellis.visualize` (lines 257-367) and
`Trellis.visualize_fsm` (lines 369-472), as the list of graphical objects handed to matplotlib.  Positions are real numbers.
Fonts, sizes, figure handling and saving are not modelled.
-/
namespace Verif

/-- An arrow handed to matplotlib (`FancyArrow`): start point, displacement and colour. -/
structure PlotArrow (α : Type) where
  x : ℝ
  y : ℝ
  dx : ℝ
  dy : ℝ
  color : α

/-- What `visualize` hands to matplotlib: labelled circles, arrows, texts `input/output`, the legend (handle, input number), and the
caller's `state_order` list afterwards. -/
structure TrellisPlot (α : Type) where
  circles : List ((ℝ × ℝ) × Nat)
  arrows : List (PlotArrow α)
  labels : List ((ℝ × ℝ) × (Nat × Nat))
  legend : List (PlotArrow α × Nat)
  stateOrder : List Nat

/-- One axis of `np.mgrid[a:b:n*1j]`: `n` equidistant points from `a` to `b`, only `a` for `n = 1`. -/
noncomputable def mgridAxis (a b : ℝ) (n i : Nat) : ℝ := if n = 1 then a else a + i * ((b - a) / (n - 1))

/-- convcode.py:257-263 `_generate_grid`: column `j` of the reshaped grid. -/
noncomputable def plotGrid (N L j : Nat) : ℝ × ℝ :=
  (mgridAxis 0.12 (0.22 * L) (L + 1) (j / N), mgridAxis 0.1 (0.5 + N * 0.1) N (j % N))

/-- convcode.py:265-277 `_generate_states`: a circle and its text. -/
noncomputable def plotStates (N L : Nat) (order : List Nat) : Py (List ((ℝ × ℝ) × Nat)) :=
  (List.range (N * L)).mapM fun j => do
    let s ← pyGet order ((j % N : Nat) : Int)
    pure (plotGrid N L j, s)

/-- convcode.py:287-298: the arrow from position `i` at time `t` to position `j` at time `t + 1`, if the transition exists. -/
noncomputable def plotEdge {α : Type} (tr : Trellis) (N L : Nat) (order : List Nat) (r : ℝ) (colors : List α) (t i j : Nat) :
    Py (List (PlotArrow α)) := do
  let p1 := plotGrid N L (N * t + i)
  let p2 := plotGrid N L (N * t + (j + N))
  let s1 ← pyGet order (i : Int)
  let row ← pyGet tr.nextTable (s1 : Int)
  let s2 ← pyGet order (j : Int)
  if s2 ∈ row then
    let c ← pyGet colors ((row.idxOf s2 : Int) - 1)
    pure [{ x := p1.1 + r, y := p1.2, dx := p2.1 - p1.1 - 2 * r, dy := p2.2 - p1.2, color := c }]
  else pure []

/-- convcode.py:279-301 `_generate_edges`. -/
noncomputable def plotEdges {α : Type} (tr : Trellis) (N L : Nat) (order : List Nat) (r : ℝ) (colors : List α) : Py (List (PlotArrow α)) := do
  let all ← (List.range (L - 1)).mapM fun t => do
    let a ← (List.range N).mapM fun i => do
      let b ← (List.range N).mapM fun j => plotEdge tr N L order r colors t i j
      pure b.flatten
    pure a.flatten
  pure all.flatten

/-- convcode.py:303-312 `_generate_labels`. -/
noncomputable def plotLabels (tr : Trellis) (N L : Nat) (order : List Nat) (r : ℝ) : Py (List ((ℝ × ℝ) × (Nat × Nat))) := do
  let all ← (List.range N).mapM fun (i : Nat) =>
    (List.range (2 ^ tr.k)).mapM fun (u : Nat) => do
      let s ← pyGet order (i : Int)
      let o ← tableGet tr.outTable s u
      let p := plotGrid N L i
      pure ((p.1 - 1.5 * r, p.2 + r * (1 - u - 0.7)), (u, o))
  pure all.flatten

/-- convcode.py:315-367 `visualize` with an explicit `state_order` list and colours (the defaults are `list(range(number_states))`, a fresh
list, and one colour per input).  Line 348 reverses the caller's list in place.  `plt.legend` pairs handles and labels and stops at the
shorter list. -/
noncomputable def visualize {α : Type} (tr : Trellis) (L : Nat) (stateOrder : List Nat) (r : ℝ) (colors : List α) : Py (TrellisPlot α) := do
  let N := 2 ^ tr.M
  let order := stateOrder.reverse
  let circles ← plotStates N L order
  let arrows ← plotEdges tr N L order r colors
  let labels ← plotLabels tr N L order r
  pure { circles := circles, arrows := arrows, labels := labels, legend := arrows.zip (List.range (2 ^ tr.k)), stateOrder := order }

/-- A curved arrow of `visualize_fsm` and its text (the output). -/
structure FsmArrow (α : Type) where
  start : ℝ × ℝ
  mid : ℝ × ℝ
  stop : ℝ × ℝ
  text : Nat
  textPos : ℝ × ℝ
  textColor : α
  color : α

/-- What `visualize_fsm` hands to matplotlib. -/
structure FsmPlot (α : Type) where
  circles : List ((ℝ × ℝ) × Nat)
  arrows : List (FsmArrow α)
  legend : List (FsmArrow α × Nat)
  stateOrder : List Nat

/-- convcode.py:412-461: the arrow of one state and one input.  `pos` and `ang` are the values computed in lines 399-401. -/
noncomputable def fsmArrow {α : Type} (tr : Trellis) (pos : Nat → ℝ × ℝ) (ang : Nat → ℝ) (radius r : ℝ) (order : List Nat) (colors : List α)
    (idx state input : Nat) : Py (FsmArrow α) := do
  let nx ← tableGet tr.nextTable state input
  let j ← if nx ∈ order then pure (order.idxOf nx) else .error .indexError
  let o ← tableGet tr.outTable state input
  let p := pos idx
  if nx = state then
    let a := (p.1 + r * Real.cos (ang idx + Real.pi / 6), p.2 + r * Real.sin (ang idx + Real.pi / 6))
    let b := (p.1 + r * Real.cos (ang idx - Real.pi / 6), p.2 + r * Real.sin (ang idx - Real.pi / 6))
    let c := (p.1 + r * 2 * Real.cos (ang idx), p.2 + r * 2 * Real.sin (ang idx))
    let col ← pyGet colors (input : Int)
    pure { start := a, mid := c, stop := b, text := o, textPos := c, textColor := col, color := col }
  else
    let q := pos j
    let dx := q.1 - p.1
    let dy := q.2 - p.2
    if dx = 0 then .error .zeroDivisionError
    else
      let rel := Real.arctan (dy / dx) + (if 0 < dx then 0 else Real.pi)
      let a := (p.1 + r * Real.cos (rel + Real.pi * 0.05), p.2 + r * Real.sin (rel + Real.pi * 0.05))
      let b := (q.1 - r * Real.cos (rel - Real.pi * 0.05), q.2 - r * Real.sin (rel - Real.pi * 0.05))
      let h := (ang idx + ang j) / 2
      let sg : ℝ := if 0 < dx then 1 else -1
      let c := ((a.1 + b.1) / 2 + radius * 0.25 * Real.cos h * sg, (a.2 + b.2) / 2 + radius * 0.25 * Real.sin h * sg)
      let tp := (c.1 + 0.01 * Real.cos h, c.2 + 0.01 * Real.sin h)
      let col ← pyGet colors (input : Int)
      pure { start := a, mid := c, stop := b, text := o, textPos := tp, textColor := col, color := col }

/-- convcode.py:369-472 `visualize_fsm`.  Parameters `pos`, `ang`: the positions and angles as computed (rounded) by lines 399-401;
`enumerate(state_order)` beyond the number of states would raise IndexError (line 406). -/
noncomputable def visualizeFsm {α : Type} (tr : Trellis) (pos : Nat → ℝ × ℝ) (ang : Nat → ℝ) (stateOrder : List Nat) (r : ℝ) (colors : List α) :
    Py (FsmPlot α) := do
  let N := 2 ^ tr.M
  let rows ← stateOrder.zipIdx.mapM fun (p : Nat × Nat) => do
    if p.2 < N then
      let arrows ← (List.range (2 ^ tr.k)).mapM fun u => fsmArrow tr pos ang (r * N) r stateOrder colors p.2 p.1 u
      pure ((pos p.2, p.1), arrows)
    else .error .indexError
  let arrows := (rows.map Prod.snd).flatten
  pure { circles := rows.map Prod.fst, arrows := arrows, legend := arrows.zip (List.range (2 ^ tr.k)), stateOrder := stateOrder }

end Verif
