import Verif.Model.Modulation
import Mathlib.Data.EReal.Operations
import Mathlib.Data.EReal.Inv
/-
Model of /repo/commpy/modulation.py: `mimo_ml`, `kbest`, `bit_lvl_repr`, `max_log_approx`.  Matrices are functions of two
natural numbers together with their dimensions; vectors returned to the caller are lists.  Floats are exact.  Array shapes are
assumed to match the dimensions (numpy's broadcasting of mismatching shapes is not modelled).
-/
namespace Verif

/-- Entries `y - h x` squared and summed: `norm(y - h.dot(x)) ** 2`, for `h` with `rows` rows and as many columns as `x` has
entries. -/
noncomputable def residualSq (rows : Nat) (y : Nat → ℂ) (h : Nat → Nat → ℂ) (x : List ℂ) : ℝ :=
  ((List.range rows).map fun i => ‖y i - ((List.range x.length).map fun j => h i j * x.getD j 0).sum‖ ^ 2).sum

/-- modulation.py:317-318: the row `i` of `x_ideal`, `repeat(tile(constellation, m**i), m**(n-i-1))`. -/
def idealRow (constellation : List ℂ) (n i : Nat) : List ℂ :=
  npRepeat (npTile constellation (constellation.length ^ i)) (constellation.length ^ (n - i - 1))

/-- modulation.py:299-322 `mimo_ml`.  `argmin` of an empty array raises ValueError. -/
noncomputable def mimoMl (rows n : Nat) (y : Nat → ℂ) (h : Nat → Nat → ℂ) (constellation : List ℂ) : Py (List ℂ) :=
  let column (j : Nat) : List ℂ := (List.range n).map fun i => (idealRow constellation n i).getD j 0
  let norms := (List.range (constellation.length ^ n)).map fun j => Real.sqrt (residualSq rows y h (column j))
  if norms = [] then .error .valueError else .ok (column (argminFirst norms))

/-- One column of the arrays `X`, `d` and `d_tot` of `kbest`. -/
structure KCand where
  x : Nat → ℂ
  d : Nat → ℂ
  tot : ℝ

/-- modulation.py:399-402: a hypothesis `s` for coordinate `coor` on top of a candidate. -/
noncomputable def kExtend (r : Nat → Nat → ℂ) (coor : Nat) (s : ℂ) (a : KCand) : KCand :=
  let d := Function.update a.d coor (a.d coor - r coor coor * s)
  { x := Function.update a.x coor s, d := d, tot := a.tot + ‖d coor‖ ^ 2 }

/-- modulation.py:391-412: one iteration of the loop.  The arrays have `K*m` columns of which the first `nb_can` are the
candidates; the model keeps these.  `argsort` is numpy's (unstable) sort, a parameter. -/
noncomputable def kStep (argsort : List ℝ → List Nat) (r : Nat → Nat → ℂ) (constellation : List ℂ) (K : Nat) (cands : List KCand)
    (coor : Nat) : List KCand :=
  let hyps : List (KCand × ℂ) := constellation.flatMap fun s => cands.map fun a => (kExtend r coor s a, s)
  let order := argsort (hyps.map fun p => p.1.tot)
  let nbCan := min hyps.length K
  (order.take nbCan).map fun j =>
    let p := hyps.getD j (⟨fun _ => 0, fun _ => 0, 0⟩, 0)
    { p.1 with d := fun i => if i < coor then p.1.d i - r i coor * p.2 else p.1.d i }

/-- modulation.py:390: the loop `for coor in range(nb_rx - 1, -1, -1)`. -/
noncomputable def kLoop (argsort : List ℝ → List Nat) (r : Nat → Nat → ℂ) (constellation : List ℂ) (K : Nat) :
    Nat → List KCand → List KCand
  | 0, cands => cands
  | coor + 1, cands => kLoop argsort r constellation K coor (kStep argsort r constellation K cands coor)

/-- modulation.py:373-412: the candidates after the loop.  `qr h` stands for `numpy.linalg.qr`, `junk` for the uninitialised
array `X`. -/
noncomputable def kCands (argsort : List ℝ → List Nat) (qr : (Nat → Nat → ℂ) × (Nat → Nat → ℂ)) (junk : Nat → ℂ) (rows cols : Nat)
    (y : Nat → ℂ) (constellation : List ℂ) (K : Nat) : List KCand :=
  let yt : Nat → ℂ := fun k => ((List.range rows).map fun i => (starRingEnd ℂ) (qr.1 i k) * y i).sum
  kLoop argsort qr.2 constellation K cols [⟨junk, yt, 0⟩]

/-- modulation.py:568-596 `bit_lvl_repr`: `dot(H, kron(eye(n), w))`; the result is given entry-wise, `rows × n*len(w)`. -/
def bitLvlRepr (n : Nat) (H : Nat → Nat → ℂ) (w : List ℂ) : Py (Nat → Nat → ℂ) :=
  if w.length % 2 = 0 then
    let kr : Nat → Nat → ℂ := fun i c => (if i = c / w.length then 1 else 0) * w.getD (c % w.length) 0
    .ok fun i c => ((List.range n).map fun j => H i j * kr j c).sum
  else .error .valueError

/-- `min(hstack((norms, inf)))`. -/
noncomputable def minInf (l : List ℝ) : EReal := l.foldl (fun acc (x : ℝ) => min acc (x : EReal)) ⊤

/-- modulation.py:599-646 `max_log_approx`.  `points` are the columns of `pts_list`, each of length `cols`; `demode` maps the
concatenated points to their bits.  `reshape` raises ValueError when the bits cannot be divided among the points. -/
noncomputable def maxLogApprox (rows : Nat) (y : Nat → ℂ) (h : Nat → Nat → ℂ) (noiseVar : ℝ) (points : List (List ℂ))
    (demode : List ℂ → List Nat) : Py (List EReal) :=
  let bits := demode points.flatten
  if points.length = 0 ∨ bits.length % points.length ≠ 0 then .error .valueError
  else
    let nbBits := bits.length / points.length
    let bit (p k : Nat) : Nat := bits.getD (p * nbBits + k) 0
    let norms (k v : Nat) : List ℝ :=
      (points.zipIdx.filter fun e => bit e.2 k = v).map fun e => residualSq rows y h e.1
    .ok ((List.range nbBits).map fun k => -(minInf (norms k 0) - minInf (norms k 1)) / ((2 * noiseVar : ℝ) : EReal))

/-- modulation.py:325-419 `kbest` (`rows`, `cols`: shape of `h`).  `K = 0` is not modelled (numpy raises). -/
noncomputable def kbest (argsort : List ℝ → List Nat) (qr : (Nat → Nat → ℂ) → (Nat → Nat → ℂ) × (Nat → Nat → ℂ)) (junk : Nat → ℂ)
    (rows cols : Nat) (y : Nat → ℂ) (h : Nat → Nat → ℂ) (constellation : List ℂ) (K : Nat) (noiseVar : ℝ) (outputType : String)
    (demode : List ℂ → List Nat) : Py (List ℂ ⊕ List EReal) :=
  if rows < cols then .error .valueError
  else if constellation = [] then .error .indexError
  else
    let cands := kCands argsort (qr h) junk rows cols y constellation K
    if outputType = "hard" then
      match cands with
      | a :: _ => .ok (.inl ((List.range cols).map a.x))
      | [] => .error .indexError
    else if outputType = "soft" then
      (maxLogApprox rows y h noiseVar (cands.map fun a => (List.range cols).map a.x) demode).map .inr
    else .error .valueError

end Verif
