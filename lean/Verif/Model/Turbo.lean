import Verif.Model.Convcode
import Verif.Model.Interleavers
import Verif.Model.Links
import Mathlib.Analysis.SpecialFunctions.Log.Basic
/-
Model of /repo/commpy/channelcoding/turbo.py.

Floats are exact reals.  A division by a sum that is zero, or a logarithm of a number that is not positive, gives nan or
infinities and a warning in numpy; the model reports `zeroDivisionError` there, and the theorems that give an `.ok` result
show that this does not happen with exact arithmetic (with rounding it does, by underflow: see Model/TurboFloat and property
C122).  The noise variance is assumed to be non-zero.
-/
namespace Verif

/-- `a[start::2]`. -/
def stride2 (start : Nat) (l : List Nat) : List Nat := (strideIdx l.length start 2).map (fun i => l.getD i 0)

/-- turbo.py:14-59 `turbo_encode`.  The third argument of `conv_encode` is `termination`, so `'rsc'` only says "not 'cont'
and not 'term'".  `outLen1`, `outLen2` are `int(N / rate)` for the two trellises (see `convEncodeRun`). -/
def turboEncode (outLen1 outLen2 : Nat → Nat) (t1 t2 : Trellis) (p : List Nat) (msg : List Nat) : Py (List Nat × List Nat × List Nat) := do
  let stream ← convEncode outLen1 t1 msg "rsc" none
  let sys := stride2 0 stream
  let ns1 := stride2 1 stream
  let im ← interlv p sys
  let ns2 ← convEncode outLen2 t2 im "rsc" (some [[0, 1]])
  pure (pySlice sys 0 (-(t1.M : Int)), pySlice ns1 0 (-(t1.M : Int)), pySlice ns2 0 (-(t2.M : Int)))

/-- turbo.py:62-76 `_compute_branch_prob`. -/
noncomputable def branchProb (c0 c1 : Nat) (r0 r1 σ2 : ℝ) : ℝ :=
  let x := r0 - (2 * (c0 : ℝ) - 1)
  let y := r1 - (2 * (c1 : ℝ) - 1)
  Real.exp (-(x * x + y * y) / (2 * σ2))

/-- turbo.py:95-108: the body of the inner loop, for state `s`, input `u` and time index `τ` (counted from 0): adds to the entry of
`b_state_metrics[:, τ]` and stores the branch probability.  `bnext` is `b_state_metrics[:, τ + 1]`. -/
noncomputable def backInput (t : Trellis) (σ2 : ℝ) (ys yp : List ℝ) (priors : List (List ℝ)) (bnext : List ℝ) (τ s : Nat)
    (st : ℝ × List ℝ) (u : Nat) : Py (ℝ × List ℝ) := do
  let ns ← tableGet t.nextTable s u
  let o ← tableGet t.outTable s u
  let cw ← dec2bitarray o t.n
  let pb ← pyGet cw 1
  let mb ← pyGet cw 0
  let r0 ← pyGet ys (τ : Int)
  let r1 ← pyGet yp (τ : Int)
  let g := branchProb mb pb r0 r1 σ2
  let b ← pyGet bnext (ns : Int)
  let row ← pyGet priors (u : Int)
  let p ← pyGet row (τ : Int)
  pure (st.1 + b * g * p, st.2 ++ [g])

/-- turbo.py:94-108: the loop over the inputs for state `s`. -/
noncomputable def backCell (t : Trellis) (σ2 : ℝ) (ys yp : List ℝ) (priors : List (List ℝ)) (bnext : List ℝ) (τ s : Nat) : Py (ℝ × List ℝ) :=
  (List.range (2 ^ t.k)).foldlM (backInput t σ2 ys yp priors bnext τ s) (0, [])

/-- `x /= x.sum()` (turbo.py:110-111, 155). -/
noncomputable def normalise (col : List ℝ) : Py (List ℝ) :=
  if col.sum = 0 then .error .zeroDivisionError else .ok (col.map (· / col.sum))

/-- turbo.py:93-111: one step of the backward recursion.  The state is the list of the columns of `b_state_metrics` from time
`τ + 1` on, and the list of the branch probabilities from time `τ + 1` on. -/
noncomputable def backStep (t : Trellis) (σ2 : ℝ) (ys yp : List ℝ) (priors : List (List ℝ)) (st : List (List ℝ) × List (List (List ℝ))) (τ : Nat) :
    Py (List (List ℝ) × List (List (List ℝ))) := do
  let cells ← (List.range (2 ^ t.M)).mapM (backCell t σ2 ys yp priors (st.1.headD []) τ)
  let col ← normalise (cells.map Prod.fst)
  pure (col :: st.1, cells.map Prod.snd :: st.2)

/-- turbo.py:78-111 `_backward_recursion`: the columns of `b_state_metrics` (time 0 first) and the branch probabilities (indexed
by time, state, input). -/
noncomputable def backwardRec (t : Trellis) (σ2 : ℝ) (ys yp : List ℝ) (priors : List (List ℝ)) :
    Py (List (List ℝ) × List (List (List ℝ))) :=
  (List.range ys.length).reverse.foldlM (backStep t σ2 ys yp priors) ([List.replicate (2 ^ t.M) 1], [])

/-- turbo.py:133-143: one pass of the inner loops; the state is `f_state_metrics[:, 1]` and `app`. -/
noncomputable def forwardCell (t : Trellis) (priors : List (List ℝ)) (bnext : List ℝ) (br : List (List ℝ)) (f : List ℝ) (τ : Nat)
    (st : List ℝ × List ℝ) (su : Nat × Nat) : Py (List ℝ × List ℝ) := do
  let ns ← tableGet t.nextTable su.1 su.2
  let brow ← pyGet br (su.1 : Int)
  let g ← pyGet brow (su.2 : Int)
  let f0 ← pyGet f (su.1 : Int)
  let row ← pyGet priors (su.2 : Int)
  let p ← pyGet row (τ : Int)
  let old ← pyGet st.1 (ns : Int)
  let f1 ← pySet st.1 (ns : Int) (old + f0 * g * p)
  let b ← pyGet bnext (ns : Int)
  let a ← pyGet st.2 (su.2 : Int)
  let app ← pySet st.2 (su.2 : Int) (a + f0 * g * b)
  pure (f1, app)

/-- turbo.py:130-158: one time step.  The state is `f_state_metrics[:, 0]`, `L_ext` and `decoded_bits` so far. -/
noncomputable def forwardStep (t : Trellis) (decode : Bool) (lint : List ℝ) (priors : List (List ℝ)) (cols : List (List ℝ))
    (brs : List (List (List ℝ))) (st : List ℝ × List ℝ × List Nat) (τ : Nat) : Py (List ℝ × List ℝ × List Nat) := do
  let bnext ← pyGet cols ((τ + 1 : Nat) : Int)
  let br ← pyGet brs (τ : Int)
  let r ← ((List.range (2 ^ t.M)).flatMap (fun s => (List.range (2 ^ t.k)).map (fun u => (s, u)))).foldlM
    (forwardCell t priors bnext br st.1 τ) (List.replicate (2 ^ t.M) 0, List.replicate (2 ^ t.k) 0)
  let l ← pyGet lint (τ : Int)
  let a1 ← pyGet r.2 1
  let a0 ← pyGet r.2 0
  if a0 = 0 ∨ a1 / a0 ≤ 0 then .error .zeroDivisionError else
  let lappr := l + Real.log (a1 / a0)
  let bit := if decode then (if lappr > 0 then 1 else 0) else 0
  let f ← normalise r.1
  pure (f, st.2.1 ++ [lappr], st.2.2 ++ [bit])

/-- turbo.py:238-240: `priors`; numpy broadcasts a `L_int` of length one. -/
noncomputable def mapPriors (L : Nat) (lint : List ℝ) : Py (List (List ℝ)) :=
  let p0 := lint.map (fun x => 1 / (1 + Real.exp x))
  if lint.length = L then .ok [p0, p0.map (fun x => 1 - x)]
  else match p0 with
    | [x] => .ok [List.replicate L x, List.replicate L (1 - x)]
    | _ => .error .valueError

/-- turbo.py:163-251 `map_decode`: `L_ext` and `decoded_bits`. -/
noncomputable def mapDecode (t : Trellis) (σ2 : ℝ) (ys yp lint : List ℝ) (mode : String) : Py (List ℝ × List Nat) := do
  let priors ← mapPriors ys.length lint
  let (cols, brs) ← backwardRec t σ2 ys yp priors
  let r ← (List.range ys.length).foldlM (forwardStep t (mode = "decode") lint priors cols brs)
    ((List.replicate (2 ^ t.M) 0).set 0 1, [], [])
  pure (r.2.1, r.2.2)

/-- turbo.py:314-329: one iteration; the state is `L_int_1` and `decoded_bits` (unbound before the first iteration). -/
noncomputable def turboIter (t : Trellis) (σ2 : ℝ) (ys ysi yp1 yp2 : List ℝ) (p : List Nat) (n : Nat) (st : List ℝ × Option (List Nat)) (i : Nat) :
    Py (List ℝ × Option (List Nat)) := do
  let (l1, _) ← mapDecode t σ2 ys yp1 st.1 "compute"
  let e1 ← npZip (· - ·) l1 st.1
  let lint2 ← interlv p e1
  let mode := if i + 1 = n then "decode" else "compute"
  let (l2, bits) ← mapDecode t σ2 ysi yp2 lint2 mode
  let e2 ← npZip (· - ·) l2 lint2
  let lint1 ← deinterlv 0 p e2
  pure (lint1, some bits)

/-- turbo.py:254-333 `turbo_decode`. -/
noncomputable def turboDecode (t : Trellis) (σ2 : ℝ) (ys yp1 yp2 : List ℝ) (n : Int) (p : List Nat) (lint : Option (List ℝ)) : Py (List Nat) := do
  let ysi ← interlv p ys
  let r ← (List.range n.toNat).foldlM (turboIter t σ2 ys ysi yp1 yp2 p n.toNat) (lint.getD (List.replicate ys.length 0), none)
  match r.2 with
  | none => .error .nameError
  | some bits => deinterlv 0 p bits

end Verif
