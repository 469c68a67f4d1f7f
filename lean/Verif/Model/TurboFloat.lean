import Verif.Model.Turbo
/-
`map_decode` and `turbo_decode` (/repo/commpy/channelcoding/turbo.py:62-333) in floating point, with infinities and nan.

Same structure as `Model/Turbo`; the rounding of the operations is a parameter `D`, about which this file assumes nothing.  The sign of zero
is not represented: a zero divisor counts as +0 (in the code the only divisors that can be zero are sums of products of non-negative
numbers).  Warnings of numpy are not errors.
-/
namespace Verif

/-- A floating-point number. -/
inductive Fl
  | fin (x : ℝ)
  | inf
  | ninf
  | nan

/-- The floating-point functions used by `map_decode`. -/
structure MapFloats where
  /-- rounding of the exact result of an operation on finite numbers -/
  rnd : ℝ → Fl
  /-- `np.exp` of a finite number -/
  exp : ℝ → Fl
  /-- `np.log` of a positive finite number -/
  log : ℝ → Fl
  /-- `np.sum` -/
  sum : List Fl → Fl

variable (D : MapFloats)

/-- IEEE addition. -/
def flAdd : Fl → Fl → Fl
  | .fin x, .fin y => D.rnd (x + y)
  | .nan, _ | _, .nan => .nan
  | .inf, .ninf | .ninf, .inf => .nan
  | .inf, _ | _, .inf => .inf
  | .ninf, _ | _, .ninf => .ninf

/-- Negation is exact. -/
def flNeg : Fl → Fl
  | .fin x => .fin (-x)
  | .inf => .ninf
  | .ninf => .inf
  | .nan => .nan

/-- IEEE subtraction. -/
def flSub (a b : Fl) : Fl := flAdd D a (flNeg b)

/-- An infinity times a finite number. -/
noncomputable def flScale (x : ℝ) (a : Fl) : Fl := if x = 0 then .nan else if 0 < x then a else flNeg a

/-- IEEE multiplication. -/
noncomputable def flMul : Fl → Fl → Fl
  | .fin x, .fin y => D.rnd (x * y)
  | .nan, _ | _, .nan => .nan
  | .fin x, a | a, .fin x => flScale x a
  | .inf, a => a
  | .ninf, a => flNeg a

/-- IEEE division, a zero divisor being +0. -/
noncomputable def flDiv : Fl → Fl → Fl
  | .fin x, .fin y => if y = 0 then (if x = 0 then .nan else if 0 < x then .inf else .ninf) else D.rnd (x / y)
  | .nan, _ | _, .nan => .nan
  | .fin _, _ => .fin 0
  | a, .fin y => if y < 0 then flNeg a else a
  | _, _ => .nan

/-- `np.exp`. -/
def flExp : Fl → Fl
  | .fin x => D.exp x
  | .inf => .inf
  | .ninf => .fin 0
  | .nan => .nan

/-- `np.log`. -/
noncomputable def flLog : Fl → Fl
  | .fin x => if x = 0 then .ninf else if 0 < x then D.log x else .nan
  | .inf => .inf
  | _ => .nan

/-- `a > 0`; comparisons with nan are false. -/
def Fl.Pos : Fl → Prop
  | .fin x => 0 < x
  | .inf => True
  | _ => False

/-- turbo.py:62-76 `_compute_branch_prob`; `2 * bit - 1` is an integer. -/
noncomputable def branchProbF (c0 c1 : Nat) (r0 r1 σ2 : Fl) : Fl :=
  let x := flSub D r0 (.fin (2 * (c0 : ℝ) - 1))
  let y := flSub D r1 (.fin (2 * (c1 : ℝ) - 1))
  flExp D (flDiv D (flNeg (flAdd D (flMul D x x) (flMul D y y))) (flMul D (.fin 2) σ2))

/-- turbo.py:95-108: the body of the inner loop of the backward recursion. -/
noncomputable def backInputF (t : Trellis) (σ2 : Fl) (ys yp : List Fl) (priors : List (List Fl)) (bnext : List Fl) (τ s : Nat)
    (st : Fl × List Fl) (u : Nat) : Py (Fl × List Fl) := do
  let ns ← tableGet t.nextTable s u
  let o ← tableGet t.outTable s u
  let cw ← dec2bitarray o t.n
  let pb ← pyGet cw 1
  let mb ← pyGet cw 0
  let r0 ← pyGet ys (τ : Int)
  let r1 ← pyGet yp (τ : Int)
  let g := branchProbF D mb pb r0 r1 σ2
  let b ← pyGet bnext (ns : Int)
  let row ← pyGet priors (u : Int)
  let p ← pyGet row (τ : Int)
  pure (flAdd D st.1 (flMul D (flMul D b g) p), st.2 ++ [g])

/-- turbo.py:94-108: the loop over the inputs for state `s`. -/
noncomputable def backCellF (t : Trellis) (σ2 : Fl) (ys yp : List Fl) (priors : List (List Fl)) (bnext : List Fl) (τ s : Nat) : Py (Fl × List Fl) :=
  (List.range (2 ^ t.k)).foldlM (backInputF D t σ2 ys yp priors bnext τ s) (.fin 0, [])

/-- `x /= x.sum()` (turbo.py:110-111, 155). -/
noncomputable def normaliseF (col : List Fl) : List Fl := col.map (fun x => flDiv D x (D.sum col))

/-- turbo.py:93-111: one step of the backward recursion (state as in `backStep`). -/
noncomputable def backStepF (t : Trellis) (σ2 : Fl) (ys yp : List Fl) (priors : List (List Fl)) (st : List (List Fl) × List (List (List Fl))) (τ : Nat) :
    Py (List (List Fl) × List (List (List Fl))) := do
  let cells ← (List.range (2 ^ t.M)).mapM (backCellF D t σ2 ys yp priors (st.1.headD []) τ)
  pure (normaliseF D (cells.map Prod.fst) :: st.1, cells.map Prod.snd :: st.2)

/-- turbo.py:78-111 `_backward_recursion`. -/
noncomputable def backwardRecF (t : Trellis) (σ2 : Fl) (ys yp : List Fl) (priors : List (List Fl)) : Py (List (List Fl) × List (List (List Fl))) :=
  (List.range ys.length).reverse.foldlM (backStepF D t σ2 ys yp priors) ([List.replicate (2 ^ t.M) (.fin 1)], [])

/-- turbo.py:133-143: one pass of the inner loops of the forward recursion. -/
noncomputable def forwardCellF (t : Trellis) (priors : List (List Fl)) (bnext : List Fl) (br : List (List Fl)) (f : List Fl) (τ : Nat)
    (st : List Fl × List Fl) (su : Nat × Nat) : Py (List Fl × List Fl) := do
  let ns ← tableGet t.nextTable su.1 su.2
  let brow ← pyGet br (su.1 : Int)
  let g ← pyGet brow (su.2 : Int)
  let f0 ← pyGet f (su.1 : Int)
  let row ← pyGet priors (su.2 : Int)
  let p ← pyGet row (τ : Int)
  let old ← pyGet st.1 (ns : Int)
  let f1 ← pySet st.1 (ns : Int) (flAdd D old (flMul D (flMul D f0 g) p))
  let b ← pyGet bnext (ns : Int)
  let a ← pyGet st.2 (su.2 : Int)
  let app ← pySet st.2 (su.2 : Int) (flAdd D a (flMul D (flMul D f0 g) b))
  pure (f1, app)

open Classical in
/-- turbo.py:130-158: one time step (state as in `forwardStep`). -/
noncomputable def forwardStepF (t : Trellis) (decode : Bool) (lint : List Fl) (priors : List (List Fl)) (cols : List (List Fl))
    (brs : List (List (List Fl))) (st : List Fl × List Fl × List Nat) (τ : Nat) : Py (List Fl × List Fl × List Nat) := do
  let bnext ← pyGet cols ((τ + 1 : Nat) : Int)
  let br ← pyGet brs (τ : Int)
  let r ← ((List.range (2 ^ t.M)).flatMap (fun s => (List.range (2 ^ t.k)).map (fun u => (s, u)))).foldlM
    (forwardCellF D t priors bnext br st.1 τ) (List.replicate (2 ^ t.M) (.fin 0), List.replicate (2 ^ t.k) (.fin 0))
  let l ← pyGet lint (τ : Int)
  let a1 ← pyGet r.2 1
  let a0 ← pyGet r.2 0
  let lappr := flAdd D l (flLog D (flDiv D a1 a0))
  let bit := if decode then (if lappr.Pos then 1 else 0) else 0
  pure (normaliseF D r.1, st.2.1 ++ [lappr], st.2.2 ++ [bit])

/-- turbo.py:238-240: `priors`; numpy broadcasts a `L_int` of length one. -/
noncomputable def mapPriorsF (L : Nat) (lint : List Fl) : Py (List (List Fl)) :=
  let p0 := lint.map (fun x => flDiv D (.fin 1) (flAdd D (.fin 1) (flExp D x)))
  if lint.length = L then .ok [p0, p0.map (fun x => flSub D (.fin 1) x)]
  else match p0 with
    | [x] => .ok [List.replicate L x, List.replicate L (flSub D (.fin 1) x)]
    | _ => .error .valueError

/-- turbo.py:163-251 `map_decode`. -/
noncomputable def mapDecodeF (t : Trellis) (σ2 : Fl) (ys yp lint : List Fl) (mode : String) : Py (List Fl × List Nat) := do
  let priors ← mapPriorsF D ys.length lint
  let (cols, brs) ← backwardRecF D t σ2 ys yp priors
  let r ← (List.range ys.length).foldlM (forwardStepF D t (mode = "decode") lint priors cols brs)
    ((List.replicate (2 ^ t.M) (.fin 0)).set 0 (.fin 1), [], [])
  pure (r.2.1, r.2.2)

/-- turbo.py:314-329: one iteration; the state is `L_int_1` and `decoded_bits`. -/
noncomputable def turboIterF (t : Trellis) (σ2 : Fl) (ys ysi yp1 yp2 : List Fl) (p : List Nat) (n : Nat) (st : List Fl × Option (List Nat)) (i : Nat) :
    Py (List Fl × Option (List Nat)) := do
  let (l1, _) ← mapDecodeF D t σ2 ys yp1 st.1 "compute"
  let e1 ← npZip (flSub D) l1 st.1
  let lint2 ← interlv p e1
  let mode := if i + 1 = n then "decode" else "compute"
  let (l2, bits) ← mapDecodeF D t σ2 ysi yp2 lint2 mode
  let e2 ← npZip (flSub D) l2 lint2
  let lint1 ← deinterlv (.fin 0) p e2
  pure (lint1, some bits)

/-- turbo.py:254-333 `turbo_decode`; symbols and noise variance are finite. -/
noncomputable def turboDecodeF (t : Trellis) (σ2 : ℝ) (ys yp1 yp2 : List ℝ) (n : Int) (p : List Nat) (lint : Option (List ℝ)) : Py (List Nat) := do
  let ysi ← interlv p (ys.map Fl.fin)
  let r ← (List.range n.toNat).foldlM (turboIterF D t (.fin σ2) (ys.map Fl.fin) ysi (yp1.map Fl.fin) (yp2.map Fl.fin) p n.toNat)
    ((lint.getD (List.replicate ys.length 0)).map Fl.fin, none)
  match r.2 with
  | none => .error .nameError
  | some bits => deinterlv 0 p bits

end Verif
