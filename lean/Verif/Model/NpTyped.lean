import Verif.Model.Algcode
import Verif.Model.Convcode
import Verif.Model.Modulation
/-
Machine integers.  The other models compute with exact integers; here the functions that go through `bitarray2dec`
(/repo/commpy/utilities.py:89-110) are modelled with the numpy scalar types of the arrays they receive, under the promotion rules
of numpy 1 and of numpy 2 (NEP 50): setup.py:35 asks for `numpy`, requirements.txt for `numpy>=1.9.2`, so both are allowed.

The arrays produced by `dec2bitarray` are `int8` (utilities.py:52, 77); sums, products, `convolve`, `einsum` and `% 2` of such arrays are
`int8` again (int8 wrap-around is modulo 256 and does not change the parities).  On 64-bit Linux the default integer type is
`int64`.
-/
namespace Verif

/-- The promotion rules in force. -/
inductive NpVer where
  | v1
  | v2
  deriving DecidableEq, Repr

/-- A number in the interpreter: a Python `int`, a numpy signed integer scalar of `bits` bits, or a `float64` (only integral
values occur). -/
inductive NpNum where
  | py (v : Int)
  | int (bits : Nat) (v : Int)
  | f64 (v : Int)
  deriving DecidableEq, Repr

/-- The value of a number, whatever its type. -/
def NpNum.val : NpNum → Int
  | .py v => v
  | .int _ v => v
  | .f64 v => v

/-- `v` is representable as a signed integer of `d` bits. -/
abbrev fitsInt (d : Nat) (v : Int) : Prop := -2 ^ (d - 1) ≤ v ∧ v < 2 ^ (d - 1)

/-- Two's complement wrap-around. -/
def wrapInt (d : Nat) (v : Int) : Int := v.bmod (2 ^ d)

/-- Python `int` `b` combined by `op` with a numpy scalar of `d` bits with value `a`.
numpy 2: the Python int takes the type of the scalar, OverflowError if it does not fit.
numpy 1: the Python int becomes `int64` if it fits, else `uint64` (mixed with a signed type: the operation is in `float64`), else an
object, for which the operation is Python's. -/
def npPyOp (ver : NpVer) (rnd : Int → Int) (op : Int → Int → Int) (d : Nat) (a b : Int) : Py NpNum :=
  match ver with
  | .v2 => if fitsInt d b then .ok (.int d (wrapInt d (op a b))) else .error .overflowError
  | .v1 =>
    if fitsInt 64 b then .ok (.int 64 (wrapInt 64 (op a b)))
    else if 0 ≤ b ∧ b < 2 ^ 64 then .ok (.f64 (rnd (op (rnd a) (rnd b))))
    else .ok (.py (op a b))

/-- Python `int` plus `float64`: OverflowError when the integer is too large for a float.  (Simplified: the bound is `2^1023`, not the
largest float; the theorems stay below.) -/
def npPyFloatAdd (rnd : Int → Int) (a b : Int) : Py NpNum :=
  if |a| < 2 ^ 1023 then .ok (.f64 (rnd (rnd a + b))) else .error .overflowError

/-- `x + y`. -/
def npAdd (ver : NpVer) (rnd : Int → Int) : NpNum → NpNum → Py NpNum
  | .py a, .py b => .ok (.py (a + b))
  | .py a, .int d b => npPyOp ver rnd (· + ·) d b a
  | .int d a, .py b => npPyOp ver rnd (· + ·) d a b
  | .py a, .f64 b => npPyFloatAdd rnd a b
  | .f64 a, .py b => npPyFloatAdd rnd b a
  | .int d a, .int e b => .ok (.int (max d e) (wrapInt (max d e) (a + b)))
  | .int _ a, .f64 b => .ok (.f64 (rnd (rnd a + b)))
  | .f64 a, .int _ b => .ok (.f64 (rnd (a + rnd b)))
  | .f64 a, .f64 b => .ok (.f64 (rnd (a + b)))

/-- utilities.py:89-110 `bitarray2dec` on a bit array whose scalars have `d` bits: `number` starts as the Python int 0 and
`pow(2, …)` is a Python int. -/
def bitarray2decT (ver : NpVer) (rnd : Int → Int) (d : Nat) (bits : List Nat) : Py NpNum :=
  (List.range bits.length).foldlM (fun number i => do
    let p ← npPyOp ver rnd (· * ·) d (bits.getD i 0) (2 ^ (bits.length - 1 - i))
    npAdd ver rnd number p) (.py 0)

/-- utilities.py:50-56 `dec2bitarray(x, width)` for a scalar `x`: a float is neither `np.integer` nor `int`, so `len(x)` is
evaluated and raises TypeError. -/
def dec2bitarrayT (x : NpNum) (width : Nat) : Py (List Nat) :=
  match x with
  | .f64 _ => .error .typeError
  | .py v => dec2bitarray v.toNat width
  | .int _ v => dec2bitarray v.toNat width

/-- gfields.py:177-181 `polymultiply`: `x_array`, `y_array` and the convolution are `int8`.  `prim_poly` is an `int64` scalar, so the
division is exact; a float product would make `bin` raise TypeError. -/
def polymultiplyT (ver : NpVer) (rnd : Int → Int) (x y m primPoly : Nat) : Py Nat := do
  let xa ← dec2bitarray x m
  let ya ← dec2bitarray y m
  let c ← convolve xa ya
  let p ← bitarray2decT ver rnd 8 (c.map (· % 2))
  match p with
  | .f64 _ => .error .typeError
  | _ => polydivide p.val.toNat primPoly

/-- gfields.py:65-72 `GF.__mul__`. -/
def GF.mulT (ver : NpVer) (rnd : Int → Int) (g h : GF) : Py GF := do
  let b ← h.elems
  let a ← g.elems
  if b.length = a.length then
    let prod ← (a.zip b).mapM (fun (p : Nat × Nat) => polymultiplyT ver rnd p.1 p.2 g.m g.primPoly)
    GF.init (.arr prod) g.m
  else .error .valueError

/-- gfields.py:151-159: one multiplication `t ← t · (x - root)`. -/
def minpolyStepT (ver : NpVer) (rnd : Int → Int) (m primPoly : Nat) (t : List Nat) (root : Nat) : Py (List Nat) := do
  let t2 := List.replicate (t.length - 1) 0 ++ [1, root] ++ List.replicate (t.length - 1) 0
  let prod ← (List.range (t2.length - t.length + 1)).mapM (fun n =>
    (List.range t.length).foldlM (fun s k => do
      let p ← polymultiplyT ver rnd (t.getD k 0) (t2.getD (n + k) 0) m primPoly
      pure (s ^^^ p)) 0)
  pure prod.reverse

/-- gfields.py:150-160: the polynomial of one coset.  `t` is an `int64` array of length 2 or a float array with at most 17 entries 0 or 1:
`bitarray2dec` is exact on both. -/
def minpolyOfCosetT (ver : NpVer) (rnd : Int → Int) (m primPoly : Nat) (coset : List Nat) : Py Nat :=
  match coset with
  | [] => .error .indexError
  | c0 :: rest => do
    let t ← rest.foldlM (minpolyStepT ver rnd m primPoly) [c0, 1]
    pure (bitarray2dec t.reverse)

/-- gfields.py:140-162 `minpolys`. -/
def GF.minpolysT (ver : NpVer) (rnd : Int → Int) (g : GF) : Py (List Nat) := do
  let full ← GF.init (.arr (List.range (2 ^ g.m))) g.m
  let cs ← full.cosets
  let el ← g.elems
  let r ← el.mapM (fun x => do
    (cs.filter (fun c => x ∈ c)).mapM (minpolyOfCosetT ver rnd g.m g.primPoly))
  pure r.flatten

/-- algcode.py:58-61: one multiplication of the accumulated generator polynomial; `gpoly` starts as the Python int 1 and is
replaced by the result of `bitarray2dec`, `poly` is an `int64` scalar. -/
def genpolyMulT (ver : NpVer) (rnd : Int → Int) (w : Nat) (gpoly : NpNum) (poly : Nat) : Py NpNum := do
  let a ← dec2bitarrayT gpoly w
  let b ← dec2bitarray poly w
  let c ← convolve a b
  bitarray2decT ver rnd 8 (c.map (· % 2))

/-- algcode.py:11-64 `cyclic_code_genpoly` for n ≥ 1; line 62 puts the results in a float64 array. -/
def cyclicCodeGenpolyT (ver : NpVer) (rnd : Int → Int) (n : Nat) (k : Int) : Py (List Nat) :=
  if n % 2 = 0 then .error .valueError
  else do
    let m := findField n
    let xgf ← GF.init (.arr (List.range' 1 (2 ^ m - 1))) m
    let cosetFields ← xgf.cosets
    let leaders := cosetFields.map (fun c => c.getD 0 0)
    let degrees := cosetFields.map List.length
    let ygf ← GF.init (.arr leaders) m
    let minpols ← ygf.minpolysT ver rnd
    let r ← (List.range' 1 (2 ^ minpols.length - 1)).foldlM (fun (polys : List NpNum) i => do
      let ia ← dec2bitarray i minpols.length
      if (((maskSelect degrees ia).sum : Nat) : Int) = (n : Int) - k then do
        let g ← (maskSelect minpols ia).foldlM (genpolyMulT ver rnd (2 ^ m)) (.py 1)
        pure (polys ++ [g])
      else pure polys) []
    pure (r.map fun g => (rnd g.val).toNat)

/-- convcode.py:117-128 and 195-255: `Trellis(memory, g_matrix, feedback, …)` with a matrix feedback or none (see `mkTrellis`):
`current_state_array` and `outputs_array` are `int8` arrays. -/
def mkTrellisT (ver : NpVer) (rnd : Int → Int) (junk : Nat → Nat → Nat) (memory : List Nat) (G : List (List Nat)) (n : Nat)
    (feedback : Option (List (List Nat))) (rsc : Bool) (fmt : String) : Py Trellis := do
  let k := G.length
  let M := memory.sum
  if fmt = "MSB" ∨ fmt = "LSB" ∨ fmt = "Matlab" then
    let fb := feedback.getD (defaultFeedback fmt k memory)
    let w := memMax memory + 1
    let f ← coefMatrix fmt w k k fb
    let g ← coefMatrix fmt w k n G
    let rows ← (List.range (2 ^ M)).mapM fun s =>
      (List.range (2 ^ k)).mapM fun u => do
        let sb ← dec2bitarray s M
        let ub ← dec2bitarray u k
        let sr := shiftReg junk memory sb ub
        let o ← bitarray2decT ver rnd 8 ((List.range n).map (outBit w k g sr))
        let q ← bitarray2decT ver rnd 8 (nextBits w k memory f sr)
        pure (q.val.toNat, o.val.toNat)
    pure { k := k, n := n, M := M, rsc := rsc
           nextTable := rows.map (fun row => row.map Prod.fst)
           outTable := rows.map (fun row => row.map Prod.snd) }
  else .error .valueError

/-- modulation.py:79-98 `modulate` on an array of bits stored in `d`-bit integers; a float cannot index the constellation
(IndexError). -/
def modulateT (ver : NpVer) (rnd : Int → Int) (d : Nat) (s : Modem) (inputBits : List Nat) : Py (List ℂ) :=
  if s.nbits = 0 then .error .zeroDivisionError
  else if inputBits = [] then .error .valueError
  else (strideIdx inputBits.length 0 s.nbits).mapM fun i => do
    let x ← bitarray2decT ver rnd d ((inputBits.drop i).take s.nbits)
    match x with
    | .f64 _ => .error .indexError
    | _ => pyGet s.constellation x.val

end Verif
