import Verif.Model.Utilities
/-
Model of `Trellis.__init__` and `conv_encode`, /repo/commpy/channelcoding/convcode.py:117-255 and 475-558.

Bits are natural numbers, arrays are lists, 2-d arrays are lists of rows.  The drawing methods of `Trellis`
(convcode.py:257-472) are in `Model/TrellisPlot`.  numpy int8 wrap-around in the `einsum` calls (convcode.py:243, 247) does not
change the parities taken from their results and is not modelled; `einsum(..., out=shift_regs[0])` is evaluated
as if input and output did not overlap (numpy copies an operand that overlaps with `out`).
-/
namespace Verif

/-- The fields of a `Trellis` object used by the encoder and the decoders (convcode.py:117-128).
`number_states = 2^M`, `number_inputs = 2^k`; `rsc` says whether `code_type == 'rsc'`. -/
structure Trellis where
  k : Nat
  n : Nat
  M : Nat
  rsc : Bool
  nextTable : List (List Nat)
  outTable : List (List Nat)
  deriving DecidableEq, Repr

/-- `table[s][u]` (convcode.py:537, 539): numpy indexing with IndexError outside. -/
def tableGet (tbl : List (List Nat)) (s u : Nat) : Py Nat := do
  let row ← pyGet tbl (s : Int)
  pyGet row (u : Int)

/-- convcode.py:196-201, 214-215, 221-222: the coefficients of one polynomial, `dec2bitarray(p, w)[::bit_order]`
(the slice `[-w-2:]` of a list of length `w` is the whole list). -/
def polyCoefs (fmt : String) (w p : Nat) : Py (List Nat) := do
  let b ← dec2bitarray p w
  if fmt = "MSB" then pure b.reverse
  else if fmt = "LSB" ∨ fmt = "Matlab" then pure b
  else .error .valueError

/-- Row `i` of a matrix of polynomials as coefficient lists (convcode.py:213-215 / 220-222, inner loops):
`m[i, j]` for `j < cols`. -/
def coefRow (fmt : String) (w cols : Nat) (m : List (List Nat)) (i : Nat) : Py (List (List Nat)) := do
  let row ← pyGet m (i : Int)
  (List.range cols).mapM fun (j : Nat) => do
    let p ← pyGet row (j : Int)
    polyCoefs fmt w p

/-- convcode.py:211-215 and 218-222: the array of coefficients of a matrix of polynomials. -/
def coefMatrix (fmt : String) (w rows cols : Nat) (m : List (List Nat)) : Py (List (List (List Nat))) :=
  (List.range rows).mapM (coefRow fmt w cols m)

/-- `memory.max()` (convcode.py:206, 208). -/
def memMax (memory : List Nat) : Nat := memory.foldl max 0

/-- Offset of shift register `c` in the state bits: the running `idx` of convcode.py:237-240. -/
def memOffset (memory : List Nat) (c : Nat) : Nat := (memory.take c).sum

/-- convcode.py:226-240: entry `(r, c)` of `shift_regs`.  Row 0 is the input, rows `1..memory[c]` the state bits of
register `c`; the rows below are never written (`np.empty`) and keep the arbitrary contents `junk`. -/
def shiftReg (junk : Nat → Nat → Nat) (memory stateBits inputBits : List Nat) (r c : Nat) : Nat :=
  if r = 0 then inputBits.getD c 0
  else if r ≤ memory.getD c 0 then stateBits.getD (memOffset memory c + (r - 1)) 0
  else junk r c

/-- `[[m[i][j][r]]]` for coefficient arrays. -/
def coefAt (m : List (List (List Nat))) (i j r : Nat) : Nat := ((m.getD i []).getD j []).getD r 0

/-- convcode.py:243: `np.einsum('ik,ikl->l', shift_regs, g_matrix_array) % 2`, entry `j`. -/
def outBit (w k : Nat) (g : List (List (List Nat))) (sr : Nat → Nat → Nat) (j : Nat) : Nat :=
  ((List.range w).map fun r => ((List.range k).map fun c => sr r c * coefAt g c j r).sum).sum % 2

/-- convcode.py:247-248: `np.einsum('ik,ilk->l', shift_regs, feedback_array)` followed by `% 2`, entry `l`. -/
def fbBit (w k : Nat) (f : List (List (List Nat))) (sr : Nat → Nat → Nat) (l : Nat) : Nat :=
  ((List.range w).map fun r => ((List.range k).map fun c => sr r c * coefAt f l c r).sum).sum % 2

/-- convcode.py:250-254: the state bits after the update, register by register. -/
def nextBits (w k : Nat) (memory : List Nat) (f : List (List (List Nat))) (sr : Nat → Nat → Nat) : List Nat :=
  (List.range k).flatMap fun c =>
    (List.range (memory.getD c 0)).map fun r => if r = 0 then fbBit w k f sr c else sr r c % 2

/-- convcode.py:203-206: the feedback matrix used when none is given. -/
def defaultFeedback (fmt : String) (k : Nat) (memory : List Nat) : List (List Nat) :=
  (List.range k).map fun i => (List.range k).map fun j =>
    if i = j then (if fmt = "LSB" ∨ fmt = "Matlab" then 2 ^ memMax memory else 1) else 0

/-- convcode.py:117-128 and 195-255: `Trellis(memory, g_matrix, feedback, code_type, polynomial_format)` with
`feedback` a matrix or `None`.  `memory` has one entry per row of `g_matrix` (a longer one is an IndexError on
`shift_regs`, a shorter one leaves columns of `np.empty`, which `getD` does not describe: excluded by the theorems).
`junk` is the initial content of `np.empty` (convcode.py:226). -/
def mkTrellis (junk : Nat → Nat → Nat) (memory : List Nat) (G : List (List Nat)) (n : Nat)
    (feedback : Option (List (List Nat))) (rsc : Bool) (fmt : String) : Py Trellis := do
  let k := G.length
  let M := memory.sum
  if fmt = "MSB" ∨ fmt = "LSB" ∨ fmt = "Matlab" then
    let fb := feedback.getD (defaultFeedback fmt k memory)
    let w := memMax memory + 1
    let f ← coefMatrix fmt w k k fb
    let g ← coefMatrix fmt w k n G
    let rows ← (List.range (2 ^ M)).mapM fun s =>
      (List.range (2 ^ k)).mapM fun u => do
        let sb ← dec2bitarray s M
        let ub ← dec2bitarray u k
        let sr := shiftReg junk memory sb ub
        pure (bitarray2dec (nextBits w k memory f sr), bitarray2dec ((List.range n).map (outBit w k g sr)))
    pure { k := k, n := n, M := M, rsc := rsc
           nextTable := rows.map (fun row => row.map Prod.fst)
           outTable := rows.map (fun row => row.map Prod.snd) }
  else .error .valueError

/-- convcode.py:130-193: the backwards compatible branch (`feedback` an `int`), for `k = 1` only: `memory = [M]`,
`g` the single row of the generator matrix.  (For `k > 1` the code multiplies arrays of different shapes; not
modelled.)  `'rsc'` replaces the first generator by the feedback polynomial (convcode.py:135-137); the caller's
matrix is modified in place, which is not modelled here. -/
def mkTrellisLegacy (M : Nat) (g : List Nat) (feedback : Nat) (rsc : Bool) : Py Trellis := do
  let g := if rsc then g.set 0 feedback else g
  let rows ← (List.range (2 ^ M)).mapM fun s =>
    (List.range 2).mapM fun u => do
      let sr ← dec2bitarray s M
      let fbp ← dec2bitarray feedback (M + 1)
      let fb := ((List.range M).map fun i => (fbp.getD (i + 1) 0) * sr.getD i 0).sum
      let outbits ← g.mapM fun p => do
        let gen ← dec2bitarray p (M + 1)
        let acc := (List.range M).foldl (fun a i => (a + sr.getD i 0 * gen.getD (i + 1) 0) % 2) 0
        pure ((acc + (u * gen.getD 0 0 + fb) % 2) % 2)
      -- `shift_register[0] = ...` raises IndexError for an empty register
      let sr' ← pySet (sr.take 1 ++ sr.take (M - 1)) 0 ((u + fb) % 2)
      pure (bitarray2dec sr', bitarray2dec outbits)
  pure { k := 1, n := g.length, M := M, rsc := rsc
         nextTable := rows.map (fun row => row.map Prod.fst)
         outTable := rows.map (fun row => row.map Prod.snd) }

/-- numpy `a[lo:hi] = v` for `0 ≤ lo ≤ hi`: the slice is clamped to the array; a value of another length than the
slice is a ValueError unless it has length one (broadcast). -/
def npSliceWrite (a : List Nat) (lo hi : Nat) (v : List Nat) : Py (List Nat) :=
  let lo' := min lo a.length
  let hi' := min hi a.length
  if hi' - lo' = v.length then .ok (a.take lo' ++ v ++ a.drop hi')
  else if v.length = 1 then .ok (a.take lo' ++ List.replicate (hi' - lo') (v.getD 0 0) ++ a.drop hi')
  else .error .valueError

/-- convcode.py:535-540 (and 545-550): one clock cycle.  State: (current_state, j, outbits). -/
def encStep (t : Trellis) (bits : List Nat) (st : Nat × Nat × List Nat) (i : Nat) :
    Py (Nat × Nat × List Nat) := do
  let u := bitarray2dec ((bits.drop (i * t.k)).take t.k)
  let o ← tableGet t.outTable st.1 u
  let ob ← dec2bitarray o t.n
  let out ← npSliceWrite st.2.2 (st.2.1 * t.n) ((st.2.1 + 1) * t.n) ob
  let s ← tableGet t.nextTable st.1 u
  pure (s, st.2.1 + 1, out)

/-- convcode.py:552-556: the puncturing loop; `row = puncture_matrix[0]`.  `p_outbits` has the length of `outbits`.
State: (j, p_outbits). -/
def punctLoop (row : List Nat) (outbits : List Nat) : Py (List Nat) := do
  let r ← (List.range outbits.length).foldlM (fun (st : Nat × List Nat) i => do
      if row.length = 0 then .error .zeroDivisionError else
      let b ← pyGet row ((i % row.length : Nat) : Int)
      if b = 1 then
        let p ← pySet st.2 (st.1 : Int) (outbits.getD i 0)
        pure (st.1 + 1, p)
      else pure st)
    (0, List.replicate outbits.length 0)
  pure r.2

/-- convcode.py:503-520: the input bits actually fed to the encoder and the number of bits from which the length
of the output is computed. -/
def encInput (t : Trellis) (msg : List Nat) (termination : String) : List Nat × Nat :=
  if termination = "cont" then (msg, msg.length)
  else if t.rsc then (msg, msg.length + t.k * t.M)
  else (msg ++ List.replicate (t.M + t.M % t.k) 0, msg.length + t.M + t.M % t.k)

/-- convcode.py:493-550: the encoder up to the puncturing loop; returns the encoded bits and the final value of
`current_state`.  `outLen N` is `int(N / rate)` with `rate = float(k)/n` (convcode.py:496, 508, 514, 520): the
length in double arithmetic, a parameter here (see `Model/Float53`).  `int(number_inbits/k)` is integer division
(exact below `2^52`). -/
def convEncodeRun (outLen : Nat → Nat) (t : Trellis) (msg : List Nat) (termination : String) :
    Py (Nat × List Nat) := do
  let inp := encInput t msg termination
  let out0 := List.replicate (outLen inp.2) 0
  if t.k = 0 then .error .zeroDivisionError else
  let st ← (List.range (inp.1.length / t.k)).foldlM (encStep t inp.1) (0, 0, out0)
  if t.rsc ∧ termination = "term" then
    let tb ← dec2bitarray st.1 t.M
    let st' ← (List.range t.M).foldlM (encStep t tb.reverse) st
    pure (st'.1, st'.2.2)
  else pure (st.1, st.2.2)

/-- convcode.py:475-558 `conv_encode`.  `puncture_matrix = None` stands for a matrix of ones. -/
def convEncode (outLen : Nat → Nat) (t : Trellis) (msg : List Nat) (termination : String)
    (puncture : Option (List (List Nat))) : Py (List Nat) := do
  let r ← convEncodeRun outLen t msg termination
  let row ← pyGet (puncture.getD (List.replicate t.k (List.replicate t.n 1))) 0
  punctLoop row r.2

end Verif
