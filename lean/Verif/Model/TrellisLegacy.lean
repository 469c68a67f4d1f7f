import Verif.Model.Convcode
/-
Model of the backwards compatible branch of `Trellis.__init__` (integer feedback) for any number of inputs,
/repo/commpy/channelcoding/convcode.py:117-193.  `Model/Convcode.mkTrellisLegacy` is the simplification for one input that the
other models use; `C98_one_input` proves that both agree.
-/
namespace Verif

/-- numpy product of two one-dimensional integer arrays: equal lengths, or one of them of length one (broadcast), otherwise
ValueError. -/
def npMulNat (a b : List Nat) : Py (List Nat) :=
  if a.length = b.length then .ok (List.zipWith (· * ·) a b)
  else if a.length = 1 then .ok (b.map (a.getD 0 0 * ·))
  else if b.length = 1 then .ok (a.map (· * b.getD 0 0))
  else .error .valueError

/-- numpy `a[lo:hi] = v` with Python bounds (negative bounds count from the end; an empty range when `hi ≤ lo`). -/
def pySliceWrite (a : List Nat) (lo hi : Int) (v : List Nat) : Py (List Nat) :=
  npSliceWrite a (pyBound a.length lo) (max (pyBound a.length lo) (pyBound a.length hi)) v

/-- The variables of the loop of convcode.py:152-179: `outbits[r]`, `shift_register`, `output_generator_array` and
`feedback_array` (a number; unbound before the first iteration). -/
structure LegSt where
  out : Nat
  sr : List Nat
  ogen : List Nat
  fa : Option Nat
  deriving DecidableEq, Repr

/-- convcode.py:161-163: `outbits[r] = (outbits[r] + shift_register[i + l] * generator_array[i + 1]) % 2` for `i < m`. -/
def legOut (sr gen : List Nat) (l m out : Nat) : Py Nat :=
  (List.range m).foldlM (fun o (i : Nat) => do
    let a ← pyGet sr ((i + l : Nat) : Int)
    let b ← pyGet gen ((i + 1 : Nat) : Int)
    pure ((o + a * b) % 2)) out

/-- convcode.py:166-179: the shift of register `l` and its feedback.  Returns `feedback_array` and `shift_register`.
(The right-hand sides of the slice assignments overlap their targets; numpy buffers them.) -/
def legShift (memory : List Nat) (k feedback u l m : Nat) (sr : List Nat) : Py (Nat × List Nat) := do
  let fbp ← dec2bitarray feedback (m + 1)
  if l = 0 then do
    let p ← npMulNat (fbp.drop 1) (pySlice sr 0 (m : Int))
    let sr ← pySliceWrite sr 1 (m : Int) (pySlice sr 0 ((m : Int) - 1))
    let ub ← dec2bitarray u k
    let b ← pyGet ub 0
    let sr ← pySet sr 0 ((b + p.sum) % 2)
    pure (p.sum, sr)
  else do
    let m' ← pyGet memory ((l - 1 : Nat) : Int)
    let a : Int := (l : Int) + m' - 1
    let p ← npMulNat fbp (pySlice sr a (a + m))
    let sr ← pySliceWrite sr (a + 1) (a + m) (pySlice sr a (a + m - 1))
    let ub ← dec2bitarray u k
    let b ← pyGet ub (l : Int)
    let sr ← pySet sr a ((b + p.sum) % 2)
    pure (p.sum, sr)

/-- convcode.py:152-179: one iteration of the loop over the inputs. -/
def legStep (memory : List Nat) (G : List (List Nat)) (k feedback u r : Nat) (st : LegSt) (l : Nat) : Py LegSt := do
  let row ← pyGet G (l : Int)
  let p ← pyGet row (r : Int)
  let m ← pyGet memory (l : Int)
  let gen ← dec2bitarray p (m + 1)
  let out ← legOut st.sr gen l m st.out
  let g0 ← pyGet gen 0
  let ogen ← pySet st.ogen (l : Int) g0
  let q ← legShift memory k feedback u l m st.sr
  pure { out := out, sr := q.2, ogen := ogen, fa := some q.1 }

/-- convcode.py:148-184: output `r` for one state and one input: the bit and the shift register afterwards.  Reading
`feedback_array` when there is no input is an UnboundLocalError (a NameError). -/
def legOutput (memory : List Nat) (G : List (List Nat)) (k feedback s u r : Nat) : Py (Nat × List Nat) := do
  let sr ← dec2bitarray s memory.sum
  let st ← (List.range k).foldlM (legStep memory G k feedback u r)
    { out := 0, sr := sr, ogen := List.replicate k 0, fa := none }
  match st.fa with
  | none => .error .nameError
  | some fa => do
    let ub ← dec2bitarray u k
    let t ← npMulNat ub st.ogen
    pure ((st.out + ((t.map (· + fa)).sum) % 2) % 2, st.sr)

/-- convcode.py:142-193: one entry of both tables.  The next state is read from the shift register left by the *last* output;
without outputs it is unbound. -/
def legEntry (memory : List Nat) (G : List (List Nat)) (k n feedback s u : Nat) : Py (Nat × Nat) := do
  let rs ← (List.range n).mapM (legOutput memory G k feedback s u)
  match rs.getLast? with
  | none => .error .nameError
  | some last => pure (bitarray2dec last.2, bitarray2dec (rs.map Prod.fst))

/-- convcode.py:135-137: `g_matrix[i][i] = feedback` for `i < k`, on the caller's matrix. -/
def legReplace (G : List (List Nat)) (feedback : Nat) : Py (List (List Nat)) :=
  (List.range G.length).foldlM (fun G (i : Nat) => do
    let row ← pyGet G (i : Int)
    let row ← pySet row (i : Int) feedback
    pySet G (i : Int) row) G

/-- convcode.py:135: the replacement happens only when `code_type == 'rsc'`. -/
def legMatrix (G : List (List Nat)) (feedback : Nat) (rsc : Bool) : Py (List (List Nat)) :=
  if rsc then legReplace G feedback else .ok G

/-- convcode.py:117-193: `Trellis(memory, g_matrix, feedback, code_type)` with `feedback` an `int` and any number of inputs.
`n` is the number of columns.  Returns the object and the caller's matrix after the call. -/
def mkTrellisLegacyK (memory : List Nat) (G : List (List Nat)) (n feedback : Nat) (rsc : Bool) :
    Py (Trellis × List (List Nat)) := do
  let k := G.length
  let G ← legMatrix G feedback rsc
  let rows ← (List.range (2 ^ memory.sum)).mapM fun s => (List.range (2 ^ k)).mapM fun u =>
    legEntry memory G k n feedback s u
  pure ({ k := k, n := n, M := memory.sum, rsc := rsc
          nextTable := rows.map (fun row => row.map Prod.fst)
          outTable := rows.map (fun row => row.map Prod.snd) }, G)

end Verif
