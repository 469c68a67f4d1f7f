import Verif.Model.Convcode
import Mathlib.Order.WithBot
import Mathlib.Algebra.Order.Monoid.WithTop
/-
Model of `viterbi_decode`, `_acs_traceback`, `_where_c`, /repo/commpy/channelcoding/convcode.py:561-749.

The code is generic in the type `α` of received samples and the type `R` of metrics; the float `inf` is the top element
of `WithTop R`.  `bm` stands for `_compute_branch_metrics(decoding_type, ...)` (convcode.py:575-587, see
`Model/BranchMetrics`); its `lru_cache` is ignored (a pure function, C06).  2-d arrays indexed
`[state, column]` are stored as lists of columns.  `np.empty` memory is an arbitrary parameter (`VitJunk`).
-/
namespace Verif

/-- Contents of the uninitialised arrays: `paths` (convcode.py:707), `decoded_bits` (711), and for every step `t` the
arrays `pmetrics` and `index_array` of `_acs_traceback` (604-605). -/
structure VitJunk (R : Type) where
  paths : Nat → Nat → Nat
  bits : Nat → Nat
  pmetrics : Nat → Nat → WithTop R
  index : Nat → Nat → Nat × Nat

/-- numpy `argmin`: index of the first minimal entry. -/
def argminFirst {β : Type} [LT β] [DecidableRel (α := β) (· < ·)] : List β → Nat
  | [] => 0
  | x :: xs => if xs.getD (argminFirst xs) x < x then argminFirst xs + 1 else 0

/-- `_where_c` (convcode.py:561-572): the pairs (state, input) leading into `s`, in row-major order. -/
def preds (t : Trellis) (s : Nat) : List (Nat × Nat) :=
  t.nextTable.zipIdx.flatMap fun (row, p) =>
    (row.zipIdx.filter fun (x, _) => x = s).map fun (_, u) => (p, u)

/-- Overwrite the beginning of a list. -/
def overwrite {β : Type} (xs old : List β) : List β := xs ++ old.drop xs.length

/-- One iteration of the loop over `state_num` (convcode.py:608-642).  State: (`pmetrics`, `index_array`, and the new
column of `path_metrics`, `paths` and `decoded_symbols` so far, for the states already done).
`index_array` has `number_states` rows and `pmetrics` `number_inputs` entries: more predecessors are an IndexError. -/
def acsState {R α : Type} [LinearOrder R] [Add R] (t : Trellis) (bm : List α → List Nat → Py R) (r : List α)
    (pm : List (WithTop R))
    (st : List (WithTop R) × List (Nat × Nat) × List (WithTop R × Nat × Nat)) (s : Nat) :
    Py (List (WithTop R) × List (Nat × Nat) × List (WithTop R × Nat × Nat)) := do
  let found := preds t s
  if 2 ^ t.M < found.length then .error .indexError else
  let index := overwrite found st.2.1
  if 2 ^ t.k < found.length then .error .indexError else
  let vals ← found.mapM fun e => do
    let o ← tableGet t.outTable e.1 e.2
    let c ← dec2bitarray o t.n
    let b ← bm r c
    let m ← pyGet pm (e.1 : Int)
    pure (m + (b : WithTop R))
  let pmetrics := overwrite vals st.1
  let best := argminFirst pmetrics
  let m ← pyGet pmetrics (best : Int)
  let e ← pyGet index (best : Int)
  pure (pmetrics, index, st.2.2 ++ [(m, e.1, e.2)])

/-- The variables of `viterbi_decode` carried from one step to the next. -/
structure VitState (R α : Type) where
  /-- `path_metrics[:, 0]` -/
  pm : List (WithTop R)
  /-- columns of `paths` -/
  paths : List (List Nat)
  /-- columns of `decoded_symbols` -/
  syms : List (List Nat)
  bits : List Nat
  tbCount : Nat
  count : Nat
  /-- the caller's `coded_bits` -/
  coded : List α

/-- One iteration of the traceback loop (convcode.py:648-654).  State: (current_state, decoded_bits). -/
def tbIter (t : Trellis) (paths syms : List (List Nat)) (base count : Nat) (st : Nat × List Nat) (j : Nat) :
    Py (Nat × List Nat) := do
  let symCol ← pyGet syms (j : Int)
  let sym ← pyGet symCol (st.1 : Int)
  let pathCol ← pyGet paths (j : Int)
  let prev ← pyGet pathCol (st.1 : Int)
  let ba ← dec2bitarray sym t.k
  let bits ← npSliceWrite st.2 (base + (j - 1) * t.k + count) (base + j * t.k + count) ba
  pure (prev, bits)

/-- Shift the columns left, the last one staying (convcode.py:656-657). -/
def shiftCols (cols : List (List Nat)) : List (List Nat) :=
  cols.tail ++ cols.drop (cols.length - 1)

/-- convcode.py:722-734: the received codeword of a step, and the caller's array afterwards.  Beyond the end
`r_codeword` is still a view of the last block of `coded_bits`, and filling it with the padding value
overwrites that block.  `pad` is the padding value of the decoding type (`none`: unknown type, ValueError); `inPlace`
says that `coded_bits` is the caller's array ('hard', 'unquantized') and not a clipped copy ('soft'). -/
def vitRx {α : Type} (t : Trellis) (pad : Option α) (inPlace : Bool) (L : Nat) (coded : List α) (step : Nat) :
    Py (List α × List α) :=
  if step ≤ L / t.k then .ok ((coded.drop ((step - 1) * t.n)).take t.n, coded)
  else match pad with
    | none => .error .valueError
    | some v =>
      .ok (List.replicate t.n v,
        if inPlace ∧ 0 < L / t.k then
          coded.take ((L / t.k - 1) * t.n) ++ List.replicate t.n v ++ coded.drop (L / t.k * t.n)
        else coded)

/-- One step of the main loop (convcode.py:721-747) including `_acs_traceback` (590-657). -/
def vitStep {R α : Type} [LinearOrder R] [Add R] (t : Trellis) (bm : List α → List Nat → Py R) (pad : Option α)
    (inPlace : Bool) (jk : VitJunk R) (L tb : Nat) (st : VitState R α) (step : Nat) : Py (VitState R α) := do
  let rx ← vitRx t pad inPlace L st.coded step
  -- add, compare, select
  let acs ← (List.range (2 ^ t.M)).foldlM (acsState t bm rx.1 st.pm)
    ((List.range (2 ^ t.k)).map (jk.pmetrics step), (List.range (2 ^ t.M)).map (jk.index step), [])
  let col := acs.2.2
  let pm' := col.map (·.1)
  let paths ← pySet st.paths (st.tbCount : Int) (col.map (·.2.1))
  let syms ← pySet st.syms (st.tbCount : Int) (col.map (·.2.2))
  if tb - 1 ≤ step then
    let res ← ((List.range (tb - 1)).reverse.map (· + 1)).foldlM
      (tbIter t paths syms (step + 1 - tb) st.count) (argminFirst pm', st.bits)
    pure { pm := pm', paths := shiftCols paths, syms := shiftCols syms, bits := res.2
           tbCount := tb - 1, count := st.count + t.k - 1, coded := rx.2 }
  else
    pure { pm := pm', paths := paths, syms := syms, bits := st.bits
           tbCount := st.tbCount + 1, count := st.count, coded := rx.2 }

/-- convcode.py:705-719: the variables before the main loop. -/
def vitInit {R α : Type} [LinearOrder R] [Zero R] (t : Trellis) (jk : VitJunk R) (L tb : Nat) (coded : List α) :
    VitState R α :=
  { pm := (List.range (2 ^ t.M)).map fun s => if s = 0 then ((0 : R) : WithTop R) else ⊤
    paths := (List.range tb).map fun c => (List.range (2 ^ t.M)).map (jk.paths c)
    syms := (List.range tb).map fun _ => List.replicate (2 ^ t.M) 0
    bits := (List.range ((L + tb + t.k - 1) / t.k * t.k)).map jk.bits
    tbCount := 1, count := 0, coded := coded }

/-- convcode.py:661-749 `viterbi_decode`, for the received sequence `coded`; returns the decoded bits and the contents
of the caller's array afterwards.  `L` is `int(len(coded_bits)*rate)` (convcode.py:699; exact value assumed by the
theorems), `tb` the traceback depth.  For `n`-sample blocks `t*n ≤ len(coded_bits)` always holds when `L` is exact. -/
def viterbi {R α : Type} [LinearOrder R] [Add R] [Zero R] (t : Trellis) (bm : List α → List Nat → Py R)
    (pad : Option α) (inPlace : Bool) (jk : VitJunk R) (L tb : Nat) (coded : List α) : Py (List Nat × List α) := do
  if t.k = 0 then .error .zeroDivisionError else
  -- `paths[0][0] = 0`
  if tb = 0 then .error .indexError else
  let fin ← ((List.range ((L + t.M) / t.k - 1)).map (· + 1)).foldlM (vitStep t bm pad inPlace jk L tb) (vitInit t jk L tb coded)
  pure (fin.bits.take L, fin.coded)

/-- convcode.py:701-702: the default traceback depth. -/
def defaultDepth (t : Trellis) (L : Nat) : Nat := min (5 * t.M) L

/-- `decoding_type='hard'`: Hamming metric on bits, padding 0, `coded_bits` used in place. -/
def viterbiHard (t : Trellis) (jk : VitJunk Nat) (L tb : Nat) (coded : List Nat) : Py (List Nat × List Nat) :=
  viterbi t hammingDist (some 0) true jk L tb coded

end Verif
