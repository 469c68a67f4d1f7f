import Verif.Model.LdpcCode
import Mathlib.Analysis.SpecialFunctions.Artanh
import Mathlib.Analysis.SpecialFunctions.Complex.Log
/-
Model of `ldpc_bp_decode` (/repo/commpy/channelcoding/ldpc.py:144-254).

Floats are exact reals; `none` is nan.  Infinite or nan input LLRs and the sign of a zero (-0.0) are not modelled.  Numpy gives
a nan a sign bit that depends on the platform: `nanSign k v` is the sign bit of a nan for variable `v` after `k` iterations,
and is arbitrary.  The messages stored in a sparse matrix are a function of the check node and the variable node, used only on
the edges (all the matrices that are combined here store the edges in the same order, row by row).
-/
namespace Verif

/-- `x.clip(-b, b)`. -/
noncomputable def clipR (b x : ℝ) : ℝ := max (-b) (min b x)

/-- ldpc.py:11 `_llr_max`. -/
def llrMax : ℝ := 500

/-- Sum of floats, a nan giving nan. -/
noncomputable def nanSum (l : List (Option ℝ)) : Option ℝ := (l.mapM id).map List.sum

/-- `decoder_algorithm`. -/
inductive BpAlg where
  | spa
  | msa
  | other
  deriving DecidableEq

/-- The check nodes of the decoder: the columns of the nonzero entries of each row of the parity check matrix. -/
abbrev Checks := List (List Nat)

/-- ldpc.py:205 `np.all(parity_check_matrix.multiply(dec_word).sum(1) % 2 == 0)`. -/
def syndromeOk (H : Checks) (dec : Nat → Bool) : Bool := H.all (fun ns => (ns.countP (fun v => dec v)) % 2 = 0)

/-- ldpc.py:217-219: product of real numbers as the exponential of the sum of the complex logarithms, `log 0 = -inf` and
`exp (-inf) = 0`. -/
noncomputable def logProd (l : List ℝ) : ℝ :=
  if (0 : ℝ) ∈ l then 0 else (Complex.exp ((l.map (fun (x : ℝ) => Complex.log (x : ℂ))).sum)).re

/-- ldpc.py:224-227: clip to [-1, 1], `2 * arctanh` (infinite at ±1), clip to ±500. -/
noncomputable def atanhClip (y : ℝ) : ℝ :=
  if 1 ≤ y then llrMax else if y ≤ -1 then -llrMax else clipR llrMax (2 * Real.artanh y)

/-- ldpc.py:211-227, one row: messages out of a check node with neighbours `ns`, for incoming messages `x`.  A nan makes the
product nan; `1 / 0 * 0` is nan. -/
noncomputable def spaRow (ns : List Nat) (x : Nat → Option ℝ) (v : Nat) : Option ℝ :=
  match ns.mapM x, x v with
  | some xs, some xv =>
    let t (y : ℝ) := Real.tanh (y * (1 / 2))
    if t xv = 0 then none else some (atanhClip (1 / t xv * logProd (xs.map t)))
  | _, _ => none

/-- `np.sign`. -/
noncomputable def npSign (x : ℝ) : ℝ := if 0 < x then 1 else if x < 0 then -1 else 0

/-- `np.abs(l).min()` of a nonempty list. -/
noncomputable def minAbs (l : List ℝ) : ℝ := (l.tail.map (fun x => |x|)).foldl min |l.headD 0|

/-- ldpc.py:237-238: product of the signs times the smallest magnitude of the other messages of the row. -/
noncomputable def msaRow (ns : List Nat) (x : Nat → Option ℝ) (v : Nat) : Option ℝ :=
  ((ns.filter (fun u => u ≠ v)).mapM x).map (fun l => (l.map npSign).prod * minAbs l)

/-- State of the decoding of one block: messages, hard decisions, output LLRs. -/
structure BpState where
  msg : Nat → Nat → Option ℝ
  dec : Nat → Bool
  out : Nat → Option ℝ

/-- `np.signbit`. -/
noncomputable def signBit (ns : Bool) : Option ℝ → Bool
  | none => ns
  | some x => x < 0

/-- ldpc.py:209-240, check node update.  `min` of an empty array (a check with one variable) is a ValueError. -/
noncomputable def checkUpdate (alg : BpAlg) (H : Checks) (msg : Nat → Nat → Option ℝ) : Py (Nat → Nat → Option ℝ) :=
  match alg with
  | .spa => .ok (fun c v => spaRow (H.getD c []) (msg c) v)
  | .msa => if H.any (fun ns => ns.length = 1) then .error .valueError else .ok (fun c v => msaRow (H.getD c []) (msg c) v)
  | .other => .error .nameError

/-- The check nodes of variable `v`. -/
def checksOf (H : Checks) (v : Nat) : List Nat := (List.range H.length).filter (fun c => v ∈ H.getD c [])

/-- ldpc.py:243 and 247: sum of the incoming messages plus the channel LLR. -/
noncomputable def totalLlr (H : Checks) (llr : Nat → ℝ) (msg : Nat → Nat → Option ℝ) (v : Nat) : Option ℝ :=
  (nanSum ((checksOf H v).map (fun c => msg c v))).map (fun s => s + llr v)

/-- ldpc.py:209-248: one iteration (`k` is the number of iterations done before it). -/
noncomputable def bpIter (nanSign : Nat → Nat → Bool) (alg : BpAlg) (H : Checks) (llr : Nat → ℝ) (k : Nat) (st : BpState) : Py BpState := do
  let m ← checkUpdate alg H st.msg
  let tot := totalLlr H llr m
  pure { msg := fun c v => (m c v).bind (fun a => (tot v).map (fun t => -a + t))
         dec := fun v => signBit (nanSign k v) (tot v)
         out := tot }

/-- ldpc.py:202-248: the iterations, with early termination. -/
noncomputable def bpLoop (nanSign : Nat → Nat → Bool) (alg : BpAlg) (H : Checks) (llr : Nat → ℝ) : Nat → Nat → BpState → Py BpState
  | 0, _, st => .ok st
  | n + 1, k, st =>
    if syndromeOk H st.dec then .ok st
    else do
      let st' ← bpIter nanSign alg H llr k st
      bpLoop nanSign alg H llr n (k + 1) st'

/-- ldpc.py:193-199: the state before the first iteration. -/
noncomputable def bpInit (llr : Nat → ℝ) : BpState :=
  { msg := fun _ v => some (llr v), dec := fun v => llr v < 0, out := fun v => some (llr v) }

/-- ldpc.py:198-248: one block of (clipped) LLRs: hard decisions and output LLRs. -/
noncomputable def bpBlock (nanSign : Nat → Nat → Bool) (alg : BpAlg) (H : Checks) (nv n : Nat) (llr : List ℝ) :
    Py (List Bool × List (Option ℝ)) := do
  let st ← bpLoop nanSign alg H (fun v => llr.getD v 0) n 0 (bpInit (fun v => llr.getD v 0))
  pure ((List.range nv).map st.dec, (List.range nv).map st.out)

/-- The neighbours of the check nodes, from the parity check matrix. -/
def checksOfRows (rows : List (List Int)) : Checks :=
  rows.map (fun r => (List.range r.length).filter (fun j => r.getD j 0 ≠ 0))

/-- `nanSign` of each block: block `b` has its own. -/
abbrev NanSigns := Nat → Nat → Nat → Bool

/-- ldpc.py:185-254 `ldpc_bp_decode` for a given parity check matrix: one pair of lists per block (the columns of the arrays
returned; the final `squeeze` is not represented), and the caller's array of LLRs, which is clipped in place.
If the length is not a multiple of the block length the last slice does not fit: ValueError; a last slice of a single LLR is
broadcast instead; that behaviour is the parameter `oneLeft` here and is computed in Model/LdpcLeft. -/
noncomputable def bpDecode (nanSign : NanSigns) (oneLeft : Py (List (List Bool × List (Option ℝ)))) (alg : BpAlg) (H : Checks) (nv n : Nat)
    (llrs : List ℝ) : Py (List (List Bool × List (Option ℝ)) × List ℝ) := do
  let clipped := llrs.map (clipR llrMax)
  if nv = 0 then .error .valueError
  let blocks ← (List.range (llrs.length / nv)).mapM (fun b => bpBlock (nanSign b) alg H nv n ((clipped.drop (b * nv)).take nv))
  if llrs.length % nv = 1 ∧ nv ≠ 1 then do
    let r ← oneLeft
    pure (r, clipped)
  else if llrs.length % nv ≠ 0 then .error .valueError
  else if llrs = [] then .error .valueError
  else pure (blocks, clipped)

/-- ldpc.py:144-254 for parameters without stored matrices: `build_matrix` is called first. -/
noncomputable def ldpcBpDecode (nanSign : NanSigns) (oneLeft : Py (List (List Bool × List (Option ℝ)))) (p : LdpcParams) (alg : BpAlg) (n : Nat)
    (llrs : List ℝ) : Py (List (List Bool × List (Option ℝ)) × List ℝ) := do
  let (rows, _) ← buildMatrix p
  bpDecode nanSign oneLeft alg (checksOfRows rows) p.nv.toNat n llrs

end Verif
