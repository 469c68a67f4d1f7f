import Verif.Model.SpaFloat
/-
`ldpc_bp_decode` with `decoder_algorithm = 'MSA'` in double precision (/repo/commpy/channelcoding/ldpc.py:144-254).

`fl` is the rounding of the result of a floating-point addition; nothing is assumed about it in this file.  Signs, magnitudes, minima,
products by -1, 0 and 1 and comparisons are exact in floating point.  Infinite and nan input LLRs, -0.0 and overflow are not modelled.
-/
namespace Verif

variable (fl : ℝ → ℝ)

/-- ldpc.py:243 `message_matrix.sum(0)`: the messages are added one after the other, from 0. -/
noncomputable def sumMsgsF (l : List (Option ℝ)) : Option ℝ := (l.mapM id).map (fun xs => xs.foldl (fun s x => fl (s + x)) 0)

/-- ldpc.py:229-248: one iteration of min-sum.  `min` of an empty array (a check with one variable) is a ValueError. -/
noncomputable def msaIterF (nanSign : Nat → Nat → Bool) (H : Checks) (llr : Nat → ℝ) (k : Nat) (st : BpState) : Py BpState := do
  if H.any (fun ns => ns.length = 1) then .error .valueError
  let m : Nat → Nat → Option ℝ := fun c v => msaRow (H.getD c []) (st.msg c) v
  let tot : Nat → Option ℝ := fun v => (sumMsgsF fl ((checksOf H v).map (fun c => m c v))).map (fun s => fl (s + llr v))
  pure { msg := fun c v => (m c v).bind (fun a => (tot v).map (fun t => fl (-a + t)))
         dec := fun v => signBit (nanSign k v) (tot v)
         out := tot }

/-- ldpc.py:202-248: the iterations, with early termination. -/
noncomputable def msaLoopF (nanSign : Nat → Nat → Bool) (H : Checks) (llr : Nat → ℝ) : Nat → Nat → BpState → Py BpState
  | 0, _, st => .ok st
  | n + 1, k, st =>
    if syndromeOk H st.dec then .ok st
    else do
      let st' ← msaIterF fl nanSign H llr k st
      msaLoopF nanSign H llr n (k + 1) st'

/-- ldpc.py:198-248: one block of (clipped) LLRs: hard decisions and output LLRs. -/
noncomputable def msaBlockF (nanSign : Nat → Nat → Bool) (H : Checks) (nv n : Nat) (llr : List ℝ) : Py (List Bool × List (Option ℝ)) := do
  let st ← msaLoopF fl nanSign H (fun v => llr.getD v 0) n 0 (bpInit (fun v => llr.getD v 0))
  pure ((List.range nv).map st.dec, (List.range nv).map st.out)

/-- ldpc.py:185-254 `ldpc_bp_decode` with 'MSA' for whole blocks (other lengths: as in `bpDecode`). -/
noncomputable def msaDecodeF (nanSign : NanSigns) (oneLeft : Py (List (List Bool × List (Option ℝ)))) (H : Checks) (nv n : Nat)
    (llrs : List ℝ) : Py (List (List Bool × List (Option ℝ)) × List ℝ) := do
  let clipped := llrs.map (clipR llrMax)
  if nv = 0 then .error .valueError
  let blocks ← (List.range (llrs.length / nv)).mapM (fun b => msaBlockF fl (nanSign b) H nv n ((clipped.drop (b * nv)).take nv))
  if llrs.length % nv = 1 ∧ nv ≠ 1 then do
    let r ← oneLeft
    pure (r, clipped)
  else if llrs.length % nv ≠ 0 then .error .valueError
  else if llrs = [] then .error .valueError
  else pure (blocks, clipped)

end Verif
