import Verif.Model.LdpcDecode
/-
Model of `ldpc_bp_decode` (/repo/commpy/channelcoding/ldpc.py:144-254) for every number of LLRs.
-/
namespace Verif

/-- ldpc.py:198-254 when a single LLR `x` is left after the last whole block (`n_vnodes > 1`): `multiply` by an array of one entry multiplies by
that number, so the block is treated as `n_vnodes` copies of it; an iteration fails when its result is stored in a slice of one entry (ValueError; for
an unknown algorithm the NameError comes first); without an iteration (none asked for, or the checks hold) the final `reshape(-1, n_blocks)` fails
unless there is exactly one block, and then the leftover entry is appended to the column. -/
noncomputable def oneLeftOver (nanSign : NanSigns) (alg : BpAlg) (H : Checks) (nv n : Nat) (llrs : List ℝ) : Py (List (List Bool × List (Option ℝ))) := do
  let clipped := llrs.map (clipR llrMax)
  let q := llrs.length / nv
  let x := clipped.getD (q * nv) 0
  let blocks ← (List.range q).mapM (fun b => bpBlock (nanSign b) alg H nv n ((clipped.drop (b * nv)).take nv))
  if n ≠ 0 ∧ syndromeOk H (fun _ => x < 0) = false then
    match alg with
    | .other => .error .nameError
    | _ => .error .valueError
  else
    match blocks with
    | [(d, o)] => pure [(d ++ [decide (x < 0)], o ++ [some x])]
    | _ => .error .valueError

/-- ldpc.py:185-254 `ldpc_bp_decode` for a given parity check matrix and any number of LLRs. -/
noncomputable def bpDecodeAny (nanSign : NanSigns) (alg : BpAlg) (H : Checks) (nv n : Nat) (llrs : List ℝ) :
    Py (List (List Bool × List (Option ℝ)) × List ℝ) :=
  bpDecode nanSign (oneLeftOver nanSign alg H nv n llrs) alg H nv n llrs

end Verif
