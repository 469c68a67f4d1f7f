import Verif.Model.LdpcDecode
/-
`ldpc_bp_decode` with `decoder_algorithm = 'SPA'` in double precision (/repo/commpy/channelcoding/ldpc.py:144-254).

The floating-point operations are a parameter `D`; nothing is assumed about them in this file.  As in `Model/LdpcDecode`, `none` is nan,
the sign of a nan is arbitrary (`nanSign`), and infinite input LLRs are not modelled.  Overflow of sums is not represented (all messages
are clipped to ±500).
-/
namespace Verif

/-- The floating-point functions used by the sum-product branch of `ldpc_bp_decode`. -/
structure SpaFloats where
  /-- rounding of the result of `+`, `*` and `/` -/
  fl : ℝ → ℝ
  /-- `np.tanh` -/
  tanh : ℝ → ℝ
  /-- ldpc.py:218-219: `np.exp2` of the sum of the complex `np.log2` of non-zero numbers, real part -/
  prod : List ℝ → ℝ
  /-- `np.arctanh` on the open interval (-1, 1) -/
  artanh : ℝ → ℝ

variable (D : SpaFloats)

/-- ldpc.py:224-227: clip to [-1, 1], `2 * arctanh` (infinite at ±1), clip to ±500. -/
noncomputable def atanhClipF (y : ℝ) : ℝ :=
  if 1 ≤ y then llrMax else if y ≤ -1 then -llrMax else clipR llrMax (D.fl (D.artanh y * 2))

/-- ldpc.py:211-227, one row: messages out of a check node.  `log2 0 = -inf`, `exp2 (-inf) = 0`, `1 / 0 * 0` is nan. -/
noncomputable def spaRowF (ns : List Nat) (x : Nat → Option ℝ) (v : Nat) : Option ℝ :=
  match ns.mapM x, x v with
  | some xs, some xv =>
    let t (y : ℝ) := D.tanh (D.fl (y * (1 / 2)))
    let p := if (0 : ℝ) ∈ xs.map t then 0 else D.prod (xs.map t)
    if t xv = 0 then none else some (atanhClipF D (D.fl (D.fl (1 / t xv) * p)))
  | _, _ => none

/-- ldpc.py:243 `message_matrix.sum(0)`: the messages are added one after the other, from 0. -/
noncomputable def sumMsgF (l : List (Option ℝ)) : Option ℝ :=
  (l.mapM id).map (fun xs => xs.foldl (fun s x => D.fl (s + x)) 0)

/-- ldpc.py:243-248: sum of the incoming messages plus the channel LLR. -/
noncomputable def totalLlrF (H : Checks) (llr : Nat → ℝ) (msg : Nat → Nat → Option ℝ) (v : Nat) : Option ℝ :=
  (sumMsgF D ((checksOf H v).map (fun c => msg c v))).map (fun s => D.fl (s + llr v))

/-- ldpc.py:209-248: one iteration. -/
noncomputable def spaIterF (nanSign : Nat → Nat → Bool) (H : Checks) (llr : Nat → ℝ) (k : Nat) (st : BpState) : BpState :=
  let m : Nat → Nat → Option ℝ := fun c v => spaRowF D (H.getD c []) (st.msg c) v
  let tot := totalLlrF D H llr m
  { msg := fun c v => (m c v).bind (fun a => (tot v).map (fun t => D.fl (-a + t)))
    dec := fun v => signBit (nanSign k v) (tot v)
    out := tot }

/-- ldpc.py:202-248: the iterations, with early termination. -/
noncomputable def spaLoopF (nanSign : Nat → Nat → Bool) (H : Checks) (llr : Nat → ℝ) : Nat → Nat → BpState → BpState
  | 0, _, st => st
  | n + 1, k, st => if syndromeOk H st.dec then st else spaLoopF nanSign H llr n (k + 1) (spaIterF D nanSign H llr k st)

/-- ldpc.py:144-254 for one block of `nv` LLRs: hard decisions, output LLRs, and the caller's array, clipped in place. -/
noncomputable def spaDecodeF (nanSign : Nat → Nat → Bool) (H : Checks) (nv n : Nat) (llrs : List ℝ) :
    List Bool × List (Option ℝ) × List ℝ :=
  let clipped := llrs.map (clipR llrMax)
  let st := spaLoopF D nanSign H (fun v => clipped.getD v 0) n 0 (bpInit (fun v => clipped.getD v 0))
  ((List.range nv).map st.dec, (List.range nv).map st.out, clipped)

end Verif
