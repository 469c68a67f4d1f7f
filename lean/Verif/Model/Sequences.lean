import Verif.Py
import Mathlib.Analysis.SpecialFunctions.Complex.Circle
/-
Model of /repo/commpy/sequences.py.
-/
namespace Verif

/-- sequences.py:68-72, the loop of `pnsequence`; `out` is the part of `pnseq` already written. -/
def pnLoop (mask : List Nat) : Nat → List Nat → List Nat → Py (List Nat)
  | 0, _, out => .ok out
  | k + 1, sr, out => do
    let b ← pyGet sr (-1)
    let newBit := (List.zipWith (· &&& ·) sr mask).sum % 2
    -- `sr[1:] = sr[:-1]; sr[0] = new_bit`
    pnLoop mask k (newBit :: sr.dropLast) (out ++ [b])

/-- sequences.py:22-74 `pnsequence`.  Seed and mask elements are bits given as numbers. -/
def pnsequence (order : Int) (seed mask : List Nat) (seqLength : Nat) : Py (List Nat) :=
  if (seed.length : Int) ≠ order then .error .valueError
  else if (mask.length : Int) ≠ order then .error .valueError
  else pnLoop mask seqLength seed []

/-- sequences.py:76-112 `zcsequence` for integer arguments (for which the `is_integer` check of lines 98-100 passes). -/
noncomputable def zcsequence (u seqLength q : Int) : Py (List ℂ) :=
  if u ≤ 0 then .error .valueError
  else if u ≥ seqLength then .error .valueError
  else if Int.gcd u seqLength ≠ 1 then .error .valueError
  else
    let cf := seqLength % 2
    .ok ((List.range seqLength.toNat).map (fun (n : Nat) =>
      Complex.exp (-1 * Complex.I * Real.pi * (u : ℂ) * (n : ℂ) * ((n : ℂ) + (cf : ℂ) + 2 * (q : ℂ)) / (seqLength : ℂ))))

end Verif
