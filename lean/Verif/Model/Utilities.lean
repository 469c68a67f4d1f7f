import Verif.Py
/-
Model of /repo/commpy/utilities.py (integer part).
Bits are natural numbers (0 or 1), arrays are lists.
-/
namespace Verif

/-- utilities.py:81-85, the `while i <= number` loop of `decimal2bitarray`.  `fuel` bounds the number of
iterations (the theorems show that it never runs out). `result[bit_width - pox - 1] = 1` uses Python indexing, so
it wraps for `bit_width ≤ pox < 2*bit_width` and raises IndexError beyond. -/
def d2bLoop (number bitWidth : Nat) : Nat → Nat → Nat → List Nat → Py (List Nat)
  | 0, _, _, _ => .error .outOfFuel
  | fuel + 1, i, pox, result =>
    if i ≤ number then
      if i &&& number ≠ 0 then
        match pySet result ((bitWidth : Int) - (pox : Int) - 1) 1 with
        | .ok r => d2bLoop number bitWidth fuel (i <<< 1) (pox + 1) r
        | .error e => .error e
      else d2bLoop number bitWidth fuel (i <<< 1) (pox + 1) result
    else .ok result

/-- utilities.py:59-86 `decimal2bitarray` (the memoisation of line 58 is modelled separately in `Model/Cache`).
Negative numbers (outside the documented domain) would skip the loop; they are not modelled.
The number of iterations is the bit length of `number`; `number + 2` is ample fuel. -/
def decimal2bitarray (number bitWidth : Nat) : Py (List Nat) :=
  d2bLoop number bitWidth (number + 2) 1 0 (List.replicate bitWidth 0)

/-- utilities.py:50-51 `dec2bitarray` on one integer (the `.copy()` has no effect on values). -/
def dec2bitarray (number bitWidth : Nat) : Py (List Nat) := decimal2bitarray number bitWidth

/-- `result[pox*bw:(pox+1)*bw] = block` for a block of length `bw` inside the array (utilities.py:54). -/
def writeBlock {α : Type} (result : List α) (start : Nat) (block : List α) : List α :=
  result.take start ++ block ++ result.drop (start + block.length)

/-- utilities.py:52-55 `dec2bitarray` on an array-like of integers. -/
def dec2bitarrayArr (numbers : List Nat) (bitWidth : Nat) : Py (List Nat) :=
  (numbers.zipIdx).foldlM (fun result (p : Nat × Nat) => do
      let b ← decimal2bitarray p.1 bitWidth
      pure (writeBlock result (p.2 * bitWidth) b))
    (List.replicate (bitWidth * numbers.length) 0)

/-- utilities.py:89-109 `bitarray2dec`. -/
def bitarray2dec (bits : List Nat) : Nat :=
  (List.range bits.length).foldl (fun number i => number + bits.getD i 0 * 2 ^ (bits.length - 1 - i)) 0

/-- utilities.py:112-132 `hamming_dist`: `np.bitwise_xor(a, b).sum()`.  numpy raises ValueError when the shapes
cannot be broadcast; length-1 arrays broadcast against any length. -/
def hammingDist (a b : List Nat) : Py Nat :=
  if a.length = b.length then .ok ((List.zipWith (· ^^^ ·) a b).sum)
  else if a.length = 1 then .ok ((b.map (a.getD 0 0 ^^^ ·)).sum)
  else if b.length = 1 then .ok ((a.map (· ^^^ b.getD 0 0)).sum)
  else .error .valueError

end Verif
