import Verif.Model.GFields
/-
Model of /repo/commpy/channelcoding/algcode.py.
-/
namespace Verif

/-- algcode.py:34-36: `for m in arange(1, 18): if (2**m-1)%n == 0: break` (m = 17 when no break occurs). -/
def findField (n : Nat) : Nat :=
  ((List.range' 1 17).find? (fun m => (2 ^ m - 1) % n == 0)).getD 17

/-- algcode.py:58-61: one multiplication of the accumulated generator polynomial. -/
def genpolyMul (w : Nat) (gpoly poly : Nat) : Py Nat := do
  let a ← dec2bitarray gpoly w
  let b ← dec2bitarray poly w
  let c ← convolve a b
  pure (bitarray2dec (c.map (· % 2)))

/-- `arr[mask == 1]` -/
def maskSelect {α : Type} (arr : List α) (mask : List Nat) : List α :=
  ((arr.zip mask).filter (fun p => p.2 = 1)).map Prod.fst

/-- algcode.py:11-64 `cyclic_code_genpoly` for n ≥ 1.  `f64` is the rounding of the result through a float64 array
(line 62) and back (line 64); it is the identity below 2^53, see the theorems.  For m = 17 (no suitable field up to 16)
the field constructor raises IndexError. -/
def cyclicCodeGenpoly (f64 : Nat → Nat) (n : Nat) (k : Int) : Py (List Nat) :=
  if n % 2 = 0 then .error .valueError
  else do
    let m := findField n
    let xgf ← GF.init (.arr (List.range' 1 (2 ^ m - 1))) m
    let cosetFields ← xgf.cosets
    let leaders := cosetFields.map (fun c => c.getD 0 0)
    let degrees := cosetFields.map List.length
    let ygf ← GF.init (.arr leaders) m
    let minpols ← ygf.minpolys
    let r ← (List.range' 1 (2 ^ minpols.length - 1)).foldlM (fun (polys : List Nat) i => do
      let ia ← dec2bitarray i minpols.length
      if (((maskSelect degrees ia).sum : Nat) : Int) = (n : Int) - k then do
        let g ← (maskSelect minpols ia).foldlM (genpolyMul (2 ^ m)) 1
        pure (polys ++ [g])
      else pure polys) []
    pure (r.map f64)

end Verif
