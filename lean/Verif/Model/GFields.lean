import Verif.Py
import Verif.Model.Utilities
/-
Model of /repo/commpy/channelcoding/gfields.py.
Field elements and polynomials are natural numbers (binary coefficient vectors), as in the code.
-/
namespace Verif

/-- `len(bin(n))` for `n ≥ 0`: the prefix "0b" plus the binary digits (one digit for 0). -/
def binLen (n : Nat) : Nat := 3 + Nat.log2 n

/-- gfields.py:166-175, the `while` loop of `polydivide`. -/
def polydivideLoop : Nat → Nat → Nat → Nat → Py Nat
  | 0, _, _, _ => .error .outOfFuel
  | fuel + 1, x, y, r =>
    if binLen r ≥ binLen y then
      -- shift_count = len(bin(x)) - len(bin(y)); d = y << shift_count if shift_count > 0 else y
      let d := if binLen x > binLen y then y <<< (binLen x - binLen y) else y
      polydivideLoop fuel (x ^^^ d) y (x ^^^ d)
    else .ok r

/-- gfields.py:164-175 `polydivide` with an explicit bound on the number of loop iterations. -/
def polydivideFuel (fuel x y : Nat) : Py Nat := polydivideLoop fuel x y y

/-- `polydivide` with fuel that is always enough when the loop terminates (C24). -/
def polydivide (x y : Nat) : Py Nat := polydivideFuel (Nat.log2 x + 4) x y

/-- `numpy.convolve` (full mode); ValueError on an empty argument. -/
def convolve (a b : List Nat) : Py (List Nat) :=
  if a = [] ∨ b = [] then .error .valueError
  else .ok ((List.range (a.length + b.length - 1)).map (fun k =>
    ((List.range (k + 1)).map (fun i => a.getD i 0 * b.getD (k - i) 0)).sum))

/-- gfields.py:177-181 `polymultiply`. -/
def polymultiply (x y m primPoly : Nat) : Py Nat := do
  let xa ← dec2bitarray x m
  let ya ← dec2bitarray y m
  let c ← convolve xa ya
  polydivide (bitarray2dec (c.map (· % 2))) primPoly

/-- gfields.py:49-50: the table of primitive polynomials. -/
def primpolyArray : List Nat :=
  [0, 3, 7, 11, 19, 37, 67, 137, 285, 529, 1033, 2053, 4179, 8219, 17475, 32771, 69643]

/-- A `GF` object; `elements = none` means that `__init__` did not set the attribute. -/
structure GF where
  m : Nat
  primPoly : Nat
  elements : Option (List Nat)
  deriving DecidableEq

/-- Argument of `GF(x, m)`: a Python int or a 1-D integer array. -/
inductive GFArg where
  | int (x : Nat)
  | arr (x : List Nat)

/-- gfields.py:47-55 `GF.__init__` (m ≥ 0). -/
def GF.init (x : GFArg) (m : Nat) : Py GF := do
  let p ← pyGet primpolyArray (m : Int)
  match x with
  | .int n => pure ⟨m, p, if n < 2 ^ m then some [n] else none⟩
  | .arr l => pure ⟨m, p, if 1 ≤ l.length then some l else none⟩

/-- attribute access `self.elements` -/
def GF.elems (g : GF) : Py (List Nat) :=
  match g.elements with
  | some l => .ok l
  | none => .error .attributeError

/-- gfields.py:58-62 `__add__`. -/
def GF.add (g h : GF) : Py GF := do
  let a ← g.elems
  let b ← h.elems
  if a.length = b.length then GF.init (.arr (List.zipWith (· ^^^ ·) a b)) g.m
  else .error .valueError

/-- gfields.py:65-72 `__mul__`. -/
def GF.mul (g h : GF) : Py GF := do
  let b ← h.elems
  let a ← g.elems
  if b.length = a.length then
    let prod ← (a.zip b).mapM (fun (p : Nat × Nat) => polymultiply p.1 p.2 g.m g.primPoly)
    GF.init (.arr prod) g.m
  else .error .valueError

/-- `2**i` for an `np.int64` exponent `i`: numpy computes it in int64, so it wraps at 63 and is 0 from 64 on. -/
def int64Pow2 (i : Nat) : Int :=
  if i < 63 then 2 ^ i else if i = 63 then -2 ^ 63 else 0

/-- gfields.py:74-84 `power_to_tuple`: the elements of the returned GF object (as integers, since the int64
wrap-around can produce a negative value).  `polydivide` is only reached with `2^m ≤ 2^i`. -/
def GF.powerToTuple (g : GF) : Py (List Int) := do
  let a ← g.elems
  a.mapM (fun i =>
    if int64Pow2 i < 2 ^ g.m then .ok (int64Pow2 i)
    else (polydivide (int64Pow2 i).toNat g.primPoly).map Int.ofNat)

/-- gfields.py:97-98: one step of the shift register
`((cur << 1) & (2**m-1)) ^ (-((cur & 2**(m-1)) >> (m-1)) & (prim & (2**m-1)))` (m ≥ 1): the second operand is
`-1 & …` or `0 & …` according to the top bit. -/
def gfShift (m primPoly cur : Nat) : Nat :=
  ((cur <<< 1) &&& (2 ^ m - 1)) ^^^ (if (cur &&& 2 ^ (m - 1)) >>> (m - 1) = 1 then primPoly &&& (2 ^ m - 1) else 0)

/-- gfields.py:96-99: the `while cur_state != i` loop. -/
def t2pLoop (m primPoly i : Nat) : Nat → Nat → Nat → Py Nat
  | 0, _, _ => .error .outOfFuel
  | fuel + 1, cur, power =>
    if cur ≠ i then t2pLoop m primPoly i fuel (gfShift m primPoly cur) (power + 1) else .ok power

/-- gfields.py:86-103 `tuple_to_power` (element list of the result); 2^m iterations are enough whenever the loop
terminates, since the register has at most 2^m states.  For `m = 0` the expression `2**(m-1)` would be a float and `&` raises
TypeError if the loop body is entered. -/
def GF.tupleToPower (g : GF) : Py (List Nat) := do
  let a ← g.elems
  a.mapM (fun i =>
    if i ≠ 0 then
      if g.m = 0 ∧ i ≠ 1 then .error .typeError
      else t2pLoop g.m g.primPoly i (2 ^ g.m + 1) 1 0
    else .ok 0)

/-- gfields.py:105-113 `order` (`(2**m-1)/gcd` is an exact division unless `m = 0`, where it is 0/0). -/
def GF.order (g : GF) : Py (List Nat) := do
  let pw ← g.tupleToPower
  pw.mapM (fun i =>
    if Nat.gcd i (2 ^ g.m - 1) = 0 then .error .zeroDivisionError
    else .ok ((2 ^ g.m - 1) / Nat.gcd i (2 ^ g.m - 1)))

/-- gfields.py:129-131: `for idx2 …: if mark_list[idx2] == 0 and x[idx2] == v: mark_list[idx2] = count`. -/
def cosetMark (x : List Nat) (v count : Nat) (mark : List Nat) : List Nat :=
  List.zipWith (fun xi mi => if mi = 0 ∧ xi = v then count else mi) x mark

/-- gfields.py:128-132: the inner `while` loop (N = 2**m-1); `a*(2**i) % N` raises ZeroDivisionError for N = 0. -/
def cosetLoop (x : List Nat) (a N count : Nat) : Nat → Nat → List Nat → Py (List Nat)
  | 0, _, _ => .error .outOfFuel
  | fuel + 1, i, mark =>
    if N = 0 then .error .zeroDivisionError
    else if a * 2 ^ i % N ≠ a then
      cosetLoop x a N count fuel (i + 1) (cosetMark x (a * 2 ^ i % N) count mark)
    else .ok mark

/-- gfields.py:121-133: the marking loop; state (mark_list, coset_count). Fuel `m + 2` is enough when the loop terminates:
`a*2^m ≡ a`. -/
def cosetMarks (x : List Nat) (m : Nat) : Py (List Nat × Nat) :=
  (List.range x.length).foldlM (fun (st : List Nat × Nat) idx =>
    if st.1.getD idx 0 = 0 then do
      let a := x.getD idx 0
      let mark := st.1.set idx st.2
      let mark ← cosetLoop x a (2 ^ m - 1) st.2 (m + 2) 1 mark
      pure (mark, st.2 + 1)
    else pure st) (List.replicate x.length 0, 1)

/-- gfields.py:115-138 `cosets`: the element lists of the returned GF objects (each non-empty). -/
def GF.cosets (g : GF) : Py (List (List Nat)) := do
  let x ← g.tupleToPower
  let el ← g.elems
  let st ← cosetMarks x g.m
  pure ((List.range' 1 (st.2 - 1)).map (fun c => ((el.zip st.1).filter (fun p => p.2 = c)).map Prod.fst))

/-- gfields.py:151-159: one multiplication `t ← t · (x - root)` of the coefficient list `t` (lowest degree first), written in
the code as a correlation with `zeros ++ [1, root] ++ zeros`. -/
def minpolyStep (m primPoly : Nat) (t : List Nat) (root : Nat) : Py (List Nat) := do
  let t2 := List.replicate (t.length - 1) 0 ++ [1, root] ++ List.replicate (t.length - 1) 0
  let prod ← (List.range (t2.length - t.length + 1)).mapM (fun n =>
    (List.range t.length).foldlM (fun s k => do
      let p ← polymultiply (t.getD k 0) (t2.getD (n + k) 0) m primPoly
      pure (s ^^^ p)) 0)
  pure prod.reverse

/-- gfields.py:150-160: the polynomial of one coset (given by its non-empty element list). -/
def minpolyOfCoset (m primPoly : Nat) (coset : List Nat) : Py Nat :=
  match coset with
  | [] => .error .indexError
  | c0 :: rest => do
    let t ← rest.foldlM (minpolyStep m primPoly) [c0, 1]
    pure (bitarray2dec t.reverse)

/-- gfields.py:140-162 `minpolys`. -/
def GF.minpolys (g : GF) : Py (List Nat) := do
  let full ← GF.init (.arr (List.range (2 ^ g.m))) g.m
  let cs ← full.cosets
  let el ← g.elems
  let r ← el.mapM (fun x => do
    (cs.filter (fun c => x ∈ c)).mapM (minpolyOfCoset g.m g.primPoly))
  pure r.flatten

/-- gfields.py:186-195: the loop of `poly_to_string`. -/
def polyToStringLoop : Nat → Nat → Nat → String → Py String
  | 0, _, _, _ => .error .outOfFuel
  | fuel + 1, x, i, s =>
    if x ≠ 0 then
      polyToStringLoop fuel (x >>> 1) (i + 1) (if x % 2 = 1 then s ++ "x^" ++ toString i ++ " + " else s)
    else .ok s

/-- gfields.py:184-195 `poly_to_string`; `polystr[:-2]` drops the last two characters. -/
def polyToString (x : Nat) : Py String := do
  let s ← polyToStringLoop (x + 1) x 0 ""
  pure (String.ofList (s.toList.take (s.length - 2)))

end Verif
