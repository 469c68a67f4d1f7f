import Verif.Py
import Mathlib.Analysis.Complex.Norm
import Mathlib.Data.Int.Bitwise
import Mathlib.Algebra.Order.Floor.Ring
/-
Model of /repo/commpy/utilities.py (real / complex part).  Floats are exact reals or complex numbers.
-/
namespace Verif

/-- numpy element-wise binary operation on 1-D arrays: equal lengths, or one operand of length 1 is broadcast,
otherwise ValueError. -/
def broadcast2 {α β γ : Type} (f : α → β → γ) (a : List α) (b : List β) : Py (List γ) :=
  if a.length = b.length then .ok (List.zipWith f a b)
  else match a, b with
    | [x], _ => .ok (b.map (f x))
    | _, [y] => .ok (a.map (f · y))
    | _, _ => .error .valueError

/-- utilities.py:135-153 `euclid_dist`: `((a - b) * (a - b)).sum()`. -/
def euclidDist (a b : List ℝ) : Py ℝ := do
  let d ← broadcast2 (fun x y => (x - y) * (x - y)) a b
  pure d.sum

/-- `x.astype(int)`: truncation towards zero. -/
noncomputable def astypeInt (x : ℝ) : Int := if 0 ≤ x then ⌊x⌋ else ⌈x⌉

/-- utilities.py:112-132 `hamming_dist` on arrays of integers: `np.bitwise_xor(a, b).sum()`, with two's complement for negative numbers
(`hammingDist` is the case of non-negative numbers). -/
def hammingDistInt (a b : List Int) : Py Int := do
  let d ← broadcast2 Int.xor a b
  pure d.sum

/-- numpy `y[start::step] = vals` (step ≥ 1): a single value is broadcast, any other length mismatch raises
ValueError.  `step = 0` raises ValueError ("slice step cannot be zero"). -/
def strideAssign {α : Type} (y : List α) (start step : Nat) (vals : List α) : Py (List α) :=
  if step = 0 then .error .valueError
  else
    let idx := strideIdx y.length start step
    if vals.length = idx.length then
      .ok ((idx.zip vals).foldl (fun y p => y.set p.1 p.2) y)
    else match vals with
      | [v] => .ok (idx.foldl (fun y i => y.set i v) y)
      | _ => .error .valueError

/-- utilities.py:156-181 `upsample`.  `junk` is the content of the uninitialised array (`np.empty`). `n` is a
natural number (a negative factor makes `np.empty` raise). -/
def upsample (junk : Nat → ℂ) (x : List ℂ) (n : Nat) : Py (List ℂ) := do
  let y := (List.range (x.length * n)).map junk
  let y ← strideAssign y 0 n x
  (List.range' 1 (n - 1)).foldlM (fun y i => strideAssign y i n (List.replicate x.length 0)) y

/-- utilities.py:184-205 `signal_power`: mean of `abs(s) ** 2`.  `np.vectorize` raises ValueError on empty input. -/
noncomputable def signalPower (signal : List ℂ) : Py ℝ :=
  if signal = [] then .error .valueError
  else .ok ((signal.map (fun s => ‖s‖ ^ 2)).sum / signal.length)

end Verif
