import Verif.Model.Utilities
import Verif.Model.UtilitiesReal
import Verif.Model.Viterbi
import Mathlib.Analysis.SpecialFunctions.Complex.Circle
import Mathlib.Analysis.SpecialFunctions.Log.Basic
/-
Model of /repo/commpy/modulation.py: `Modem`, `PSKModem`, `QAMModem`, `ofdm_tx`, `ofdm_rx`.  Floats are exact reals and
complex numbers; constellations are 1-D.  (`plot_constellation` is in `Model/ConstellationPlot`.)
-/
namespace Verif

/-- `log2(n)` followed by the test `x != int(x)`: `some b` when `n = 2^b`.  (`numpy.log2` is exact on powers of two and not an
integer on other numbers below 2^48.) -/
def exactLog2 (n : Nat) : Option Nat := if 2 ^ n.log2 = n then some n.log2 else none

/-- modulation.py:162-164, 206-208: `num_bits_symbol = log2(len)`, ValueError unless it is an integer.  For 0,
`int(log2(0)) = int(-inf)` raises OverflowError. -/
def checkPow2 (n : Nat) : Py Nat :=
  if n = 0 then .error .overflowError
  else match exactLog2 n with
    | some b => .ok b
    | none => .error .valueError

/-- The attributes of a `Modem` object. -/
structure Modem where
  constellation : List ℂ
  Es : ℝ
  m : Nat
  nbits : Nat

/-- modulation.py:159-172, the setter of `constellation`: the object afterwards and the exception if any.  The attributes
are assigned in the order of the code, so an exception in between would leave the earlier ones changed. -/
noncomputable def setConstellation (s : Modem) (value : List ℂ) : Modem × Py Unit :=
  match checkPow2 value.length with
  | .error e => (s, .error e)
  | .ok nb =>
    let s1 := { s with constellation := value }
    match signalPower s1.constellation with
    | .error e => (s1, .error e)
    | .ok es =>
      let s2 := { s1 with Es := es }
      let s3 := { s2 with m := s2.constellation.length }
      ({ s3 with nbits := nb }, .ok ())

/-- `GrayCode(b).generate_gray()` of sympy (a library contract): the reflected binary code. -/
def grayCode (i : Nat) : Nat := i ^^^ (i >>> 1)

/-- modulation.py:72-74: the code words in order; ValueError for dimension < 1 or not an integer, OverflowError for
`log2(0)` (sympy formats the dimension with `%i`). -/
def graySequence (len : Nat) : Py (List Nat) :=
  if len = 0 then .error .overflowError
  else match exactLog2 len with
    | none => .error .valueError
    | some 0 => .error .valueError
    | some (b + 1) => .ok ((List.range (2 ^ (b + 1))).map grayCode)

/-- numpy `argsort` (the keys are distinct where it is used, so the sorting algorithm does not matter). -/
def argsortNat (l : List Nat) : List Nat :=
  (List.range l.length).mergeSort fun a b => decide (l.getD a 0 ≤ l.getD b 0)

/-- modulation.py:75: `array(constellation)[gray_code_sequence_array.argsort()]`. -/
def grayReorder (constellation : List ℂ) : Py (List ℂ) := do
  let seq ← graySequence constellation.length
  (argsortNat seq).mapM fun (i : Nat) => pyGet constellation (i : Int)

/-- Assign the constellation of a new object; if this raises there is no object. -/
noncomputable def freshModem (constellation : List ℂ) : Py Modem :=
  match setConstellation ⟨[], 0, 0, 0⟩ constellation with
  | (s, .ok ()) => .ok s
  | (_, .error e) => .error e

/-- modulation.py:68-77 `Modem.__init__`. -/
noncomputable def newModem (constellation : List ℂ) (reorderAsGray : Bool) : Py Modem :=
  match (if reorderAsGray then grayReorder constellation else .ok constellation) with
  | .ok c => freshModem c
  | .error e => .error e

/-- modulation.py:79-98 `modulate`: `arange` with step 0 raises ZeroDivisionError, `vectorize` on an empty array
ValueError. -/
def modulate (s : Modem) (inputBits : List Nat) : Py (List ℂ) :=
  if s.nbits = 0 then .error .zeroDivisionError
  else if inputBits = [] then .error .valueError
  else (strideIdx inputBits.length 0 s.nbits).mapM fun i =>
    pyGet s.constellation (bitarray2dec ((inputBits.drop i).take s.nbits) : Int)

/-- modulation.py:122: `abs(y - constellation).argmin()` for every symbol. -/
noncomputable def nearestIdx (s : Modem) (y : ℂ) : Nat := argminFirst (s.constellation.map fun c => ‖y - c‖)

/-- modulation.py:121-123: hard demodulation (argmin over an empty axis raises ValueError). -/
noncomputable def demodHard (s : Modem) (ys : List ℂ) : Py (List Nat) :=
  if s.constellation = [] then .error .valueError
  else dec2bitarrayArr (ys.map (nearestIdx s)) s.nbits

/-- modulation.py:130-136: the loop over the constellation for one symbol and one bit. -/
noncomputable def llrSums (s : Modem) (y : ℂ) (noiseVar : ℝ) (bitIndex : Nat) : ℝ × ℝ :=
  s.constellation.zipIdx.foldl (fun (acc : ℝ × ℝ) (p : ℂ × Nat) =>
    if (p.2 >>> bitIndex) &&& 1 ≠ 0 then (acc.1 + Real.exp ((-‖y - p.1‖ ^ 2) / noiseVar), acc.2)
    else (acc.1, acc.2 + Real.exp ((-‖y - p.1‖ ^ 2) / noiseVar))) (0, 0)

/-- modulation.py:125-137: soft demodulation. -/
noncomputable def demodSoft (s : Modem) (ys : List ℂ) (noiseVar : ℝ) : List ℝ :=
  ys.zipIdx.foldl (fun (out : List ℝ) (p : ℂ × Nat) =>
    (List.range s.nbits).foldl (fun (out : List ℝ) (bitIndex : Nat) =>
      out.set (p.2 * s.nbits + s.nbits - 1 - bitIndex)
        (Real.log ((llrSums s p.1 noiseVar bitIndex).1 / (llrSums s p.1 noiseVar bitIndex).2))) out)
    (List.replicate (ys.length * s.nbits) 0)

/-- Result of `demodulate`: bits or log-likelihood ratios. -/
inductive DemodOut where
  | bits (b : List Nat)
  | llrs (l : List ℝ)

/-- modulation.py:100-141 `demodulate`.  (Exact arithmetic, meaningful for a positive noise variance; underflow of `exp`, division
by a zero noise variance, infinite and nan outputs: `Model/SoftFloat`.) -/
noncomputable def demodulate (s : Modem) (ys : List ℂ) (demodType : String) (noiseVar : ℝ) : Py DemodOut :=
  if demodType = "hard" then (demodHard s ys).map .bits
  else if demodType = "soft" then .ok (.llrs (demodSoft s ys noiseVar))
  else .error .valueError

/-- `numpy.arange(start, stop, step)` in exact arithmetic. -/
noncomputable def arangeR (start stop step : ℝ) : List ℝ :=
  (List.range ⌈(stop - start) / step⌉₊).map fun i : Nat => start + i * step

/-- modulation.py:203-210 `PSKModem.__init__`. -/
noncomputable def pskModem (m : Nat) : Py Modem := do
  let _ ← checkPow2 m
  newModem ((arangeR 0 (2 * Real.pi) (2 * Real.pi / m)).map fun x : ℝ => Complex.exp (Complex.I * x)) true

/-- `numpy.tile(l, k)`. -/
def npTile {α : Type} (l : List α) (k : Nat) : List α := (List.replicate k l).flatten

/-- `numpy.repeat(l, k)`. -/
def npRepeat {α : Type} (l : List α) (k : Nat) : List α := l.flatMap fun x => List.replicate k x

/-- modulation.py:242-262 `QAMModem.__init__`: `tile(hstack((pam, pam[::-1])), n // 2) * 1j + pam.repeat(n)`. -/
noncomputable def qamModem (m : Nat) : Py Modem :=
  let n := Nat.sqrt m
  if n * n ≠ m then .error .valueError
  else do
    let pam := arangeR (-(n : ℝ) + 1) n 2
    let c ← broadcast2 (fun (x y : ℝ) => (x : ℂ) * Complex.I + (y : ℂ)) (npTile (pam ++ pam.reverse) (n / 2)) (npRepeat pam n)
    newModem c true

/-- modulation.py:265-282 `ofdm_tx` on a matrix with `cols` columns: `nfft = float(nfft)`, then `zeros(nfft)` raises
TypeError in the first iteration. -/
def ofdmTx (cols : Nat) : Py (List ℂ) :=
  (List.range cols).foldlM (fun _ _ => .error .typeError) []

/-- modulation.py:285-296 `ofdm_rx` for `nfft ≥ 1`: in the first iteration the slice bound `-nsc / 2` is a float, which
raises TypeError.  The result is the list of columns. -/
def ofdmRx (y : List ℂ) (nfft cpLength : Nat) : Py (List (List ℂ)) :=
  (List.range (y.length / (nfft + cpLength))).foldlM (fun _ _ => .error .typeError) []

end Verif
