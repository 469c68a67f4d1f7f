import Verif.Model.Modulation
import Mathlib.Data.EReal.Basic
/-
Soft demodulation in floating point, as far as infinities and nan are concerned: `exp` underflows to 0, a zero noise variance divides by
zero, and `log(llr_num / llr_den)` can be infinite or nan.  `none` is nan.  Sums, quotients and logarithms of finite non-zero numbers are
exact; `fexp` is the exponential of finite doubles (a parameter).
-/
namespace Verif

/-- modulation.py:134, 136: `exp((-abs(current_symbol - symbol) ** 2) / noise_var)` for `noise_var ≥ 0`; `d2` is the squared distance.
With `noise_var = 0`: `-d2 / 0` is `-inf` (`exp` of it is 0), and nan for `d2 = 0`. -/
noncomputable def expTerm (fexp : ℝ → ℝ) (d2 noiseVar : ℝ) : Option ℝ :=
  if noiseVar = 0 then (if d2 = 0 then none else some 0) else some (fexp (-d2 / noiseVar))

/-- Addition of doubles (nan is absorbing; no overflow: the terms are at most 1). -/
noncomputable def addF (a b : Option ℝ) : Option ℝ := a.bind fun x => b.map fun y => x + y

/-- modulation.py:137 `log(llr_num / llr_den)` for non-negative sums: nan for 0/0, infinite for a zero denominator or numerator. -/
noncomputable def logRatioF (num den : Option ℝ) : Option EReal :=
  match num, den with
  | some a, some b =>
    if b = 0 then (if a = 0 then none else some ⊤)
    else if a = 0 then some ⊥
    else some ((Real.log (a / b) : ℝ) : EReal)
  | _, _ => none

/-- modulation.py:130-136: the loop over the constellation for one symbol and one bit. -/
noncomputable def llrSumsF (fexp : ℝ → ℝ) (s : Modem) (y : ℂ) (noiseVar : ℝ) (bitIndex : Nat) : Option ℝ × Option ℝ :=
  s.constellation.zipIdx.foldl (fun (acc : Option ℝ × Option ℝ) (p : ℂ × Nat) =>
    if (p.2 >>> bitIndex) &&& 1 ≠ 0 then (addF acc.1 (expTerm fexp (‖y - p.1‖ ^ 2) noiseVar), acc.2)
    else (acc.1, addF acc.2 (expTerm fexp (‖y - p.1‖ ^ 2) noiseVar))) (some 0, some 0)

/-- modulation.py:125-137: soft demodulation. -/
noncomputable def demodSoftF (fexp : ℝ → ℝ) (s : Modem) (ys : List ℂ) (noiseVar : ℝ) : List (Option EReal) :=
  ys.zipIdx.foldl (fun (out : List (Option EReal)) (p : ℂ × Nat) =>
    (List.range s.nbits).foldl (fun (out : List (Option EReal)) (bitIndex : Nat) =>
      out.set (p.2 * s.nbits + s.nbits - 1 - bitIndex)
        (logRatioF (llrSumsF fexp s p.1 noiseVar bitIndex).1 (llrSumsF fexp s p.1 noiseVar bitIndex).2)) out)
    (List.replicate (ys.length * s.nbits) (some 0))

end Verif
