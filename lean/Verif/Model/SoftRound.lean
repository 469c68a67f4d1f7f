import Verif.Model.ModemFloat
/-
Soft demodulation in double precision, /repo/commpy/modulation.py:125-137.  Same code as `demodSoft` of `Model/Modulation`; every operation on
doubles is one of the functions of `SoftFloats`, about which nothing is assumed in this file.  Infinities and nan (a zero noise variance, sums that
underflow to zero) are in `Model/SoftFloat`; here all values are finite.
-/
namespace Verif

/-- The elementary functions on doubles used by soft demodulation: subtraction and `hypot` (`abs` of a complex number), `** 2`, the rounding
after a division or an addition, `exp` and `log`. -/
structure SoftFloats extends DemodFloats where
  sq : ℝ → ℝ
  fl : ℝ → ℝ
  exp : ℝ → ℝ
  log : ℝ → ℝ

/-- modulation.py:134, 136: the computed `exp((-abs(current_symbol - symbol) ** 2) / noise_var)`. -/
noncomputable def softTermR (S : SoftFloats) (y c : ℂ) (noiseVar : ℝ) : ℝ :=
  S.exp (S.fl ((-S.sq (distF S.toDemodFloats y c)) / noiseVar))

/-- modulation.py:130-136: the loop over the constellation for one symbol and one bit, every `+=` rounded. -/
noncomputable def llrSumsR (S : SoftFloats) (s : Modem) (y : ℂ) (noiseVar : ℝ) (bitIndex : Nat) : ℝ × ℝ :=
  s.constellation.zipIdx.foldl (fun (acc : ℝ × ℝ) (p : ℂ × Nat) =>
    if (p.2 >>> bitIndex) &&& 1 ≠ 0 then (S.fl (acc.1 + softTermR S y p.1 noiseVar), acc.2)
    else (acc.1, S.fl (acc.2 + softTermR S y p.1 noiseVar))) (0, 0)

/-- modulation.py:125-137: soft demodulation. -/
noncomputable def demodSoftR (S : SoftFloats) (s : Modem) (ys : List ℂ) (noiseVar : ℝ) : List ℝ :=
  ys.zipIdx.foldl (fun (out : List ℝ) (p : ℂ × Nat) =>
    (List.range s.nbits).foldl (fun (out : List ℝ) (bitIndex : Nat) =>
      out.set (p.2 * s.nbits + s.nbits - 1 - bitIndex)
        (S.log (S.fl ((llrSumsR S s p.1 noiseVar bitIndex).1 / (llrSumsR S s p.1 noiseVar bitIndex).2)))) out)
    (List.replicate (ys.length * s.nbits) 0)

end Verif
