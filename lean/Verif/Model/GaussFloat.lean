import Verif.Model.FilterFloat
/-
`gaussianfilter` and `rectfilter` of /repo/commpy/filters.py in floating-point arithmetic.  Underflow of `exp` is not represented.
-/
namespace Verif

variable (F : FilterFloats)

/-- filters.py:152: the tap of `gaussianfilter` at time `t`; `sqrtPi` is `np.sqrt(np.pi)` and `exp` is `np.exp`. -/
noncomputable def gaussTapF (sqrtPi : ℝ) (exp : ℝ → ℝ) (alpha t : ℝ) : ℝ :=
  let x := F.fl (F.fl (F.pi * t) / alpha)
  F.fl (F.fl (sqrtPi / alpha) * exp (-F.fl (x * x)))

open Classical in
/-- filters.py:121-154 `gaussianfilter`: times and taps (`alpha = 0` as in `gaussianfilter` of `Model/Filters`). -/
noncomputable def gaussianfilterF (sqrtPi : ℝ) (exp : ℝ → ℝ) (N : Nat) (alpha _Ts Fs : ℝ) : Py (List ℝ × List ℝ) :=
  if Fs = 0 then .error .zeroDivisionError
  else if alpha = 0 then .error .zeroDivisionError
  else .ok ((List.range N).map (timeF F N Fs), (List.range N).map fun x => gaussTapF F sqrtPi exp alpha (timeF F N Fs x))

open Classical in
/-- filters.py:156-186 `rectfilter`: times and taps. -/
noncomputable def rectfilterF (N : Nat) (_Ts Fs : ℝ) : Py (List ℝ × List ℝ) :=
  if Fs = 0 then .error .zeroDivisionError
  else .ok ((List.range N).map (timeF F N Fs), List.replicate N 1)

end Verif
