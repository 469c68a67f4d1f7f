import Verif.Py
import Mathlib.Analysis.SpecialFunctions.Trigonometric.Basic
/-
Model of /repo/commpy/filters.py over exact reals.  `1/float(Fs)` raises ZeroDivisionError for `Fs = 0`.
Division by zero inside numpy (`Ts = 0`, or `alpha = 0` in `gaussianfilter`: infinities, nan and warnings) is in `Model/FiltersNan`.
-/
namespace Verif

/-- filters.py:51-52 (also 99-100, 151-152, 183-184): the time grid `(arange(N) - N/2) * T_delta`. -/
noncomputable def filterTime (N : Nat) (Fs : ℝ) (x : Nat) : ℝ := ((x : ℝ) - (N : ℝ) / 2) * (1 / Fs)

/-- filters.py:65-66: the general raised-cosine formula. -/
noncomputable def rcosGeneral (alpha Ts t : ℝ) : ℝ :=
  (Real.sin (Real.pi * t / Ts) / (Real.pi * t / Ts)) *
    (Real.cos (Real.pi * alpha * t / Ts) / (1 - (((2 * alpha * t) / Ts) * ((2 * alpha * t) / Ts))))

open Classical in
/-- filters.py:57-66: the value computed for one time `t`. -/
noncomputable def rcosTap (alpha Ts t : ℝ) : ℝ :=
  if t = 0 then 1
  else if alpha ≠ 0 ∧ t = Ts / (2 * alpha) then
    (Real.pi / 4) * (Real.sin (Real.pi * t / Ts) / (Real.pi * t / Ts))
  else if alpha ≠ 0 ∧ t = -Ts / (2 * alpha) then
    (Real.pi / 4) * (Real.sin (Real.pi * t / Ts) / (Real.pi * t / Ts))
  else rcosGeneral alpha Ts t

open Classical in
/-- filters.py:23-68 `rcosfilter`. -/
noncomputable def rcosfilter (N : Nat) (alpha Ts Fs : ℝ) : Py (List ℝ × List ℝ) :=
  if Fs = 0 then .error .zeroDivisionError
  else .ok ((List.range N).map (filterTime N Fs), (List.range N).map (fun x => rcosTap alpha Ts (filterTime N Fs x)))

/-- filters.py:114-116: the general root-raised-cosine formula. -/
noncomputable def rrcosGeneral (alpha Ts t : ℝ) : ℝ :=
  (Real.sin (Real.pi * t * (1 - alpha) / Ts) + 4 * alpha * (t / Ts) * Real.cos (Real.pi * t * (1 + alpha) / Ts)) /
    (Real.pi * t * (1 - (4 * alpha * t / Ts) * (4 * alpha * t / Ts)) / Ts)

/-- filters.py:109-110 (and 112-113): the special-cased value. -/
noncomputable def rrcosSpecial (alpha : ℝ) : ℝ :=
  (alpha / Real.sqrt 2) * (((1 + 2 / Real.pi) * (Real.sin (Real.pi / (4 * alpha)))) +
    ((1 - 2 / Real.pi) * (Real.cos (Real.pi / (4 * alpha)))))

open Classical in
/-- filters.py:104-116: the value computed for one time `t`. -/
noncomputable def rrcosTap (alpha Ts t : ℝ) : ℝ :=
  if t = 0 then 1 - alpha + (4 * alpha / Real.pi)
  else if alpha ≠ 0 ∧ t = Ts / (4 * alpha) then rrcosSpecial alpha
  else if alpha ≠ 0 ∧ t = -Ts / (4 * alpha) then rrcosSpecial alpha
  else rrcosGeneral alpha Ts t

open Classical in
/-- filters.py:70-119 `rrcosfilter`. -/
noncomputable def rrcosfilter (N : Nat) (alpha Ts Fs : ℝ) : Py (List ℝ × List ℝ) :=
  if Fs = 0 then .error .zeroDivisionError
  else .ok ((List.range N).map (filterTime N Fs), (List.range N).map (fun x => rrcosTap alpha Ts (filterTime N Fs x)))

open Classical in
/-- filters.py:121-154 `gaussianfilter`; `np.sqrt(np.pi)/alpha` is infinite with a warning for `alpha = 0` (numpy scalar
division), modelled here as an error because no finite tap exists; the actual values (nan) are in `Model/FiltersNan`. -/
noncomputable def gaussianfilter (N : Nat) (alpha _Ts Fs : ℝ) : Py (List ℝ × List ℝ) :=
  if Fs = 0 then .error .zeroDivisionError
  else if alpha = 0 then .error .zeroDivisionError
  else .ok ((List.range N).map (filterTime N Fs),
    (List.range N).map (fun x => (Real.sqrt Real.pi / alpha) *
      Real.exp (-((Real.pi * filterTime N Fs x / alpha) * (Real.pi * filterTime N Fs x / alpha)))))

open Classical in
/-- filters.py:156-186 `rectfilter`. -/
noncomputable def rectfilter (N : Nat) (_Ts Fs : ℝ) : Py (List ℝ × List ℝ) :=
  if Fs = 0 then .error .zeroDivisionError
  else .ok ((List.range N).map (filterTime N Fs), List.replicate N 1)

end Verif
