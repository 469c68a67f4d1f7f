import Verif.Model.Filters
/-
/repo/commpy/filters.py with infinities and nan: the values a numpy float can take, with exact finite parts.  This covers `Ts = 0` and, for
`gaussianfilter`, `alpha = 0`: `t` is a numpy float, so dividing it by a Python zero gives an infinity or nan with a warning, not an exception.
Simplification: zeros have no sign, so `x / 0` is `+inf` for `x > 0` and `-inf` for `x < 0` (a zero `-0.0` would turn the sign of the infinity around).
-/
namespace Verif

/-- A numpy float: finite, infinite (negative or not) or nan. -/
inductive FVal where
  | fin (x : ℝ)
  | inf (neg : Bool)
  | nan

namespace FVal
open Classical

/-- Negation. -/
noncomputable def neg : FVal → FVal
  | fin x => fin (-x)
  | inf s => inf (!s)
  | nan => nan

/-- Addition: nan for infinities of opposite signs. -/
noncomputable def add : FVal → FVal → FVal
  | nan, _ => nan
  | _, nan => nan
  | fin x, fin y => fin (x + y)
  | fin _, inf s => inf s
  | inf s, fin _ => inf s
  | inf s, inf s' => if s = s' then inf s else nan

/-- Multiplication: nan for zero times an infinity. -/
noncomputable def mul : FVal → FVal → FVal
  | nan, _ => nan
  | _, nan => nan
  | fin x, fin y => fin (x * y)
  | fin x, inf s => if x = 0 then nan else inf (xor s (decide (x < 0)))
  | inf s, fin x => if x = 0 then nan else inf (xor s (decide (x < 0)))
  | inf s, inf s' => inf (xor s s')

/-- Division: infinite for a zero denominator, nan for `0/0` and `inf/inf`. -/
noncomputable def div : FVal → FVal → FVal
  | nan, _ => nan
  | _, nan => nan
  | fin x, fin y => if y = 0 then (if x = 0 then nan else inf (decide (x < 0))) else fin (x / y)
  | fin _, inf _ => fin 0
  | inf s, fin y => inf (xor s (decide (y < 0)))
  | inf _, inf _ => nan

/-- `np.sin`: nan at the infinities. -/
noncomputable def sin : FVal → FVal
  | fin x => fin (Real.sin x)
  | _ => nan

/-- `np.cos`: nan at the infinities. -/
noncomputable def cos : FVal → FVal
  | fin x => fin (Real.cos x)
  | _ => nan

/-- `np.exp`. -/
noncomputable def exp : FVal → FVal
  | fin x => fin (Real.exp x)
  | inf true => fin 0
  | inf false => inf false
  | nan => nan

end FVal
open FVal

/-- filters.py:65-66: `(np.sin(np.pi*t/Ts)/(np.pi*t/Ts)) * (np.cos(np.pi*alpha*t/Ts)/(1-(((2*alpha*t)/Ts)*((2*alpha*t)/Ts))))`. -/
noncomputable def rcosGeneralN (alpha Ts t : ℝ) : FVal :=
  mul (div (sin (div (fin (Real.pi * t)) (fin Ts))) (div (fin (Real.pi * t)) (fin Ts)))
    (div (cos (div (fin (Real.pi * alpha * t)) (fin Ts)))
      (add (fin 1) (neg (mul (div (fin (2 * alpha * t)) (fin Ts)) (div (fin (2 * alpha * t)) (fin Ts))))))

/-- filters.py:60-63: `(np.pi/4)*(np.sin(np.pi*t/Ts)/(np.pi*t/Ts))`. -/
noncomputable def rcosSpecialN (Ts t : ℝ) : FVal :=
  mul (fin (Real.pi / 4)) (div (sin (div (fin (Real.pi * t)) (fin Ts))) (div (fin (Real.pi * t)) (fin Ts)))

open Classical in
/-- filters.py:57-66: the value computed for one time `t` (`Ts/(2*alpha)` is computed for `alpha != 0` only). -/
noncomputable def rcosTapN (alpha Ts t : ℝ) : FVal :=
  if t = 0 then fin 1
  else if alpha ≠ 0 ∧ t = Ts / (2 * alpha) then rcosSpecialN Ts t
  else if alpha ≠ 0 ∧ t = -Ts / (2 * alpha) then rcosSpecialN Ts t
  else rcosGeneralN alpha Ts t

open Classical in
/-- filters.py:23-68 `rcosfilter`. -/
noncomputable def rcosfilterN (N : Nat) (alpha Ts Fs : ℝ) : Py (List ℝ × List FVal) :=
  if Fs = 0 then .error .zeroDivisionError
  else .ok ((List.range N).map (filterTime N Fs), (List.range N).map (fun x => rcosTapN alpha Ts (filterTime N Fs x)))

/-- filters.py:114-116: `(np.sin(np.pi*t*(1-alpha)/Ts) + 4*alpha*(t/Ts)*np.cos(np.pi*t*(1+alpha)/Ts)) / (np.pi*t*(1-(4*alpha*t/Ts)*(4*alpha*t/Ts))/Ts)`. -/
noncomputable def rrcosGeneralN (alpha Ts t : ℝ) : FVal :=
  div (add (sin (div (fin (Real.pi * t * (1 - alpha))) (fin Ts)))
      (mul (mul (fin (4 * alpha)) (div (fin t) (fin Ts))) (cos (div (fin (Real.pi * t * (1 + alpha))) (fin Ts)))))
    (div (mul (fin (Real.pi * t)) (add (fin 1) (neg (mul (div (fin (4 * alpha * t)) (fin Ts)) (div (fin (4 * alpha * t)) (fin Ts)))))) (fin Ts))

open Classical in
/-- filters.py:104-116: the value computed for one time `t`. -/
noncomputable def rrcosTapN (alpha Ts t : ℝ) : FVal :=
  if t = 0 then fin (1 - alpha + (4 * alpha / Real.pi))
  else if alpha ≠ 0 ∧ t = Ts / (4 * alpha) then fin (rrcosSpecial alpha)
  else if alpha ≠ 0 ∧ t = -Ts / (4 * alpha) then fin (rrcosSpecial alpha)
  else rrcosGeneralN alpha Ts t

open Classical in
/-- filters.py:70-119 `rrcosfilter`. -/
noncomputable def rrcosfilterN (N : Nat) (alpha Ts Fs : ℝ) : Py (List ℝ × List FVal) :=
  if Fs = 0 then .error .zeroDivisionError
  else .ok ((List.range N).map (filterTime N Fs), (List.range N).map (fun x => rrcosTapN alpha Ts (filterTime N Fs x)))

/-- filters.py:152: `(np.sqrt(np.pi)/alpha)*np.exp(-((np.pi*time_idx/alpha)*(np.pi*time_idx/alpha)))` for one time. -/
noncomputable def gaussTapN (alpha t : ℝ) : FVal :=
  mul (div (fin (Real.sqrt Real.pi)) (fin alpha))
    (exp (neg (mul (div (fin (Real.pi * t)) (fin alpha)) (div (fin (Real.pi * t)) (fin alpha)))))

open Classical in
/-- filters.py:121-154 `gaussianfilter`. -/
noncomputable def gaussianfilterN (N : Nat) (alpha _Ts Fs : ℝ) : Py (List ℝ × List FVal) :=
  if Fs = 0 then .error .zeroDivisionError
  else .ok ((List.range N).map (filterTime N Fs), (List.range N).map (fun x => gaussTapN alpha (filterTime N Fs x)))

end Verif
