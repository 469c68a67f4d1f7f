import Verif.Py
import Mathlib.Data.EReal.Basic
/-
Model of the raised cosine filters of /repo/commpy/filters.py in floating-point arithmetic: every operation is rounded by `fl`, the sine and cosine are the
ones of the library, and a division by zero gives an infinity or nan, as for numpy floats.  Overflow and underflow are not represented.  `Ts` is not zero.
-/
namespace Verif

/-- The floating-point arithmetic: rounding of the result of an operation, `np.pi`, `np.sin`, `np.cos`, `np.sqrt(2)`. -/
structure FilterFloats where
  fl : ℝ → ℝ
  pi : ℝ
  sin : ℝ → ℝ
  cos : ℝ → ℝ
  sqrt2 : ℝ

variable (F : FilterFloats)

open Classical in
/-- A quotient of numpy floats (nan is `none`); a zero divisor has the sign of `sg`. -/
noncomputable def divF (sg a b : ℝ) : Option EReal :=
  if b = 0 then (if a = 0 then none else if 0 < a * sg then some ⊤ else some ⊥) else some (F.fl (a / b) : ℝ)

open Classical in
/-- A product of a finite numpy float with a possibly infinite one. -/
noncomputable def mulF (a : ℝ) : Option EReal → Option EReal
  | none => none
  | some ⊤ => if a = 0 then none else if 0 < a then some ⊤ else some ⊥
  | some ⊥ => if a = 0 then none else if 0 < a then some ⊥ else some ⊤
  | some (x : ℝ) => some (F.fl (a * x) : ℝ)

/-- filters.py:51-52, 57 (and 99-100, 105): `T_delta = 1/float(Fs)` and the time `(x-N/2)*T_delta` of sample `x`. -/
noncomputable def timeF (N : Nat) (Fs : ℝ) (x : Nat) : ℝ := F.fl (F.fl ((x : ℝ) - F.fl ((N : ℝ) / 2)) * F.fl (1 / Fs))

/-- filters.py:61, 63, 65: `np.sin(np.pi*t/Ts)/(np.pi*t/Ts)`, for `t` not zero. -/
noncomputable def sincF (Ts t : ℝ) : ℝ := F.fl (F.sin (F.fl (F.fl (F.pi * t) / Ts)) / F.fl (F.fl (F.pi * t) / Ts))

open Classical in
/-- filters.py:58-66: the tap of `rcosfilter` at time `t` (`1 - w*w` is +0 when it vanishes). -/
noncomputable def rcosTapF (alpha Ts t : ℝ) : Option EReal :=
  if t = 0 then some ((1 : ℝ) : EReal)
  else if alpha ≠ 0 ∧ (t = F.fl (Ts / F.fl (2 * alpha)) ∨ t = F.fl (-Ts / F.fl (2 * alpha))) then some (F.fl (F.fl (F.pi / 4) * sincF F Ts t) : ℝ)
  else
    let w := F.fl (F.fl (F.fl (2 * alpha) * t) / Ts)
    mulF F (sincF F Ts t) (divF F 1 (F.cos (F.fl (F.fl (F.fl (F.pi * alpha) * t) / Ts))) (F.fl (1 - F.fl (w * w))))

/-- filters.py:109-110 (and 112-113): the special-cased value of `rrcosfilter`. -/
noncomputable def rrcosSpecialF (alpha : ℝ) : ℝ :=
  let a := F.fl (F.pi / F.fl (4 * alpha))
  F.fl (F.fl (alpha / F.sqrt2) * F.fl (F.fl (F.fl (1 + F.fl (2 / F.pi)) * F.sin a) + F.fl (F.fl (1 - F.fl (2 / F.pi)) * F.cos a)))

open Classical in
/-- filters.py:106-116: the tap of `rrcosfilter` at time `t` (the denominator `np.pi*t*(1-w*w)/Ts` has the sign of `t/Ts` when `1-w*w` vanishes). -/
noncomputable def rrcosTapF (alpha Ts t : ℝ) : Option EReal :=
  if t = 0 then some (F.fl (F.fl (1 - alpha) + F.fl (F.fl (4 * alpha) / F.pi)) : ℝ)
  else if alpha ≠ 0 ∧ (t = F.fl (Ts / F.fl (4 * alpha)) ∨ t = F.fl (-Ts / F.fl (4 * alpha))) then some (rrcosSpecialF F alpha : ℝ)
  else
    let w := F.fl (F.fl (F.fl (4 * alpha) * t) / Ts)
    divF F (t / Ts)
      (F.fl (F.sin (F.fl (F.fl (F.fl (F.pi * t) * F.fl (1 - alpha)) / Ts)) +
        F.fl (F.fl (F.fl (4 * alpha) * F.fl (t / Ts)) * F.cos (F.fl (F.fl (F.fl (F.pi * t) * F.fl (1 + alpha)) / Ts)))))
      (F.fl (F.fl (F.fl (F.pi * t) * F.fl (1 - F.fl (w * w))) / Ts))

/-- filters.py:23-68 `rcosfilter`: times and taps. -/
noncomputable def rcosfilterF (N : Nat) (alpha Ts Fs : ℝ) : Py (List ℝ × List (Option EReal)) :=
  open Classical in
  if Fs = 0 then .error .zeroDivisionError
  else .ok ((List.range N).map (timeF F N Fs), (List.range N).map fun x => rcosTapF F alpha Ts (timeF F N Fs x))

/-- filters.py:70-119 `rrcosfilter`: times and taps. -/
noncomputable def rrcosfilterF (N : Nat) (alpha Ts Fs : ℝ) : Py (List ℝ × List (Option EReal)) :=
  open Classical in
  if Fs = 0 then .error .zeroDivisionError
  else .ok ((List.range N).map (timeF F N Fs), (List.range N).map fun x => rrcosTapF F alpha Ts (timeF F N Fs x))

end Verif
