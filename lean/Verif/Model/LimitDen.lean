import Verif.Model.Links
import Verif.Model.Float53
/-
The conversion of a float code rate into a fraction (/repo/commpy/links.py:145-147, 209-211, 299-301):
`Fraction(code_rate).limit_denominator(100)`.  `Fraction(float)` is exact, so that a float is represented by its value in ℚ.
`limit_denominator` is the algorithm of CPython's Lib/fractions.py.
-/
namespace Verif

/-- Lib/fractions.py `limit_denominator`, the `while True` loop: the values `(p0, q0, p1, q1)` at the `break`. -/
def limitDenLoop (maxDen : Int) : Nat → Int → Int → Int → Int → Int → Int → Py (Int × Int × Int × Int)
  | 0, _, _, _, _, _, _ => .error .outOfFuel
  | fuel + 1, p0, q0, p1, q1, n, d =>
    if d = 0 then .error .zeroDivisionError
    else
      let a := n.fdiv d
      let q2 := q0 + a * q1
      if q2 > maxDen then .ok (p0, q0, p1, q1)
      else limitDenLoop maxDen fuel p1 q1 (p0 + a * p1) q2 d (n - a * d)

/-- Lib/fractions.py `Fraction.limit_denominator(max_denominator)`, called with 100 in links.py:146, 210, 300. -/
def limitDenominator (fuel : Nat) (maxDen : Int) (x : ℚ) : Py ℚ :=
  if maxDen < 1 then .error .valueError
  else if (x.den : Int) ≤ maxDen then .ok x
  else do
    let (p0, q0, p1, q1) ← limitDenLoop maxDen fuel 0 1 1 0 x.num x.den
    if q1 = 0 then .error .zeroDivisionError
    else
      let k := (maxDen - q0).fdiv q1
      let bound1 : ℚ := ((p0 + k * p1 : Int) : ℚ) / ((q0 + k * q1 : Int) : ℚ)
      let bound2 : ℚ := (p1 : ℚ) / (q1 : ℚ)
      if |bound2 - x| ≤ |bound1 - x| then .ok bound2 else .ok bound1

/-- The `code_rate` argument: a float (given by its exact value) or a `Fraction` (or int). -/
inductive RateArg where
  | float (x : ℚ)
  | frac (q : ℚ)

/-- links.py:209-211 and 299-301: `if type(code_rate) is float: code_rate = Fraction(code_rate).limit_denominator(100)`. -/
def RateArg.rate (fuel : Nat) : RateArg → Py ℚ
  | .float x => limitDenominator fuel 100 x
  | .frac q => .ok q

variable {σ Sym V G C : Type}

/-- links.py:269-342 `LinkModel.link_performance` with the rate argument as given by the caller. -/
noncomputable def Link.performanceArg (lk : Link σ Sym V G C) (bufLen : ℚ → Nat → Nat) (junk : σ → Nat → ℝ) (fuel fuelRate : Nat)
    (snrs : List ℝ) (sendMax errMin : Int) (sendChunk : Option Int) (rate : RateArg) (w : σ) : Py (List ℚ × σ) := do
  let r ← rate.rate fuelRate
  lk.performance bufLen junk fuel snrs sendMax errMin sendChunk r w

/-- links.py:155-267 `LinkModel.link_performance_full_metrics` with the rate argument as given by the caller. -/
noncomputable def Link.fullMetricsArg (lk : Link σ Sym V G C) (bufLen : ℚ → Nat → Nat) (junk : σ → Nat → ℝ) (fuelRate : Nat)
    (snrs : List ℝ) (txMax : Nat) (errMin : Int) (sendChunk : Option Int) (rate : RateArg) (k : Nat) (stop : Bool) (w : σ) :
    Py (List MetricsRow × σ) := do
  let r ← rate.rate fuelRate
  lk.fullMetrics bufLen junk snrs txMax errMin sendChunk r k stop w

end Verif
