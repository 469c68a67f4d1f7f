import Verif.Model.TurboFloat
/-
Vocabulary of property C122: what double precision guarantees.
-/
namespace Verif

/-- IEEE double precision as far as needed.  Results up to 2^1000 are finite, with relative error 2^-53 (or the absolute error of the
subnormal range), and rounding a rounded number changes nothing; `exp` underflows to 0 below -746 and is positive down to -400; a sum of at most
2^20 non-negative numbers (each zero or normal), in whatever order it is computed, has relative error at most 2^-20. -/
structure DoubleLike (D : MapFloats) : Prop where
  rnd_err : ∀ x : ℝ, |x| ≤ 2 ^ 1000 → ∃ y, D.rnd x = .fin y ∧ |y - x| ≤ |x| / 2 ^ 53 + 1 / 2 ^ 1074
  rnd_zero : D.rnd 0 = .fin 0
  rnd_rnd : ∀ x y : ℝ, D.rnd x = .fin y → D.rnd y = .fin y
  exp_zero : D.exp 0 = .fin 1
  exp_under : ∀ x : ℝ, x ≤ -746 → D.exp x = .fin 0
  exp_range : ∀ x : ℝ, -400 ≤ x → x ≤ 1 → ∃ y, D.exp x = .fin y ∧ 1 / 2 ^ 600 ≤ y ∧ y ≤ 4
  sum_err : ∀ l : List ℝ, l.length ≤ 2 ^ 20 → (∀ x ∈ l, x = 0 ∨ 1 / 2 ^ 1000 ≤ x ∧ x ≤ 2 ^ 900) →
    ∃ y, D.sum (l.map Fl.fin) = .fin y ∧ |y - l.sum| ≤ l.sum / 2 ^ 20

/-- Noise `δ`, noise variance: the probability of the branch sent does not underflow, that of every other branch does. -/
structure HighSnr (δ σ2 : ℝ) : Prop where
  small : δ ≤ 1 / 2
  noise : δ ^ 2 ≤ 300 * σ2
  lo : 1 / 2 ^ 900 ≤ σ2
  hi : σ2 ≤ 1 / 800

end Verif
