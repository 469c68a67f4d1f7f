import Verif.Model.FilterFloat
import Verif.Spec.Nearest
import Mathlib.Analysis.SpecialFunctions.Trigonometric.Basic
/-
Specification vocabulary: what is assumed of the floating-point library used by the filters.
-/
namespace Verif

/-- Operations are rounded to nearest, `np.pi` and `np.sqrt(2)` are the doubles nearest to π and √2, and the sine and cosine of a double are doubles within
four units in the last place (a relative error of at most 2^-50) of the exact values. -/
structure FilterAccuracy (F : FilterFloats) : Prop where
  round : RoundsNearest F.fl
  pi : F.pi = F.fl Real.pi
  sqrt2 : F.sqrt2 = F.fl (Real.sqrt 2)
  sin : ∀ a, IsDouble a → IsDouble (F.sin a) ∧ |F.sin a - Real.sin a| ≤ 1 / 2 ^ 50 * |Real.sin a|
  cos : ∀ a, IsDouble a → IsDouble (F.cos a) ∧ |F.cos a - Real.cos a| ≤ 1 / 2 ^ 50 * |Real.cos a|

end Verif
