import Verif.Model.SpaFloat
import Verif.Spec.Bp
/-
Vocabulary of property C121: what double precision does to large LLRs, and the decoder this amounts to.
-/
namespace Verif

/-- Double precision, as far as needed: integers up to 2^53 are exact, other results have relative error at most 2^-53 (between 1 and
2^100), `tanh` has rounded to ±1 from `T` on (fdlibm returns exactly ±1 from 22 on, and every `tanh` rounded to nearest does from 19.1 on), and
the product of numbers ±1, computed through complex logarithms, is exact. -/
structure Saturating (D : SpaFloats) (T : ℝ) : Prop where
  fl_int : ∀ k : ℤ, |k| ≤ 2 ^ 53 → D.fl k = k
  fl_err : ∀ x : ℝ, 1 ≤ |x| → |x| ≤ 2 ^ 100 → |D.fl x - x| ≤ |x| / 2 ^ 53
  tanh_pos : ∀ x : ℝ, T ≤ x → D.tanh x = 1
  tanh_neg : ∀ x : ℝ, x ≤ -T → D.tanh x = -1
  prod_signs : ∀ l : List ℝ, (∀ x ∈ l, x = 1 ∨ x = -1) → D.prod l = l.prod

/-- The rule of a saturated check node: full confidence (500) in the parity of the signs of the other variables. -/
noncomputable def voteRule (ns : List Nat) (x : Nat → ℝ) (v : Nat) : ℝ :=
  500 * ((ns.filter (fun u => u ≠ v)).map (fun u => (SignType.sign (x u) : ℝ))).prod

end Verif
