import Verif.Spec.Bp
import Mathlib.Combinatorics.SimpleGraph.Acyclic
import Mathlib.Analysis.SpecialFunctions.Log.Basic
import Mathlib.Algebra.BigOperators.Group.Finset.Basic
/-
The Tanner graph of a code and exact posteriors over all its codewords.
-/
namespace Verif

/-- The Tanner graph: check `c` and variable `v` are adjacent when `v` takes part in the check. -/
def tannerGraph (H : List (List Nat)) (nv : Nat) : SimpleGraph (Fin H.length ⊕ Fin nv) where
  Adj
    | .inl c, .inr v => v.1 ∈ H.getD c.1 []
    | .inr v, .inl c => v.1 ∈ H.getD c.1 []
    | _, _ => False
  symm := ⟨by rintro (a | a) (b | b) h <;> simpa using h⟩
  loopless := ⟨by rintro (a | a) h <;> simp at h⟩

open Classical in
/-- The codewords of length `nv` (a word is the set of its ones) whose bit `v` is `b`. -/
noncomputable def codewordsAt (H : List (List Nat)) (nv v : Nat) (b : Bool) : Finset (Finset Nat) :=
  (Finset.range nv).powerset.filter (fun S => ChecksHold H (fun u => u ∈ S) ∧ decide (v ∈ S) = b)

/-- Exact a posteriori LLR of bit `v`, for equally likely codewords and independent observations with
`llr i = log (P(y i | bit i = 0) / P(y i | bit i = 1))`: the likelihood of the word `S`, relative to the all-zero word, is
`∏ i ∈ S, exp (-llr i)`. -/
noncomputable def codePosterior (H : List (List Nat)) (nv : Nat) (llr : Nat → ℝ) (v : Nat) : ℝ :=
  Real.log ((∑ S ∈ codewordsAt H nv v false, ∏ i ∈ S, Real.exp (-llr i)) / ∑ S ∈ codewordsAt H nv v true, ∏ i ∈ S, Real.exp (-llr i))

end Verif
