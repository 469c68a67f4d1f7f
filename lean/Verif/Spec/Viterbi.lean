import Verif.Model.Viterbi
import Verif.Spec.Trellis
import Mathlib.Algebra.Order.Monoid.Defs
/-
Specification vocabulary for trellis decoding: costs of paths, minimal paths.
-/
namespace Verif

/-- Every state is entered by exactly `2^k` branches, and there are at least as many states as inputs. -/
structure Trellis.Balanced (t : Trellis) : Prop where
  wf : t.WF
  k_le : t.k ≤ t.M
  fan_in : ∀ s < 2 ^ t.M, (preds t s).length = 2 ^ t.k

/-- Total cost of the path with input symbols `us` that leaves state `s` after step `τ`; `μ j p u` is the cost of
branch `(p, u)` at step `j` (steps are numbered from 1). -/
def pathCost {R : Type} [Add R] [Zero R] (t : Trellis) (μ : Nat → Nat → Nat → R) : Nat → Nat → List Nat → R
  | _, _, [] => 0
  | τ, s, u :: us => μ (τ + 1) s u + pathCost t μ (τ + 1) (t.next s u) us

/-- `us` is a sequence of `T` input symbols. -/
def IsInput (t : Trellis) (T : Nat) (us : List Nat) : Prop := us.length = T ∧ ∀ u ∈ us, u < 2 ^ t.k

/-- `us` is a cheapest path of length `T` from state 0. -/
def IsMinPath {R : Type} [Add R] [Zero R] [LE R] (t : Trellis) (μ : Nat → Nat → Nat → R) (T : Nat) (us : List Nat) : Prop :=
  IsInput t T us ∧ ∀ vs, IsInput t T vs → pathCost t μ 0 0 us ≤ pathCost t μ 0 0 vs

/-- The block of received samples used at step `j ≥ 1`: the `j`-th block of `n` samples, and padding after the end. -/
def rxBlock {α : Type} (t : Trellis) (L : Nat) (pad : α) (coded : List α) (j : Nat) : List α :=
  if j ≤ L / t.k then (coded.drop ((j - 1) * t.n)).take t.n else List.replicate t.n pad

/-- Number of trellis steps processed by the decoder. -/
def vitSteps (t : Trellis) (L : Nat) : Nat := (L + t.M) / t.k - 1

/-- Total cost of a code sequence against received samples, sample by sample. -/
def seqCost {R α : Type} [AddCommMonoid R] (cost : α → Nat → R) (rx : List α) (c : List Nat) : R := (List.zipWith cost rx c).sum

end Verif
