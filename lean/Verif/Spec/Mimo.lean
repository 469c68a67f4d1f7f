import Mathlib.Analysis.Complex.Basic
import Mathlib.Algebra.BigOperators.Group.Finset.Basic
/-
Specification of MIMO detection: symbol vectors and distances.
-/
namespace Verif

/-- `x` is a vector of `n` constellation points. -/
def IsVector (constellation : List ℂ) (n : Nat) (x : List ℂ) : Prop := x.length = n ∧ ∀ z ∈ x, z ∈ constellation

/-- Squared distance between the received vector `y` (of `rows` entries) and `h x`. -/
noncomputable def sqErr (rows : Nat) (y : Nat → ℂ) (h : Nat → Nat → ℂ) (x : List ℂ) : ℝ :=
  ∑ i ∈ Finset.range rows, ‖y i - ∑ j ∈ Finset.range x.length, h i j * x.getD j 0‖ ^ 2

/-- `x` is a maximum likelihood decision: no vector of constellation points is closer. -/
def IsML (rows n : Nat) (y : Nat → ℂ) (h : Nat → Nat → ℂ) (constellation x : List ℂ) : Prop :=
  IsVector constellation n x ∧ ∀ x', IsVector constellation n x' → sqErr rows y h x ≤ sqErr rows y h x'

/-- What `numpy.linalg.qr` promises for a `rows × cols` matrix, `cols ≤ rows` (reduced factorisation). -/
structure IsQR (rows cols : Nat) (h q r : Nat → Nat → ℂ) : Prop where
  fact : ∀ i < rows, ∀ j < cols, h i j = ∑ k ∈ Finset.range cols, q i k * r k j
  orth : ∀ a < cols, ∀ b < cols, ∑ i ∈ Finset.range rows, (starRingEnd ℂ) (q i a) * q i b = if a = b then 1 else 0
  tri : ∀ i < cols, ∀ j < i, r i j = 0

/-- What `numpy.argsort` promises. -/
def IsArgsort (l : List ℝ) (o : List Nat) : Prop :=
  o.Perm (List.range l.length) ∧ (o.map fun j => l.getD j 0).Pairwise (· ≤ ·)

end Verif
