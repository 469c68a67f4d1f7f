import Mathlib.Data.Int.Basic
import Mathlib.Algebra.BigOperators.Group.List.Basic
import Mathlib.Data.Matrix.Mul
/-
What an LDPC encoder should produce.
-/
namespace Verif

/-- `c` satisfies every parity check, a check being a row of coefficients. -/
def Syndrome0 (H : List (List Int)) (c : List Int) : Prop := ∀ row ∈ H, (List.zipWith (· * ·) row c).sum % 2 = 0

/-- `c` is a word of `n` bits that starts with the message and satisfies all checks. -/
def SystematicCodeword (H : List (List Int)) (n : Nat) (m c : List Int) : Prop :=
  c.length = n ∧ (∀ x ∈ c, x = 0 ∨ x = 1) ∧ c.take m.length = m ∧ Syndrome0 H c

/-- The square matrix of the last `r` of `n` columns. -/
def tailMatrix (H : List (List Int)) (r n : Nat) : Matrix (Fin r) (Fin r) Int := fun i j => (H.getD i []).getD (n - r + j) 0

/-- The first `n - r` columns. -/
def headMatrix (H : List (List Int)) (r n : Nat) : Matrix (Fin r) (Fin (n - r)) Int := fun i j => (H.getD i []).getD j 0

/-- The matrix of the last `H.length` columns is lower triangular with ones on the diagonal; `n` columns in total. -/
def LowerTriangularTail (H : List (List Int)) (n : Nat) : Prop :=
  ∀ i < H.length, ∀ j < H.length, i ≤ j → (H.getD i []).getD (n - H.length + j) 0 = if i = j then 1 else 0

/-- The same, upper triangular. -/
def UpperTriangularTail (H : List (List Int)) (n : Nat) : Prop :=
  ∀ i < H.length, ∀ j < H.length, j ≤ i → (H.getD i []).getD (n - H.length + j) 0 = if i = j then 1 else 0

end Verif
