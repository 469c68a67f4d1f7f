import Verif.Model.Convcode
import Mathlib.Algebra.BigOperators.Group.Finset.Basic
/-
Specification vocabulary for convolutional codes, written without reference to the tables, the shift registers or
the encoder loop: polynomials, delays, parity.
-/
namespace Verif

/-- Coefficient of `D^d` of the polynomial written as the integer `p`: bit `d` of `p` in 'MSB' format, bit
`w - 1 - d` of `p` in 'LSB' / 'Matlab' format, where `w - 1` is the largest memory. -/
def polyCoef (fmt : String) (w p d : Nat) : Nat :=
  if fmt = "MSB" then p / 2 ^ d % 2 else p / 2 ^ (w - 1 - d) % 2

/-- Entry `(i, j)` of a matrix. -/
def matAt (m : List (List Nat)) (i j : Nat) : Nat := (m.getD i []).getD j 0

/-- `m` is a matrix with `rows` rows and `cols` columns. -/
def IsMatrix (rows cols : Nat) (m : List (List Nat)) : Prop := m.length = rows ∧ ∀ row ∈ m, row.length = cols

/-- Everything one needs to know about the arguments of the matrix branch: shapes agree and polynomials have at most
`memory.max() + 1` coefficients. -/
structure TrellisArgs (memory : List Nat) (G : List (List Nat)) (n : Nat) (feedback : Option (List (List Nat)))
    (fmt : String) : Prop where
  fmt_ok : fmt = "MSB" ∨ fmt = "LSB" ∨ fmt = "Matlab"
  k_pos : 0 < G.length
  mem_len : memory.length = G.length
  g_mat : IsMatrix G.length n G
  g_lt : ∀ i < G.length, ∀ j < n, matAt G i j < 2 ^ (memMax memory + 1)
  f_mat : ∀ F, feedback = some F → IsMatrix G.length G.length F
  f_lt : ∀ F, feedback = some F → ∀ i < G.length, ∀ j < G.length, matAt F i j < 2 ^ (memMax memory + 1)

/-- Every polynomial of input `c` has degree at most `memory[c]`: the condition under which no coefficient refers to
a delay that register `c` does not have. -/
def FitsMemory (fmt : String) (memory : List Nat) (cols : Nat) (m : List (List Nat)) : Prop :=
  ∀ i < memory.length, ∀ j < cols, ∀ d, memory.getD i 0 < d → d ≤ memMax memory →
    polyCoef fmt (memMax memory + 1) (matAt m i j) d = 0

/-- Same condition for the feedback matrix, whose *columns* are the registers. -/
def FitsMemoryFb (fmt : String) (memory : List Nat) (m : List (List Nat)) : Prop :=
  ∀ l < memory.length, ∀ c < memory.length, ∀ d, memory.getD c 0 < d → d ≤ memMax memory →
    polyCoef fmt (memMax memory + 1) (matAt m l c) d = 0

/-- Input bit `c` at time `t` of a bit stream fed `k` bits at a time. -/
def inputAt (k : Nat) (bits : List Nat) (c t : Nat) : Nat := bits.getD (t * k + c) 0

/-- Input bit `c`, `d` steps before time `t` (zero before the beginning). -/
def delayed (k : Nat) (bits : List Nat) (c t d : Nat) : Nat := if d ≤ t then inputAt k bits c (t - d) else 0

/-- The code sequence defined by the generator polynomials: at every time `t`, for every output `j`, the parity over
inputs `i` and delays `d ≤ memory[i]` of (coefficient `d` of `G[i][j]`) times (input `i` at time `t - d`). -/
def convSpec (fmt : String) (memory : List Nat) (G : List (List Nat)) (n : Nat) (bits : List Nat) : List Nat :=
  (List.range (bits.length / G.length)).flatMap fun t => (List.range n).map fun j =>
    (∑ i ∈ Finset.range G.length, ∑ d ∈ Finset.range (memory.getD i 0 + 1),
      polyCoef fmt (memMax memory + 1) (matAt G i j) d * delayed G.length bits i t d) % 2

/-- Number of information plus termination bits that determine the length of the output. -/
def codedInputLen (t : Trellis) (N : Nat) (termination : String) : Nat :=
  if termination = "cont" then N else if t.rsc = true then N + t.k * t.M else N + (t.M + t.M % t.k)

/-- The entries of `out` at the positions marked 1 by the periodically repeated `row`. -/
def punctSelected (row out : List Nat) : List Nat :=
  ((List.range out.length).filter fun i => row.getD (i % row.length) 0 = 1).map fun i => out.getD i 0

end Verif
