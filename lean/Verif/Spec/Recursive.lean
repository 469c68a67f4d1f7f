import Verif.Spec.Convcode
/-
Specification vocabulary for recursive convolutional encoders: sequences over GF(2), delays, difference equations.
-/
namespace Verif

/-- Value of the sequence `x`, `d` steps before time `t` (zero before the beginning). -/
def past (x : Nat → Nat) (t d : Nat) : Nat := if d ≤ t then x (t - d) else 0

/-- Parity over all inputs `c` of (constant coefficient of `P c`) times (input `c` now) plus, over the delays
`1 ≤ d ≤ memory[c]`, (coefficient `d` of `P c`) times (register sequence `c`, `d` steps ago). -/
def tapParity (fmt : String) (memory : List Nat) (P : Nat → Nat) (u x : Nat → Nat → Nat) (t : Nat) : Nat :=
  (∑ c ∈ Finset.range memory.length, (polyCoef fmt (memMax memory + 1) (P c) 0 * u c t +
    ∑ d ∈ Finset.range (memory.getD c 0),
      polyCoef fmt (memMax memory + 1) (P c) (d + 1) * past (x c) t (d + 1))) % 2

/-- The register sequences of an encoder with feedback matrix `F`: the value entering register `l` at time `t` is the
parity prescribed by row `l` of `F`. -/
def RegisterEq (fmt : String) (memory : List Nat) (F : List (List Nat)) (u x : Nat → Nat → Nat) : Prop :=
  ∀ l < memory.length, ∀ t, x l t = tapParity fmt memory (fun c => matAt F l c) u x t

/-- Coefficient `t` (mod 2) of the product of the polynomial with coefficients `p 0, ..., p M` and the sequence `y`. -/
def polyTimes (p : Nat → Nat) (M : Nat) (y : Nat → Nat) (t : Nat) : Nat :=
  (∑ d ∈ Finset.range (M + 1), p d * past y t d) % 2

end Verif
