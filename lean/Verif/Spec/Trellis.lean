import Verif.Model.Convcode
import Verif.Lemmas.Utilities
/-
Specification vocabulary for trellises given by tables: paths, their states and their outputs.
-/
namespace Verif

/-- A trellis whose tables have the announced shapes and ranges. -/
structure Trellis.WF (t : Trellis) : Prop where
  k_pos : 0 < t.k
  next_len : t.nextTable.length = 2 ^ t.M
  out_len : t.outTable.length = 2 ^ t.M
  next_row : ∀ row ∈ t.nextTable, row.length = 2 ^ t.k ∧ ∀ x ∈ row, x < 2 ^ t.M
  out_row : ∀ row ∈ t.outTable, row.length = 2 ^ t.k ∧ ∀ x ∈ row, x < 2 ^ t.n

/-- State reached from `s` with input symbol `u`. -/
def Trellis.next (t : Trellis) (s u : Nat) : Nat := (t.nextTable.getD s []).getD u 0
/-- Output symbol produced in state `s` with input symbol `u`. -/
def Trellis.out (t : Trellis) (s u : Nat) : Nat := (t.outTable.getD s []).getD u 0

/-- Final state of the path with input symbols `us` from state `s`. -/
def Trellis.runState (t : Trellis) (s : Nat) (us : List Nat) : Nat := us.foldl t.next s

/-- Output bits along the path with input symbols `us` from state `s`. -/
def Trellis.runOut (t : Trellis) : Nat → List Nat → List Nat
  | _, [] => []
  | s, u :: us => toBits t.n (t.out s u) ++ t.runOut (t.next s u) us

/-- The input symbols of a bit sequence: consecutive groups of `k` bits. -/
def inSyms (k : Nat) (bits : List Nat) : List Nat :=
  (List.range (bits.length / k)).map fun i => bitarray2dec ((bits.drop (i * k)).take k)

end Verif
