import Verif.Model.LdpcFile
import Mathlib.LinearAlgebra.Matrix.NonsingularInverse
import Mathlib.Algebra.Order.Floor.Ring
import Mathlib.Data.Rat.Floor
/-
Model of the encoder of /repo/commpy/channelcoding/ldpc.py: the generator matrix of `build_matrix` and
`triang_ldpc_systematic_encode`.

`scipy.sparse.linalg.inv` is the exact inverse over the rationals (the code computes it in float32; rounding is not
modelled) and raises RuntimeError for a singular matrix.  Arrays of two dimensions are lists of columns where the code uses
one block per column; the final `squeeze` (which only drops dimensions of size 1) is not represented.
-/
namespace Verif

/-- ldpc.py:44 `parity_check_matrix[:, -n_cnodes:]`. -/
def sysPart (nc nv : Nat) (rows : List (List Int)) : Matrix (Fin nc) (Fin nc) ℚ :=
  fun i j => (((rows.getD i []).getD (nv - nc + j) 0 : Int) : ℚ)

/-- ldpc.py:45 `parity_check_matrix[:, :-n_cnodes]`. -/
def parPart (nc nv : Nat) (rows : List (List Int)) : Matrix (Fin nc) (Fin (nv - nc)) ℚ :=
  fun i j => (((rows.getD i []).getD j 0 : Int) : ℚ)

/-- ldpc.py:44-48: the generator matrix.  With no check node or more check nodes than variable nodes the "systematic part" is
not square. -/
noncomputable def generatorMatrix (nc nv : Nat) (rows : List (List Int)) : Py (Matrix (Fin nc) (Fin (nv - nc)) ℚ) :=
  if nc = 0 ∨ nv < nc then .error .valueError
  else if (sysPart nc nv rows).det = 0 then .error .runtimeError
  else .ok ((sysPart nc nv rows)⁻¹ * parPart nc nv rows)

/-- ldpc.py:13-48 `build_matrix`: parity check matrix (rows) and generator matrix. -/
noncomputable def buildMatrix (p : LdpcParams) :
    Py (List (List Int) × Matrix (Fin p.nc.toNat) (Fin (p.nv.toNat - p.nc.toNat)) ℚ) := do
  let rows ← buildParity p
  let G ← generatorMatrix p.nc.toNat p.nv.toNat rows
  pure (rows, G)

/-- `x % 2` (ldpc.py:353), then `astype(np.int8)` (ldpc.py:354), which truncates. -/
def parityBit (x : ℚ) : Int := ⌊x - 2 * (⌊x / 2⌋ : Int)⌋

/-- ldpc.py:345-350: padding; `k` is the block length. -/
def padMessage (k : Nat) (msg : List Int) (pad : Bool) : Py (List Int) :=
  if k = 0 then .error .zeroDivisionError
  else if msg.length % k ≠ 0 then
    if pad then .ok (msg ++ List.replicate (k - msg.length % k) 0) else .error .valueError
  else .ok msg

/-- ldpc.py:351 `message_bits.reshape(block_length, -1, order='F')`: the columns. -/
def blocksOf (k : Nat) (msg : List Int) : List (List Int) :=
  (List.range (msg.length / k)).map (fun b => (msg.drop (b * k)).take k)

/-- ldpc.py:344-354 with the generator matrix `G` (from `build_matrix` or supplied by the caller).  One list per block. -/
def encodeWith {r k : Nat} (G : Matrix (Fin r) (Fin k) ℚ) (msg : List Int) (pad : Bool) : Py (List (List Int)) := do
  let msg' ← padMessage k msg pad
  pure ((blocksOf k msg').map (fun m => m ++ (List.finRange r).map (fun i => parityBit (∑ j : Fin k, G i j * ((m.getD j 0 : Int) : ℚ)))))

/-- ldpc.py:302-354 `triang_ldpc_systematic_encode` for parameters without stored matrices. -/
noncomputable def ldpcEncode (p : LdpcParams) (msg : List Int) (pad : Bool) : Py (List (List Int)) := do
  let (_, G) ← buildMatrix p
  encodeWith G msg pad

end Verif
