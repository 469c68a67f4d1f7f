import Verif.Model.LdpcCode
/-
`build_matrix` and `triang_ldpc_systematic_encode` of /repo/commpy/channelcoding/ldpc.py with the arithmetic of the code: scipy computes the inverse of the int8 matrix and
its product with the parity part in float32.  `inv` is the inversion (SuperLU in single precision), `fl` the rounding of one addition or multiplication.
-/
namespace Verif

/-- ldpc.py:48 `inv(systematic_part).dot(parity_part)`: a product of matrices in single precision, terms added in the order of the columns. -/
def matmulF32 (fl : ℚ → ℚ) {r n k : Nat} (X : Matrix (Fin r) (Fin n) ℚ) (P : Matrix (Fin n) (Fin k) ℚ) : Matrix (Fin r) (Fin k) ℚ :=
  fun i j => (List.finRange n).foldl (fun acc l => fl (acc + fl (X i l * P l j))) 0

/-- ldpc.py:44-48: the generator matrix, in single precision. -/
noncomputable def generatorMatrixF32 (inv : ∀ n, Matrix (Fin n) (Fin n) ℚ → Matrix (Fin n) (Fin n) ℚ) (fl : ℚ → ℚ) (nc nv : Nat) (rows : List (List Int)) :
    Py (Matrix (Fin nc) (Fin (nv - nc)) ℚ) :=
  if nc = 0 ∨ nv < nc then .error .valueError
  else if (sysPart nc nv rows).det = 0 then .error .runtimeError
  else .ok (matmulF32 fl (inv nc (sysPart nc nv rows)) (parPart nc nv rows))

/-- ldpc.py:302-354 `triang_ldpc_systematic_encode` for parameters without stored matrices, with the generator matrix in single precision (line 353 multiplies it with
the integer message in double precision: exact for the sums of 24-bit numbers considered here). -/
noncomputable def ldpcEncodeF32 (inv : ∀ n, Matrix (Fin n) (Fin n) ℚ → Matrix (Fin n) (Fin n) ℚ) (fl : ℚ → ℚ) (p : LdpcParams) (msg : List Int) (pad : Bool) :
    Py (List (List Int)) := do
  let rows ← buildParity p
  let G ← generatorMatrixF32 inv fl p.nc.toNat p.nv.toNat rows
  encodeWith G msg pad

end Verif
