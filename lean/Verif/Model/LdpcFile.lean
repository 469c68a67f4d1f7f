import Verif.Py
import Verif.Model.Links
/-
Model of the design-file part of /repo/commpy/channelcoding/ldpc.py: `write_ldpc_params`, `get_ldpc_code_params` and the
parity check matrix built by `build_matrix`.

Text is a list of characters, with the fragment of Python's string functions that is used.  A file is its content; opening,
closing, an existing file (mode 'x') and what is left on disk after an exception are not modelled.  int32 overflow of the
stored indices is not modelled.
-/
namespace Verif

/-- Decimal representation of a natural number (`'{}'.format(n)`). -/
def natStr (n : Nat) : List Char :=
  if _h : n < 10 then [Char.ofNat (48 + n)] else natStr (n / 10) ++ [Char.ofNat (48 + n % 10)]

/-- `file.readline()`: the line with its end-of-line character, and the rest. -/
def pyReadline : List Char → List Char × List Char
  | [] => ([], [])
  | c :: cs => if c = '\n' then ([c], cs) else (c :: (pyReadline cs).1, (pyReadline cs).2)

/-- `s.split(sep)` for a one-character separator. -/
def pySplit (sep : Char) : List Char → List (List Char)
  | [] => [[]]
  | c :: cs =>
    if c = sep then [] :: pySplit sep cs
    else match pySplit sep cs with
      | [] => [[c]]
      | p :: ps => (c :: p) :: ps

/-- ASCII white space. -/
def isWs (c : Char) : Bool := c = ' ' || c = '\n' || c = '\t' || c = '\r' || c = Char.ofNat 11 || c = Char.ofNat 12

/-- `s.strip()`. -/
def pyStrip (s : List Char) : List Char := ((s.dropWhile isWs).reverse.dropWhile isWs).reverse

/-- A digit. -/
def isDig (c : Char) : Bool := 48 ≤ c.toNat && c.toNat ≤ 57

/-- Value of a string of digits. -/
def digitsVal (s : List Char) : Nat := s.foldl (fun a c => 10 * a + (c.toNat - 48)) 0

/-- Unsigned part of `int(s)`. -/
def pyNat (s : List Char) : Py Nat := if s ≠ [] ∧ s.all isDig = true then .ok (digitsVal s) else .error .valueError

/-- `int(s)` on ASCII strings (underscores between digits are not modelled). -/
def pyInt (s : List Char) : Py Int :=
  match pyStrip s with
  | '-' :: r => do let n ← pyNat r; pure (-(n : Int))
  | '+' :: r => do let n ← pyNat r; pure (n : Int)
  | r => do let n ← pyNat r; pure (n : Int)

/-- A 0/1 matrix as the list of its rows: number of rows = length, `nv` columns. -/
def colOf (rows : List (List Nat)) (j : Nat) : List Nat := rows.map (fun r => r.getD j 0)

/-- `line.nonzero()[0]`. -/
def nonzeroIdx (l : List Nat) : List Nat := (List.range l.length).filter (fun i => l.getD i 0 ≠ 0)

/-- ldpc.py:289-292 and 295-298: the line of one node. -/
def nodesLine (nodes : List Nat) : Py (List Char) :=
  match nodes.getLast? with
  | none => .error .indexError
  | some last => .ok ((nodes.dropLast.flatMap (fun x => natStr (x + 1) ++ ['\t'])) ++ natStr (last + 1) ++ ['\n'])

/-- `a.max()`. -/
def npMax (l : List Nat) : Py Nat := if l = [] then .error .valueError else .ok (l.foldl max 0)

/-- ldpc.py:257-299 `write_ldpc_params`: the content written. -/
def writeLdpc (nv : Nat) (rows : List (List Nat)) : Py (List Char) := do
  let vdeg := (List.range nv).map (fun j => (colOf rows j).sum)
  let cdeg := rows.map List.sum
  let head := natStr nv ++ [' '] ++ natStr rows.length ++ ['\n']
  let mv ← npMax vdeg
  let mc ← npMax cdeg
  let maxes := natStr mv ++ [' '] ++ natStr mc ++ ['\n']
  let degs (l : List Nat) := l.flatMap (fun d => natStr d ++ [' ']) ++ ['\n']
  let vlines ← ((List.range nv).mapM (fun j => nodesLine (nonzeroIdx (colOf rows j))) : Py _)
  let clines ← (rows.mapM (fun r => nodesLine (nonzeroIdx r)) : Py _)
  pure (head ++ maxes ++ degs vdeg ++ degs cdeg ++ vlines.flatten ++ clines.flatten ++ ['\n'])

/-- The dictionary returned by `get_ldpc_code_params` (ldpc.py:127-141); the adjacency lists and maps are kept as
two-dimensional arrays, before `flatten` (ldpc.py:120-123). -/
structure LdpcParams where
  nv : Int
  nc : Int
  maxV : Int
  maxC : Int
  vdeg : List Int
  cdeg : List Int
  vadj : List (List Int)
  cadj : List (List Int)
  vcmap : List (List Int)
  cvmap : List (List Int)
  deriving DecidableEq

/-- `[a, b] = [int(x) for x in line.split(' ')]` (ldpc.py:93-94). -/
def readPair (line : List Char) : Py (Int × Int) := do
  let xs ← ((pySplit ' ' line).mapM pyInt : Py _)
  match xs with
  | [a, b] => pure (a, b)
  | _ => .error .valueError

/-- ldpc.py:95-96: `[int(x) for x in line.split(' ')[:-1]]`. -/
def readDegs (line : List Char) : Py (List Int) := (pySplit ' ' line).dropLast.mapM pyInt

/-- ldpc.py:101-107: `adj[idx, 0:deg[idx]] = [int(x)-1 for x in line.split('\t')]` for `n` lines, from line number `i`. -/
def readRows (degs : List Int) (maxDeg : Nat) : Nat → Nat → List Char → Py (List (List Int) × List Char)
  | 0, _, t => .ok ([], t)
  | n + 1, i, t => do
    let xs ← ((pySplit '\t' (pyReadline t).1).mapM pyInt : Py _)
    let deg ← pyGet degs (i : Int)
    let row ← npSliceAssign (List.replicate maxDeg (-1)) 0 (pyBound maxDeg deg) (xs.map (· - 1))
    let (rows, t') ← readRows degs maxDeg n (i + 1) (pyReadline t).2
    pure (row :: rows, t')

/-- ldpc.py:114 and 118: `np.where(adj[node, :] == target)[0]`, assigned to one array entry (exactly one match needed). -/
def mapEntry (adj : List (List Int)) (target : Nat) (node : Int) : Py Int := do
  let row ← pyGet adj node
  match (List.range row.length).filter (fun j => row.getD j 0 = (target : Int)) with
  | [p] => pure (p : Int)
  | _ => .error .valueError

/-- ldpc.py:112-114 and 116-118: the edge map of all nodes. -/
def edgeMap (n : Nat) (degs : List Int) (maxDeg : Nat) (adj other : List (List Int)) : Py (List (List Int)) :=
  (List.range n).mapM (fun (c : Nat) => do
    let arow ← pyGet adj (c : Int)
    let deg ← pyGet degs (c : Int)
    let es ← ((pySlice arow 0 deg).mapM (mapEntry other c) : Py _)
    pure (es ++ List.replicate (maxDeg - es.length) (-1)))

/-- ldpc.py:91-141 `get_ldpc_code_params` (without `compute_matrix`). -/
def getLdpc (txt : List Char) : Py LdpcParams := do
  let (l1, t1) := pyReadline txt
  let (nv, nc) ← readPair l1
  let (l2, t2) := pyReadline t1
  let (maxV, maxC) ← readPair l2
  let (l3, t3) := pyReadline t2
  let vdeg ← readDegs l3
  let (l4, t4) := pyReadline t3
  let cdeg ← readDegs l4
  if nv < 0 ∨ nc < 0 ∨ maxV < 0 ∨ maxC < 0 then .error .valueError else
  let (vadj, t5) ← readRows vdeg maxV.toNat nv.toNat 0 t4
  let (cadj, _) ← readRows cdeg maxC.toNat nc.toNat 0 t5
  let cvmap ← edgeMap nc.toNat cdeg maxC.toNat cadj vadj
  let vcmap ← edgeMap nv.toNat vdeg maxV.toNat vadj cadj
  pure { nv := nv, nc := nc, maxV := maxV, maxC := maxC, vdeg := vdeg, cdeg := cdeg, vadj := vadj, cadj := cadj
         vcmap := vcmap, cvmap := cvmap }

/-- ldpc.py:35-41: the parity check matrix, as its list of rows: for every check node, ones at the first `deg` entries of its
adjacency list. -/
def buildParity (p : LdpcParams) : Py (List (List Int)) :=
  (List.range p.nc.toNat).mapM (fun (c : Nat) => do
    let arow ← pyGet p.cadj (c : Int)
    let deg ← pyGet p.cdeg (c : Int)
    (pySlice arow 0 deg).foldlM (fun row v => pySet row v 1) (List.replicate p.nv.toNat (0 : Int)))

end Verif
