import Verif.Py
/-
Model of /repo/commpy/channelcoding/interleavers.py.
`p` is `self.p_array`; `RandInterlv.__init__` (lines 74-77) sets it to a random permutation of 0..length-1, here an
arbitrary permutation given by the theorems as a hypothesis.
-/
namespace Verif

/-- interleavers.py:27-28 `interlv`: `in_array[self.p_array]` (numpy fancy indexing). -/
def interlv {α : Type} (p : List Nat) (x : List α) : Py (List α) :=
  p.mapM (fun (i : Nat) => pyGet x (i : Int))

/-- interleavers.py:44-47 `deinterlv`: zeros, then `out[p[index]] = in[index]` for each index. -/
def deinterlv {α : Type} (zero : α) (p : List Nat) (x : List α) : Py (List α) :=
  p.zipIdx.foldlM (fun out (e : Nat × Nat) => do
      let v ← pyGet x (e.2 : Int)
      pySet out (e.1 : Int) v)
    (List.replicate x.length zero)

end Verif
