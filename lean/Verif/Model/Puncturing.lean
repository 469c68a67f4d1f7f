import Verif.Py
/-
Model of `puncturing` and `depuncturing`, /repo/commpy/channelcoding/convcode.py:752-804.
-/
namespace Verif

/-- Loop body of convcode.py:769-773. State: (shift, punctured so far). -/
def puncturingStep {α : Type} (v : List Nat) (st : Nat × List α) (e : α × Nat) : Py (Nat × List α) := do
  let b ← pyGet v ((e.2 : Int) - (st.1 : Int) * (v.length : Int))
  let out := if b = 1 then st.2 ++ [e.1] else st.2
  -- `idx % N` (N = 0 is impossible here: the indexing above has raised)
  pure (if e.2 % v.length = 0 then (st.1 + 1, out) else (st.1, out))

/-- convcode.py:752-774 `puncturing`. -/
def puncturing {α : Type} (message : List α) (v : List Nat) : Py (List α) := do
  let r ← message.zipIdx.foldlM (puncturingStep v) (0, [])
  pure r.2

/-- Loop body of convcode.py:797-803. State: (shift, shift2, depunctured). -/
def depuncturingStep {α : Type} (punctured : List α) (v : List Nat) (st : Nat × Nat × List α) (idx : Nat) :
    Py (Nat × Nat × List α) := do
  let b ← pyGet v ((idx : Int) - (st.1 : Int) * (v.length : Int))
  if b = 1 then
    let item ← pyGet punctured ((idx : Int) - (st.2.1 : Int))
    let d ← pySet st.2.2 (idx : Int) item
    pure (if idx % v.length = 0 then (st.1 + 1, st.2.1, d) else (st.1, st.2.1, d))
  else
    pure (if idx % v.length = 0 then (st.1 + 1, st.2.1 + 1, st.2.2) else (st.1, st.2.1 + 1, st.2.2))

/-- convcode.py:777-804 `depuncturing` (`float(…)` conversion is the identity on values). -/
def depuncturing {α : Type} (zero : α) (punctured : List α) (v : List Nat) (shouldbe : Nat) : Py (List α) := do
  let r ← (List.range shouldbe).foldlM (depuncturingStep punctured v) (0, 0, List.replicate shouldbe zero)
  pure r.2.2

end Verif
