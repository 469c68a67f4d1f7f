/-
The fragment of Python / numpy semantics used by the models.
Exceptions are values; loops are folds (or fuelled recursions for `while`).
-/
namespace Verif

/-- Python exceptions raised by the modelled code.  `outOfFuel` is not a Python exception: it marks a
`while` loop that did not finish within the number of iterations given to the model. -/
inductive PyErr where
  | valueError
  | indexError
  | typeError
  | zeroDivisionError
  | nameError
  | attributeError
  | assertionError
  | overflowError
  | runtimeError
  | outOfFuel
  deriving DecidableEq, Repr

/-- A Python computation: a value or an exception. -/
abbrev Py (α : Type _) := Except PyErr α

instance {α : Type _} [DecidableEq α] : DecidableEq (Py α) := fun a b =>
  match a, b with
  | .ok x, .ok y => if h : x = y then isTrue (by rw [h]) else isFalse (by intro e; cases e; exact h rfl)
  | .error x, .error y => if h : x = y then isTrue (by rw [h]) else isFalse (by intro e; cases e; exact h rfl)
  | .ok _, .error _ => isFalse (by intro e; cases e)
  | .error _, .ok _ => isFalse (by intro e; cases e)

/-- Python index normalisation: a sequence of length `len` indexed with `i` (negative counts from the end). -/
def pyIdx (len : Nat) (i : Int) : Option Nat :=
  if 0 ≤ i then (if i < (len : Int) then some i.toNat else none)
  else if -(len : Int) ≤ i then some (i + len).toNat else none

/-- `l[i]` with Python index semantics. -/
def pyGet {α : Type _} (l : List α) (i : Int) : Py α :=
  match (pyIdx l.length i).bind (fun j => l[j]?) with
  | some x => .ok x
  | none => .error .indexError

/-- `l[i] = x` with Python index semantics (returns the new sequence). -/
def pySet {α : Type _} (l : List α) (i : Int) (x : α) : Py (List α) :=
  match pyIdx l.length i with
  | some j => .ok (l.set j x)
  | none => .error .indexError

/-- Normalise a slice bound (step 1): negative bounds count from the end, everything is clamped to `[0, len]`. -/
def pyBound (len : Nat) (i : Int) : Nat :=
  if 0 ≤ i then min i.toNat len else (i + len).toNat

/-- `l[a:b]`. -/
def pySlice {α : Type _} (l : List α) (a b : Int) : List α :=
  (l.take (pyBound l.length b)).drop (pyBound l.length a)

/-- Indices `start, start+step, …` below `len`: the positions addressed by `l[start::step]` (step ≥ 1). -/
def strideIdx (len start step : Nat) : List Nat :=
  (List.range ((len - start + step - 1) / step)).map (fun j => start + j * step)

theorem pyIdx_nonneg {len : Nat} {i : Nat} (h : i < len) : pyIdx len (i : Int) = some i := by
  unfold pyIdx; simp [h]

theorem pyGet_ok {α : Type _} {l : List α} {i : Nat} (h : i < l.length) : pyGet l (i : Int) = .ok l[i] := by
  simp [pyGet, pyIdx_nonneg h, h]

theorem pySet_ok {α : Type _} {l : List α} {i : Nat} (x : α) (h : i < l.length) :
    pySet l (i : Int) x = .ok (l.set i x) := by
  simp [pySet, pyIdx_nonneg h]

theorem pyGet_out {α : Type _} {l : List α} {i : Nat} (h : l.length ≤ i) :
    pyGet l (i : Int) = .error .indexError := by
  have : ¬ i < l.length := by omega
  simp [pyGet, pyIdx, this]

theorem pySet_out {α : Type _} {l : List α} {i : Nat} (x : α) (h : l.length ≤ i) :
    pySet l (i : Int) x = .error .indexError := by
  have : ¬ i < l.length := by omega
  simp [pySet, pyIdx, this]

end Verif
