import Verif.Props.ViterbiCorrect
import Mathlib.Data.List.OfFn
import Mathlib.Data.Fintype.Pi
/-
The error events of a convolutional code, and the union bound on the error probability of a trellis decoder.
-/
namespace Verif

/-- All sequences of `ℓ` input groups. -/
def allInputs (t : Trellis) (ℓ : Nat) : Finset (List Nat) :=
  (Finset.univ : Finset (Fin ℓ → Fin (2 ^ t.k))).image fun f => List.ofFn fun i => (f i : Nat)

/-- The error events of `ℓ` steps: the input sequences that leave state 0 at once and are not back in it before the end. -/
noncomputable def errorEvents (t : Trellis) (ℓ : Nat) : Finset (List Nat) :=
  open Classical in (allInputs t ℓ).filter (Leaves t ℓ)

/-- Number of ones in the code sequence of the input sequence `v`. -/
def codeWeight (t : Trellis) (v : List Nat) : Nat := (t.runOut 0 v).sum

/-- The union bound for the first `K` groups of a block that the decoder processes in `T` steps with traceback depth `tb`: `q d` (a bound on the probability that a code
sequence at distance `d` is preferred) summed over all error events that start in the first `K` steps and end by returning to state 0, by outlasting the
traceback window, or with the trellis. -/
noncomputable def unionBound (t : Trellis) (q : Nat → ℝ) (T tb K : Nat) : ℝ :=
  open Classical in ∑ a ∈ Finset.range K, ∑ ℓ ∈ Finset.range (T - a + 1),
    ∑ v ∈ (errorEvents t ℓ).filter (fun v => t.runState 0 v = 0 ∨ tb ≤ ℓ + 1 ∨ a + ℓ = T), q (codeWeight t v)

/-- The union bound for one message bit, bit `β` of group `i`: the error events that start at or before group `i`, end after it, and change the bit. -/
noncomputable def bitBound (t : Trellis) (q : Nat → ℝ) (T tb i β : Nat) : ℝ :=
  open Classical in ∑ a ∈ Finset.range (i + 1), ∑ ℓ ∈ Finset.range (T - a + 1),
    ∑ v ∈ (errorEvents t ℓ).filter (fun v => i < a + ℓ ∧ (toBits t.k (v.getD (i - a) 0)).getD β 0 = 1 ∧
      (t.runState 0 v = 0 ∨ a + ℓ + 1 = i + tb ∨ a + ℓ = T)), q (codeWeight t v)

/-- Number of ones of the code sequence of the input sequence `v`, starting at step `a`, at places that are transmitted. -/
def keptWeight (t : Trellis) (keep : Nat → Bool) (a : Nat) (v : List Nat) : Nat :=
  ((Finset.range (t.runOut 0 v).length).filter fun j => (t.runOut 0 v).getD j 0 = 1 ∧ keep (a * t.n + j) = true).card

/-- `unionBound` for a punctured code: only the transmitted places of the events count. -/
noncomputable def puncturedUnionBound (t : Trellis) (keep : Nat → Bool) (q : Nat → ℝ) (T tb K : Nat) : ℝ :=
  open Classical in ∑ a ∈ Finset.range K, ∑ ℓ ∈ Finset.range (T - a + 1),
    ∑ v ∈ (errorEvents t ℓ).filter (fun v => t.runState 0 v = 0 ∨ tb ≤ ℓ + 1 ∨ a + ℓ = T), q (keptWeight t keep a v)

/-- `bitBound` for a punctured code. -/
noncomputable def puncturedBitBound (t : Trellis) (keep : Nat → Bool) (q : Nat → ℝ) (T tb i β : Nat) : ℝ :=
  open Classical in ∑ a ∈ Finset.range (i + 1), ∑ ℓ ∈ Finset.range (T - a + 1),
    ∑ v ∈ (errorEvents t ℓ).filter (fun v => i < a + ℓ ∧ (toBits t.k (v.getD (i - a) 0)).getD β 0 = 1 ∧
      (t.runState 0 v = 0 ∨ a + ℓ + 1 = i + tb ∨ a + ℓ = T)), q (keptWeight t keep a v)

/-- Soft values of the code bits `c`: at the transmitted places the bit as `±1` in noise of standard deviation `|σ|`, scaled by `lam`; 0 elsewhere. -/
noncomputable def softValues (c : List Nat) (keep : Nat → Bool) (lam σ : ℝ) (y : ℕ → ℝ) : List ℝ :=
  (List.range c.length).map fun p => if keep p then lam * (2 * (c.getD p 0 : ℝ) - 1 + σ * y p) else 0

theorem mem_allInputs {t : Trellis} {ℓ : Nat} {v : List Nat} : v ∈ allInputs t ℓ ↔ IsInput t ℓ v := by
  unfold allInputs IsInput
  simp only [Finset.mem_image, Finset.mem_univ, true_and]
  constructor
  · rintro ⟨f, rfl⟩
    refine ⟨List.length_ofFn, ?_⟩
    intro u hu
    rw [List.mem_ofFn] at hu
    obtain ⟨i, rfl⟩ := hu
    exact (f i).2
  · rintro ⟨rfl, h⟩
    refine ⟨fun i => ⟨v[i], h _ (List.getElem_mem _)⟩, ?_⟩
    exact List.ofFn_getElem

theorem mem_errorEvents {t : Trellis} {ℓ : Nat} {v : List Nat} : v ∈ errorEvents t ℓ ↔ Leaves t ℓ v := by
  classical
  unfold errorEvents
  rw [Finset.mem_filter, mem_allInputs]
  exact ⟨fun h => h.2, fun h => ⟨h.input, h⟩⟩

end Verif
