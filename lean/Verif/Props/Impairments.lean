import Verif.Model.Impairments
import Mathlib.Tactic.Ring
import Mathlib.Tactic.FieldSimp
/-
Property theorem for commpy/impairments.py: C17.
-/
namespace Verif

theorem addFrequencyOffset_ok (w : List ℂ) (Fs d : ℝ) (h : Fs ≠ 0) :
    addFrequencyOffset w Fs d = .ok (w.zipIdx.map (fun (p : ℂ × Nat) =>
      p.1 * Complex.exp (Complex.I * 2 * Real.pi * ((d : ℂ) / (Fs : ℂ)) * (p.2 : ℂ)))) := by
  simp [addFrequencyOffset, h]

/-- C17. Length and magnitudes preserved, sample `i` rotated by the phase 2π·(Δf/Fs)·i, offsets compose additively, the
opposite offset restores the input; `Fs = 0` raises. -/
theorem C17_frequency_offset (w : List ℂ) (Fs d e : ℝ) (h : Fs ≠ 0) :
    ∃ y, addFrequencyOffset w Fs d = .ok y ∧ y.length = w.length ∧
      (∀ i (h1 : i < w.length), y[i]? = some (w[i] * Complex.exp (((2 * Real.pi * d / Fs * i : ℝ) : ℂ) * Complex.I))) ∧
      (∀ i : Nat, (y[i]?).map (‖·‖) = (w[i]?).map (‖·‖)) ∧
      addFrequencyOffset y Fs e = addFrequencyOffset w Fs (d + e) ∧
      addFrequencyOffset y Fs (-d) = .ok w ∧
      addFrequencyOffset w 0 d = .error .zeroDivisionError := by
  refine ⟨_, addFrequencyOffset_ok w Fs d h, by simp, ?_, ?_, ?_, ?_, by simp [addFrequencyOffset]⟩
  · intro i h1
    have : Complex.I * 2 * Real.pi * ((d : ℂ) / (Fs : ℂ)) * (i : ℂ) = (((2 * Real.pi * d / Fs * i : ℝ) : ℂ) * Complex.I) := by
      push_cast; ring
    simp [h1, this]
  · intro i
    by_cases h1 : i < w.length
    · have : Complex.I * 2 * Real.pi * ((d : ℂ) / (Fs : ℂ)) * (i : ℂ) = (((2 * Real.pi * d / Fs * i : ℝ) : ℂ) * Complex.I) := by
        push_cast; ring
      simp only [List.getElem?_map, List.getElem?_zipIdx, List.getElem?_eq_getElem h1, Option.map_some, Nat.zero_add, this,
        norm_mul, Complex.norm_exp_ofReal_mul_I, mul_one]
    · simp [List.getElem?_eq_none (Nat.le_of_not_lt h1)]
  · rw [addFrequencyOffset_ok _ _ _ h, addFrequencyOffset_ok _ _ _ h]
    congr 1
    apply List.ext_getElem (by simp)
    intro i h1 h2
    simp only [List.getElem_map, List.getElem_zipIdx, Nat.zero_add]
    rw [mul_assoc, ← Complex.exp_add]
    congr 2
    push_cast
    ring
  · rw [addFrequencyOffset_ok _ _ _ h]
    congr 1
    apply List.ext_getElem (by simp)
    intro i h1 h2
    simp only [List.getElem_map, List.getElem_zipIdx, Nat.zero_add]
    rw [mul_assoc, ← Complex.exp_add]
    have : Complex.I * 2 * Real.pi * ((d : ℂ) / (Fs : ℂ)) * (i : ℂ) + Complex.I * 2 * Real.pi * (((-d : ℝ) : ℂ) / (Fs : ℂ)) * (i : ℂ) = 0 := by
      push_cast; ring
    rw [this, Complex.exp_zero, mul_one]

example : (8000 : ℝ) ≠ 0 := by norm_num

end Verif
