import Verif.Py
import Mathlib.Analysis.SpecialFunctions.Complex.Circle
/-
Model of /repo/commpy/impairments.py.
-/
namespace Verif

/-- impairments.py:20-42 `add_frequency_offset`: `waveform * exp(1j*2*pi*(delta_f/Fs)*arange(len(waveform)))`;
`delta_f/Fs` raises ZeroDivisionError when `Fs = 0`. -/
noncomputable def addFrequencyOffset (waveform : List ℂ) (Fs deltaF : ℝ) : Py (List ℂ) :=
  if Fs = 0 then .error .zeroDivisionError
  else .ok (waveform.zipIdx.map (fun (p : ℂ × Nat) =>
    p.1 * Complex.exp (Complex.I * 2 * Real.pi * ((deltaF : ℂ) / (Fs : ℂ)) * (p.2 : ℂ))))

end Verif
