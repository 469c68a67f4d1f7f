import Verif.Model.Modulation
/-
Model of `Modem.plot_constellation` (/repo/commpy/modulation.py:143-152) as the objects handed to matplotlib.
-/
namespace Verif

/-- What `plot_constellation` hands to matplotlib: the scattered points and the texts with their positions.  Title and grid are constants. -/
structure ConstellationPlot where
  points : List (ℝ × ℝ)
  texts : List ((ℝ × ℝ) × List Nat)

/-- modulation.py:143-152.  `self.demodulate(symb, 'hard')` gets a scalar: `symb - constellation[:, None]` has shape `(m, 1)`, so `argmin(0)`
is an array with one index, and the text is the bit array of that index. -/
noncomputable def plotConstellation (s : Modem) : Py ConstellationPlot := do
  let texts ← s.constellation.mapM fun z => do
    let bits ← demodHard s [z]
    pure ((z.re + 0.2, z.im), bits)
  pure ⟨s.constellation.map fun z => (z.re, z.im), texts⟩

end Verif
