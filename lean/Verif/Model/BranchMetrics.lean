import Verif.Model.Viterbi
import Verif.Model.UtilitiesReal
import Mathlib.Analysis.SpecialFunctions.Log.Basic
/-
Model of `_compute_branch_metrics`, /repo/commpy/channelcoding/convcode.py:575-587, and of the dispatch on
`decoding_type` in `viterbi_decode`.  Reals are exact; received blocks and code words have equal lengths (`n`).
-/
namespace Verif

/-- convcode.py:582: negative log-likelihood of having received a 0, for the LLR `r`. -/
noncomputable def negLL0 (r : ℝ) : ℝ := Real.log (Real.exp r + 1)
/-- convcode.py:583: negative log-likelihood of having received a 1. -/
noncomputable def negLL1 (r : ℝ) : ℝ := negLL0 r - r

/-- convcode.py:581-584: the 'soft' metric. -/
noncomputable def softMetric (r : List ℝ) (c : List Nat) : Py ℝ :=
  if r.length = c.length then .ok (List.zipWith (fun x b => if b ≠ 0 then negLL1 x else negLL0 x) r c).sum
  else .error .valueError

/-- convcode.py:585-587: the 'unquantized' metric, `euclid_dist(r_codeword, 2 * i_codeword_array - 1)`. -/
noncomputable def unquantizedMetric (r : List ℝ) (c : List Nat) : Py ℝ :=
  euclidDist r (c.map fun (b : Nat) => 2 * (b : ℝ) - 1)

/-- convcode.py:575-587.  For another `decoding_type` the function returns `None`, and adding it to the path metric
(convcode.py:629) raises TypeError.  The 'hard' branch truncates to integers (`astype(int)`). -/
noncomputable def branchMetric (dtype : String) (r : List ℝ) (c : List Nat) : Py ℝ :=
  if dtype = "hard" then (hammingDistInt (r.map astypeInt) (c.map fun (b : Nat) => (b : Int))).map (fun (d : Int) => (d : ℝ))
  else if dtype = "soft" then softMetric r c
  else if dtype = "unquantized" then unquantizedMetric r c
  else .error .typeError

/-- convcode.py:727-734: the padding value. -/
noncomputable def padValue (dtype : String) : Option ℝ :=
  if dtype = "hard" then some 0 else if dtype = "soft" then some 0 else if dtype = "unquantized" then some (-1) else none

/-- convcode.py:718-719: `coded_bits.clip(-500, 500)`. -/
noncomputable def clip500 (x : ℝ) : ℝ := min (max x (-500)) 500

/-- convcode.py:661-749: `viterbi_decode(coded_bits, trellis, tb_depth, decoding_type)` on real samples.  For
'soft' the decoder works on a clipped copy, so the caller's array is returned as it was. -/
noncomputable def viterbiDecode (dtype : String) (t : Trellis) (jk : VitJunk ℝ) (L tb : Nat) (coded : List ℝ) :
    Py (List Nat × List ℝ) :=
  if dtype = "soft" then
    (viterbi t (branchMetric dtype) (padValue dtype) false jk L tb (coded.map clip500)).map fun res => (res.1, coded)
  else viterbi t (branchMetric dtype) (padValue dtype) true jk L tb coded

end Verif
