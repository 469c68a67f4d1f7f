import Verif.Model.BranchMetrics
/-
`viterbi_decode` in double precision, /repo/commpy/channelcoding/convcode.py:575-749.  Same code as `Model/Viterbi` (the function
`viterbi` itself, on another type of metrics); what changes is the arithmetic of the metrics.  `fl` is the rounding of the result of an
operation, `sum` is numpy's `.sum()` of an array of doubles, `ll0` is the computed `np.log(np.exp(r) + 1)`: nothing is assumed about
them in this file.  Overflow and nan are not modelled.
-/
namespace Verif

/-- The elementary functions on doubles used by the metrics. -/
structure VitFloats where
  fl : ℝ → ℝ
  sum : List ℝ → ℝ
  ll0 : ℝ → ℝ

/-- A finite double used as a metric. -/
structure Dbl (fl : ℝ → ℝ) where
  val : ℝ

theorem Dbl.val_injective (fl : ℝ → ℝ) : Function.Injective (Dbl.val (fl := fl)) := fun a b h => by cases a; cases b; cases h; rfl

noncomputable instance (fl : ℝ → ℝ) : LinearOrder (Dbl fl) := LinearOrder.lift' Dbl.val (Dbl.val_injective fl)
instance (fl : ℝ → ℝ) : Zero (Dbl fl) := ⟨⟨0⟩⟩
/-- convcode.py:629: the addition of a path metric and a branch metric is rounded. -/
noncomputable instance (fl : ℝ → ℝ) : Add (Dbl fl) := ⟨fun a b => ⟨fl (a.val + b.val)⟩⟩

variable (D : VitFloats)

/-- convcode.py:581-584: the 'soft' metric, `np.where(i_codeword_array, neg_LL_1, neg_LL_0).sum()` with `neg_LL_1 = neg_LL_0 - r`. -/
noncomputable def softMetricF (r : List ℝ) (c : List Nat) : Py (Dbl D.fl) :=
  if r.length = c.length then .ok ⟨D.sum (List.zipWith (fun x b => if b ≠ 0 then D.fl (D.ll0 x - x) else D.ll0 x) r c)⟩
  else .error .valueError

/-- convcode.py:585-587 and utilities.py:153: the 'unquantized' metric, `((a - b) * (a - b)).sum()` with `b = 2 * i_codeword_array - 1`
(an array of small integers, exact). -/
noncomputable def unquantizedMetricF (r : List ℝ) (c : List Nat) : Py (Dbl D.fl) := do
  let d ← broadcast2 (fun x y => D.fl (D.fl (x - y) * D.fl (x - y))) r (c.map fun (b : Nat) => 2 * (b : ℝ) - 1)
  pure ⟨D.sum d⟩

/-- convcode.py:575-587.  The 'hard' metric is an integer, converted to a double by the addition at line 629. -/
noncomputable def branchMetricF (dtype : String) (r : List ℝ) (c : List Nat) : Py (Dbl D.fl) :=
  if dtype = "hard" then (hammingDistInt (r.map astypeInt) (c.map fun (b : Nat) => (b : Int))).map (fun (d : Int) => ⟨D.fl (d : ℝ)⟩)
  else if dtype = "soft" then softMetricF D r c
  else if dtype = "unquantized" then unquantizedMetricF D r c
  else .error .typeError

/-- convcode.py:661-749: `viterbi_decode(coded_bits, trellis, tb_depth, decoding_type)` on doubles. -/
noncomputable def viterbiDecodeF (dtype : String) (t : Trellis) (jk : VitJunk (Dbl D.fl)) (L tb : Nat) (coded : List ℝ) :
    Py (List Nat × List ℝ) :=
  if dtype = "soft" then
    (viterbi t (branchMetricF D dtype) (padValue dtype) false jk L tb (coded.map clip500)).map fun res => (res.1, coded)
  else viterbi t (branchMetricF D dtype) (padValue dtype) true jk L tb coded

end Verif
