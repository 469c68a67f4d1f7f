import Verif.Props.LdpcAwgn
import Verif.Lemmas.DrawsExist
/-
Concrete cases that meet the hypotheses of C112, C113, C129 and C136: a word of weight 8 of the design gallager/96.33.964.
-/
namespace Verif
open MeasureTheory ProbabilityTheory

variable (nanSign : NanSigns) (oneLeft : Py (List (List Bool × List (Option ℝ))))

/-- A word of weight 8 of the code. -/
def gallager964Word : List Int := (List.range 96).map fun v => if v ∈ [1, 2, 10, 12, 15, 26, 62, 67] then 1 else 0

theorem gallager964Word_ok : gallager964Word.length = 96 ∧ (∀ x ∈ gallager964Word, x = 0 ∨ x = 1) ∧ Syndrome0 (rowsOf 96 gallager964Checks) gallager964Word ∧
    ChecksHold gallager964Checks (fun v => gallager964Word.getD v 0 = 1) := by
  have h1 : gallager964Word.length = 96 := by decide +kernel
  have h2 : ∀ x ∈ gallager964Word, x = 0 ∨ x = 1 := by decide +kernel
  have h3 : Syndrome0 (rowsOf 96 gallager964Checks) gallager964Word := by unfold Syndrome0; decide +kernel
  exact ⟨h1, h2, h3, word_checks gallager964_sorted h1 h2 h3⟩

theorem gallager964_noOne : ∀ ns ∈ gallager964Checks, ns.length ≠ 1 := fun ns hns h => by have := gallager964_rows ns hns; omega

/-- C136: this word twice, at 12 dB with code rate 1/2. -/
example : ∃ q, getLdpc gallager964Text = .ok q ∧ ∃ m x, pskModem 2 = .ok m ∧ modulate m (bitsOf [gallager964Word, gallager964Word].flatten) = .ok x ∧
    normalStreams {ω | ¬ DecodedBpsk (ldpcBpDecode nanSign oneLeft q .msa 5) m x 12 (1 / 2) (1 / 10) ω [gallager964Word, gallager964Word]} ≤
      ENNReal.ofReal ((2 : ℕ) * (1188 * Real.exp (-(1.62 * (1 / 2 * (10 : ℝ) ^ ((12 : ℝ) / 10)))))) := by
  obtain ⟨q, h1, -, h⟩ := C136_gallager964 nanSign oneLeft
  obtain ⟨w1, w2, w3, -⟩ := gallager964Word_ok
  obtain ⟨m, x, g1, g2, g3⟩ := h [gallager964Word, gallager964Word] (by simp) (by intro c hc; simp at hc; subst hc; exact ⟨w1, w2, w3⟩)
    12 (1 / 2) (1 / 10) 5 (by norm_num) (by norm_num) (by norm_num)
  exact ⟨q, h1, m, x, g1, g2, g3 normalStreams_law normalStreams_indep⟩

/-- C129: this word over the two channels. -/
example : ∃ q, getLdpc gallager964Text = .ok q ∧
    uniformStreams {ω | ¬ ReturnsAll (ldpcBpDecode nanSign oneLeft q .msa 96 (becLlrs [gallager964Word].flatten (1 / 100) 1 ω)) [gallager964Word]} ≤
      ENNReal.ofReal ((1 : ℕ) * (3321960 * (1 / 100) ^ 4)) ∧
    uniformStreams {ω | ¬ ReturnsAll (ldpcBpDecode nanSign oneLeft q .msa 96 (bscLlrs [gallager964Word].flatten (1 / 100) 1 ω)) [gallager964Word]} ≤
      ENNReal.ofReal ((1 : ℕ) * (4560 * (1 / 100) ^ 2)) := by
  obtain ⟨q, h1, -, h⟩ := C129_gallager964 nanSign oneLeft
  obtain ⟨w1, w2, w3, -⟩ := gallager964Word_ok
  have g := h [gallager964Word] (by simp) (by intro c hc; simp at hc; subst hc; exact ⟨w1, w2, w3⟩) uniformStreams_law uniformStreams_indep
    (1 / 100) 1 96 (by norm_num) (by norm_num) (by norm_num)
  exact ⟨q, h1, g.1 le_rfl, g.2 (by norm_num)⟩

/-- C129: the lower bound: the ones of a word are a stopping set, so the word is lost with probability at least `p^8`. -/
example : ENNReal.ofReal ((1 / 100) ^ 8) ≤
    uniformStreams {ω | ¬ Returns (bpDecode nanSign oneLeft .msa gallager964Checks 96 96 (becLlrs gallager964Word (1 / 100) 1 ω)) gallager964Word} := by
  obtain ⟨w1, w2, -, w4⟩ := gallager964Word_ok
  have g := (C129_bec_bounds nanSign oneLeft gallager964Checks 96 96 (by norm_num) (sorted_good gallager964_sorted) gallager964_noOne gallager964Word w1 w4 w2 1
    (by norm_num) le_rfl uniformStreams_law uniformStreams_indep (p := 1 / 100) (by norm_num) (by norm_num)).1 {1, 2, 10, 12, 15, 26, 62, 67} (by decide +kernel)
    (by unfold StoppingSet; decide +kernel) ⟨1, by decide, by decide +kernel⟩
  simpa using g

/-- C112: one received value of this word has the wrong sign and is three times (nearly) as large as the others. -/
example : ∃ out arr, bpDecode nanSign oneLeft .msa gallager964Checks 96 1
    ((List.range 96).map fun v => if v = 7 then -2.9 else if gallager964Word.getD v 0 = 1 then -1 else 1) =
      .ok ([((List.range 96).map (fun v => decide (gallager964Word.getD v 0 = 1)), out)], arr) := by
  obtain ⟨w1, w2, -, w4⟩ := gallager964Word_ok
  have hval : ∀ v < 96, ((List.range 96).map fun v => if v = 7 then (-2.9 : ℝ) else if gallager964Word.getD v 0 = 1 then -1 else 1).getD v 0 =
      if v = 7 then (-2.9 : ℝ) else if gallager964Word.getD v 0 = 1 then -1 else 1 := by
    intro v hv
    rw [List.getD_eq_getElem _ _ (by simpa using hv), List.getElem_map, List.getElem_range]
  refine C112_girth nanSign oneLeft gallager964Checks 96 1 _ (by norm_num) (by simp) (sorted_good gallager964_sorted) gallager964_noOne gallager964_girth _ w4 le_rfl
    1 2.9 (by norm_num) (by norm_num) (by norm_num) {7} ?_ ?_ ?_
  · intro v hv h7
    rw [Finset.mem_singleton] at h7
    rw [hval v hv, if_neg h7]
    by_cases h : gallager964Word.getD v 0 = 1
    · simp only [h]; norm_num
    · simp only [h]; norm_num
  · intro v hv
    rw [Finset.mem_singleton] at hv
    subst hv
    rw [hval 7 (by norm_num), if_pos rfl]
    refine (min_le_right _ _).trans ?_
    norm_num [abs_le]
  · intro v hv
    have : (3 : ℝ) ≤ (checksOf gallager964Checks v).length := by exact_mod_cast gallager964_deg v hv
    rw [Finset.card_singleton]
    push_cast
    linarith

end Verif
