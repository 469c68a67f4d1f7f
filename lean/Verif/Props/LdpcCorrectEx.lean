import Verif.Lemmas.GirthCheck
/-
Concrete cases of the theorems C112 and C113.
-/
namespace Verif

variable (nanSign : NanSigns) (oneLeft : Py (List (List Bool × List (Option ℝ))))

/-- The code whose bits are the edges of the complete graph on 4 vertices and whose checks are the vertices: no cycle of length 4, every bit in two
checks. -/
def k4Checks : Checks := [[0, 1, 2], [0, 3, 4], [1, 3, 5], [2, 4, 5]]

theorem k4_good : GoodChecks k4Checks 6 := sorted_good (by decide)
theorem k4_girth : NoFourCycle k4Checks := noFourCycle_of_masks (by decide +kernel)
/-- The triangle 0, 1, 3 is a word of the code. -/
theorem k4_word : ChecksHold k4Checks (fun v => decide (v = 0 ∨ v = 1 ∨ v = 3)) := by unfold ChecksHold; decide

/-- One wrong sign (bit 4) is corrected: `C112_errors` applies. -/
example : ∃ out arr, bpDecode nanSign oneLeft .msa k4Checks 6 3 [-2, -2, 2, -2, -2, 2] = .ok ([([true, true, false, true, false, false], out)], arr) := by
  have := C112_errors nanSign oneLeft k4Checks 6 3 1 [-2, -2, 2, -2, -2, 2] (by norm_num) rfl k4_good (by decide) k4_girth (by decide)
    (fun v => decide (v = 0 ∨ v = 1 ∨ v = 3)) k4_word (by norm_num) 2 (by norm_num) (by
      intro x hx
      simp only [List.mem_cons, List.not_mem_nil, or_false] at hx
      rcases hx with rfl | rfl | rfl | rfl | rfl | rfl <;> norm_num) (by
      have e : (List.range 6).filter (fun v => decide (([-2, -2, 2, -2, -2, 2] : List ℝ).getD v 0 < 0) ≠ decide (v = 0 ∨ v = 1 ∨ v = 3)) = [4] := by
        norm_num [List.range, List.range.loop]
      rw [e]; rfl)
  exact this

/-- Two erased positions are recovered: `C113_erasures` applies. -/
example : ∃ out arr, bpDecode nanSign oneLeft .msa k4Checks 6 2 [0, 0, 3, -2, 4, 1] = .ok ([([true, true, false, true, false, false], out)], arr) := by
  refine C113_erasures nanSign oneLeft k4Checks 6 2 [0, 0, 3, -2, 4, 1] (by norm_num) rfl k4_good (by decide)
    (fun v => decide (v = 0 ∨ v = 1 ∨ v = 3)) k4_word {0, 1} (by simp) ?_ ?_ ?_
  · intro v hv hE
    interval_cases v <;> simp_all
  · intro v hv
    fin_cases hv <;> simp
  · intro S hS hne h
    have h0 : 0 ∉ S := fun h0 => by
      have := h [0, 3, 4] (by decide)
      have h3 : 3 ∉ S := fun h3 => by have := hS h3; simp at this
      have h4 : 4 ∉ S := fun h4 => by have := hS h4; simp at this
      simp [h0, h3, h4] at this
    have h1 : 1 ∉ S := fun h1 => by
      have := h [1, 3, 5] (by decide)
      have h3 : 3 ∉ S := fun h3 => by have := hS h3; simp at this
      have h5 : 5 ∉ S := fun h5 => by have := hS h5; simp at this
      simp [h1, h3, h5] at this
    obtain ⟨v, hv⟩ := hne
    have := hS hv
    simp only [Finset.mem_insert, Finset.mem_singleton] at this
    rcases this with rfl | rfl
    · exact h0 hv
    · exact h1 hv

/-- The three erased positions of a word (a stopping set) stay undecided: `C113_stopping` applies. -/
example (n : Nat) : ∃ dec out arr, bpDecode nanSign oneLeft .msa k4Checks 6 n [0, 0, 3, 0, 4, 1] = .ok ([(dec, out)], arr) ∧
    ∀ v ∈ ({0, 1, 3} : Finset Nat), v < 6 → dec[v]? = some false ∧ out[v]? = some (some 0) := by
  refine C113_stopping nanSign oneLeft k4Checks 6 n [0, 0, 3, 0, 4, 1] (by norm_num) rfl k4_good (by decide) {0, 1, 3} (by unfold StoppingSet; decide) ?_
  intro v hv
  fin_cases hv <;> simp

/-- One unreliable position in each of two blocks: `C112_single` applies (the word above, then the zero word; the positions 4 and 0 are wrong). -/
example : ∃ out arr, bpDecode nanSign oneLeft .msa k4Checks 6 1 [-2, -2, 2, -2, -3, 2, -1, 2, 3, 4, 5, 6] = .ok (out, arr) ∧
    out.map Prod.fst = [[true, true, false, true, false, false], [false, false, false, false, false, false]] := by
  obtain ⟨out, arr, h1, h2⟩ := C112_single nanSign oneLeft k4Checks 6 1 2 [-2, -2, 2, -2, -3, 2, -1, 2, 3, 4, 5, 6] (by norm_num) rfl (by simp) k4_good (by decide)
    (singleOk_of_girth (d := 2) (ρ := 3 / 2) k4_girth (by decide) (by norm_num) (by norm_num)) le_rfl 2 (by norm_num) (by norm_num)
    (fun b v => decide (b = 0 ∧ (v = 0 ∨ v = 1 ∨ v = 3))) (by
      intro b hb
      interval_cases b <;> unfold ChecksHold <;> decide) (by
      intro b hb
      interval_cases b
      · refine ⟨4, fun v hv => ?_⟩
        interval_cases v <;> norm_num
      · refine ⟨0, fun v hv => ?_⟩
        interval_cases v <;> norm_num)
  exact ⟨out, arr, h1, by rw [h2]; decide⟩

end Verif
