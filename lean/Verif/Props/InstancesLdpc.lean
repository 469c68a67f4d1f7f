import Verif.Props.LdpcCorrectEx
import Verif.Props.LdpcFilePad
import Verif.Props.LdpcCode
import Verif.Props.LdpcTree
/-
Concrete cases meeting the hypotheses of the LDPC theorems that have no instance next to them.
-/
namespace Verif

variable (nanSign : Nat → Nat → Nat → Bool) (oneLeft : Py (List (List Bool × List (Option ℝ))))

/-- C55: the maps of a file that is read. -/
example : ∃ txt p, writeLdpc 3 [[1, 1, 0], [0, 1, 1]] = .ok txt ∧ getLdpc txt = .ok p ∧ MapsBack p.nc p.cdeg p.cadj p.vadj p.cvmap ∧
    PaddedTable p.nv p.maxV p.vdeg p.vadj := by
  obtain ⟨txt, p, h1, h2, -⟩ := C54_roundtrip 3 [[1, 1, 0], [0, 1, 1]] (by simp) (by decide) (by decide) (by decide) (by decide)
  exact ⟨txt, p, h1, h2, (C55_maps txt p h2).1, (C55_padding txt p h2).2.1⟩

/-- C57: messages of length 3 with the (3,1) repetition code give three blocks. -/
example : ∃ txt p, writeLdpc 3 [[1, 1, 0], [0, 1, 1]] = .ok txt ∧ getLdpc txt = .ok p ∧
    ∃ blocks z, ldpcEncode p [1, 0, 1] false = .ok blocks ∧ z < 1 ∧ (∀ b ∈ blocks, b.length = 3) ∧
      (blocks.map (List.take 1)).flatten = [1, 0, 1] ++ List.replicate z 0 := by
  obtain ⟨txt, p, h1, h2, h3, h4, -, -, h5⟩ := C54_roundtrip 3 [[1, 1, 0], [0, 1, 1]] (by simp) (by decide) (by decide) (by decide) (by decide)
  have e1 : p.nc = 2 := h4
  have e2 : p.nv = 3 := h3
  have h := (C57_encode p _ h5 (by omega) (by omega) (by rw [e1, e2]; decide) [1, 0, 1] false).2 (Or.inr (by rw [e1, e2]; decide))
  rw [e1, e2] at h
  exact ⟨txt, p, h1, h2, h⟩

/-- C58: a code word with different reliabilities is kept, and stays the result with more iterations. -/
example (n : Nat) (alg : BpAlg) : ∃ o arr,
    bpDecode nanSign oneLeft alg k4Checks 6 n [-2, -3, 1, -5, 4, 2] = .ok ([([true, true, false, true, false, false], o)], arr) := by
  have hcw : ∀ b < 1, ChecksHold k4Checks (fun v => ([-2, -3, 1, -5, 4, 2] : List ℝ).getD (b * 6 + v) 0 < 0) := by
    intro b hb
    obtain rfl : b = 0 := by omega
    intro ns hns
    simp only [k4Checks, List.mem_cons, List.not_mem_nil, or_false] at hns
    rcases hns with rfl | rfl | rfl | rfl <;> norm_num
  have h0 := C58_kept nanSign oneLeft alg k4Checks 6 0 1 [-2, -3, 1, -5, 4, 2] (by norm_num) rfl (by simp) k4_good hcw
  simp only [List.range_succ, List.range_zero, List.nil_append, List.map_cons, List.map_nil, List.cons_append] at h0
  have h1 := C58_stable nanSign oneLeft alg k4Checks 6 0 n [-2, -3, 1, -5, 4, 2] (by norm_num) rfl k4_good _ _ _ h0 (by
    intro ns hns
    have := hcw 0 (by norm_num) ns hns
    simp only [k4Checks, List.mem_cons, List.not_mem_nil, or_false] at hns
    rcases hns with rfl | rfl | rfl | rfl <;> norm_num) (Nat.zero_le _)
  norm_num at h1
  exact ⟨_, _, h1⟩

/-- C58: a length that is no multiple of the block length is an error. -/
example (n : Nat) (alg : BpAlg) : ∀ r, bpDecode nanSign oneLeft alg k4Checks 6 n [-2, -3, 1, -5, 4, 2, 1, 1] ≠ .ok r :=
  (C58_length nanSign oneLeft alg k4Checks 6 n _ (by norm_num) (Or.inr (by decide))).1

/-- C58: the hard decisions are the signs of the soft outputs, here for the corrected word of `LdpcCorrectEx`. -/
example : ∃ o arr, bpDecode nanSign oneLeft .msa k4Checks 6 3 [-2, -2, 2, -2, -2, 2] =
      .ok ([([true, true, false, true, false, false], o)], arr) ∧
    ∀ (v : Nat) (x : ℝ), o[v]? = some (some x) → [true, true, false, true, false, false][v]? = some (decide (x < 0)) := by
  obtain ⟨o, arr, h⟩ := C112_errors nanSign oneLeft k4Checks 6 3 1 [-2, -2, 2, -2, -2, 2] (by norm_num) rfl k4_good (by decide) k4_girth (by decide)
    (fun v => decide (v = 0 ∨ v = 1 ∨ v = 3)) k4_word (by norm_num) 2 (by norm_num) (by
      intro x hx
      simp only [List.mem_cons, List.not_mem_nil, or_false] at hx
      rcases hx with rfl | rfl | rfl | rfl | rfl | rfl <;> norm_num) (by
      have e : (List.range 6).filter (fun v => decide (([-2, -2, 2, -2, -2, 2] : List ℝ).getD v 0 < 0) ≠ decide (v = 0 ∨ v = 1 ∨ v = 3)) = [4] := by
        norm_num [List.range, List.range.loop]
      rw [e]; rfl)
  have h' := (C58_signs nanSign oneLeft .msa k4Checks 6 3 1 _ (by norm_num) rfl (by simp) _ _ h).2.2 _ _ (List.mem_singleton.2 rfl)
  exact ⟨o, arr, h, h'.2.2⟩

/-- C59: two blocks are decoded as if alone. -/
example (alg : BpAlg) (n : Nat) : bpDecode nanSign oneLeft alg k4Checks 6 n ([-2, -2, 2, -2, -2, 2] ++ [1, 1, -1, 2, 3, 4]) =
    (bpDecode nanSign oneLeft alg k4Checks 6 n [-2, -2, 2, -2, -2, 2] >>= fun r1 =>
      bpDecode (fun b => nanSign (b + 1)) oneLeft alg k4Checks 6 n [1, 1, -1, 2, 3, 4] >>= fun r2 => pure (r1.1 ++ r2.1, r1.2 ++ r2.2)) :=
  C59_blocks nanSign oneLeft alg k4Checks 6 n [-2, -2, 2, -2, -2, 2] [1, 1, -1, 2, 3, 4] (by norm_num) (by decide) (by decide) (by simp) (by simp)

/-- C60: tripling LLRs triples the min-sum outputs. -/
example (n : Nat) : ∃ d o, bpDecode nanSign oneLeft .msa k4Checks 6 n [-2, -2, 2, -2, -2, 2] = .ok ([(d, o)], [-2, -2, 2, -2, -2, 2]) ∧
    bpDecode nanSign oneLeft .msa k4Checks 6 n ([-2, -2, 2, -2, -2, 2].map (3 * ·)) =
      .ok ([(d, o.map (Option.map (3 * ·)))], [-2, -2, 2, -2, -2, 2].map (3 * ·)) := by
  refine C60_scale nanSign oneLeft k4Checks 6 n _ (by norm_num) rfl k4_good (by decide) 3 (by norm_num) ?_ ?_ <;>
  · intro x hx
    simp only [List.mem_cons, List.not_mem_nil, or_false] at hx
    rcases hx with rfl | rfl | rfl | rfl | rfl | rfl <;> norm_num [abs_le]

/-- C60: flipping both LLRs of a repetition code under the sum-product algorithm, one iteration, with disagreeing signs. -/
example : ∃ d o arr arr', bpDecode nanSign oneLeft .spa [[0, 1]] 2 1 [1, -3] = .ok ([(d, o)], arr) ∧
    bpDecode nanSign oneLeft .spa [[0, 1]] 2 1 ((List.range 2).map (fun v => (if v < 2 then -1 else 1) * ([1, -3] : List ℝ).getD v 0)) =
      .ok ([(List.zipWith xor d ((List.range 2).map (fun v => decide (v < 2))),
        List.zipWith (fun (s : ℝ) x => Option.map (s * ·) x) ((List.range 2).map (fun v => if v < 2 then -1 else 1)) o)], arr') := by
  have hg : GoodChecks [[0, 1]] 2 := sorted_good (by decide)
  have hnz : ∀ k < 1, ∀ c < [[0, 1]].length, ∀ v ∈ [[0, 1]].getD c [], bpMsgs spaRule [[0, 1]] (clippedLlr [1, -3]) k c v ≠ 0 := by
    intro k hk c hc v hv
    obtain rfl : k = 0 := by omega
    obtain rfl : c = 0 := by simpa using hc
    simp only [List.getD_cons_zero, List.mem_cons, List.not_mem_nil, or_false] at hv
    rcases hv with rfl | rfl <;> norm_num [bpMsgs, clippedLlr]
  have h := C60_flip_spa nanSign oneLeft [[0, 1]] 2 1 [1, -3] (by norm_num) rfl hg (fun v => decide (v < 2)) (by unfold ChecksHold; decide) hnz (by
    intro m hm d o arr he
    obtain ⟨K, hK, hr⟩ := C89_spa_partial nanSign oneLeft [[0, 1]] 2 m [1, -3] (by norm_num) rfl hg (fun k hk => hnz k (by omega))
    rw [hr] at he
    simp only [bpResult, Except.ok.injEq, Prod.mk.injEq, List.cons.injEq, and_true] at he
    rw [← he.1.2]
    have hK1 : K ≤ 1 := hK.1.trans hm
    simp only [List.range_succ, List.range_zero, List.nil_append, List.map_append, List.map_cons, List.map_nil, List.cons_append,
      List.mem_cons, List.not_mem_nil, or_false, Option.some.injEq]
    interval_cases K
    · norm_num [bpTotal, clippedLlr]
    · have r0 : ∀ x, spaRule [0, 1] x 0 = max (-500) (min 500 (x 1)) := fun x => (spaRule_pair (by decide) x).1 rfl
      have r1 : ∀ x, spaRule [0, 1] x 1 = max (-500) (min 500 (x 0)) := fun x => (spaRule_pair (by decide) x).2 rfl
      norm_num [bpTotal, bpMsgs, clippedLlr, r0, r1])
  simpa using h

end Verif
