import Verif.Props.Utilities
import Verif.Model.LdpcCode
/-
Edge cases that automatic mutation of the models showed to be unconstrained: broadcasting in `hamming_dist` (C06) and the errors of
the LDPC generator matrix (C56).
-/
namespace Verif

/-- C06, every shape: `hamming_dist` is symmetric for all arguments (including the errors); it raises ValueError exactly when the
lengths differ and neither is 1; against an array of length one it compares every entry with that value. -/
theorem C06_shapes (a b : List Nat) :
    hammingDist a b = hammingDist b a ∧
    (hammingDist a b = .error .valueError ↔ a.length ≠ b.length ∧ a.length ≠ 1 ∧ b.length ≠ 1) ∧
    (∀ x, (∀ y ∈ b, y = 0 ∨ y = 1) → x = 0 ∨ x = 1 → hammingDist [x] b = .ok (b.countP (· ≠ x))) := by
  refine ⟨?_, ?_, ?_⟩
  · unfold hammingDist
    by_cases h : a.length = b.length
    · rw [if_pos h, if_pos h.symm]
      congr 2
      clear h
      induction a generalizing b with
      | nil => cases b <;> rfl
      | cons x a ih =>
        cases b with
        | nil => rfl
        | cons y b => simp only [List.zipWith_cons_cons, ih b, Nat.xor_comm x y]
    · rw [if_neg h, if_neg (Ne.symm h)]
      by_cases ha : a.length = 1
      · have hb : b.length ≠ 1 := fun hb => h (by omega)
        rw [if_pos ha, if_neg hb, if_pos ha]
        congr 2
        apply List.map_congr_left
        intro y _
        exact Nat.xor_comm _ _
      · rw [if_neg ha]
        by_cases hb : b.length = 1
        · rw [if_pos hb, if_pos hb]
          congr 2
          apply List.map_congr_left
          intro y _
          exact Nat.xor_comm _ _
        · rw [if_neg hb, if_neg hb, if_neg ha]
  · unfold hammingDist
    by_cases h : a.length = b.length
    · rw [if_pos h]; simp [h]
    · by_cases ha : a.length = 1
      · rw [if_neg h, if_pos ha]; simp [ha]
      · by_cases hb : b.length = 1
        · rw [if_neg h, if_neg ha, if_pos hb]; simp [hb]
        · rw [if_neg h, if_neg ha, if_neg hb]; simp [h, ha, hb]
  · intro x hb hx
    have key : (b.map (x ^^^ ·)).sum = b.countP (· ≠ x) := by
      induction b with
      | nil => rfl
      | cons y b ih =>
        rw [List.map_cons, List.sum_cons, List.countP_cons, ih (fun z hz => hb z (by simp [hz]))]
        rcases hx with rfl | rfl <;> rcases hb y (by simp) with rfl | rfl <;> simp [Nat.add_comm]
    unfold hammingDist
    by_cases h : [x].length = b.length
    · rw [if_pos h]
      match b, h with
      | [y], _ =>
        rw [← key]; rfl
    · rw [if_neg h, if_pos (by simp)]
      exact congrArg _ key

example : hammingDist [1] [1, 0, 0, 1] = .ok 2 ∧ hammingDist [1, 0] [1, 0, 0] = .error .valueError := by decide

/-- C56, the refusals: once the parity-check matrix has been read, building the matrices (hence encoding) raises ValueError when there
are no check nodes or more check nodes than variable nodes, RuntimeError when the last `n_cnodes` columns are singular over the
rationals, and succeeds otherwise. -/
theorem C56_errors {p : LdpcParams} {rows : List (List Int)} (h : buildParity p = .ok rows) :
    (p.nc.toNat = 0 ∨ p.nv.toNat < p.nc.toNat → buildMatrix p = .error .valueError ∧
      ∀ msg pad, ldpcEncode p msg pad = .error .valueError) ∧
    (p.nc.toNat ≠ 0 → p.nc.toNat ≤ p.nv.toNat → (sysPart p.nc.toNat p.nv.toNat rows).det = 0 →
      buildMatrix p = .error .runtimeError ∧ ∀ msg pad, ldpcEncode p msg pad = .error .runtimeError) ∧
    (p.nc.toNat ≠ 0 → p.nc.toNat ≤ p.nv.toNat → (sysPart p.nc.toNat p.nv.toNat rows).det ≠ 0 → ∃ r, buildMatrix p = .ok r) := by
  have e : ∀ x, generatorMatrix p.nc.toNat p.nv.toNat rows = .error x →
      buildMatrix p = .error x ∧ ∀ msg pad, ldpcEncode p msg pad = .error x := by
    intro x hx
    have hb : buildMatrix p = .error x := by
      unfold buildMatrix
      rw [h]
      simp only [bind, Except.bind]
      rw [hx]
    refine ⟨hb, fun msg pad => ?_⟩
    unfold ldpcEncode
    rw [hb]; rfl
  refine ⟨fun h1 => e _ ?_, fun h1 h2 h3 => e _ ?_, fun h1 h2 h3 => ?_⟩
  · unfold generatorMatrix; rw [if_pos h1]
  · unfold generatorMatrix; rw [if_neg (by omega), if_pos h3]
  · unfold buildMatrix
    rw [h]
    simp only [bind, Except.bind]
    unfold generatorMatrix
    rw [if_neg (by omega), if_neg h3]
    exact ⟨_, rfl⟩

/-- Two equal checks: the parity part is singular and encoding raises RuntimeError. -/
example : ldpcEncode ⟨3, 2, 2, 2, [1, 2, 1], [2, 2], [[0, -1], [0, 1], [1, -1]], [[1, 2], [1, 2]], [], []⟩ [1] false =
    .error .runtimeError := by
  refine ((C56_errors (rows := [[0, 1, 1], [0, 1, 1]]) (by decide)).2.1 (by decide) (by decide) ?_).2 _ _
  show Matrix.det (n := Fin 2) (sysPart 2 3 [[0, 1, 1], [0, 1, 1]]) = 0
  rw [Matrix.det_fin_two]
  simp [sysPart]

end Verif
