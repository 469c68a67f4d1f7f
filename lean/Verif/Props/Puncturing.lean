import Verif.Lemmas.Puncturing
/-
Property theorems for `puncturing` / `depuncturing` (C37).
-/
namespace Verif

/-- Position `i` is transmitted: the pattern, repeated, has a 1 there. -/
def kept (v : List Nat) (i : Nat) : Bool := v.getD (i % v.length) 0 == 1

/-- C37. `puncturing` keeps exactly the items at marked positions, in order; an empty pattern raises IndexError on a
non-empty message. -/
theorem C37_puncturing {α : Type} (m : List α) (v : List Nat) :
    (v ≠ [] → puncturing m v = .ok ((m.zipIdx.filter (fun e => kept v e.2)).map Prod.fst)) ∧
    (m ≠ [] → puncturing m [] = .error .indexError) := by
  constructor
  · intro hv
    rw [puncturing_eq hv]
    congr 1
    suffices h : ∀ k, punctKeepFrom v k m = ((m.zipIdx k).filter (fun e => kept v e.2)).map Prod.fst from h 0
    induction m with
    | nil => intro k; rfl
    | cons x m ih =>
      intro k
      rw [List.zipIdx_cons, List.filter_cons, punctKeepFrom, ih]
      simp only [kept, beq_iff_eq]
      split <;> rfl
  · intro hm
    cases m with
    | nil => exact absurd rfl hm
    | cons x m => rfl

/-- C37. `depuncturing` fills the marked positions of an array of the requested length with the supplied items in
order and zeros elsewhere; IndexError exactly when fewer items than marked positions are supplied. -/
theorem C37_depuncturing {α : Type} (zero : α) (p : List α) (v : List Nat) (hv : v ≠ []) (L : Nat) :
    (depuncturing zero p v L = .error .indexError ↔ p.length < ((List.range L).filter (kept v)).length) ∧
    (((List.range L).filter (kept v)).length ≤ p.length →
      ∃ d, depuncturing zero p v L = .ok d ∧ d.length = L ∧
        ∀ i, i < L → d[i]? = if kept v i then p[((List.range i).filter (kept v)).length]? else some zero) := by
  have hmb : ∀ i, ((List.range i).filter (kept v)).length = markedBelow v i := by
    intro i
    induction i with
    | zero => rfl
    | succ i ih =>
      rw [List.range_succ, List.filter_append, List.length_append, ih, markedBelow]
      congr 1
      simp only [kept, List.filter_cons, beq_iff_eq, List.filter_nil]; split <;> rfl
  rw [hmb]
  constructor
  · constructor
    · intro h
      by_contra hc
      rw [depuncturing_eq zero hv p L (by omega)] at h
      cases h
    · exact depuncturing_error zero hv p L
  · intro h
    refine ⟨_, depuncturing_eq zero hv p L h, by simp [depunctPrefix], ?_⟩
    intro i hi
    rw [hmb]
    simp only [depunctPrefix, List.getElem?_map, List.getElem?_range hi, Option.map_some, kept, beq_iff_eq, hi, true_and]
    split
    · rename_i hb
      have h1 : markedBelow v (i + 1) ≤ markedBelow v L := markedBelow_mono v (by omega)
      simp only [markedBelow, if_pos hb] at h1
      have : markedBelow v i < p.length := by omega
      simp [List.getD_eq_getElem?_getD, this]
    · rfl

/-- C37, round trip: depuncturing a punctured message gives the message with the unmarked positions zeroed. -/
theorem C37_roundtrip {α : Type} (zero : α) (m : List α) (v : List Nat) (hv : v ≠ []) :
    ∃ p, puncturing m v = .ok p ∧
      depuncturing zero p v m.length = .ok (m.zipIdx.map (fun e => if kept v e.2 then e.1 else zero)) := by
  refine ⟨_, puncturing_eq hv m, ?_⟩
  have hl := punctKeepFrom_length v m 0
  simp only [markedBelow, Nat.zero_add] at hl
  rw [depuncturing_eq zero hv _ _ (by omega)]
  congr 1
  apply List.ext_getElem (by simp [depunctPrefix])
  intro i h1 h2
  have him : i < m.length := by simpa using h2
  simp only [depunctPrefix, List.getElem_map, List.getElem_range, List.getElem_zipIdx, kept, beq_iff_eq, him, true_and,
    Nat.zero_add]
  split
  · rename_i hb
    have := punctKeepFrom_getElem? v m 0 i him (by simpa using hb)
    simp only [markedBelow, Nat.zero_add, Nat.sub_zero] at this
    simp [List.getD_eq_getElem?_getD, this, him]
  · rfl

example : puncturing [10, 11, 12, 13, 14, 15, 16] [1, 1, 1, 0, 0, 1] = .ok [10, 11, 12, 15, 16] ∧
    depuncturing 0 [10, 11, 12, 15, 16] [1, 1, 1, 0, 0, 1] 7 = .ok [10, 11, 12, 0, 0, 15, 16] ∧
    depuncturing 0 [10, 11, 12, 15] [1, 1, 1, 0, 0, 1] 7 = .error .indexError := by decide

end Verif
