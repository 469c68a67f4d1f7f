import Verif.Props.ViterbiCorrect
/-
A kernel-checkable lower bound for column distances: dynamic programming over the states.
-/
namespace Verif

/-- One step of the table of minimal weights: from the table for `ℓ` steps to the table for `ℓ + 1` steps. -/
def weightStep (t : Trellis) (tab : List Nat) : List Nat :=
  (List.range (2 ^ t.M)).map fun s =>
    ((List.range (2 ^ t.k)).map fun u => (toBits t.n (t.out s u)).sum + tab.getD (t.next s u) 0).foldl min
      ((toBits t.n (t.out s 0)).sum + tab.getD (t.next s 0) 0)

/-- Minimal weight of the output of a path of `ℓ` steps, for every starting state. -/
def weightTable (t : Trellis) : Nat → List Nat
  | 0 => List.replicate (2 ^ t.M) 0
  | ℓ + 1 => weightStep t (weightTable t ℓ)

theorem foldl_min_le (l : List Nat) (a : Nat) : l.foldl min a ≤ a ∧ ∀ x ∈ l, l.foldl min a ≤ x := by
  induction l generalizing a with
  | nil => simp
  | cons y l ih =>
    obtain ⟨h1, h2⟩ := ih (min a y)
    refine ⟨le_trans h1 (min_le_left _ _), ?_⟩
    intro x hx
    rcases List.mem_cons.1 hx with rfl | hx
    · exact le_trans h1 (min_le_right _ _)
    · exact h2 x hx

theorem weightTable_le {t : Trellis} (hw : t.WF) : ∀ (ℓ s : Nat) (us : List Nat), s < 2 ^ t.M → IsInput t ℓ us →
    (weightTable t ℓ).getD s 0 ≤ (t.runOut s us).sum
  | 0, s, us, hs, _ => by
    simp only [weightTable]
    rw [List.getD_eq_getElem _ _ (by simpa using hs)]
    simp
  | ℓ + 1, s, [], _, hu => by simp [IsInput] at hu
  | ℓ + 1, s, u :: us, hs, hu => by
    have hul : u < 2 ^ t.k := hu.2 u List.mem_cons_self
    have ih := weightTable_le hw ℓ (t.next s u) us (hw.next_lt hs hul) ⟨by simpa using hu.1, fun x hx => hu.2 x (List.mem_cons_of_mem _ hx)⟩
    simp only [weightTable, weightStep]
    rw [List.getD_eq_getElem _ _ (by simpa using hs), List.getElem_map, List.getElem_range]
    refine le_trans ((foldl_min_le _ _).2 _ (List.mem_map.2 ⟨u, List.mem_range.2 hul, rfl⟩)) ?_
    simp only [Trellis.runOut, List.sum_append]
    omega

/-- Decidable certificate of `ColumnDistance t (D + 1) d`. -/
def columnCheck (t : Trellis) (D d : Nat) : Bool :=
  let tab := weightTable t D
  (List.range (2 ^ t.k)).all fun u => u == 0 || decide (d ≤ (toBits t.n (t.out 0 u)).sum + tab.getD (t.next 0 u) 0)

theorem columnCheck_sound {t : Trellis} (hw : t.WF) {D d : Nat} (h : columnCheck t D d = true) : ColumnDistance t (D + 1) d := by
  intro us hu hne
  match us, hu with
  | [], hu => simp [IsInput] at hu
  | u :: us, hu =>
    have hul : u < 2 ^ t.k := hu.2 u List.mem_cons_self
    have h1 := List.all_eq_true.1 h u (List.mem_range.2 hul)
    simp only [List.getD_cons_zero] at hne
    simp only [Bool.or_eq_true, beq_iff_eq, hne, decide_eq_true_eq, false_or] at h1
    have h2 := weightTable_le hw D (t.next 0 u) us (hw.next_lt (Nat.two_pow_pos _) hul)
      ⟨by simpa using hu.1, fun x hx => hu.2 x (List.mem_cons_of_mem _ hx)⟩
    simp only [Trellis.runOut, List.sum_append]
    omega

end Verif
