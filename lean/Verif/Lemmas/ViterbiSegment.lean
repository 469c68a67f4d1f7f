import Verif.Lemmas.ViterbiUse
import Verif.Props.Viterbi
import Verif.Lemmas.TrellisRsc
import Verif.Props.ViterbiSymmetry
/-
Where the path selected by the decoder differs from another path: a segment between two meeting points on which it is
at least as cheap.
-/
namespace Verif

section
variable {R : Type} [LinearOrder R] [AddCommMonoid R]

theorem pathCost_append (t : Trellis) (μ : Nat → Nat → Nat → R) : ∀ (us vs : List Nat) (τ s : Nat),
    pathCost t μ τ s (us ++ vs) = pathCost t μ τ s us + pathCost t μ (τ + us.length) (t.runState s us) vs := by
  intro us
  induction us with
  | nil => intro vs τ s; simp [pathCost, Trellis.runState]
  | cons u us ih =>
    intro vs τ s
    rw [List.cons_append, pathCost, pathCost, ih, Trellis.runState_cons, List.length_cons,
      show τ + 1 + us.length = τ + (us.length + 1) by omega, add_assoc]

theorem argminFirst_first {β : Type} [LinearOrder β] [d : DecidableRel (α := β) (· < ·)] : ∀ (x : β) (xs : List β)
    (h : argminFirst (x :: xs) < (x :: xs).length), argminFirst (x :: xs) ≠ 0 → (x :: xs)[argminFirst (x :: xs)] < x := by
  intro x xs h hne
  by_cases hlt : xs.getD (argminFirst xs) x < x
  · have e : argminFirst (x :: xs) = argminFirst xs + 1 := by simp only [argminFirst]; rw [if_pos hlt]
    have hl : argminFirst xs < xs.length := by rw [e] at h; simpa using h
    simp only [e, List.getElem_cons_succ]
    rwa [List.getD_eq_getElem _ _ hl] at hlt
  · exact absurd (by simp only [argminFirst]; rw [if_neg hlt]) hne

variable [IsOrderedAddMonoid R]

/-- If the selected path does not end in state 0, it is strictly cheaper than every path that does. -/
theorem bestPath_lt {t : Trellis} (h : t.Balanced) (μ : Nat → Nat → Nat → R) (τ : Nat)
    (hne : t.runState 0 (bestPath t μ τ) ≠ 0) {vs : List Nat} (hv : IsInput t τ vs) (h0 : t.runState 0 vs = 0) :
    pathCost t μ 0 0 (bestPath t μ τ) < pathCost t μ 0 0 vs := by
  have hlt := argmin_pmSeq_lt t μ τ
  have hpos : (0 : Nat) < 2 ^ t.M := Nat.two_pow_pos _
  have hlen := pmSeq_length t μ τ
  have hmin := bestPath_isMin h μ τ
  -- metric of the selected state
  have hle : ∀ s < 2 ^ t.M, (pmSeq t μ τ).getD (argminFirst (pmSeq t μ τ)) ⊤ ≤ (pmSeq t μ τ).getD s ⊤ := by
    intro s hs
    have hnn : pmSeq t μ τ ≠ [] := by intro e; rw [e] at hlen; simp at hlen; omega
    obtain ⟨hl, hm⟩ := argminFirst_spec (pmSeq t μ τ) hnn
    rw [List.getD_eq_getElem _ _ hl, List.getD_eq_getElem _ _ (by rw [hlen]; exact hs)]
    exact hm _ (List.getElem_mem _)
  have h1 : (pmSeq t μ τ).getD 0 ⊤ ≤ ((pathCost t μ 0 0 vs : R) : WithTop R) := by
    have := pmSeq_le h (μ := μ) vs hv.2
    rwa [hv.1, h0] at this
  have hfin : (pmSeq t μ τ).getD (argminFirst (pmSeq t μ τ)) ⊤ ≠ ⊤ := by
    intro e
    have := le_trans (hle 0 hpos) h1
    rw [e, top_le_iff] at this
    exact WithTop.coe_ne_top this
  obtain ⟨h2, h3⟩ := survivor_spec h τ _ hlt hfin
  have hne0 : argminFirst (pmSeq t μ τ) ≠ 0 := by
    intro e
    apply hne
    unfold bestPath
    rw [h2, e]
  have h4 : (pmSeq t μ τ).getD (argminFirst (pmSeq t μ τ)) ⊤ < (pmSeq t μ τ).getD 0 ⊤ := by
    generalize hg : pmSeq t μ τ = l at *
    match l with
    | [] => simp at hlen; omega
    | x :: xs =>
      have hl : argminFirst (x :: xs) < (x :: xs).length := by rw [hlen]; exact hlt
      have := argminFirst_first x xs hl hne0
      rw [List.getD_eq_getElem _ _ hl]
      simpa using this
  have h5 := lt_of_lt_of_le h4 h1
  rw [h3] at h5
  exact WithTop.coe_lt_coe.1 h5

end

/-- Where the path selected after `τ` steps differs from another path `w`: between two meeting points `a ≤ i < b` (or up to the end),
with no meeting point in between, it is at least as cheap; and strictly cheaper if it does not end in state 0 although `w` does. -/
theorem bestPath_segment {R : Type} [AddCommMonoid R] [LinearOrder R] [IsOrderedCancelAddMonoid R] {t : Trellis} (h : t.Balanced)
    (μ : Nat → Nat → Nat → R) (τ : Nat) {w : List Nat} (hw : IsInput t τ w) {i : Nat} (hi : i < τ)
    (hne : (bestPath t μ τ).getD i 0 ≠ w.getD i 0) :
    ∃ a b, a ≤ i ∧ i < b ∧ b ≤ τ ∧ (bestPath t μ τ).getD a 0 ≠ w.getD a 0 ∧
      t.runState 0 ((bestPath t μ τ).take a) = t.runState 0 (w.take a) ∧
      (∀ j, a < j → j < b → t.runState 0 ((bestPath t μ τ).take j) ≠ t.runState 0 (w.take j)) ∧
      (b = τ ∨ t.runState 0 ((bestPath t μ τ).take b) = t.runState 0 (w.take b)) ∧
      pathCost t μ a (t.runState 0 (w.take a)) (((bestPath t μ τ).take b).drop a) ≤
        pathCost t μ a (t.runState 0 (w.take a)) ((w.take b).drop a) ∧
      (t.runState 0 ((bestPath t μ τ).take b) ≠ t.runState 0 (w.take b) → t.runState 0 w = 0 →
        pathCost t μ a (t.runState 0 (w.take a)) (((bestPath t μ τ).take b).drop a) <
        pathCost t μ a (t.runState 0 (w.take a)) ((w.take b).drop a)) := by
  classical
  set us := bestPath t μ τ with hus
  have hmin := bestPath_isMin h μ τ
  rw [← hus] at hmin
  have hul := hmin.1.1
  have hwl := hw.1
  let P : Nat → Prop := fun j => t.runState 0 (us.take j) = t.runState 0 (w.take j)
  have hP0 : P 0 := by simp [P]
  have hstep : ∀ j < τ, P j → us.getD j 0 = w.getD j 0 → P (j + 1) := by
    intro j hj hPj e
    show t.runState 0 (us.take (j + 1)) = t.runState 0 (w.take (j + 1))
    rw [List.getD_eq_getElem _ _ (by omega), List.getD_eq_getElem _ _ (by omega)] at e
    rw [List.take_succ_eq_append_getElem (by omega), List.take_succ_eq_append_getElem (by omega), Trellis.runState_append,
      Trellis.runState_append, e]
    rw [show t.runState 0 (us.take j) = t.runState 0 (w.take j) from hPj]
  set a := Nat.findGreatest P i with ha
  have hPa : P a := Nat.findGreatest_spec (Nat.zero_le i) hP0
  have hai : a ≤ i := Nat.findGreatest_le i
  have hgt : ∀ j, a < j → j ≤ i → ¬ P j := fun j h1 h2 => Nat.findGreatest_is_greatest h1 h2
  have hdiv : us.getD a 0 ≠ w.getD a 0 := by
    intro e
    rcases Nat.lt_or_ge a i with hlt | hge
    · exact hgt (a + 1) (by omega) (by omega) (hstep a (by omega) hPa e)
    · have : a = i := by omega
      rw [this] at e; exact hne e
  -- next meeting point
  obtain ⟨b, hib, hbτ, hbetween, hend⟩ : ∃ b, i < b ∧ b ≤ τ ∧ (∀ j, i < j → j < b → ¬ P j) ∧ (b = τ ∨ P b) := by
    by_cases hex : ∃ b, i < b ∧ b ≤ τ ∧ P b
    · refine ⟨Nat.find hex, (Nat.find_spec hex).1, (Nat.find_spec hex).2.1, ?_, Or.inr (Nat.find_spec hex).2.2⟩
      intro j h1 h2 h3
      exact Nat.find_min hex h2 ⟨h1, by have := (Nat.find_spec hex).2.1; omega, h3⟩
    · refine ⟨τ, hi, le_refl _, ?_, Or.inl rfl⟩
      intro j h1 h2 h3
      exact hex ⟨j, h1, by omega, h3⟩
  have hsplit : ∀ x : List Nat, x = x.take a ++ ((x.take b).drop a ++ x.drop b) := by
    intro x
    rw [← List.append_assoc]
    conv_lhs => rw [← List.take_append_drop b x]
    congr 1
    conv_lhs => rw [← List.take_append_drop a (x.take b)]
    rw [List.take_take, min_eq_left (by omega)]
  -- the spliced path
  have cost3 : ∀ x y z : List Nat, x.length = a → y.length = b - a → pathCost t μ 0 0 (x ++ (y ++ z)) =
      pathCost t μ 0 0 x + (pathCost t μ a (t.runState 0 x) y + pathCost t μ b (t.runState 0 (x ++ y)) z) := by
    intro x y z hx hy
    rw [pathCost_append, pathCost_append, Nat.zero_add, hx, hy, Trellis.runState_append, show a + (b - a) = b by omega]
  have hla : (us.take a).length = a := by rw [List.length_take]; omega
  have hlb : ((us.take b).drop a).length = b - a := by rw [List.length_drop, List.length_take]; omega
  have hlbw : ((w.take b).drop a).length = b - a := by rw [List.length_drop, List.length_take]; omega
  have hub : us.take a ++ (us.take b).drop a = us.take b := by
    conv_rhs => rw [← List.take_append_drop a (us.take b)]
    rw [List.take_take, min_eq_left (by omega)]
  have hwb : w.take a ++ (w.take b).drop a = w.take b := by
    conv_rhs => rw [← List.take_append_drop a (w.take b)]
    rw [List.take_take, min_eq_left (by omega)]
  have hrun : t.runState 0 (us.take a ++ (w.take b).drop a) = t.runState 0 (w.take b) := by
    rw [Trellis.runState_append, show t.runState 0 (us.take a) = t.runState 0 (w.take a) from hPa, ← Trellis.runState_append, hwb]
  set vs := us.take a ++ ((w.take b).drop a ++ us.drop b) with hvs
  have hvin : IsInput t τ vs := by
    refine ⟨by rw [hvs, List.length_append, List.length_append, hla, hlbw, List.length_drop]; omega, ?_⟩
    intro u hu
    rw [hvs, List.mem_append, List.mem_append] at hu
    rcases hu with hu | hu | hu
    · exact hmin.1.2 u (List.mem_of_mem_take hu)
    · exact hw.2 u (List.mem_of_mem_take (List.mem_of_mem_drop hu))
    · exact hmin.1.2 u (List.mem_of_mem_drop hu)
  have hcu : pathCost t μ 0 0 us = pathCost t μ 0 0 (us.take a) + (pathCost t μ a (t.runState 0 (w.take a)) ((us.take b).drop a) +
      pathCost t μ b (t.runState 0 (us.take b)) (us.drop b)) := by
    conv_lhs => rw [hsplit us]
    rw [cost3 _ _ _ hla hlb, hub, show t.runState 0 (us.take a) = t.runState 0 (w.take a) from hPa]
  have hcv : pathCost t μ 0 0 vs = pathCost t μ 0 0 (us.take a) + (pathCost t μ a (t.runState 0 (w.take a)) ((w.take b).drop a) +
      pathCost t μ b (t.runState 0 (w.take b)) (us.drop b)) := by
    rw [hvs, cost3 _ _ _ hla hlbw, hrun, show t.runState 0 (us.take a) = t.runState 0 (w.take a) from hPa]
  have hrest : pathCost t μ b (t.runState 0 (us.take b)) (us.drop b) = pathCost t μ b (t.runState 0 (w.take b)) (us.drop b) := by
    rcases hend with e | e
    · rw [List.drop_eq_nil_of_le (by omega)]; simp [pathCost]
    · rw [show t.runState 0 (us.take b) = t.runState 0 (w.take b) from e]
  refine ⟨a, b, hai, hib, hbτ, hdiv, hPa, ?_, hend, ?_, ?_⟩
  · intro j h1 h2
    by_cases hji : j ≤ i
    · exact hgt j h1 hji
    · exact hbetween j (by omega) h2
  · have := hmin.2 vs hvin
    rw [hcu, hcv, hrest] at this
    simpa using this
  · intro hnm hw0
    have hb : b = τ := hend.resolve_right hnm
    have hv0 : t.runState 0 vs = 0 := by
      rw [hvs, ← List.append_assoc, Trellis.runState_append, hrun, List.drop_eq_nil_of_le (by omega), List.take_of_length_le (by omega),
        hw0]
      rfl
    have hu0 : t.runState 0 (bestPath t μ τ) ≠ 0 := by
      rw [List.take_of_length_le (by omega), List.take_of_length_le (by omega), hw0] at hnm
      exact hnm
    have := bestPath_lt h μ τ hu0 hvin hv0
    rw [← hus, hcu, hcv, hrest] at this
    simpa using this

end Verif
