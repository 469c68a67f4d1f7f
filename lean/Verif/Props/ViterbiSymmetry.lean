import Verif.Props.Viterbi
import Verif.Lemmas.TrellisRsc
/-
C106 for `viterbi_decode` (hard decisions): decoding does not depend on which codeword was sent.
-/
namespace Verif

/-- Adding the same bits to two bit sequences does not change the number of places where they differ. -/
theorem diffCount_xor : ∀ {a b c : List Nat}, a.length = b.length → a.length = c.length → (∀ x ∈ a, x < 2) →
    (∀ x ∈ b, x < 2) → diffCount (List.zipWith (fun x y => (x + y) % 2) a c) (List.zipWith (fun x y => (x + y) % 2) b c) =
      diffCount a b
  | [], [], _, _, _, _, _ => by simp [diffCount]
  | x :: a, y :: b, z :: c, h1, h2, h3, h4 => by
    have hx := h3 x List.mem_cons_self
    have hy := h4 y List.mem_cons_self
    simp only [List.zipWith_cons_cons, diffCount]
    rw [diffCount_xor (by simpa using h1) (by simpa using h2) (fun x h => h3 x (List.mem_cons_of_mem _ h))
      (fun x h => h4 x (List.mem_cons_of_mem _ h))]
    congr 1
    by_cases e : x = y
    · rw [e]; simp
    · rw [if_neg e, if_neg (by omega)]

theorem xor_self_list (us w : List Nat) (h : us.length = w.length) :
    List.zipWith (· ^^^ ·) (List.zipWith (· ^^^ ·) us w) w = us := by
  induction us generalizing w with
  | nil => simp
  | cons u us ih =>
    cases w with
    | nil => simp at h
    | cons x w => simp only [List.zipWith_cons_cons]; rw [ih w (by simpa using h), Nat.xor_xor_cancel_right]

theorem IsInput.xor {t : Trellis} {T : Nat} {us w : List Nat} (h1 : IsInput t T us) (h2 : IsInput t T w) :
    IsInput t T (List.zipWith (· ^^^ ·) us w) := by
  refine ⟨by rw [List.length_zipWith, h1.1, h2.1, min_self], ?_⟩
  intro u hu
  obtain ⟨i, hi, rfl⟩ := List.mem_iff_getElem.1 hu
  rw [List.getElem_zipWith]
  exact Nat.xor_lt_two_pow (h1.2 _ (List.getElem_mem _)) (h2.2 _ (List.getElem_mem _))

/-- C106, `viterbi_decode` with hard decisions, on a trellis with linear tables.  Let `us` be the only path nearest to the
received bits.  Then the bits of `us` are decoded; and after adding the codeword of any path `w` (ending in state 0 when
the decoder runs padding steps) to the received bits, the decoded bits are those of `us` XORed with those of `w`. -/
theorem C106_viterbi {t : Trellis} (h : t.Balanced) (hl : t.Linear) (jk jk' : VitJunk Nat) {N : Nat} {r : List Nat}
    (hr : r.length = N * t.n) (hb : ∀ x ∈ r, x < 2) (hT : 2 ≤ N + t.M / t.k)
    (hB : t.k = 1 ∨ (t.M / t.k - 1) * t.k ≤ N + t.M / t.k) {w : List Nat} (hw : IsInput t N w)
    (hend : t.M / t.k ≤ 1 ∨ t.runState 0 w = 0) {us : List Nat} (hus : IsInput t (N + t.M / t.k - 1) us)
    (huniq : ∀ vs, IsInput t (N + t.M / t.k - 1) vs → vs ≠ us →
      diffCount (paddedRx t 0 r) (t.runOut 0 us) < diffCount (paddedRx t 0 r) (t.runOut 0 vs)) :
    ∃ c c', viterbiHard t jk (N * t.k) (N + t.M / t.k) r = .ok ((us.take N).flatMap (toBits t.k), c) ∧
      viterbiHard t jk' (N * t.k) (N + t.M / t.k) (List.zipWith (fun x y => (x + y) % 2) r (t.runOut 0 w)) =
        .ok ((List.zipWith (· ^^^ ·) (us.take N) w).flatMap (toBits t.k), c') := by
  have hq := h.one_le
  obtain ⟨h0, h1⟩ := hl.zero
  have hpos : (0 : Nat) < 2 ^ t.M := Nat.two_pow_pos _
  set w' := w ++ List.replicate (t.M / t.k - 1) 0 with hw'
  have hw'in : IsInput t (N + t.M / t.k - 1) w' := by
    refine ⟨by rw [hw', List.length_append, hw.1, List.length_replicate]; omega, ?_⟩
    intro u hu
    rw [hw', List.mem_append] at hu
    rcases hu with hu | hu
    · exact hw.2 u hu
    · rw [List.eq_of_mem_replicate hu]; exact Nat.two_pow_pos _
  have hout : t.runOut 0 w' = t.runOut 0 w ++ List.replicate ((t.M / t.k - 1) * t.n) 0 := by
    rw [hw', Trellis.runOut_append]
    congr 1
    rcases hend with e | e
    · have : t.M / t.k - 1 = 0 := by omega
      rw [this]; simp [Trellis.runOut]
    · rw [e, runOut_zeros h0 h1]
  have hwl : (t.runOut 0 w).length = N * t.n := by rw [Trellis.runOut_length, hw.1]
  set r' := List.zipWith (fun x y => (x + y) % 2) r (t.runOut 0 w) with hr'
  have hr'l : r'.length = N * t.n := by rw [hr', List.length_zipWith, hr, hwl, min_self]
  have hr'b : ∀ x ∈ r', x < 2 := by
    intro x hx
    obtain ⟨i, hi, rfl⟩ := List.mem_iff_getElem.1 hx
    simp only [hr', List.getElem_zipWith]; omega
  have hpad : paddedRx t 0 r' = List.zipWith (fun x y => (x + y) % 2) (paddedRx t 0 r) (t.runOut 0 w') := by
    unfold paddedRx
    rw [hout, List.zipWith_append (by rw [hr, hwl])]
    congr 1
    simp
  have hpl : ∀ vs, IsInput t (N + t.M / t.k - 1) vs → (paddedRx t 0 r).length = (t.runOut 0 vs).length := by
    intro vs hvs
    rw [Trellis.runOut_length, hvs.1, paddedRx, List.length_append, List.length_replicate, hr, ← Nat.add_mul]
    congr 1; omega
  have hpb : ∀ x ∈ paddedRx t 0 r, x < 2 := by
    intro x hx
    rw [paddedRx, List.mem_append] at hx
    rcases hx with hx | hx
    · exact hb x hx
    · rw [List.eq_of_mem_replicate hx]; norm_num
  have hcost : ∀ vs, IsInput t (N + t.M / t.k - 1) vs →
      diffCount (paddedRx t 0 r') (t.runOut 0 (List.zipWith (· ^^^ ·) vs w')) =
        diffCount (paddedRx t 0 r) (t.runOut 0 vs) := by
    intro vs hvs
    have := (hl.run h.wf vs w' 0 0 (by rw [hvs.1, hw'in.1]) hpos hpos hvs.2 hw'in.2).2
    rw [Nat.xor_self] at this
    rw [this, hpad, diffCount_xor (hpl vs hvs) (hpl w' hw'in) hpb (t.runOut_lt_two 0 vs)]
  obtain ⟨as, ha, hamin, c, hdec⟩ := C38_hard h jk hr hb hT hB
  obtain ⟨bs, hbs, hbmin, c', hdec'⟩ := C38_hard h jk' hr'l hr'b hT hB
  have ea : as = us := by
    by_contra hne
    have := huniq as ha hne
    have := hamin us hus
    omega
  have eb : bs = List.zipWith (· ^^^ ·) us w' := by
    have e1 : List.zipWith (· ^^^ ·) (List.zipWith (· ^^^ ·) bs w') w' = bs :=
      xor_self_list bs w' (by rw [hbs.1, hw'in.1])
    have hx := hbs.xor hw'in
    suffices List.zipWith (· ^^^ ·) bs w' = us by rw [← this, e1]
    by_contra hne
    have h3 := huniq _ hx hne
    have h4 := hbmin _ (hus.xor hw'in)
    rw [hcost us hus] at h4
    have h5 := hcost _ hx
    rw [e1] at h5
    omega
  refine ⟨c, c', by rw [hdec, ea], ?_⟩
  rw [hdec', eb, List.take_zipWith]
  congr 4
  rw [hw', List.take_append_of_le_length (by rw [hw.1]), List.take_of_length_le (by rw [hw.1])]

theorem wordArgs : TrellisArgs [2] [[5, 7]] 2 none "MSB" :=
  ⟨by simp, by simp, rfl, ⟨rfl, by simp⟩, by decide, by simp, by simp⟩

/-- The (5,7) code: received `00 01 00` is decoded to 000 (the only nearest path is the zero path), and after adding
the codeword `11 01 11` of 100, i.e. for received `11 00 11`, to 100. -/
example (jk jk' : VitJunk Nat) : ∃ t c c', mkTrellis (fun _ _ => 0) [2] [[5, 7]] 2 none false "MSB" = .ok t ∧
    viterbiHard t jk 3 5 [0, 0, 0, 1, 0, 0] = .ok ([0, 0, 0], c) ∧
    viterbiHard t jk' 3 5 [1, 1, 0, 0, 1, 1] = .ok ([1, 0, 0], c') := by
  have hlin := trellisOf_linear (junk := fun _ _ => 0) (rsc := false) wordArgs (fits_one _ _ _ _) (fun F _ => fitsFb_one _ _ _)
  have hbal := ff_balanced (junk := fun _ _ => 0) (rsc := false) wordArgs (by simp)
  have huniq : ∀ vs, IsInput (trellisOf (fun _ _ => 0) [2] [[5, 7]] 2 none false "MSB") 4 vs → vs ≠ [0, 0, 0, 0] →
      diffCount (paddedRx (trellisOf (fun _ _ => 0) [2] [[5, 7]] 2 none false "MSB") 0 [0, 0, 0, 1, 0, 0])
          ((trellisOf (fun _ _ => 0) [2] [[5, 7]] 2 none false "MSB").runOut 0 [0, 0, 0, 0]) <
        diffCount (paddedRx (trellisOf (fun _ _ => 0) [2] [[5, 7]] 2 none false "MSB") 0 [0, 0, 0, 1, 0, 0])
          ((trellisOf (fun _ _ => 0) [2] [[5, 7]] 2 none false "MSB").runOut 0 vs) := by
    rintro vs ⟨hl, hv⟩ hne
    have hl4 : vs.length = 4 := hl
    match vs, hl4 with
    | [a, b, c, d], _ =>
      have hall : ∀ a < 2, ∀ b < 2, ∀ c < 2, ∀ d < 2, [a, b, c, d] ≠ [0, 0, 0, 0] →
        diffCount (paddedRx (trellisOf (fun _ _ => 0) [2] [[5, 7]] 2 none false "MSB") 0 [0, 0, 0, 1, 0, 0])
          ((trellisOf (fun _ _ => 0) [2] [[5, 7]] 2 none false "MSB").runOut 0 [0, 0, 0, 0]) <
        diffCount (paddedRx (trellisOf (fun _ _ => 0) [2] [[5, 7]] 2 none false "MSB") 0 [0, 0, 0, 1, 0, 0])
          ((trellisOf (fun _ _ => 0) [2] [[5, 7]] 2 none false "MSB").runOut 0 [a, b, c, d]) := by decide +kernel
      exact hall a (hv a (by simp)) b (hv b (by simp)) c (hv c (by simp)) d (hv d (by simp)) hne
  obtain ⟨c, c', h1, h2⟩ := C106_viterbi hbal hlin jk jk' (N := 3) (r := [0, 0, 0, 1, 0, 0]) (w := [1, 0, 0])
    (us := [0, 0, 0, 0]) rfl (by decide) (by decide) (Or.inl rfl) ⟨rfl, by decide⟩ (Or.inr (by decide +kernel))
    ⟨rfl, by decide⟩ huniq
  refine ⟨_, c, c', mkTrellis_ok wordArgs, h1, ?_⟩
  have e : List.zipWith (fun x y => (x + y) % 2) [0, 0, 0, 1, 0, 0]
        ((trellisOf (fun _ _ => 0) [2] [[5, 7]] 2 none false "MSB").runOut 0 [1, 0, 0]) = [1, 1, 0, 0, 1, 1] := by
      decide +kernel
  rw [e] at h2
  exact h2

end Verif
