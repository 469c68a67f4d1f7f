import Verif.Lemmas.Viterbi
/-
The main loop of the Viterbi decoder model.
-/
namespace Verif

/-- Block `i` of `k` bits. -/
def blockOf (k i : Nat) (bits : List Nat) : List Nat := (bits.drop (i * k)).take k

theorem blockOf_take_left {k i a : Nat} {x y : List Nat} (hx : x.length = a) (h : (i + 1) * k ≤ a) :
    blockOf k i (x ++ y) = blockOf k i x := by
  unfold blockOf
  rw [Nat.succ_mul] at h
  rw [List.drop_append_of_le_length (by omega), List.take_append_of_le_length (by rw [List.length_drop]; omega)]

theorem npSliceWrite_block {k x : Nat} {bits v : List Nat} (hk : 0 < k) (hv : v.length = k)
    (hx : k = 1 ∨ (x + 1) * k ≤ bits.length) :
    ∃ bits', npSliceWrite bits (x * k) ((x + 1) * k) v = .ok bits' ∧ bits'.length = bits.length ∧
      ((x + 1) * k ≤ bits.length → blockOf k x bits' = v) ∧
      ∀ i, i ≠ x → (i + 1) * k ≤ bits.length → blockOf k i bits' = blockOf k i bits := by
  by_cases hin : (x + 1) * k ≤ bits.length
  · have e : (x + 1) * k = x * k + k := by ring
    have h1 : min (x * k) bits.length = x * k := by omega
    have h2 : min ((x + 1) * k) bits.length = (x + 1) * k := by omega
    refine ⟨bits.take (x * k) ++ v ++ bits.drop ((x + 1) * k), ?_, ?_, ?_, ?_⟩
    · simp only [npSliceWrite, h1, h2]
      rw [if_pos (by omega)]
    · simp only [List.length_append, List.length_take, List.length_drop, hv]; omega
    · intro _
      unfold blockOf
      rw [List.append_assoc, List.drop_append_of_le_length (by rw [List.length_take]; omega)]
      rw [List.drop_of_length_le (by rw [List.length_take]; omega), List.nil_append,
        List.take_append_of_le_length (by omega), List.take_of_length_le (by omega)]
    · intro i hi hib
      rcases Nat.lt_or_ge i x with hlt | hge
      · have hle : (i + 1) * k ≤ x * k := Nat.mul_le_mul_right _ hlt
        rw [List.append_assoc, blockOf_take_left (a := x * k) (by rw [List.length_take]; omega) hle]
        conv_rhs => rw [← List.take_append_drop (x * k) bits]
        rw [blockOf_take_left (a := x * k) (by rw [List.length_take]; omega) hle]
      · have hle : (x + 1) * k ≤ i * k := Nat.mul_le_mul_right _ (by omega)
        unfold blockOf
        congr 1
        rw [List.drop_append]
        have hl : (bits.take (x * k) ++ v).length = (x + 1) * k := by
          rw [List.length_append, List.length_take, hv]; omega
        rw [hl, List.drop_of_length_le (by rw [hl]; exact hle), List.nil_append, List.drop_drop]
        congr 1; omega
  · have hk1 : k = 1 := by rcases hx with h | h; exact h; exact absurd h hin
    subst hk1
    have h1 : min (x * 1) bits.length = bits.length := by omega
    have h2 : min ((x + 1) * 1) bits.length = bits.length := by omega
    refine ⟨bits, ?_, rfl, fun h => absurd h hin, fun i _ _ => rfl⟩
    simp only [npSliceWrite, h1, h2]
    rw [if_neg (by omega), if_pos hv]
    simp

section
variable {R α : Type} [LinearOrder R] [Add R] [Zero R]

/-- Column of previous states for step `m`. -/
def colP (t : Trellis) (μ : Nat → Nat → Nat → R) (m : Nat) : List Nat := (List.range (2 ^ t.M)).map (prevAt t μ m)
/-- Column of chosen inputs for step `m`. -/
def colU (t : Trellis) (μ : Nat → Nat → Nat → R) (m : Nat) : List Nat := (List.range (2 ^ t.M)).map (symChosen t μ m)

theorem pyGet_of_getElem? {β : Type} {l : List β} {j : Nat} {x : β} (h : l[j]? = some x) : pyGet l (j : Int) = .ok x := by
  obtain ⟨hj, e⟩ := List.getElem?_eq_some_iff.1 h
  rw [pyGet_ok hj, e]

/-- The traceback loop writes the survivor's symbols. -/
theorem traceback_ok {t : Trellis} (h : t.Balanced) (μ : Nat → Nat → Nat → R) {paths syms : List (List Nat)}
    {base count : Nat} (hcount : count = base * (t.k - 1)) : ∀ (m : Nat),
    (∀ j, 1 ≤ j → j ≤ m → paths[j]? = some (colP t μ (base + j)) ∧ syms[j]? = some (colU t μ (base + j))) →
    ∀ (cur : Nat) (bits : List Nat), cur < 2 ^ t.M → (t.k = 1 ∨ (base + m) * t.k ≤ bits.length) →
    ∃ cur' bits', ((List.range m).reverse.map (· + 1)).foldlM (tbIter t paths syms base count) (cur, bits) =
        .ok (cur', bits') ∧ bits'.length = bits.length ∧
      (∀ i, base ≤ i → i < base + m → (i + 1) * t.k ≤ bits.length →
        blockOf t.k i bits' = toBits t.k ((survivor t μ (base + m) cur).getD i 0)) ∧
      ∀ i, (i < base ∨ base + m ≤ i) → (i + 1) * t.k ≤ bits.length → blockOf t.k i bits' = blockOf t.k i bits := by
  intro m
  induction m with
  | zero =>
    intro _ cur bits _ _
    refine ⟨cur, bits, by simp [pure, Except.pure], rfl, ?_, fun i _ _ => rfl⟩
    intro i h1 h2; omega
  | succ m ih =>
    intro hcols cur bits hcur hlen
    have hk := h.wf.k_pos
    obtain ⟨hp, hs⟩ := hcols (m + 1) (by omega) (le_refl _)
    have hlist : (List.range (m + 1)).reverse.map (· + 1) = (m + 1) :: (List.range m).reverse.map (· + 1) := by
      rw [List.range_succ, List.reverse_append]; simp
    have hsym : symChosen t μ (base + (m + 1)) cur < 2 ^ t.k := symChosen_lt h hcur
    have hprev : prevAt t μ (base + (m + 1)) cur < 2 ^ t.M := prevAt_lt h hcur
    have hidx : base + (m + 1 - 1) * t.k + count = (base + m) * t.k := by
      rw [hcount, Nat.add_sub_cancel]
      obtain ⟨k', hk'⟩ : ∃ k', t.k = k' + 1 := ⟨t.k - 1, by omega⟩
      rw [hk', Nat.add_sub_cancel]; ring
    have hidx2 : base + (m + 1) * t.k + count = (base + m + 1) * t.k := by
      rw [hcount]
      obtain ⟨k', hk'⟩ : ∃ k', t.k = k' + 1 := ⟨t.k - 1, by omega⟩
      rw [hk', Nat.add_sub_cancel]; ring
    obtain ⟨bits1, hw, hl1, hb1, ho1⟩ := npSliceWrite_block (bits := bits)
      (v := toBits t.k (symChosen t μ (base + (m + 1)) cur)) (x := base + m) hk (by simp) hlen
    have hiter : tbIter t paths syms base count (cur, bits) (m + 1) =
        .ok (prevAt t μ (base + (m + 1)) cur, bits1) := by
      unfold tbIter
      rw [pyGet_of_getElem? hs, pyGet_of_getElem? hp]
      simp only [bind, Except.bind, colU, colP]
      rw [pyGet_ok (by simpa using hcur)]
      simp only [List.getElem_map, List.getElem_range]
      rw [pyGet_ok (by simpa using hcur)]
      simp only [List.getElem_map, List.getElem_range]
      rw [dec2bitarray_ok hsym]
      simp only
      rw [hidx, hidx2, hw]
      rfl
    obtain ⟨cur', bits2, hf, hl2, hb2, ho2⟩ := ih (fun j h1 h2 => hcols j h1 (by omega))
      (prevAt t μ (base + (m + 1)) cur) bits1 hprev (by
        rcases hlen with h1 | h1
        · exact Or.inl h1
        · refine Or.inr (le_trans (Nat.mul_le_mul_right _ ?_) (by rw [hl1]; exact h1)); omega)
    refine ⟨cur', bits2, ?_, by rw [hl2, hl1], ?_, ?_⟩
    · rw [hlist, List.foldlM_cons, hiter]
      simp only [bind, Except.bind]
      exact hf
    · intro i h1 h2 hi
      rw [show base + (m + 1) = base + m + 1 by omega, survivor]
      rcases Nat.lt_or_ge i (base + m) with hlt | hge
      · rw [hb2 i h1 hlt (by rw [hl1]; exact hi), List.getD_append _ _ _ _ (by simpa using hlt)]
        rfl
      · have hie : i = base + m := by omega
        subst hie
        rw [ho2 _ (Or.inr (le_refl _)) (by rw [hl1]; exact hi), hb1 hi]
        rw [List.getD_append_right _ _ _ _ (by simp)]
        simp [show base + (m + 1) = base + m + 1 by omega]
    · intro i hi hil
      rw [ho2 i (by omega) (by rw [hl1]; exact hil), ho1 i (by omega) hil]

/-- The caller's array after padding. -/
def paddedCoded (t : Trellis) (L : Nat) (inPlace : Bool) (v : α) (coded : List α) : List α :=
  if inPlace ∧ 0 < L / t.k then
    coded.take ((L / t.k - 1) * t.n) ++ List.replicate t.n v ++ coded.drop (L / t.k * t.n)
  else coded

theorem paddedCoded_idem {t : Trellis} {L : Nat} {inPlace : Bool} {v : α} {coded : List α}
    (hlen : L / t.k * t.n ≤ coded.length) :
    paddedCoded t L inPlace v (paddedCoded t L inPlace v coded) = paddedCoded t L inPlace v coded := by
  unfold paddedCoded
  by_cases h : inPlace = true ∧ 0 < L / t.k
  · simp only [if_pos h]
    have e : L / t.k * t.n = (L / t.k - 1) * t.n + t.n := by
      obtain ⟨q, hq⟩ : ∃ q, L / t.k = q + 1 := ⟨L / t.k - 1, by omega⟩
      rw [hq, Nat.add_sub_cancel]; ring
    have hl : (coded.take ((L / t.k - 1) * t.n)).length = (L / t.k - 1) * t.n := by
      rw [List.length_take]; omega
    congr 1
    · congr 1
      rw [List.append_assoc, List.take_append_of_le_length (by omega), List.take_of_length_le (by omega)]
    · rw [List.drop_append]
      have hl2 : (coded.take ((L / t.k - 1) * t.n) ++ List.replicate t.n v).length = L / t.k * t.n := by
        rw [List.length_append, hl, List.length_replicate, e]
      rw [hl2, List.drop_of_length_le (by omega)]
      simp
  · simp only [if_neg h]

/-- Invariant of the main loop after `τ` steps. -/
structure VInv (t : Trellis) (μ : Nat → Nat → Nat → R) (L tb : Nat) (inPlace : Bool) (pad : α) (coded : List α)
    (bits0 : List Nat) (τ : Nat) (st : VitState R α) : Prop where
  pm : st.pm = pmSeq t μ τ
  coded : st.coded = if τ ≤ L / t.k then coded else paddedCoded t L inPlace pad coded
  plen : st.paths.length = tb
  slen : st.syms.length = tb
  blen : st.bits.length = bits0.length
  early : τ < tb - 1 → st.tbCount = τ + 1 ∧ st.count = 0 ∧ st.bits = bits0 ∧
    ∀ j, 1 ≤ j → j ≤ τ → st.paths[j]? = some (colP t μ j) ∧ st.syms[j]? = some (colU t μ j)
  late : tb - 1 ≤ τ → st.tbCount = tb - 1 ∧ st.count = (τ + 2 - tb) * (t.k - 1) ∧
    (∀ j, j < tb - 1 → st.paths[j]? = some (colP t μ (τ + 2 - tb + j)) ∧
      st.syms[j]? = some (colU t μ (τ + 2 - tb + j))) ∧
    (∀ i, i < τ → (i + 1) * t.k ≤ bits0.length →
      blockOf t.k i st.bits = toBits t.k ((bestPath t μ (min τ (i + tb - 1))).getD i 0)) ∧
    (∀ i, τ ≤ i → (i + 1) * t.k ≤ bits0.length → blockOf t.k i st.bits = blockOf t.k i bits0)

theorem shiftCols_getElem? {cols : List (List Nat)} {j : Nat} (hj : j + 1 < cols.length) :
    (shiftCols cols)[j]? = cols[j + 1]? := by
  unfold shiftCols
  rw [List.getElem?_append_left (by rw [List.length_tail]; omega), List.getElem?_tail]

theorem shiftCols_length {cols : List (List Nat)} (h : 0 < cols.length) : (shiftCols cols).length = cols.length := by
  unfold shiftCols
  rw [List.length_append, List.length_tail, List.length_drop]; omega

theorem vitStep_ok {t : Trellis} (h : t.Balanced) {bm : List α → List Nat → Py R} {μ : Nat → Nat → Nat → R}
    {pad : α} {inPlace : Bool} {jk : VitJunk R} {L tb T : Nat} {coded : List α} {bits0 : List Nat} (htb : 2 ≤ tb)
    (hbm : ∀ j, 1 ≤ j → j ≤ T → ∀ p < 2 ^ t.M, ∀ u < 2 ^ t.k,
      bm (rxBlock t L pad coded j) (toBits t.n (t.out p u)) = .ok (μ j p u))
    (hB : t.k = 1 ∨ T * t.k ≤ bits0.length) (hclen : L / t.k * t.n ≤ coded.length) {τ : Nat} (hτ : τ < T)
    {st : VitState R α} (hinv : VInv t μ L tb inPlace pad coded bits0 τ st) :
    ∃ st', vitStep t bm (some pad) inPlace jk L tb st (τ + 1) = .ok st' ∧
      VInv t μ L tb inPlace pad coded bits0 (τ + 1) st' := by
  -- the received block
  set coded' := (if τ + 1 ≤ L / t.k then coded else paddedCoded t L inPlace pad coded) with hcoded'
  have hrx : vitRx t (some pad) inPlace L st.coded (τ + 1) = .ok (rxBlock t L pad coded (τ + 1), coded') := by
    unfold vitRx
    by_cases hle : τ + 1 ≤ L / t.k
    · rw [if_pos hle, hcoded', if_pos hle, hinv.coded, if_pos (by omega)]
      simp only [pure, Except.pure, rxBlock, if_pos hle]
    · rw [if_neg hle, hcoded', if_neg hle]
      simp only [pure, Except.pure, rxBlock, if_neg hle]
      congr 2
      show paddedCoded t L inPlace pad st.coded = _
      rw [hinv.coded]
      split
      · rfl
      · exact paddedCoded_idem hclen
  obtain ⟨x, y, hacs⟩ := acs_ok h (r := rxBlock t L pad coded (τ + 1)) (μ := μ (τ + 1))
    (hbm (τ + 1) (by omega) (by omega)) (pm := st.pm) (by rw [hinv.pm]; simp)
    (List.range (2 ^ t.M)) (fun s hs => List.mem_range.1 hs)
    ((List.range (2 ^ t.k)).map (jk.pmetrics (τ + 1))) ((List.range (2 ^ t.M)).map (jk.index (τ + 1))) []
    (by simp) (by simp)
  rw [List.nil_append, hinv.pm] at hacs
  have hcolm : ((List.range (2 ^ t.M)).map (bestOf t (pmSeq t μ τ) (μ (τ + 1)))).map (fun c => c.1) =
      pmSeq t μ (τ + 1) := by rw [List.map_map]; rfl
  have hcolp : ((List.range (2 ^ t.M)).map (bestOf t (pmSeq t μ τ) (μ (τ + 1)))).map (fun c => c.2.1) =
      colP t μ (τ + 1) := by rw [List.map_map]; rfl
  have hcolu : ((List.range (2 ^ t.M)).map (bestOf t (pmSeq t μ τ) (μ (τ + 1)))).map (fun c => c.2.2) =
      colU t μ (τ + 1) := by rw [List.map_map]; rfl
  -- position of the new column
  have htc : st.tbCount < tb := by
    rcases Nat.lt_or_ge τ (tb - 1) with hlt | hge
    · rw [(hinv.early hlt).1]; omega
    · rw [(hinv.late hge).1]; omega
  have hset1 := pySet_ok (l := st.paths) (i := st.tbCount) (colP t μ (τ + 1)) (by rw [hinv.plen]; exact htc)
  have hset2 := pySet_ok (l := st.syms) (i := st.tbCount) (colU t μ (τ + 1)) (by rw [hinv.slen]; exact htc)
  -- evaluation of the step
  have heval : vitStep t bm (some pad) inPlace jk L tb st (τ + 1) =
      (if tb - 1 ≤ τ + 1 then
        (((List.range (tb - 1)).reverse.map (· + 1)).foldlM
          (tbIter t (st.paths.set st.tbCount (colP t μ (τ + 1))) (st.syms.set st.tbCount (colU t μ (τ + 1)))
            (τ + 1 + 1 - tb) st.count) (argminFirst (pmSeq t μ (τ + 1)), st.bits)).bind fun res =>
          .ok { pm := pmSeq t μ (τ + 1), paths := shiftCols (st.paths.set st.tbCount (colP t μ (τ + 1)))
                syms := shiftCols (st.syms.set st.tbCount (colU t μ (τ + 1))), bits := res.2
                tbCount := tb - 1, count := st.count + t.k - 1, coded := coded' }
      else
        .ok { pm := pmSeq t μ (τ + 1), paths := st.paths.set st.tbCount (colP t μ (τ + 1))
              syms := st.syms.set st.tbCount (colU t μ (τ + 1)), bits := st.bits
              tbCount := st.tbCount + 1, count := st.count, coded := coded' }) := by
    unfold vitStep
    simp only [hrx, bind, Except.bind]
    rw [hinv.pm, hacs]
    simp only
    rw [hcolp, hcolu, hcolm, hset1]
    simp only
    rw [hset2]
    rfl
  rw [heval]
  have hcodedInv : coded' = if τ + 1 ≤ L / t.k then coded else paddedCoded t L inPlace pad coded := rfl
  by_cases hlate : tb - 1 ≤ τ + 1
  · rw [if_pos hlate]
    set base := τ + 1 + 1 - tb with hbase
    have hbt : base + (tb - 1) = τ + 1 := by omega
    -- columns seen by the traceback
    have hcols : ∀ j, 1 ≤ j → j ≤ tb - 1 →
        (st.paths.set st.tbCount (colP t μ (τ + 1)))[j]? = some (colP t μ (base + j)) ∧
        (st.syms.set st.tbCount (colU t μ (τ + 1)))[j]? = some (colU t μ (base + j)) := by
      intro j h1 h2
      rcases Nat.lt_or_ge τ (tb - 1) with hlt | hge
      · obtain ⟨e1, _, _, e4⟩ := hinv.early hlt
        rw [e1]
        by_cases hj : j = τ + 1
        · subst hj
          rw [List.getElem?_set_self (by rw [hinv.plen]; omega), List.getElem?_set_self (by rw [hinv.slen]; omega)]
          rw [show base + (τ + 1) = τ + 1 by omega]
          exact ⟨rfl, rfl⟩
        · rw [List.getElem?_set_ne (by omega), List.getElem?_set_ne (by omega), show base + j = j by omega]
          exact e4 j h1 (by omega)
      · obtain ⟨e1, _, e4, _⟩ := hinv.late hge
        rw [e1]
        by_cases hj : j = tb - 1
        · subst hj
          rw [List.getElem?_set_self (by rw [hinv.plen]; omega), List.getElem?_set_self (by rw [hinv.slen]; omega)]
          rw [hbt]
          exact ⟨rfl, rfl⟩
        · rw [List.getElem?_set_ne (by omega), List.getElem?_set_ne (by omega)]
          have := e4 j (by omega)
          rw [show τ + 2 - tb + j = base + j by omega] at this
          exact this
    have hcount : st.count = base * (t.k - 1) := by
      rcases Nat.lt_or_ge τ (tb - 1) with hlt | hge
      · rw [(hinv.early hlt).2.1, show base = 0 by omega, Nat.zero_mul]
      · rw [(hinv.late hge).2.1, show base = τ + 2 - tb by omega]
    obtain ⟨cur', bits', htbk, hl', hb', ho'⟩ := traceback_ok h μ hcount (tb - 1) hcols
      (argminFirst (pmSeq t μ (τ + 1))) st.bits (argmin_pmSeq_lt t μ (τ + 1)) (by
        rcases hB with h1 | h1
        · exact Or.inl h1
        · right; rw [hbt, hinv.blen]; exact le_trans (Nat.mul_le_mul_right _ hτ) h1)
    rw [htbk]
    refine ⟨_, rfl, ?_⟩
    refine ⟨rfl, hcodedInv, ?_, ?_, by rw [hl', hinv.blen], fun hc => absurd hc (by omega), fun _ => ⟨rfl, ?_, ?_, ?_, ?_⟩⟩
    · rw [shiftCols_length (by rw [List.length_set, hinv.plen]; omega), List.length_set, hinv.plen]
    · rw [shiftCols_length (by rw [List.length_set, hinv.slen]; omega), List.length_set, hinv.slen]
    · show st.count + t.k - 1 = _
      have hk := h.wf.k_pos
      rw [hcount, show τ + 1 + 2 - tb = base + 1 by omega, Nat.add_mul]
      omega
    · intro j hj
      show (shiftCols (st.paths.set st.tbCount (colP t μ (τ + 1))))[j]? = _ ∧
        (shiftCols (st.syms.set st.tbCount (colU t μ (τ + 1))))[j]? = _
      rw [shiftCols_getElem? (by rw [List.length_set, hinv.plen]; omega),
        shiftCols_getElem? (by rw [List.length_set, hinv.slen]; omega),
        show τ + 1 + 2 - tb + j = base + (j + 1) by omega]
      exact hcols (j + 1) (by omega) (by omega)
    · intro i hi hib
      show blockOf t.k i bits' = _
      rcases Nat.lt_or_ge i base with hlt | hge
      · rw [ho' i (Or.inl hlt) (by rw [hinv.blen]; exact hib)]
        have := (hinv.late (by omega)).2.2.2.1 i (by omega) hib
        rw [this, show min τ (i + tb - 1) = i + tb - 1 by omega,
          show min (τ + 1) (i + tb - 1) = i + tb - 1 by omega]
      · rw [hb' i hge (by omega) (by rw [hinv.blen]; exact hib), hbt, show min (τ + 1) (i + tb - 1) = τ + 1 by omega]
        rfl
    · intro i hi hib
      show blockOf t.k i bits' = _
      rw [ho' i (Or.inr (by omega)) (by rw [hinv.blen]; exact hib)]
      rcases Nat.lt_or_ge τ (tb - 1) with hlt | hge
      · rw [(hinv.early hlt).2.2.1]
      · exact (hinv.late hge).2.2.2.2 i (by omega) hib
  · rw [if_neg hlate]
    refine ⟨_, rfl, ?_⟩
    obtain ⟨e1, e2, e3, e4⟩ := hinv.early (by omega)
    refine ⟨rfl, hcodedInv, by simp [hinv.plen], by simp [hinv.slen], hinv.blen, fun _ => ⟨?_, e2, e3, ?_⟩,
      fun hc => absurd hc hlate⟩
    · show st.tbCount + 1 = _; rw [e1]
    · intro j h1 h2
      show (st.paths.set st.tbCount (colP t μ (τ + 1)))[j]? = _ ∧ (st.syms.set st.tbCount (colU t μ (τ + 1)))[j]? = _
      rw [e1]
      by_cases hj : j = τ + 1
      · subst hj
        rw [List.getElem?_set_self (by rw [hinv.plen]; omega), List.getElem?_set_self (by rw [hinv.slen]; omega)]
        exact ⟨rfl, rfl⟩
      · rw [List.getElem?_set_ne (by omega), List.getElem?_set_ne (by omega)]
        exact e4 j h1 (by omega)

theorem vitLoop_ok {t : Trellis} (h : t.Balanced) {bm : List α → List Nat → Py R} {μ : Nat → Nat → Nat → R}
    {pad : α} {inPlace : Bool} {jk : VitJunk R} {L tb T : Nat} {coded : List α} {bits0 : List Nat} (htb : 2 ≤ tb)
    (hbm : ∀ j, 1 ≤ j → j ≤ T → ∀ p < 2 ^ t.M, ∀ u < 2 ^ t.k,
      bm (rxBlock t L pad coded j) (toBits t.n (t.out p u)) = .ok (μ j p u))
    (hB : t.k = 1 ∨ T * t.k ≤ bits0.length) (hclen : L / t.k * t.n ≤ coded.length)
    {st : VitState R α} (hinv : VInv t μ L tb inPlace pad coded bits0 0 st) : ∀ τ ≤ T,
    ∃ st', ((List.range τ).map (· + 1)).foldlM (vitStep t bm (some pad) inPlace jk L tb) st = .ok st' ∧
      VInv t μ L tb inPlace pad coded bits0 τ st' := by
  intro τ
  induction τ with
  | zero => intro _; exact ⟨st, rfl, hinv⟩
  | succ τ ih =>
    intro hτ
    obtain ⟨st1, e1, i1⟩ := ih (by omega)
    obtain ⟨st2, e2, i2⟩ := vitStep_ok (jk := jk) h htb hbm hB hclen (by omega : τ < T) i1
    refine ⟨st2, ?_, i2⟩
    rw [List.range_succ, List.map_append, List.foldlM_append, e1]
    simp only [bind, Except.bind, List.map_cons, List.map_nil, List.foldlM_cons, List.foldlM_nil, e2]
    rfl

/-- Length of the array of decoded bits. -/
def vitBuf (t : Trellis) (L tb : Nat) : Nat := (L + tb + t.k - 1) / t.k * t.k

theorem vinit_ok (t : Trellis) {μ : Nat → Nat → Nat → R} {pad : α} {inPlace : Bool} (jk : VitJunk R) {L tb : Nat}
    {coded : List α} (htb : 2 ≤ tb) :
    VInv t μ L tb inPlace pad coded ((List.range (vitBuf t L tb)).map jk.bits) 0 (vitInit t jk L tb coded) := by
  refine ⟨rfl, by simp [vitInit], by simp [vitInit], by simp [vitInit], rfl,
    fun _ => ⟨rfl, rfl, rfl, fun j h1 h2 => by omega⟩, fun hc => absurd hc (by omega)⟩

/-- The decoder, completely. -/
theorem viterbi_ok {t : Trellis} (h : t.Balanced) {bm : List α → List Nat → Py R} {μ : Nat → Nat → Nat → R}
    {pad : α} {inPlace : Bool} (jk : VitJunk R) {L tb : Nat} {coded : List α} (htb : 2 ≤ tb)
    (hbm : ∀ j, 1 ≤ j → j ≤ vitSteps t L → ∀ p < 2 ^ t.M, ∀ u < 2 ^ t.k,
      bm (rxBlock t L pad coded j) (toBits t.n (t.out p u)) = .ok (μ j p u))
    (hB : t.k = 1 ∨ vitSteps t L * t.k ≤ vitBuf t L tb) (hclen : L / t.k * t.n ≤ coded.length) :
    ∃ bits, viterbi t bm (some pad) inPlace jk L tb coded =
        .ok (bits.take L, if vitSteps t L ≤ L / t.k then coded else paddedCoded t L inPlace pad coded) ∧
      bits.length = vitBuf t L tb ∧
      (vitSteps t L < tb - 1 → bits = (List.range (vitBuf t L tb)).map jk.bits) ∧
      (tb - 1 ≤ vitSteps t L → ∀ i < vitSteps t L, (i + 1) * t.k ≤ vitBuf t L tb →
        blockOf t.k i bits = toBits t.k ((bestPath t μ (min (vitSteps t L) (i + tb - 1))).getD i 0)) := by
  have hk := h.wf.k_pos
  have hinit := vinit_ok (μ := μ) (L := L) (inPlace := inPlace) (pad := pad) (coded := coded) t jk htb
  obtain ⟨st, hrun, hinv⟩ := vitLoop_ok (jk := jk) (T := vitSteps t L) h htb hbm (by simpa using hB) hclen hinit
    (vitSteps t L) (le_refl _)
  refine ⟨st.bits, ?_, ?_, ?_, ?_⟩
  · unfold viterbi
    rw [if_neg (by omega), if_neg (by omega)]
    rw [show (L + t.M) / t.k - 1 = vitSteps t L from rfl]
    simp only [hrun, bind, Except.bind, pure, Except.pure]
    rw [hinv.coded]
  · rw [hinv.blen]; simp
  · intro hlt; exact (hinv.early hlt).2.2.1
  · intro hle i hi hib
    exact (hinv.late hle).2.2.2.1 i hi (by simpa using hib)

end
end Verif
