import Verif.Spec.Convcode
import Verif.Spec.Trellis
import Verif.Lemmas.Utilities
import Verif.Lemmas.Lists
/-
Lemmas about the encoder model for an arbitrary table-driven trellis.
-/
namespace Verif

theorem tableGet_ok {tbl : List (List Nat)} {s u a b : Nat} (hl : tbl.length = a)
    (hr : ∀ row ∈ tbl, row.length = b) (hs : s < a) (hu : u < b) :
    tableGet tbl s u = .ok ((tbl.getD s []).getD u 0) := by
  have h1 : s < tbl.length := by omega
  have h2 : u < (tbl[s]).length := by rw [hr _ (List.getElem_mem h1)]; exact hu
  simp only [tableGet, pyGet_ok h1, bind, Except.bind, pyGet_ok h2]
  rw [List.getD_eq_getElem _ _ h1, List.getD_eq_getElem _ _ h2]

theorem table_lt {tbl : List (List Nat)} {s u a b c : Nat} (hl : tbl.length = a)
    (hr : ∀ row ∈ tbl, row.length = b ∧ ∀ x ∈ row, x < c) (hs : s < a) (hu : u < b) :
    (tbl.getD s []).getD u 0 < c := by
  have h1 : s < tbl.length := by omega
  have h2 : u < (tbl[s]).length := by rw [(hr _ (List.getElem_mem h1)).1]; exact hu
  rw [List.getD_eq_getElem _ _ h1, List.getD_eq_getElem _ _ h2]
  exact (hr _ (List.getElem_mem h1)).2 _ (List.getElem_mem h2)

theorem Trellis.WF.next_lt {t : Trellis} (h : t.WF) {s u : Nat} (hs : s < 2 ^ t.M) (hu : u < 2 ^ t.k) :
    t.next s u < 2 ^ t.M := table_lt h.next_len h.next_row hs hu

theorem Trellis.WF.out_lt {t : Trellis} (h : t.WF) {s u : Nat} (hs : s < 2 ^ t.M) (hu : u < 2 ^ t.k) :
    t.out s u < 2 ^ t.n := table_lt h.out_len h.out_row hs hu

theorem bitarray2dec_group_lt {bits : List Nat} (hb : ∀ b ∈ bits, b < 2) (k i : Nat) :
    bitarray2dec ((bits.drop (i * k)).take k) < 2 ^ k := by
  have h1 : ∀ x ∈ (bits.drop (i * k)).take k, x < 2 :=
    fun x hx => hb x (List.mem_of_mem_drop (List.mem_of_mem_take hx))
  have h2 := bitarray2dec_lt h1
  have h3 : ((bits.drop (i * k)).take k).length ≤ k := by simp
  exact lt_of_lt_of_le h2 (Nat.pow_le_pow_right (by omega) h3)

theorem inSyms_lt {bits : List Nat} (hb : ∀ b ∈ bits, b < 2) (k : Nat) : ∀ u ∈ inSyms k bits, u < 2 ^ k := by
  intro u hu
  simp only [inSyms, List.mem_map, List.mem_range] at hu
  obtain ⟨i, _, rfl⟩ := hu
  exact bitarray2dec_group_lt hb k i

@[simp] theorem inSyms_length (k : Nat) (bits : List Nat) : (inSyms k bits).length = bits.length / k := by
  simp [inSyms]

theorem Trellis.runState_nil (t : Trellis) (s : Nat) : t.runState s [] = s := rfl
theorem Trellis.runState_cons (t : Trellis) (s u : Nat) (us : List Nat) :
    t.runState s (u :: us) = t.runState (t.next s u) us := rfl
theorem Trellis.runState_append (t : Trellis) (s : Nat) (us vs : List Nat) :
    t.runState s (us ++ vs) = t.runState (t.runState s us) vs := by
  simp [Trellis.runState, List.foldl_append]

theorem Trellis.runOut_append (t : Trellis) (s : Nat) (us vs : List Nat) :
    t.runOut s (us ++ vs) = t.runOut s us ++ t.runOut (t.runState s us) vs := by
  induction us generalizing s with
  | nil => simp [Trellis.runOut, Trellis.runState]
  | cons u us ih => simp only [List.cons_append, Trellis.runOut, ih, Trellis.runState_cons, List.append_assoc]

@[simp] theorem Trellis.runOut_length (t : Trellis) (s : Nat) (us : List Nat) :
    (t.runOut s us).length = us.length * t.n := by
  induction us generalizing s with
  | nil => simp [Trellis.runOut]
  | cons u us ih => simp only [Trellis.runOut, List.length_append, toBits_length, ih, List.length_cons]; ring_nf

theorem Trellis.runOut_lt_two (t : Trellis) (s : Nat) (us : List Nat) : ∀ b ∈ t.runOut s us, b < 2 := by
  induction us generalizing s with
  | nil => simp [Trellis.runOut]
  | cons u us ih =>
    intro b hb
    simp only [Trellis.runOut, List.mem_append] at hb
    rcases hb with hb | hb
    · exact toBits_lt_two hb
    · exact ih _ b hb

theorem Trellis.WF.runState_lt {t : Trellis} (h : t.WF) {s : Nat} (hs : s < 2 ^ t.M) {us : List Nat}
    (hu : ∀ u ∈ us, u < 2 ^ t.k) : t.runState s us < 2 ^ t.M := by
  induction us generalizing s with
  | nil => exact hs
  | cons u us ih =>
    rw [Trellis.runState_cons]
    exact ih (h.next_lt hs (hu u (by simp))) (fun v hv => hu v (by simp [hv]))

theorem npSliceWrite_tail (pre v : List Nat) (R lo hi : Nat) (hlo : lo = pre.length) (hhi : hi = lo + v.length)
    (hR : v.length ≤ R) :
    npSliceWrite (pre ++ List.replicate R 0) lo hi v = .ok ((pre ++ v) ++ List.replicate (R - v.length) 0) := by
  subst hlo hhi
  have h1 : min pre.length (pre ++ List.replicate R 0).length = pre.length := by simp
  have h2 : min (pre.length + v.length) (pre ++ List.replicate R 0).length = pre.length + v.length := by
    simp; omega
  simp only [npSliceWrite, h1, h2]
  rw [if_pos (by omega)]
  simp [List.drop_append]

theorem encStep_ok {t : Trellis} (h : t.WF) {s i j R : Nat} {bits pre : List Nat} (hs : s < 2 ^ t.M)
    (hu : bitarray2dec ((bits.drop (i * t.k)).take t.k) < 2 ^ t.k) (hp : pre.length = j * t.n) (hR : t.n ≤ R) :
    encStep t bits (s, j, pre ++ List.replicate R 0) i =
      .ok (t.next s (bitarray2dec ((bits.drop (i * t.k)).take t.k)), j + 1,
        (pre ++ toBits t.n (t.out s (bitarray2dec ((bits.drop (i * t.k)).take t.k)))) ++ List.replicate (R - t.n) 0) := by
  have e1 := tableGet_ok (tbl := t.outTable) h.out_len (fun r hr => (h.out_row r hr).1) hs hu
  have e2 := tableGet_ok (tbl := t.nextTable) h.next_len (fun r hr => (h.next_row r hr).1) hs hu
  have e3 := dec2bitarray_ok (h.out_lt hs hu)
  have e4 := npSliceWrite_tail pre (toBits t.n (t.out s (bitarray2dec ((bits.drop (i * t.k)).take t.k)))) R
    (j * t.n) ((j + 1) * t.n) hp.symm (by simp [Nat.add_mul]) (by simpa using hR)
  rw [toBits_length] at e4
  simp only [encStep, e1, e2, bind, Except.bind]
  rw [show ((t.outTable.getD s []).getD (bitarray2dec ((bits.drop (i * t.k)).take t.k)) 0) =
    t.out s (bitarray2dec ((bits.drop (i * t.k)).take t.k)) from rfl, e3]
  simp only [e4, pure, Except.pure]
  rfl

theorem encLoop_ok {t : Trellis} (h : t.WF) {bits : List Nat} : ∀ (is : List Nat) (s j R : Nat) (pre : List Nat),
    s < 2 ^ t.M → (∀ i ∈ is, bitarray2dec ((bits.drop (i * t.k)).take t.k) < 2 ^ t.k) → pre.length = j * t.n →
    is.length * t.n ≤ R →
    is.foldlM (encStep t bits) (s, j, pre ++ List.replicate R 0) =
      .ok (t.runState s (is.map fun i => bitarray2dec ((bits.drop (i * t.k)).take t.k)), j + is.length,
        (pre ++ t.runOut s (is.map fun i => bitarray2dec ((bits.drop (i * t.k)).take t.k))) ++
          List.replicate (R - is.length * t.n) 0) := by
  intro is
  induction is with
  | nil =>
    intro s j R pre _ _ _ _
    simp [Trellis.runState, Trellis.runOut, pure, Except.pure]
  | cons i is ih =>
    intro s j R pre hs hu hp hR
    have hR' : t.n + is.length * t.n ≤ R := by
      rw [List.length_cons, Nat.succ_mul] at hR; omega
    rw [List.foldlM_cons, encStep_ok h hs (hu i (by simp)) hp (by omega)]
    simp only [bind, Except.bind]
    rw [ih _ (j + 1) (R - t.n) _ (h.next_lt hs (hu i (by simp))) (fun i' hi' => hu i' (by simp [hi']))
      (by simp [hp, Nat.add_mul]) (by omega)]
    simp only [List.map_cons, Trellis.runState_cons, Trellis.runOut, List.append_assoc, List.length_cons]
    rw [show R - t.n - is.length * t.n = R - (is.length + 1) * t.n by rw [Nat.add_mul]; omega,
      show j + 1 + is.length = j + (is.length + 1) by omega]

/-- The bits fed to the encoder in the main loop. -/
theorem encInput_fst (t : Trellis) (msg : List Nat) (term : String) :
    (encInput t msg term).1 =
      if term = "cont" ∨ t.rsc = true then msg else msg ++ List.replicate (t.M + t.M % t.k) 0 := by
  unfold encInput
  by_cases h1 : term = "cont"
  · simp [h1]
  · by_cases h2 : t.rsc = true <;> simp [h1, h2]

theorem encInput_lt_two {t : Trellis} {msg : List Nat} (hb : ∀ b ∈ msg, b < 2) (term : String) :
    ∀ b ∈ (encInput t msg term).1, b < 2 := by
  rw [encInput_fst]
  split
  · exact hb
  · intro b hbm
    rw [List.mem_append] at hbm
    rcases hbm with hbm | hbm
    · exact hb b hbm
    · have := List.eq_of_mem_replicate hbm; omega

/-- Number of bits from which the output length is computed. -/
theorem encInput_snd (t : Trellis) (msg : List Nat) (term : String) :
    (encInput t msg term).2 =
      if term = "cont" then msg.length else if t.rsc = true then msg.length + t.k * t.M
      else msg.length + (t.M + t.M % t.k) := by
  unfold encInput
  by_cases h1 : term = "cont"
  · simp [h1]
  · by_cases h2 : t.rsc = true <;> simp [h1, h2]; omega

/-- The encoder without the recursive tail. -/
theorem convEncodeRun_main {t : Trellis} (h : t.WF) {outLen : Nat → Nat} {msg : List Nat} (hb : ∀ b ∈ msg, b < 2)
    {term : String} (hr : ¬ (t.rsc = true ∧ term = "term"))
    (ho : (encInput t msg term).1.length / t.k * t.n ≤ outLen (encInput t msg term).2) :
    convEncodeRun outLen t msg term =
      .ok (t.runState 0 (inSyms t.k (encInput t msg term).1),
        t.runOut 0 (inSyms t.k (encInput t msg term).1) ++
          List.replicate (outLen (encInput t msg term).2 - (encInput t msg term).1.length / t.k * t.n) 0) := by
  have hk := h.k_pos
  have hl := encLoop_ok h (bits := (encInput t msg term).1) (List.range ((encInput t msg term).1.length / t.k)) 0 0
    (outLen (encInput t msg term).2) [] (by positivity)
    (fun i _ => bitarray2dec_group_lt (encInput_lt_two hb term) _ _) (by simp) (by simpa using ho)
  simp only [List.nil_append, List.length_range] at hl
  simp only [convEncodeRun]
  rw [if_neg (by omega)]
  simp only [hl, bind, Except.bind]
  rw [if_neg hr]
  rfl

/-- The encoder with the recursive tail. -/
theorem convEncodeRun_rsc {t : Trellis} (h : t.WF) {outLen : Nat → Nat} {msg : List Nat} (hb : ∀ b ∈ msg, b < 2)
    (hr : t.rsc = true)
    (ho : (msg.length / t.k + t.M) * t.n ≤ outLen (msg.length + t.k * t.M)) :
    convEncodeRun outLen t msg "term" =
      let s := t.runState 0 (inSyms t.k msg)
      let tail := (List.range t.M).map fun i =>
        bitarray2dec (((toBits t.M s).reverse.drop (i * t.k)).take t.k)
      .ok (t.runState s tail, t.runOut 0 (inSyms t.k msg ++ tail) ++
        List.replicate (outLen (msg.length + t.k * t.M) - (msg.length / t.k + t.M) * t.n) 0) := by
  have hk := h.k_pos
  have e1 : (encInput t msg "term").1 = msg := by rw [encInput_fst]; simp [hr]
  have e2 : (encInput t msg "term").2 = msg.length + t.k * t.M := by rw [encInput_snd]; simp [hr]
  have hl := encLoop_ok h (bits := msg) (List.range (msg.length / t.k)) 0 0
    (outLen (msg.length + t.k * t.M)) [] (by positivity)
    (fun i _ => bitarray2dec_group_lt hb _ _) (by simp) (by
      rw [List.length_range]; exact le_trans (Nat.mul_le_mul_right _ (Nat.le_add_right _ _)) ho)
  simp only [List.nil_append, List.length_range] at hl
  set s := t.runState 0 (inSyms t.k msg) with hs
  have hslt : s < 2 ^ t.M := h.runState_lt (by positivity) (inSyms_lt hb t.k)
  have hl2 := encLoop_ok h (bits := (toBits t.M s).reverse) (List.range t.M) s (0 + msg.length / t.k)
    (outLen (msg.length + t.k * t.M) - msg.length / t.k * t.n) (t.runOut 0 (inSyms t.k msg)) hslt
    (fun i _ => bitarray2dec_group_lt (fun b hb => toBits_lt_two (List.mem_reverse.1 hb)) _ _) (by simp) (by
      rw [List.length_range]; rw [Nat.add_mul] at ho; omega)
  rw [List.length_range] at hl2
  simp only [convEncodeRun, e1, e2]
  rw [if_neg (by omega)]
  simp only [hl, bind, Except.bind]
  rw [if_pos ⟨hr, trivial⟩]
  have e3 : dec2bitarray (t.runState 0 ((List.range (msg.length / t.k)).map fun i =>
      bitarray2dec ((msg.drop (i * t.k)).take t.k))) t.M = .ok (toBits t.M s) := by
    rw [← dec2bitarray_ok hslt, hs]; rfl
  rw [e3]
  simp only
  have e4 : (t.runState 0 ((List.range (msg.length / t.k)).map fun i =>
      bitarray2dec ((msg.drop (i * t.k)).take t.k))) = s := rfl
  rw [e4]
  change ((List.range t.M).foldlM (encStep t (toBits t.M s).reverse) (s, 0 + msg.length / t.k,
    t.runOut 0 (inSyms t.k msg) ++ List.replicate _ 0)).bind _ = _
  rw [hl2]
  simp only [Except.bind, pure, Except.pure]
  rw [Trellis.runOut_append, ← hs]
  congr 3
  congr 1
  rw [Nat.add_mul]; omega

/-! ### The puncturing loop -/

theorem punctLoop_aux {row out : List Nat} (hr : row ≠ []) : ∀ m, m ≤ out.length →
    (List.range m).foldlM (fun (st : Nat × List Nat) i => do
      if row.length = 0 then .error .zeroDivisionError else
      let b ← pyGet row ((i % row.length : Nat) : Int)
      if b = 1 then
        let p ← pySet st.2 (st.1 : Int) (out.getD i 0)
        pure (st.1 + 1, p)
      else pure st) (0, List.replicate out.length 0) =
    (.ok ((((List.range m).filter fun i => row.getD (i % row.length) 0 = 1).length),
      (((List.range m).filter fun i => row.getD (i % row.length) 0 = 1).map fun i => out.getD i 0) ++
        List.replicate (out.length - ((List.range m).filter fun i => row.getD (i % row.length) 0 = 1).length) 0) :
      Py (Nat × List Nat)) := by
  have hpos : 0 < row.length := List.length_pos_of_ne_nil hr
  intro m
  induction m with
  | zero => intro _; simp [pure, Except.pure]
  | succ m ih =>
    intro hm
    rw [List.range_succ, List.foldlM_append, ih (by omega)]
    simp only [bind, Except.bind, List.foldlM_cons, List.foldlM_nil]
    rw [if_neg (by omega)]
    have hlt : m % row.length < row.length := Nat.mod_lt _ hpos
    rw [pyGet_ok hlt]
    simp only
    rw [List.filter_append]
    have hle : ((List.range m).filter fun i => row.getD (i % row.length) 0 = 1).length ≤ m := by
      calc _ ≤ (List.range m).length := List.length_filter_le _ _
        _ = m := List.length_range
    by_cases hb : row[m % row.length] = 1
    · rw [if_pos hb]
      have hb' : row.getD (m % row.length) 0 = 1 := by rw [List.getD_eq_getElem _ _ hlt]; exact hb
      rw [pySet_ok _ (by rw [List.length_append, List.length_map, List.length_replicate]; omega)]
      simp only [pure, Except.pure, List.filter_cons, hb', List.filter_nil, decide_true, if_true, List.length_append,
        List.length_cons, List.length_nil, List.map_append, List.map_cons, List.map_nil]
      congr 2
      rw [List.set_append_right _ _ (by simp)]
      simp only [List.length_map, Nat.sub_self]
      obtain ⟨q, hq⟩ : ∃ q, out.length -
          ((List.range m).filter fun i => row.getD (i % row.length) 0 = 1).length = q + 1 :=
        ⟨out.length - ((List.range m).filter fun i => row.getD (i % row.length) 0 = 1).length - 1, by omega⟩
      rw [hq, List.replicate_succ, List.set_cons_zero]
      rw [show out.length - (((List.range m).filter fun i => row.getD (i % row.length) 0 = 1).length + (0 + 1)) = q by
        omega]
      simp
    · rw [if_neg hb]
      have hb' : ¬ row.getD (m % row.length) 0 = 1 := by rw [List.getD_eq_getElem _ _ hlt]; exact hb
      simp only [pure, Except.pure, List.filter_cons, hb', List.filter_nil, decide_false, List.append_nil]
      simp

theorem punctLoop_eq {row : List Nat} (hr : row ≠ []) (out : List Nat) :
    punctLoop row out =
      .ok (punctSelected row out ++ List.replicate (out.length - (punctSelected row out).length) 0) := by
  unfold punctLoop
  rw [punctLoop_aux hr _ (le_refl _)]
  simp [bind, Except.bind, pure, Except.pure, punctSelected]

theorem punctSelected_ones {n : Nat} (hn : 0 < n) (out : List Nat) :
    punctSelected (List.replicate n 1) out = out := by
  have : ((List.range out.length).filter fun i =>
      (List.replicate n 1).getD (i % (List.replicate n 1).length) 0 = 1) = List.range out.length := by
    rw [List.filter_eq_self]
    intro i _
    have : i % n < n := Nat.mod_lt _ hn
    rw [List.length_replicate, List.getD_eq_getElem _ _ (by simpa using this)]
    simp
  unfold punctSelected
  rw [this]
  apply List.ext_getElem (by simp)
  intro i h1 h2
  simp only [List.getElem_map, List.getElem_range]
  rw [List.getD_eq_getElem _ _ h2]

/-- Without a puncture matrix `conv_encode` returns the encoded bits unchanged. -/
theorem convEncode_none {t : Trellis} (hk : 0 < t.k) (hn : 0 < t.n) (outLen : Nat → Nat) (msg : List Nat) (term : String) :
    convEncode outLen t msg term none = (convEncodeRun outLen t msg term).map Prod.snd := by
  unfold convEncode
  have h0 : pyGet ((none : Option (List (List Nat))).getD (List.replicate t.k (List.replicate t.n 1))) 0 =
      .ok (List.replicate t.n 1) := by
    have : 0 < (List.replicate t.k (List.replicate t.n 1)).length := by simpa using hk
    rw [Option.getD_none]
    have := pyGet_ok this
    simpa using this
  cases hc : convEncodeRun outLen t msg term with
  | error e => simp [bind, Except.bind, Except.map]
  | ok r =>
    simp only [bind, Except.bind, h0]
    rw [punctLoop_eq (by simp; omega), punctSelected_ones hn]
    simp [Except.map]

end Verif
