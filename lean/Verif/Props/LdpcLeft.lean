import Verif.Model.LdpcLeft
import Verif.Props.LdpcBp
/-
C130: which numbers of LLRs `ldpc_bp_decode` accepts; C89: sum-product with an LLR of 0.
-/
namespace Verif

variable (nanSign : NanSigns)

theorem bpLoop_error {ns : Nat → Nat → Bool} {alg : BpAlg} (ha : alg ≠ .other) {H : Checks} {llr : Nat → ℝ} : ∀ (n k : Nat) (st : BpState) (e : PyErr),
    bpLoop ns alg H llr n k st = .error e → e = .valueError := by
  intro n
  induction n with
  | zero => intro k st e h; cases h
  | succ n ih =>
    intro k st e h
    simp only [bpLoop] at h
    by_cases hs : syndromeOk H st.dec = true
    · rw [if_pos hs] at h; cases h
    · rw [if_neg hs] at h
      have hc : ∀ e, checkUpdate alg H st.msg = .error e → e = .valueError := by
        intro e h
        cases alg with
        | spa => cases h
        | msa =>
          simp only [checkUpdate] at h
          split at h
          · cases h; rfl
          · cases h
        | other => exact absurd rfl ha
      rcases hcu : checkUpdate alg H st.msg with e' | m
      · simp only [bpIter, hcu, bind, Except.bind] at h
        cases h
        exact hc _ hcu
      · simp only [bpIter, hcu, bind, Except.bind, pure, Except.pure] at h
        exact ih _ _ _ h

theorem bpBlock_error {ns : Nat → Nat → Bool} {alg : BpAlg} (ha : alg ≠ .other) {H : Checks} {nv n : Nat} {llr : List ℝ} {e : PyErr}
    (h : bpBlock ns alg H nv n llr = .error e) : e = .valueError := by
  simp only [bpBlock] at h
  rcases hl : bpLoop ns alg H (fun v => llr.getD v 0) n 0 (bpInit (fun v => llr.getD v 0)) with e' | st
  · rw [hl] at h
    cases h
    exact bpLoop_error ha _ _ _ _ hl
  · rw [hl] at h; cases h

theorem mapM_left_error {α β : Type} {f : α → Py β} {e : PyErr} (h : ∀ a e', f a = .error e' → e' = e) : ∀ (l : List α) (e' : PyErr), l.mapM f = .error e' → e' = e := by
  intro l
  induction l with
  | nil => intro e' h'; cases h'
  | cons a l ih =>
    intro e' h'
    rw [List.mapM_cons] at h'
    rcases ha : f a with e1 | b
    · rw [ha] at h'; cases h'; exact h a _ ha
    · rw [ha] at h'
      rcases hl : l.mapM f with e1 | bs
      · simp only [hl, bind, Except.bind] at h'; cases h'; exact ih _ hl
      · simp only [hl, bind, Except.bind] at h'; cases h'

/-- C130: whole blocks are decoded as the other theorems say. -/
theorem C130_whole (alg : BpAlg) (H : Checks) (nv n : Nat) (llrs : List ℝ) (hnv : 0 < nv) (h : nv ∣ llrs.length) (oneLeft : Py (List (List Bool × List (Option ℝ)))) :
    bpDecodeAny nanSign alg H nv n llrs = bpDecode nanSign oneLeft alg H nv n llrs := by
  have h0 : llrs.length % nv = 0 := Nat.mod_eq_zero_of_dvd h
  simp only [bpDecodeAny, bpDecode]
  rw [if_neg (by omega), if_neg (by omega)]
  congr 1
  funext blocks
  have e : ¬ (llrs.length % nv = 1 ∧ nv ≠ 1) := by omega
  simp only [e, if_false]

/-- C130: every other number of LLRs, except one more than a block, is refused with a ValueError (no LLR at all too). -/
theorem C130_refused_partial (alg : BpAlg) (ha : alg ≠ .other) (H : Checks) (nv n : Nat) (llrs : List ℝ) (h : ¬ nv ∣ llrs.length ∨ llrs = []) (h1 : llrs.length ≠ nv + 1) :
    bpDecodeAny nanSign alg H nv n llrs = .error .valueError := by
  simp only [bpDecodeAny, bpDecode]
  by_cases hnv : nv = 0
  · rw [if_pos hnv]; rfl
  rw [if_neg hnv]
  set f := fun b => bpBlock (nanSign b) alg H nv n (((llrs.map (clipR llrMax)).drop (b * nv)).take nv) with hf
  have herr : ∀ e, (List.range (llrs.length / nv)).mapM f = .error e → e = .valueError :=
    mapM_left_error (fun b e' h' => bpBlock_error ha h') _
  rcases hm : (List.range (llrs.length / nv)).mapM f with e | bs
  · have := herr e hm
    subst this
    rfl
  have hlen : bs.length = llrs.length / nv := by
    have := (mapM_getElem_ok hm).1
    rw [List.length_range] at this
    exact this
  simp only [bind, Except.bind, pure, Except.pure]
  by_cases h2 : llrs.length % nv = 1 ∧ nv ≠ 1
  · rw [if_pos h2]
    have : oneLeftOver nanSign alg H nv n llrs = .error .valueError := by
      simp only [oneLeftOver]
      rw [← hf, hm]
      simp only [bind, Except.bind, pure, Except.pure]
      by_cases h3 : n ≠ 0 ∧ syndromeOk H (fun _ => decide ((llrs.map (clipR llrMax)).getD (llrs.length / nv * nv) 0 < 0)) = false
      · rw [if_pos h3]
      · rw [if_neg h3]
        have hq : bs.length ≠ 1 := by
          intro hb
          rw [hlen] at hb
          have := Nat.div_add_mod llrs.length nv
          rw [hb, h2.1, mul_one] at this
          exact h1 this.symm
        match bs, hq with
        | [], _ => rfl
        | [_], hq => exact absurd rfl hq
        | _ :: _ :: _, _ => rfl
    rw [this]
  · rw [if_neg h2]
    by_cases h3 : llrs.length % nv ≠ 0
    · rw [if_pos h3]
    · rw [if_neg h3]
      push Not at h3
      rcases h with h | h
      · exact absurd (Nat.dvd_of_mod_eq_zero h3) h
      · rw [if_pos h]

theorem left_eq (alg : BpAlg) (H : Checks) (nv n : Nat) (hnv : 2 ≤ nv) (block : List ℝ) (hl : block.length = nv) (x : ℝ)
    (oneLeft : Py (List (List Bool × List (Option ℝ)))) (d : List Bool) (o : List (Option ℝ)) (arr : List ℝ)
    (h : bpDecode nanSign oneLeft alg H nv n block = .ok ([(d, o)], arr)) :
    bpDecodeAny nanSign alg H nv n (block ++ [x]) =
      if n ≠ 0 ∧ syndromeOk H (fun _ => decide (clipR llrMax x < 0)) = false then .error (if alg = .other then .nameError else .valueError)
      else .ok ([(d ++ [decide (clipR llrMax x < 0)], o ++ [some (clipR llrMax x)])], arr ++ [clipR llrMax x]) := by
  have hne : block ≠ [] := by rintro rfl; simp at hl; omega
  rw [bpDecode_eq nanSign oneLeft alg H nv n 1 block (by omega) (by omega) hne] at h
  simp only [List.range_one, List.mapM_cons, List.mapM_nil, Nat.zero_mul, List.drop_zero] at h
  have hq : (block ++ [x]).length / nv = 1 := by
    rw [List.length_append, hl, List.length_singleton, Nat.add_div_left _ (by omega), Nat.div_eq_of_lt (by omega)]
  have hr : (block ++ [x]).length % nv = 1 := by
    rw [List.length_append, hl, List.length_singleton, Nat.add_mod_left, Nat.mod_eq_of_lt (by omega)]
  have ht : List.take nv (List.map (clipR llrMax) (block ++ [x])) = List.take nv (List.map (clipR llrMax) block) := by
    rw [List.map_append, List.take_append_of_le_length (by rw [List.length_map, hl])]
  have hx : (List.map (clipR llrMax) (block ++ [x])).getD (1 * nv) 0 = clipR llrMax x := by
    rw [List.map_append, one_mul, List.getD_append_right _ _ _ _ (by rw [List.length_map, hl]), List.length_map, hl]
    simp
  rcases hb : bpBlock (nanSign 0) alg H nv n (List.take nv (List.map (clipR llrMax) block)) with e | r
  · rw [hb] at h; cases h
  rw [hb] at h
  obtain ⟨d', o'⟩ := r
  cases h
  have hblk : (List.range ((block ++ [x]).length / nv)).mapM (fun b => bpBlock (nanSign b) alg H nv n (((List.map (clipR llrMax) (block ++ [x])).drop (b * nv)).take nv)) =
      .ok [(d, o)] := by
    rw [hq]
    simp only [List.range_one, List.mapM_cons, List.mapM_nil, Nat.zero_mul, List.drop_zero]
    rw [ht, hb]
    rfl
  simp only [bpDecodeAny, bpDecode]
  rw [if_neg (by omega), hblk]
  simp only [bind, Except.bind, pure, Except.pure]
  rw [if_pos ⟨hr, by omega⟩]
  have hone : oneLeftOver nanSign alg H nv n (block ++ [x]) =
      if n ≠ 0 ∧ syndromeOk H (fun _ => decide (clipR llrMax x < 0)) = false then .error (if alg = .other then .nameError else .valueError)
      else .ok [(d ++ [decide (clipR llrMax x < 0)], o ++ [some (clipR llrMax x)])] := by
    simp only [oneLeftOver]
    rw [hblk, hq, hx]
    simp only [bind, Except.bind, pure, Except.pure]
    cases alg <;> rfl
  rw [hone]
  by_cases hc : n ≠ 0 ∧ syndromeOk H (fun _ => decide (clipR llrMax x < 0)) = false
  · rw [if_pos hc, if_pos hc]
  · rw [if_neg hc, if_neg hc]
    simp only [List.map_append, List.map_cons, List.map_nil]

/-- C130 as expected (every length that is no multiple of the block length is refused) is false: exactly one extra LLR that is not negative is accepted
after one block, for every code, algorithm and number of iterations, and gives one more bit. -/
theorem C130_refuted (alg : BpAlg) (H : Checks) (nv n : Nat) (hnv : 2 ≤ nv) (block : List ℝ) (hl : block.length = nv) (x : ℝ) (hx : 0 ≤ x)
    (oneLeft : Py (List (List Bool × List (Option ℝ)))) (d : List Bool) (o : List (Option ℝ)) (arr : List ℝ)
    (h : bpDecode nanSign oneLeft alg H nv n block = .ok ([(d, o)], arr)) :
    bpDecodeAny nanSign alg H nv n (block ++ [x]) = .ok ([(d ++ [false], o ++ [some (min 500 x)])], arr ++ [min 500 x]) := by
  have hc : clipR llrMax x = min 500 x := by
    unfold clipR llrMax
    exact max_eq_right (by linarith [le_min (by norm_num : (0 : ℝ) ≤ 500) hx])
  have h0 : ¬ min 500 x < 0 := not_lt.2 (le_min (by norm_num) hx)
  rw [left_eq nanSign alg H nv n hnv block hl x oneLeft d o arr h, hc, if_neg]
  · simp only [h0, decide_false]
  · rintro ⟨-, hs⟩
    have : syndromeOk H (fun _ => decide (min 500 x < 0)) = true := by
      rw [syndromeOk_iff]
      intro ns _
      simp [h0]
    rw [this] at hs
    cases hs

/-- C130: one extra negative LLR is accepted exactly if no iteration is asked for or every check has an even number of bits. -/
theorem C130_negative (alg : BpAlg) (ha : alg ≠ .other) (H : Checks) (nv n : Nat) (hnv : 2 ≤ nv) (block : List ℝ) (hl : block.length = nv) (x : ℝ) (hx : x < 0)
    (oneLeft : Py (List (List Bool × List (Option ℝ)))) (d : List Bool) (o : List (Option ℝ)) (arr : List ℝ)
    (h : bpDecode nanSign oneLeft alg H nv n block = .ok ([(d, o)], arr)) :
    bpDecodeAny nanSign alg H nv n (block ++ [x]) =
      if n = 0 ∨ ∀ ns ∈ H, Even ns.length then .ok ([(d ++ [true], o ++ [some (max (-500) x)])], arr ++ [max (-500) x]) else .error .valueError := by
  have hc : clipR llrMax x = max (-500) x := by
    unfold clipR llrMax
    rw [min_eq_right (by linarith)]
  have h0 : max (-500) x < 0 := max_lt (by norm_num) hx
  rw [left_eq nanSign alg H nv n hnv block hl x oneLeft d o arr h, hc]
  have hs : syndromeOk H (fun _ => decide (max (-500) x < 0)) = true ↔ ∀ ns ∈ H, Even ns.length := by
    rw [syndromeOk_iff]
    unfold ChecksHold
    refine forall₂_congr fun ns _ => ?_
    simp only [h0, decide_true, List.countP_true]
    exact even_iff_two_dvd.symm
  by_cases hn : n = 0 ∨ ∀ ns ∈ H, Even ns.length
  · rw [if_pos hn, if_neg]
    · simp only [h0, decide_true]
    · rintro ⟨h1, h2⟩
      rcases hn with hn | hn
      · exact h1 hn
      · rw [hs.2 hn] at h2; cases h2
  · rw [if_neg hn, if_pos, if_neg ha]
    push Not at hn
    refine ⟨hn.1, ?_⟩
    rw [← Bool.not_eq_true, hs]
    push Not
    exact hn.2

/-! ### C89: sum-product with an LLR of 0 -/

/-- `u` can be reached from `v` in `k` steps, each from a bit to a bit of the same check. -/
inductive Hops (H : Checks) (v : Nat) : Nat → Nat → Prop
  | start : Hops H v 0 v
  | step {k u w : Nat} {ns : List Nat} : Hops H v k u → ns ∈ H → u ∈ ns → w ∈ ns → Hops H v (k + 1) w

/-- All the messages and the output of the bits within `j` steps of `v` are nan. -/
def NanUpTo (H : Checks) (v j : Nat) (st : BpState) : Prop :=
  ∀ i ≤ j, ∀ u, Hops H v i u → st.out u = none ∧ ∀ c < H.length, u ∈ H.getD c [] → st.msg c u = none

theorem nanSum_none : ∀ (l : List (Option ℝ)), none ∈ l → nanSum l = none := by
  intro l
  induction l with
  | nil => intro h; cases h
  | cons a l ih =>
    intro h
    rcases a with _ | a
    · simp [nanSum, List.mapM_cons]
    · have h' : none ∈ l := by
        rcases List.mem_cons.1 h with h | h
        · cases h
        · exact h
      have := ih h'
      unfold nanSum at this ⊢
      rw [List.mapM_cons]
      rcases hl : l.mapM id with _ | bs
      · simp [hl]
      · rw [hl] at this; cases this

theorem mapM_none {x : Nat → Option ℝ} : ∀ (l : List Nat) (v : Nat), v ∈ l → x v = none → l.mapM x = none := by
  intro l
  induction l with
  | nil => intro v h; cases h
  | cons a l ih =>
    intro v h hx
    rw [List.mapM_cons]
    rcases List.mem_cons.1 h with h | h
    · subst h; rw [hx]; rfl
    · rcases x a with _ | b
      · rfl
      · rw [ih v h hx]; rfl

theorem spaRow_nan {ns : List Nat} {x : Nat → Option ℝ} {v u : Nat} (h : v ∈ ns) (hx : x v = none) : spaRow ns x u = none := by
  simp only [spaRow, mapM_none ns v h hx]

theorem spaRow_zero {ns : List Nat} {x : Nat → Option ℝ} {v : Nat} (hx : x v = some 0) : spaRow ns x v = none := by
  simp only [spaRow, hx]
  rcases ns.mapM x with _ | l
  · rfl
  · simp

theorem iter_nan {ns : Nat → Nat → Bool} {H : Checks} {llr : Nat → ℝ} {k : Nat} {st st' : BpState} (h : bpIter ns .spa H llr k st = .ok st')
    {u c : Nat} (hc : c < H.length) (hu : u ∈ H.getD c []) (hn : spaRow (H.getD c []) (st.msg c) u = none) :
    st'.out u = none ∧ ∀ c < H.length, u ∈ H.getD c [] → st'.msg c u = none := by
  simp only [bpIter, checkUpdate, bind, Except.bind, pure, Except.pure] at h
  cases h
  have ht : totalLlr H llr (fun c v => spaRow (H.getD c []) (st.msg c) v) u = none := by
    unfold totalLlr
    rw [nanSum_none]
    · rfl
    · refine List.mem_map.2 ⟨c, ?_, hn⟩
      unfold checksOf
      exact List.mem_filter.2 ⟨List.mem_range.2 hc, by simpa using hu⟩
  refine ⟨ht, fun c' hc' hu' => ?_⟩
  dsimp only
  rw [ht]
  cases spaRow (H.getD c' []) (st.msg c') u <;> rfl

theorem iter_spreads {ns : Nat → Nat → Bool} {H : Checks} {llr : Nat → ℝ} {k : Nat} {st st' : BpState} (h : bpIter ns .spa H llr k st = .ok st')
    {v j : Nat} (hv : ∃ c < H.length, v ∈ H.getD c []) (hi : NanUpTo H v j st) : NanUpTo H v (j + 1) st' := by
  intro i hij u hu
  cases hu with
  | start =>
    obtain ⟨c, hc, hvc⟩ := hv
    exact iter_nan h hc hvc (spaRow_nan hvc ((hi 0 (by omega) v .start).2 c hc hvc))
  | step hw hns huw hw' =>
    rename_i i w ns
    obtain ⟨c, hc, rfl⟩ := List.getElem_of_mem hns
    rw [← List.getD_eq_getElem _ [] hc] at huw hw'
    exact iter_nan h hc hw' (spaRow_nan huw ((hi i (by omega) w hw).2 c hc huw))

theorem NanUpTo.mono {H : Checks} {v j j' : Nat} {st : BpState} (h : NanUpTo H v j' st) (hj : j ≤ j') : NanUpTo H v j st :=
  fun i hi u hu => h i (by omega) u hu

theorem loop_spreads {ns : Nat → Nat → Bool} {H : Checks} {llr : Nat → ℝ} {v : Nat} (hv : ∃ c < H.length, v ∈ H.getD c []) :
    ∀ (n k j : Nat) (st st' : BpState), bpLoop ns .spa H llr n k st = .ok st' → NanUpTo H v j st →
      NanUpTo H v j st' ∧ (syndromeOk H st'.dec = false → NanUpTo H v (j + n) st') := by
  intro n
  induction n with
  | zero => intro k j st st' h hi; cases h; exact ⟨hi, fun _ => hi⟩
  | succ n ih =>
    intro k j st st' h hi
    simp only [bpLoop] at h
    by_cases hs : syndromeOk H st.dec = true
    · rw [if_pos hs] at h
      cases h
      refine ⟨hi, fun h' => ?_⟩
      rw [hs] at h'; cases h'
    · rw [if_neg hs] at h
      rcases hit : bpIter ns .spa H llr k st with e | st1
      · rw [hit] at h; cases h
      · rw [hit] at h
        have h2 := ih (k + 1) (j + 1) st1 st' h (iter_spreads hit hv hi)
        refine ⟨h2.1.mono (by omega), fun h' => ?_⟩
        have := h2.2 h'
        rwa [show j + (n + 1) = j + 1 + n by omega]

/-- C89, sum-product with an erased bit: if the signs of the LLRs do not satisfy the checks, the output LLR of an erased bit (LLR 0) is nan, whatever
the other LLRs, and stays nan.  If in addition the decisions returned do not satisfy the checks, every bit within `n - 1` steps of it is nan. -/
theorem C89_zero_nan (oneLeft : Py (List (List Bool × List (Option ℝ)))) (H : Checks) (nv n : Nat) (llrs : List ℝ) (hnv : 0 < nv) (hl : llrs.length = nv)
    (hH : GoodChecks H nv) (hn : 0 < n) (hcw : ¬ ChecksHold H (fun v => llrs.getD v 0 < 0)) (v : Nat) (hv : ∃ ns ∈ H, v ∈ ns) (h0 : llrs.getD v 0 = 0) :
    ∃ dec out, bpDecode nanSign oneLeft .spa H nv n llrs = .ok ([(dec, out)], llrs.map (clipR llrMax)) ∧
      out.getD v (some 0) = none ∧
      (¬ ChecksHold H (fun u => dec.getD u false) → ∀ k < n, ∀ u, Hops H v k u → out.getD u (some 0) = none) := by
  have hne : llrs ≠ [] := by rintro rfl; simp at hl; omega
  have hs : syndromeOk H (bpInit (clippedLlr llrs)).dec ≠ true := by
    intro h
    refine hcw fun ns hns => ?_
    have := (syndromeOk_iff _ _).1 h ns hns
    rw [List.countP_congr (q := (bpInit (clippedLlr llrs)).dec)]
    · exact this
    · intro v hv
      show decide _ = true ↔ decide (clippedLlr llrs v < 0) = true
      rw [decide_eq_true_iff, decide_eq_true_iff]
      exact (clipR_neg_iff _).symm
  obtain ⟨n, rfl⟩ : ∃ m, n = m + 1 := ⟨n - 1, by omega⟩
  have hfun : (fun v => (List.take nv (List.map (clipR llrMax) llrs)).getD v 0) = clippedLlr llrs := by
    funext v
    rw [List.take_of_length_le (by simp [hl]), getD_map_clip]
    rfl
  have hok : ∀ (m k : Nat) (st : BpState), ∃ st', bpLoop (nanSign 0) .spa H (clippedLlr llrs) m k st = .ok st' := by
    intro m
    induction m with
    | zero => intro k st; exact ⟨_, rfl⟩
    | succ m ih =>
      intro k st
      simp only [bpLoop]
      by_cases h : syndromeOk H st.dec = true
      · rw [if_pos h]; exact ⟨_, rfl⟩
      · rw [if_neg h]
        exact ih (k + 1) _
  have hit : ∃ st1, bpIter (nanSign 0) .spa H (clippedLlr llrs) 0 (bpInit (clippedLlr llrs)) = .ok st1 := ⟨_, rfl⟩
  obtain ⟨st1, hst1⟩ := hit
  obtain ⟨st, hst⟩ := hok n 1 st1
  obtain ⟨ns, hns, hvns⟩ := hv
  obtain ⟨c, hc, rfl⟩ := List.getElem_of_mem hns
  rw [← List.getD_eq_getElem _ [] hc] at hvns
  have hvc : ∃ c < H.length, v ∈ H.getD c [] := ⟨c, hc, hvns⟩
  have hz : clippedLlr llrs v = 0 := by
    unfold clippedLlr
    rw [h0]
    norm_num [clipR, llrMax]
  have h1 : NanUpTo H v 0 st1 := by
    intro i hi u hu
    obtain rfl : i = 0 := by omega
    cases hu
    refine iter_nan hst1 hc hvns (spaRow_zero ?_)
    show some (clippedLlr llrs v) = _
    rw [hz]
  have h2 := loop_spreads hvc n 1 0 st1 st hst h1
  have hmem : ∀ k u, Hops H v k u → u < nv := by
    intro k u hu
    cases hu with
    | start => exact (hH _ (getD_mem hc)).2 v hvns
    | step _ hns _ hw => exact (hH _ hns).2 _ hw
  have hget : ∀ u < nv, ((List.range nv).map st.out).getD u (some 0) = st.out u := by
    intro u hu
    rw [List.getD_eq_getElem _ _ (by simpa using hu)]
    simp
  refine ⟨(List.range nv).map st.dec, (List.range nv).map st.out, ?_, ?_, ?_⟩
  · rw [bpDecode_eq nanSign oneLeft .spa H nv _ 1 llrs hnv (by omega) hne]
    simp only [List.range_one, List.mapM_cons, List.mapM_nil, Nat.zero_mul, List.drop_zero, bpBlock]
    rw [hfun]
    simp only [bpLoop]
    rw [if_neg hs, hst1]
    simp only [bind, Except.bind, pure, Except.pure, Nat.zero_add, hst]
  · rw [hget v (hmem 0 v .start)]
    exact (h2.1 0 le_rfl v .start).1
  · intro hcw' k hk u hu
    rw [hget u (hmem k u hu)]
    refine (h2.2 ?_ k (by omega) u hu).1
    rw [← Bool.not_eq_true]
    intro hso
    refine hcw' fun ns hns => ?_
    have := (syndromeOk_iff _ _).1 hso ns hns
    rw [List.countP_congr (q := st.dec)]
    · exact this
    · intro w hw
      dsimp only
      rw [List.getD_eq_getElem _ _ (by simpa using (hH _ hns).2 w hw)]
      simp

/-- For a check of two bits, one erased, the other negative: the erased bit comes out as nan after any number of iterations. -/
example (n : Nat) (hn : 0 < n) (oneLeft : Py (List (List Bool × List (Option ℝ)))) :
    ∃ dec out, bpDecode nanSign oneLeft .spa [[0, 1], [1, 2]] 3 n [0, -5, -7] = .ok ([(dec, out)], [0, -5, -7].map (clipR llrMax)) ∧
      out.getD 0 (some 0) = none ∧ (2 < n → ¬ ChecksHold [[0, 1], [1, 2]] (fun u => dec.getD u false) → out.getD 2 (some 0) = none) := by
  obtain ⟨dec, out, h, h1, h2⟩ := C89_zero_nan nanSign oneLeft [[0, 1], [1, 2]] 3 n [0, -5, -7] (by norm_num) rfl
    (by
      intro ns hns
      simp only [List.mem_cons, List.not_mem_nil, or_false] at hns
      rcases hns with rfl | rfl <;> simp) hn
    (by intro h; have := h [0, 1] (by simp); norm_num [List.countP_cons] at this) 0 ⟨[0, 1], by simp, by simp⟩ rfl
  refine ⟨dec, out, h, h1, fun hn2 hc => h2 hc 2 (by omega) 2 ?_⟩
  exact .step (.step .start (ns := [0, 1]) (u := 0) (w := 1) (by simp) (by simp) (by simp)) (ns := [1, 2]) (by simp) (by simp) (by simp)

/-- One LLR too many: four LLRs for a code of length 3 give four bits. -/
example (oneLeft : Py (List (List Bool × List (Option ℝ)))) :
    ∃ o arr, bpDecodeAny nanSign .msa [[0, 1], [1, 2]] 3 10 ([1, 2, 3] ++ [7]) = .ok ([([false, false, false] ++ [false], o)], arr) := by
  have h := C58_kept nanSign oneLeft .msa [[0, 1], [1, 2]] 3 10 1 [1, 2, 3] (by norm_num) rfl (by simp)
    (by
      intro ns hns
      simp only [List.mem_cons, List.not_mem_nil, or_false] at hns
      rcases hns with rfl | rfl <;> simp)
    (by
      intro b hb ns hns
      obtain rfl : b = 0 := by omega
      simp only [List.mem_cons, List.not_mem_nil, or_false] at hns
      rcases hns with rfl | rfl <;> norm_num [List.countP_cons])
  have hd : (List.range 3).map (fun v => decide (([1, 2, 3] : List ℝ).getD (0 * 3 + v) 0 < 0)) = [false, false, false] := by
    norm_num [List.range_succ]
  rw [List.range_one, List.map_singleton, hd] at h
  exact ⟨_, _, C130_refuted nanSign .msa [[0, 1], [1, 2]] 3 10 (by norm_num) [1, 2, 3] rfl 7 (by norm_num) oneLeft _ _ _ h⟩

/-- Five are refused. -/
example : bpDecodeAny nanSign .msa [[0, 1], [1, 2]] 3 10 [1, 2, 3, 4, 5] = .error .valueError :=
  C130_refused_partial nanSign .msa (by decide) _ _ _ _ (Or.inl (by decide)) (by decide)

end Verif
