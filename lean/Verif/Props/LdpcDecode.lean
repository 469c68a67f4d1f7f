import Verif.Lemmas.Bp
import Verif.Props.LdpcCode
/-
C58, C59, C60, C89: `ldpc_bp_decode` (/repo/commpy/channelcoding/ldpc.py:144-254).
-/
namespace Verif

variable (nanSign : NanSigns) (oneLeft : Py (List (List Bool × List (Option ℝ))))

/-- Checks over `nv` variables, without repeated variables: what a parity check matrix gives. -/
def GoodChecks (H : Checks) (nv : Nat) : Prop := ∀ ns ∈ H, ns.Nodup ∧ ∀ v ∈ ns, v < nv

theorem checksOfRows_good (rows : List (List Int)) (nv : Nat) (h : ∀ r ∈ rows, r.length = nv) : GoodChecks (checksOfRows rows) nv := by
  intro ns hns
  obtain ⟨r, hr, rfl⟩ := List.mem_map.1 hns
  refine ⟨List.Nodup.filter _ List.nodup_range, fun v hv => ?_⟩
  have := List.mem_of_mem_filter hv
  rw [List.mem_range, h r hr] at this
  exact this

/-- The checks are those of the matrix: a word satisfies them iff its syndrome is zero. -/
theorem checksOfRows_syndrome (rows : List (List Int)) (nv : Nat) (h : ∀ r ∈ rows, r.length = nv) (hb : ∀ r ∈ rows, ∀ x ∈ r, x = 0 ∨ x = 1)
    (d : List Bool) (hd : d.length = nv) :
    ChecksHold (checksOfRows rows) (fun v => d.getD v false) ↔ Syndrome0 rows (d.map (fun b => if b then 1 else 0)) := by
  have key : ∀ r ∈ rows, (List.zipWith (· * ·) r (d.map (fun b => if b then (1 : Int) else 0))).sum =
      (((List.range r.length).filter (fun j => r.getD j 0 ≠ 0)).countP (fun v => d.getD v false) : Int) := by
    intro r hr
    have hrb := hb r hr
    have hrl : r.length = d.length := by rw [h r hr, hd]
    clear hr h hb hd
    induction r generalizing d with
    | nil => simp
    | cons x r ih =>
      match d, hrl with
      | b :: d, hrl =>
        have ih' := ih d (fun y hy => hrb y (List.mem_cons_of_mem _ hy)) (by simpa using hrl)
        rw [List.length_cons, List.range_succ_eq_map, List.filter_cons, List.filter_map]
        have e : ((fun j => decide ((x :: r).getD j 0 ≠ 0)) ∘ Nat.succ) = (fun j => decide (r.getD j 0 ≠ 0)) := by
          funext j; simp
        rw [e]
        simp only [List.map_cons, List.zipWith_cons_cons, List.sum_cons]
        rw [ih']
        have e2 : ((List.filter (fun j => decide (r.getD j 0 ≠ 0)) (List.range r.length)).map Nat.succ).countP (fun v => (b :: d).getD v false) =
            (List.filter (fun j => decide (r.getD j 0 ≠ 0)) (List.range r.length)).countP (fun v => d.getD v false) := by
          rw [List.countP_map]
          congr 1
        rcases hrb x (by simp) with rfl | rfl
        · rw [if_neg (c := decide ((0 :: r).getD 0 0 ≠ 0) = true) (by simp), e2]; simp
        · rw [if_pos (c := decide ((1 :: r).getD 0 0 ≠ 0) = true) (by simp), List.countP_cons, e2]
          cases b <;> simp [add_comm]
  simp only [ChecksHold, Syndrome0, checksOfRows, List.forall_mem_map]
  refine forall₂_congr fun r hr => ?_
  rw [key r hr]
  omega

/-! ### C59: blocks are independent -/

theorem mapM_append' {α β : Type} (f : α → Py β) (l1 l2 : List α) :
    (l1 ++ l2).mapM f = (l1.mapM f >>= fun a => l2.mapM f >>= fun b => pure (a ++ b)) := by
  induction l1 with
  | nil =>
    simp only [List.nil_append, List.mapM_nil]
    show _ = (l2.mapM f >>= fun b => pure ([] ++ b))
    simp
  | cons x l ih =>
    rw [List.cons_append, List.mapM_cons, List.mapM_cons, ih]
    rcases f x with e | y
    · rfl
    rcases List.mapM f l with e | ys
    · rfl
    rcases List.mapM f l2 with e | zs <;> rfl

theorem mapM_congr_mem {α β : Type} {f g : α → Py β} {l : List α} (h : ∀ a ∈ l, f a = g a) : l.mapM f = l.mapM g := by
  induction l with
  | nil => rfl
  | cons a l ih =>
    rw [List.mapM_cons, List.mapM_cons, h a (by simp), ih (fun b hb => h b (List.mem_cons_of_mem _ hb))]

/-- C59: decoding the concatenation of two (non-empty) sequences of whole blocks gives the blocks of the two results. -/
theorem C59_blocks (alg : BpAlg) (H : Checks) (nv n : Nat) (l1 l2 : List ℝ) (hnv : 0 < nv) (h1 : nv ∣ l1.length) (h2 : nv ∣ l2.length)
    (n1 : l1 ≠ []) (n2 : l2 ≠ []) :
    bpDecode nanSign oneLeft alg H nv n (l1 ++ l2) =
      (bpDecode nanSign oneLeft alg H nv n l1 >>= fun r1 =>
        bpDecode (fun b => nanSign (b + l1.length / nv)) oneLeft alg H nv n l2 >>= fun r2 => pure (r1.1 ++ r2.1, r1.2 ++ r2.2)) := by
  obtain ⟨q1, hq1⟩ := h1
  obtain ⟨q2, hq2⟩ := h2
  have d1 : l1.length / nv = q1 := by rw [hq1, Nat.mul_div_cancel_left _ hnv]
  have d2 : l2.length / nv = q2 := by rw [hq2, Nat.mul_div_cancel_left _ hnv]
  have m1 : l1.length % nv = 0 := by rw [hq1, Nat.mul_mod_right]
  have m2 : l2.length % nv = 0 := by rw [hq2, Nat.mul_mod_right]
  have d3 : (l1 ++ l2).length / nv = q1 + q2 := by
    rw [List.length_append, hq1, hq2, ← Nat.mul_add, Nat.mul_div_cancel_left _ hnv]
  have m3 : (l1 ++ l2).length % nv = 0 := by rw [List.length_append, hq1, hq2, ← Nat.mul_add, Nat.mul_mod_right]
  simp only [bpDecode, d1, d2, d3, m1, m2, m3]
  simp only [if_neg (show ¬ nv = 0 by omega), n1, n2, List.append_eq_nil_iff, false_and, if_false, ne_eq, not_true,
    show ¬ ((0 : Nat) = 1) by omega]
  rw [List.range_add, mapM_append']
  have e1 : (List.range q1).mapM (fun b => bpBlock (nanSign b) alg H nv n (List.take nv (List.drop (b * nv) (List.map (clipR llrMax) (l1 ++ l2))))) =
      (List.range q1).mapM (fun b => bpBlock (nanSign b) alg H nv n (List.take nv (List.drop (b * nv) (List.map (clipR llrMax) l1)))) := by
    have : ∀ b ∈ List.range q1, List.take nv (List.drop (b * nv) (List.map (clipR llrMax) (l1 ++ l2))) =
        List.take nv (List.drop (b * nv) (List.map (clipR llrMax) l1)) := by
      intro b hb
      rw [List.mem_range] at hb
      have : (b + 1) * nv ≤ q1 * nv := Nat.mul_le_mul_right _ hb
      rw [Nat.add_mul] at this
      rw [Nat.mul_comm] at hq1
      rw [List.map_append, List.drop_append_of_le_length (by simp; omega), List.take_append_of_le_length (by simp; omega)]
    exact mapM_congr_mem fun b hb => by rw [this b hb]
  have e2 : ((List.range q2).map (q1 + ·)).mapM (fun b => bpBlock (nanSign b) alg H nv n (List.take nv (List.drop (b * nv) (List.map (clipR llrMax) (l1 ++ l2))))) =
      (List.range q2).mapM (fun b => bpBlock (nanSign (b + q1)) alg H nv n (List.take nv (List.drop (b * nv) (List.map (clipR llrMax) l2)))) := by
    rw [List.mapM_map]
    refine mapM_congr_mem fun b hb => ?_
    show bpBlock (nanSign (q1 + b)) alg H nv n (List.take nv (List.drop ((q1 + b) * nv) (List.map (clipR llrMax) (l1 ++ l2)))) = _
    have : (q1 + b) * nv = (l1.map (clipR llrMax)).length + b * nv := by
      rw [List.length_map, hq1]; ring
    rw [this, List.map_append, List.drop_length_add_append, Nat.add_comm q1 b]
  rw [e1, e2]
  rcases (List.range q1).mapM (fun b => bpBlock (nanSign b) alg H nv n (List.take nv (List.drop (b * nv) (List.map (clipR llrMax) l1)))) with e | r1
  · rfl
  rcases (List.range q2).mapM (fun b => bpBlock (nanSign (b + q1)) alg H nv n (List.take nv (List.drop (b * nv) (List.map (clipR llrMax) l2)))) with e | r2
  · rfl
  simp only [List.map_append]
  rfl

/-! ### C58: early termination -/

theorem clipR_neg_iff (x : ℝ) : clipR llrMax x < 0 ↔ x < 0 := by
  unfold clipR llrMax
  rw [max_lt_iff, min_lt_iff]
  constructor
  · rintro ⟨-, h | h⟩
    · norm_num at h
    · exact h
  · exact fun h => ⟨by norm_num, Or.inr h⟩

theorem clipR_zero : clipR llrMax 0 = 0 := by
  unfold clipR llrMax
  norm_num

theorem getD_map_clip (l : List ℝ) (v : Nat) : (l.map (clipR llrMax)).getD v 0 = clipR llrMax (l.getD v 0) := by
  rw [← clipR_zero, List.getD_map, clipR_zero]

/-- Whole blocks: the decoder decodes block by block (or fails), and clips the caller's array. -/
theorem bpDecode_eq (alg : BpAlg) (H : Checks) (nv n q : Nat) (llrs : List ℝ) (hnv : 0 < nv) (hq : llrs.length = q * nv) (hne : llrs ≠ []) :
    bpDecode nanSign oneLeft alg H nv n llrs =
      ((List.range q).mapM (fun b => bpBlock (nanSign b) alg H nv n (((llrs.map (clipR llrMax)).drop (b * nv)).take nv)) >>= fun blocks =>
        pure (blocks, llrs.map (clipR llrMax))) := by
  have d1 : llrs.length / nv = q := by rw [hq, Nat.mul_div_cancel _ hnv]
  have m1 : llrs.length % nv = 0 := by rw [hq, Nat.mul_mod_left]
  simp only [bpDecode, d1, m1]
  simp only [if_neg (show ¬ nv = 0 by omega), hne, false_and, if_false, ne_eq, not_true, show ¬ ((0 : Nat) = 1) by omega]

theorem bpLoop_kept (ns : Nat → Nat → Bool) (alg : BpAlg) (H : Checks) (llr : Nat → ℝ) (n k : Nat) (st : BpState) (h : ChecksHold H st.dec) :
    bpLoop ns alg H llr n k st = .ok st := by
  cases n with
  | zero => rfl
  | succ n =>
    simp only [bpLoop]
    rw [if_pos ((syndromeOk_iff _ _).2 h)]

/-- C58: if the signs of every block satisfy all the checks, the decoder returns these signs and the clipped LLRs, whatever
the algorithm and the number of iterations. -/
theorem C58_kept (alg : BpAlg) (H : Checks) (nv n q : Nat) (llrs : List ℝ) (hnv : 0 < nv) (hq : llrs.length = q * nv) (hne : llrs ≠ [])
    (hH : GoodChecks H nv) (hcw : ∀ b < q, ChecksHold H (fun v => llrs.getD (b * nv + v) 0 < 0)) :
    bpDecode nanSign oneLeft alg H nv n llrs = .ok
      ((List.range q).map (fun b => ((List.range nv).map (fun v => decide (llrs.getD (b * nv + v) 0 < 0)),
        (List.range nv).map (fun v => some (max (-500) (min 500 (llrs.getD (b * nv + v) 0)))))),
       llrs.map (fun x => max (-500) (min 500 x))) := by
  rw [bpDecode_eq nanSign oneLeft alg H nv n q llrs hnv hq hne, mapM_ok (g := fun b => ((List.range nv).map (fun v => decide (llrs.getD (b * nv + v) 0 < 0)),
        (List.range nv).map (fun v => some (max (-500) (min 500 (llrs.getD (b * nv + v) 0))))))]
  · rfl
  intro b hb
  rw [List.mem_range] at hb
  have hget : ∀ v < nv, (((llrs.map (clipR llrMax)).drop (b * nv)).take nv).getD v 0 = clipR llrMax (llrs.getD (b * nv + v) 0) := by
    intro v hv
    rw [← getD_map_clip]
    simp [List.getD_eq_getElem?_getD, List.getElem?_take, List.getElem?_drop, hv]
  simp only [bpBlock]
  rw [bpLoop_kept]
  · show (Except.ok (_, _) : Py _) = _
    congr 2
    · refine List.map_congr_left fun v hv => ?_
      rw [List.mem_range] at hv
      show decide ((((llrs.map (clipR llrMax)).drop (b * nv)).take nv).getD v 0 < 0) = _
      rw [decide_eq_decide, hget v hv, clipR_neg_iff]
    · refine List.map_congr_left fun v hv => ?_
      rw [List.mem_range] at hv
      simp only [bpInit]
      rw [hget v hv]
      rfl
  · intro ns hns
    have := hcw b hb ns hns
    rw [List.countP_congr (q := fun v => decide (llrs.getD (b * nv + v) 0 < 0))]
    · exact this
    · intro v hv
      show decide ((((llrs.map (clipR llrMax)).drop (b * nv)).take nv).getD v 0 < 0) = true ↔ _
      rw [decide_eq_true_iff, decide_eq_true_iff, hget v ((hH ns hns).2 v hv), clipR_neg_iff]

/-- Once the decisions satisfy all checks, more iterations change nothing. -/
theorem bpLoop_more (ns : Nat → Nat → Bool) (alg : BpAlg) (H : Checks) (llr : Nat → ℝ) : ∀ (n k : Nat) (st st' : BpState),
    bpLoop ns alg H llr n k st = .ok st' → ChecksHold H st'.dec → ∀ m, n ≤ m → bpLoop ns alg H llr m k st = .ok st'
  | 0, k, st, st', h, hc, m, _ => by
    cases h
    exact bpLoop_kept ns alg H llr m k _ hc
  | n + 1, k, st, st', h, hc, m, hm => by
    obtain ⟨m, rfl⟩ : ∃ m', m = m' + 1 := ⟨m - 1, by omega⟩
    simp only [bpLoop] at h ⊢
    by_cases hs : syndromeOk H st.dec = true
    · rw [if_pos hs] at h ⊢
      exact h
    · rw [if_neg hs] at h ⊢
      rcases hi : bpIter ns alg H llr k st with e | st1
      · rw [hi] at h; cases h
      rw [hi] at h
      exact bpLoop_more ns alg H llr n (k + 1) st1 st' h hc m (by omega)

/-- C58: if a block is decoded to a word of the code with `n` iterations, any larger number of iterations gives the same
word and the same LLRs. -/
theorem C58_stable (alg : BpAlg) (H : Checks) (nv n m : Nat) (llrs : List ℝ) (hnv : 0 < nv) (hl : llrs.length = nv) (hH : GoodChecks H nv)
    (d : List Bool) (o : List (Option ℝ)) (arr : List ℝ) (h : bpDecode nanSign oneLeft alg H nv n llrs = .ok ([(d, o)], arr))
    (hcw : ChecksHold H (fun v => d.getD v false)) (hm : n ≤ m) :
    bpDecode nanSign oneLeft alg H nv m llrs = .ok ([(d, o)], arr) := by
  have hne : llrs ≠ [] := by rintro rfl; simp at hl; omega
  rw [bpDecode_eq nanSign oneLeft alg H nv _ 1 llrs hnv (by omega) hne] at h ⊢
  simp only [List.range_one, List.mapM_cons, List.mapM_nil, Nat.zero_mul, List.drop_zero, bpBlock] at h ⊢
  generalize (List.take nv (List.map (clipR llrMax) llrs)) = blk at h ⊢
  rcases hb : bpLoop (nanSign 0) alg H (fun v => blk.getD v 0) n 0 (bpInit (fun v => blk.getD v 0)) with e | st
  · rw [hb] at h; cases h
  rw [hb] at h
  have h' := Except.ok.inj h
  rw [Prod.mk.injEq] at h'
  have h1 := h'.1
  rw [List.cons.injEq, Prod.mk.injEq] at h1
  rw [bpLoop_more _ _ _ _ _ _ _ _ hb (by
    intro ns hns
    have := hcw ns hns
    rw [← h1.1.1] at this
    rw [List.countP_congr (q := fun v => ((List.range nv).map st.dec).getD v false)]
    · exact this
    · intro v hv
      have hv' := (hH ns hns).2 v hv
      rw [List.getD_eq_getElem _ _ (by simpa using hv'), List.getElem_map, List.getElem_range]) m hm]
  exact h

/-- C58: the decisions returned are the signs of the LLRs returned. -/
theorem C58_signs (alg : BpAlg) (H : Checks) (nv n q : Nat) (llrs : List ℝ) (hnv : 0 < nv) (hq : llrs.length = q * nv) (hne : llrs ≠ [])
    (blocks : List (List Bool × List (Option ℝ))) (arr : List ℝ) (h : bpDecode nanSign oneLeft alg H nv n llrs = .ok (blocks, arr)) :
    blocks.length = q ∧ arr = llrs.map (fun x => max (-500) (min 500 x)) ∧ ∀ d o, (d, o) ∈ blocks → d.length = nv ∧ o.length = nv ∧
      ∀ (v : Nat) (x : ℝ), o[v]? = some (some x) → d[v]? = some (decide (x < 0)) := by
  rw [bpDecode_eq nanSign oneLeft alg H nv n q llrs hnv hq hne] at h
  rcases hm : (List.range q).mapM (fun b => bpBlock (nanSign b) alg H nv n (((llrs.map (clipR llrMax)).drop (b * nv)).take nv)) with e | bs
  · rw [hm] at h; cases h
  rw [hm] at h
  cases h
  obtain ⟨h1, h2⟩ := mapM_getElem_ok hm
  rw [List.length_range] at h1
  refine ⟨h1, rfl, fun d o hdo => ?_⟩
  obtain ⟨i, hi, hd⟩ := List.getElem_of_mem hdo
  have hb := h2 i (by simpa [h1] using hi) hi
  rw [hd] at hb
  simp only [bpBlock] at hb
  generalize (List.take nv (List.drop ((List.range q)[i]'(by simpa [h1] using hi) * nv) (List.map (clipR llrMax) llrs))) = blk at hb
  generalize nanSign ((List.range q)[i]'(by simpa [h1] using hi)) = ns at hb
  rcases hl : bpLoop ns alg H (fun v => blk.getD v 0) n 0 (bpInit (fun v => blk.getD v 0)) with e | st
  · rw [hl] at hb; cases hb
  rw [hl] at hb
  have inv : ∀ (n k : Nat) (st st' : BpState), (∀ v x, st.out v = some x → st.dec v = decide (x < 0)) →
      bpLoop ns alg H (fun v => blk.getD v 0) n k st = .ok st' → ∀ v x, st'.out v = some x → st'.dec v = decide (x < 0) := by
    intro n
    induction n with
    | zero => intro k st st' hinv h; cases h; exact hinv
    | succ n ih =>
      intro k st st' hinv h
      simp only [bpLoop] at h
      by_cases hs : syndromeOk H st.dec = true
      · rw [if_pos hs] at h; cases h; exact hinv
      · rw [if_neg hs] at h
        simp only [bpIter] at h
        rcases hc : checkUpdate alg H st.msg with e | m
        · rw [hc] at h; cases h
        rw [hc] at h
        refine ih (k + 1) _ st' ?_ h
        intro v x hx
        simp only at hx ⊢
        rw [hx]
        rfl
  have hfin := inv n 0 _ st (by
    intro v x hx
    have hx' : blk.getD v 0 = x := Option.some.inj hx
    subst hx'
    rfl) hl
  have hb' := Except.ok.inj hb
  rw [Prod.mk.injEq] at hb'
  obtain ⟨rfl, rfl⟩ := hb'
  refine ⟨by simp, by simp, fun v x hx => ?_⟩
  simp only [List.getElem?_map, Option.map_eq_some_iff] at hx ⊢
  obtain ⟨u, hu, hx⟩ := hx
  exact ⟨u, hu, hfin u x hx⟩

/-- C58: with a length that is no multiple of the block length (and at least two LLRs left), or no LLR at all, the decoder
raises an exception (ValueError if all the whole blocks are decoded). -/
theorem C58_length (alg : BpAlg) (H : Checks) (nv n : Nat) (llrs : List ℝ) (hnv : 0 < nv) (h : llrs = [] ∨ 2 ≤ llrs.length % nv) :
    (∀ r, bpDecode nanSign oneLeft alg H nv n llrs ≠ .ok r) ∧
    (n = 0 → bpDecode nanSign oneLeft alg H nv n llrs = .error .valueError) := by
  have hnv' : ¬ nv = 0 := by omega
  simp only [bpDecode]
  rw [if_neg hnv']
  rcases hbs : (List.range (llrs.length / nv)).mapM (fun b => bpBlock (nanSign b) alg H nv n (((llrs.map (clipR llrMax)).drop (b * nv)).take nv)) with e | bs
  · refine ⟨fun r hr => (by cases hr), ?_⟩
    rintro rfl
    obtain ⟨bs, hb⟩ := mapM_exists_ok (f := fun b => bpBlock (nanSign b) alg H nv 0 (((llrs.map (clipR llrMax)).drop (b * nv)).take nv))
      (List.range (llrs.length / nv)) (fun b _ => ⟨_, rfl⟩)
    rw [hb] at hbs
    cases hbs
  · simp only [bind, Except.bind, pure, Except.pure]
    rcases h with rfl | h
    · refine ⟨fun r hr => ?_, fun _ => ?_⟩
      · simp at hr
      · simp
    · rw [if_neg (by omega), if_pos (by omega)]
      exact ⟨fun r hr => (by cases hr), fun _ => rfl⟩

end Verif
