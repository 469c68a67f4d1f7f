import Verif.Props.LdpcDecode
/-
C60, C89: `ldpc_bp_decode` computes textbook belief propagation, and its symmetries.
-/
namespace Verif

variable (nanSign : NanSigns) (oneLeft : Py (List (List Bool × List (Option ℝ))))

/-- The LLRs the decoder works with. -/
noncomputable def clippedLlr (llrs : List ℝ) (v : Nat) : ℝ := max (-500) (min 500 (llrs.getD v 0))

/-- The result of belief propagation stopped after `K` iterations, for one block. -/
noncomputable def bpResult (rule : List Nat → (Nat → ℝ) → Nat → ℝ) (H : Checks) (nv : Nat) (llrs : List ℝ) (K : Nat) :
    List (List Bool × List (Option ℝ)) × List ℝ :=
  ([((List.range nv).map (fun v => decide (bpTotal rule H (clippedLlr llrs) K v < 0)),
     (List.range nv).map (fun v => some (bpTotal rule H (clippedLlr llrs) K v)))], llrs.map (fun x => max (-500) (min 500 x)))

theorem bpDecode_rule (alg : BpAlg) (rule : List Nat → (Nat → ℝ) → Nat → ℝ) (H : Checks) (nv n : Nat) (llrs : List ℝ) (hnv : 0 < nv)
    (hl : llrs.length = nv)
    (hstep : ∀ k < n, ∀ msg, (∀ c v, BpEdge H c v → msg c v = some (bpMsgs rule H (clippedLlr llrs) k c v)) →
      ∃ m', checkUpdate alg H msg = .ok m' ∧ ∀ c v, BpEdge H c v → m' c v = some (rule (H.getD c []) (bpMsgs rule H (clippedLlr llrs) k c) v)) :
    ∃ K, StopsAt rule H (clippedLlr llrs) n K ∧ bpDecode nanSign oneLeft alg H nv n llrs = .ok (bpResult rule H nv llrs K) := by
  have hne : llrs ≠ [] := by rintro rfl; simp at hl; omega
  rw [bpDecode_eq nanSign oneLeft alg H nv _ 1 llrs hnv (by omega) hne]
  simp only [List.range_one, List.mapM_cons, List.mapM_nil, Nat.zero_mul, List.drop_zero, bpBlock]
  have hfun : (fun v => (List.take nv (List.map (clipR llrMax) llrs)).getD v 0) = clippedLlr llrs := by
    funext v
    rw [List.take_of_length_le (by simp [hl]), getD_map_clip]
    rfl
  rw [hfun]
  obtain ⟨st', K, h1, -, h3, h4, h5, h6, h7⟩ := bpLoop_spec (nanSign 0) alg rule H (clippedLlr llrs) n hstep n 0 (bpInit (clippedLlr llrs))
    (by omega) (fun c v _ => rfl) (fun v => rfl) (fun v => rfl)
  refine ⟨K, ⟨h3, h4, fun j hj => h5 j (Nat.zero_le _) hj⟩, ?_⟩
  rw [h1]
  show (Except.ok ([((List.range nv).map st'.dec, (List.range nv).map st'.out)], llrs.map (clipR llrMax)) : Py _) = _
  unfold bpResult
  congr 4
  · exact List.map_congr_left fun v _ => h6 v
  · exact List.map_congr_left fun v _ => h7 v

theorem getD_mem {H : Checks} {c : Nat} (h : c < H.length) : H.getD c [] ∈ H := by
  rw [List.getD_eq_getElem _ _ h]; exact List.getElem_mem h

theorem msa_step (H : Checks) (nv : Nat) (hH : GoodChecks H nv) (hdeg : ∀ ns ∈ H, ns.length ≠ 1) (llr : Nat → ℝ) (k : Nat) (msg : Nat → Nat → Option ℝ)
    (h : ∀ c v, BpEdge H c v → msg c v = some (bpMsgs msaRule H llr k c v)) :
    ∃ m', checkUpdate .msa H msg = .ok m' ∧ ∀ c v, BpEdge H c v → m' c v = some (msaRule (H.getD c []) (bpMsgs msaRule H llr k c) v) := by
  refine ⟨fun c v => msaRow (H.getD c []) (msg c) v, ?_, ?_⟩
  · simp only [checkUpdate]
    rw [if_neg]
    simp only [List.any_eq_true, decide_eq_true_eq, not_exists, not_and]
    exact hdeg
  · intro c v he
    exact msaRow_eq (hH _ (getD_mem he.1)).1 (hdeg _ (getD_mem he.1)) _ _ (fun u hu => h c u ⟨he.1, hu⟩) he.2

theorem spa_step (H : Checks) (nv : Nat) (hH : GoodChecks H nv) (llr : Nat → ℝ) (k : Nat)
    (hnz : ∀ c v, BpEdge H c v → bpMsgs spaRule H llr k c v ≠ 0) (msg : Nat → Nat → Option ℝ)
    (h : ∀ c v, BpEdge H c v → msg c v = some (bpMsgs spaRule H llr k c v)) :
    ∃ m', checkUpdate .spa H msg = .ok m' ∧ ∀ c v, BpEdge H c v → m' c v = some (spaRule (H.getD c []) (bpMsgs spaRule H llr k c) v) := by
  refine ⟨fun c v => spaRow (H.getD c []) (msg c) v, rfl, ?_⟩
  intro c v he
  exact spaRow_eq (hH _ (getD_mem he.1)).1 _ _ (fun u hu => h c u ⟨he.1, hu⟩) (fun u hu => hnz c u ⟨he.1, hu⟩) he.2

/-- C89, min-sum: the decoder computes textbook belief propagation with the min-sum rule: it stops at the first total LLRs
whose signs satisfy all checks (after `n` iterations at the latest) and returns these LLRs and their signs. -/
theorem C89_msa (H : Checks) (nv n : Nat) (llrs : List ℝ) (hnv : 0 < nv) (hl : llrs.length = nv) (hH : GoodChecks H nv)
    (hdeg : ∀ ns ∈ H, ns.length ≠ 1) :
    ∃ K, StopsAt msaRule H (clippedLlr llrs) n K ∧ bpDecode nanSign oneLeft .msa H nv n llrs = .ok (bpResult msaRule H nv llrs K) :=
  bpDecode_rule nanSign oneLeft .msa msaRule H nv n llrs hnv hl (fun k _ msg h => msa_step H nv hH hdeg _ k msg h)

/-- C89, sum-product, as long as no message from a variable to a check is zero.  Missing for the full claim: zero messages,
see `C89_refuted`. -/
theorem C89_spa_partial (H : Checks) (nv n : Nat) (llrs : List ℝ) (hnv : 0 < nv) (hl : llrs.length = nv) (hH : GoodChecks H nv)
    (hnz : ∀ k < n, ∀ c < H.length, ∀ v ∈ H.getD c [], bpMsgs spaRule H (clippedLlr llrs) k c v ≠ 0) :
    ∃ K, StopsAt spaRule H (clippedLlr llrs) n K ∧ bpDecode nanSign oneLeft .spa H nv n llrs = .ok (bpResult spaRule H nv llrs K) :=
  bpDecode_rule nanSign oneLeft .spa spaRule H nv n llrs hnv hl
    (fun k hk msg h => spa_step H nv hH _ k (fun c v he => hnz k hk c he.1 v he.2) msg h)

/-- The first iteration: non-zero LLRs are enough. -/
theorem C89_spa_one (H : Checks) (nv : Nat) (llrs : List ℝ) (hnv : 0 < nv) (hl : llrs.length = nv) (hH : GoodChecks H nv)
    (hnz : ∀ x ∈ llrs, x ≠ 0) :
    ∃ K, StopsAt spaRule H (clippedLlr llrs) 1 K ∧ bpDecode nanSign oneLeft .spa H nv 1 llrs = .ok (bpResult spaRule H nv llrs K) := by
  refine C89_spa_partial nanSign oneLeft H nv 1 llrs hnv hl hH ?_
  intro k hk c hc v hv
  have hk0 : k = 0 := by omega
  subst hk0
  have hvn := (hH _ (getD_mem hc)).2 v hv
  have hx := hnz _ (List.getElem_mem (show v < llrs.length by omega))
  simp only [bpMsgs, clippedLlr]
  rw [List.getD_eq_getElem _ _ (by omega)]
  rcases lt_or_gt_of_ne hx with h | h
  · refine ne_of_lt (max_lt (by norm_num) ?_)
    exact lt_of_le_of_lt (min_le_right _ _) h
  · refine ne_of_gt (lt_of_lt_of_le ?_ (le_max_right _ _))
    exact lt_min (by norm_num) h

/-- C89: an unknown algorithm is only noticed when an iteration is needed; a check with a single variable makes min-sum
decoding fail then. -/
theorem C89_errors (H : Checks) (nv n : Nat) (llrs : List ℝ) (hnv : 0 < nv) (hl : llrs.length = nv) (hH : GoodChecks H nv)
    (hn : 0 < n) (hcw : ¬ ChecksHold H (fun v => llrs.getD v 0 < 0)) :
    bpDecode nanSign oneLeft .other H nv n llrs = .error .nameError ∧
    ((∃ ns ∈ H, ns.length = 1) → bpDecode nanSign oneLeft .msa H nv n llrs = .error .valueError) := by
  have hne : llrs ≠ [] := by rintro rfl; simp at hl; omega
  have hs : syndromeOk H (bpInit (clippedLlr llrs)).dec ≠ true := by
    intro h
    refine hcw fun ns hns => ?_
    have := (syndromeOk_iff _ _).1 h ns hns
    rw [List.countP_congr (q := (bpInit (clippedLlr llrs)).dec)]
    · exact this
    · intro v hv
      show decide _ = true ↔ decide (clippedLlr llrs v < 0) = true
      rw [decide_eq_true_iff, decide_eq_true_iff]
      exact (clipR_neg_iff _).symm
  obtain ⟨n, rfl⟩ : ∃ m, n = m + 1 := ⟨n - 1, by omega⟩
  have hfun : (fun v => (List.take nv (List.map (clipR llrMax) llrs)).getD v 0) = clippedLlr llrs := by
    funext v
    rw [List.take_of_length_le (by simp [hl]), getD_map_clip]
    rfl
  have red : ∀ alg, bpDecode nanSign oneLeft alg H nv (n + 1) llrs = (bpIter (nanSign 0) alg H (clippedLlr llrs) 0 (bpInit (clippedLlr llrs)) >>= fun st' =>
      bpLoop (nanSign 0) alg H (clippedLlr llrs) n 1 st') >>= fun st =>
      pure ([((List.range nv).map st.dec, (List.range nv).map st.out)], llrs.map (clipR llrMax)) := by
    intro alg
    rw [bpDecode_eq nanSign oneLeft alg H nv _ 1 llrs hnv (by omega) hne]
    simp only [List.range_one, List.mapM_cons, List.mapM_nil, Nat.zero_mul, List.drop_zero, bpBlock]
    rw [hfun]
    simp only [bpLoop]
    rw [if_neg hs]
    rcases bpIter (nanSign 0) alg H (clippedLlr llrs) 0 (bpInit (clippedLlr llrs)) with e | st'
    · rfl
    simp only [bind, Except.bind]
    rcases bpLoop (nanSign 0) alg H (clippedLlr llrs) n (0 + 1) st' with e | st <;> rfl
  constructor
  · rw [red]
    rfl
  · rintro ⟨ns, hns, h1⟩
    rw [red]
    simp only [bpIter, checkUpdate]
    rw [if_pos (by
      simp only [List.any_eq_true, decide_eq_true_eq]
      exact ⟨ns, hns, h1⟩)]
    rfl

/-- C89 is false for sum-product decoding when a LLR is zero (an erased bit): for the repetition code of length 2 and the LLRs
0 and -5 the decoder returns nan for the erased bit, where belief propagation gives -5 (both bits are 1). -/
theorem C89_refuted :
    bpDecode nanSign oneLeft .spa [[0, 1]] 2 1 [0, -5] = .ok ([([nanSign 0 0 0, true], [none, some (-5)])], [0, -5]) ∧
    StopsAt spaRule [[0, 1]] (clippedLlr [0, -5]) 1 1 ∧
    bpResult spaRule [[0, 1]] 2 [0, -5] 1 = ([([true, true], [some (-5), some (-5)])], [0, -5]) := by
  have c0 : clippedLlr [0, -5] 0 = 0 := by norm_num [clippedLlr]
  have c1 : clippedLlr [0, -5] 1 = -5 := by norm_num [clippedLlr]
  have hmap : [(0 : ℝ), -5].map (clipR llrMax) = [0, -5] := by
    norm_num [clipR, llrMax]
  have ck0 : checksOf [[0, 1]] 0 = [0] := by decide
  have ck1 : checksOf [[0, 1]] 1 = [0] := by decide
  have t0 : bpTotal spaRule [[0, 1]] (clippedLlr [0, -5]) 1 0 = -5 := by
    simp only [bpTotal]
    rw [show (List.range [[0, 1]].length).filter (fun c' => decide (0 ∈ [[0, 1]].getD c' [])) = [0] from ck0]
    simp only [List.map_cons, List.map_nil, List.sum_cons, List.sum_nil, c0, spaRule]
    rw [show ([[0, 1]].getD 0 []).filter (fun u => decide (u ≠ 0)) = [1] from by decide, if_neg (by simp)]
    simp only [List.map_cons, List.map_nil, List.prod_cons, List.prod_nil, mul_one, bpMsgs, c1, Real.artanh_tanh]
    norm_num
  have t1 : bpTotal spaRule [[0, 1]] (clippedLlr [0, -5]) 1 1 = -5 := by
    simp only [bpTotal]
    rw [show (List.range [[0, 1]].length).filter (fun c' => decide (1 ∈ [[0, 1]].getD c' [])) = [0] from ck1]
    simp only [List.map_cons, List.map_nil, List.sum_cons, List.sum_nil, c1, spaRule]
    rw [show ([[0, 1]].getD 0 []).filter (fun u => decide (u ≠ 1)) = [0] from by decide, if_neg (by simp)]
    simp only [List.map_cons, List.map_nil, List.prod_cons, List.prod_nil, mul_one, bpMsgs, c0, Real.artanh_tanh]
    norm_num
  have hns : ¬ ChecksHold [[0, 1]] (fun v => clippedLlr [0, -5] v < 0) := by
    intro h
    have := h [0, 1] (by simp)
    simp [List.countP_cons, c0, c1] at this
  refine ⟨?_, ⟨le_rfl, Or.inl rfl, ?_⟩, ?_⟩
  · rw [bpDecode_eq nanSign oneLeft .spa [[0, 1]] 2 _ 1 [0, -5] (by omega) (by simp) (by simp)]
    simp only [List.range_one, List.mapM_cons, List.mapM_nil, Nat.zero_mul, List.drop_zero, bpBlock]
    have hfun : (fun v => (List.take 2 (List.map (clipR llrMax) [0, -5])).getD v 0) = clippedLlr [0, -5] := by
      funext v
      rw [List.take_of_length_le (by simp), getD_map_clip]
      rfl
    rw [hfun, hmap]
    simp only [bpLoop]
    rw [if_neg (by
      intro h
      exact hns ((syndromeOk_iff _ _).1 h))]
    have tz : Real.tanh ((0 : ℝ) * (1 / 2)) = 0 := by simp
    have t5 : Real.tanh ((-5 : ℝ) * (1 / 2)) ≠ 0 := tanh_ne_zero (by norm_num)
    have r0 : spaRow ([[0, 1]].getD 0 []) ((bpInit (clippedLlr [0, -5])).msg 0) 0 = none := by
      simp only [spaRow]
      rw [mapM_some _ ((bpInit (clippedLlr [0, -5])).msg 0) (clippedLlr [0, -5]) (fun _ _ => rfl)]
      simp only [bpInit, c0, tz, if_true]
    have r1 : spaRow ([[0, 1]].getD 0 []) ((bpInit (clippedLlr [0, -5])).msg 0) 1 = some 0 := by
      simp only [spaRow]
      rw [mapM_some _ ((bpInit (clippedLlr [0, -5])).msg 0) (clippedLlr [0, -5]) (fun _ _ => rfl)]
      simp only [bpInit, c1]
      rw [if_neg t5, logProd_eq]
      have : (List.map (fun y => Real.tanh (y * (1 / 2))) (List.map (clippedLlr [0, -5]) ([[0, 1]].getD 0 []))).prod = 0 := by
        refine List.prod_eq_zero ?_
        simp [c0]
      rw [this, mul_zero]
      unfold atanhClip clipR llrMax
      norm_num
    have u0 : totalLlr [[0, 1]] (clippedLlr [0, -5]) (fun c v => spaRow ([[0, 1]].getD c []) ((bpInit (clippedLlr [0, -5])).msg c) v) 0 = none := by
      simp only [totalLlr, ck0, List.map_cons, List.map_nil, r0]
      rfl
    have u1 : totalLlr [[0, 1]] (clippedLlr [0, -5]) (fun c v => spaRow ([[0, 1]].getD c []) ((bpInit (clippedLlr [0, -5])).msg c) v) 1 = some (-5) := by
      simp only [totalLlr, ck1, List.map_cons, List.map_nil, r1]
      show some ((0 : ℝ) + 0 + _) = _
      rw [c1]
      norm_num
    show (Except.ok ([([signBit (nanSign 0 0 0) (totalLlr _ _ _ 0), signBit (nanSign 0 0 1) (totalLlr _ _ _ 1)], [totalLlr _ _ _ 0, totalLlr _ _ _ 1])], [0, -5]) : Py _) = _
    rw [u0, u1]
    simp [signBit]
  · intro j hj
    have : j = 0 := by omega
    subst this
    exact hns
  · unfold bpResult
    simp only [show List.range 2 = [0, 1] from rfl, List.map_cons, List.map_nil, t0, t1]
    norm_num

/-! ### C60: symmetries -/

theorem bpTotal_congr_rule (rule : List Nat → (Nat → ℝ) → Nat → ℝ) (H : Checks) (llr llr' : Nat → ℝ) (σ : Nat → ℝ)
    (hllr : ∀ v, llr' v = σ v * llr v)
    (hrule : ∀ ns ∈ H, ∀ (x x' : Nat → ℝ), (∀ u, x' u = σ u * x u) → ∀ v ∈ ns, rule ns x' v = σ v * rule ns x v) :
    ∀ k, (∀ c v, bpMsgs rule H llr' k c v = σ v * bpMsgs rule H llr k c v) ∧ ∀ v, bpTotal rule H llr' k v = σ v * bpTotal rule H llr k v := by
  intro k
  have msgs : ∀ k c v, bpMsgs rule H llr' k c v = σ v * bpMsgs rule H llr k c v := by
    intro k
    induction k with
    | zero => intro c v; exact hllr v
    | succ k ih =>
      intro c v
      simp only [bpMsgs]
      rw [hllr, mul_add, ← List.sum_map_mul_left]
      congr 2
      refine List.map_congr_left fun c' hc' => ?_
      simp only [List.mem_filter, List.mem_range, decide_eq_true_eq] at hc'
      exact hrule _ (getD_mem hc'.1) _ _ (ih c') v hc'.2.1
  refine ⟨msgs k, ?_⟩
  cases k with
  | zero => exact hllr
  | succ k =>
    intro v
    simp only [bpTotal]
    rw [hllr, mul_add, ← List.sum_map_mul_left]
    congr 2
    refine List.map_congr_left fun c' hc' => ?_
    simp only [List.mem_filter, List.mem_range, decide_eq_true_eq] at hc'
    exact hrule _ (getD_mem hc'.1) _ _ (msgs k c') v hc'.2

theorem StopsAt.unique {rule : List Nat → (Nat → ℝ) → Nat → ℝ} {H : Checks} {llr : Nat → ℝ} {n K K' : Nat}
    (h : StopsAt rule H llr n K) (h' : StopsAt rule H llr n K') : K = K' := by
  obtain ⟨a1, a2, a3⟩ := h
  obtain ⟨b1, b2, b3⟩ := h'
  rcases Nat.lt_trichotomy K K' with hlt | heq | hlt
  · rcases a2 with a2 | a2
    · omega
    · exact absurd a2 (b3 K hlt)
  · exact heq
  · rcases b2 with b2 | b2
    · omega
    · exact absurd b2 (a3 K' hlt)

theorem msaRule_scale (a : ℝ) (ha : 0 < a) (ns : List Nat) (x x' : Nat → ℝ) (hx : ∀ u, x' u = a * x u) (v : Nat) :
    msaRule ns x' v = a * msaRule ns x v := by
  unfold msaRule
  have e1 : ∀ u, (SignType.sign (x' u) : ℝ) = (SignType.sign (x u) : ℝ) := by
    intro u
    rw [hx, sign_mul, sign_pos ha, one_mul]
  have e2 : ∀ u, |x' u| = a * |x u| := by
    intro u
    rw [hx, abs_mul, abs_of_pos ha]
  simp only [e1, e2]
  rw [← Real.mul_iInf_of_nonneg ha.le]
  ring

/-- C60: scaling the LLRs by a positive factor (both before and after within the clipping range) scales the LLRs returned by
min-sum decoding and does not change the decisions. -/
theorem C60_scale (H : Checks) (nv n : Nat) (llrs : List ℝ) (hnv : 0 < nv) (hl : llrs.length = nv) (hH : GoodChecks H nv)
    (hdeg : ∀ ns ∈ H, ns.length ≠ 1) (a : ℝ) (ha : 0 < a) (h1 : ∀ x ∈ llrs, |x| ≤ 500) (h2 : ∀ x ∈ llrs, |a * x| ≤ 500) :
    ∃ d o, bpDecode nanSign oneLeft .msa H nv n llrs = .ok ([(d, o)], llrs) ∧
      bpDecode nanSign oneLeft .msa H nv n (llrs.map (a * ·)) = .ok ([(d, o.map (Option.map (a * ·)))], llrs.map (a * ·)) := by
  obtain ⟨K, hK, hd⟩ := C89_msa nanSign oneLeft H nv n llrs hnv hl hH hdeg
  obtain ⟨K', hK', hd'⟩ := C89_msa nanSign oneLeft H nv n (llrs.map (a * ·)) hnv (by simpa using hl) hH hdeg
  have clip : ∀ x : ℝ, |x| ≤ 500 → max (-500) (min 500 x) = x := by
    intro x hx
    rw [abs_le] at hx
    rw [min_eq_right hx.2, max_eq_right hx.1]
  have hc : ∀ v, clippedLlr (llrs.map (a * ·)) v = a * clippedLlr llrs v := by
    intro v
    unfold clippedLlr
    by_cases hv : v < llrs.length
    · rw [List.getD_eq_getElem _ _ (by simpa using hv), List.getElem_map, List.getD_eq_getElem _ _ hv,
        clip _ (h1 _ (List.getElem_mem hv)), clip _ (h2 _ (List.getElem_mem hv))]
    · rw [List.getD_eq_default _ _ (by simpa using hv), List.getD_eq_default _ _ (by omega)]
      norm_num
  have tot := fun k => (bpTotal_congr_rule msaRule H (clippedLlr llrs) (clippedLlr (llrs.map (a * ·))) (fun _ => a) hc
    (fun ns _ x x' hx v _ => msaRule_scale a ha ns x x' hx v) k).2
  have sgn : ∀ k v, decide (bpTotal msaRule H (clippedLlr (llrs.map (a * ·))) k v < 0) = decide (bpTotal msaRule H (clippedLlr llrs) k v < 0) := by
    intro k v
    rw [decide_eq_decide, tot]
    exact ⟨fun h => by_contra fun hc => absurd h (not_lt.2 (mul_nonneg ha.le (not_lt.1 hc))), fun h => mul_neg_of_pos_of_neg ha h⟩
  have hst : StopsAt msaRule H (clippedLlr (llrs.map (a * ·))) n K := by
    unfold StopsAt at hK ⊢
    simp only [sgn]
    exact hK
  rw [hK'.unique hst] at hd'
  refine ⟨(List.range nv).map (fun v => decide (bpTotal msaRule H (clippedLlr llrs) K v < 0)),
    (List.range nv).map (fun v => some (bpTotal msaRule H (clippedLlr llrs) K v)), ?_, ?_⟩
  · rw [hd]
    unfold bpResult
    have : llrs.map (fun x => max (-500) (min 500 x)) = llrs := by
      conv_rhs => rw [← List.map_id llrs]
      exact List.map_congr_left fun x hx => clip x (h1 x hx)
    rw [this]
  · rw [hd']
    unfold bpResult
    have e1 : (llrs.map (a * ·)).map (fun x => max (-500) (min 500 x)) = llrs.map (a * ·) := by
      rw [List.map_map]
      exact List.map_congr_left fun x hx => clip _ (h2 x hx)
    rw [e1, List.map_map]
    congr 4
    · exact List.map_congr_left fun v _ => sgn K v
    · refine List.map_congr_left fun v _ => ?_
      simp only [Function.comp, Option.map_some]
      rw [tot]

/-- The sign flips of a word. -/
def flipSign (w : Nat → Bool) (v : Nat) : ℝ := if w v then -1 else 1

theorem flipSign_mul_self (w : Nat → Bool) (v : Nat) : flipSign w v * flipSign w v = 1 := by
  unfold flipSign; split <;> norm_num

theorem abs_flipSign (w : Nat → Bool) (v : Nat) : |flipSign w v| = 1 := by
  unfold flipSign; split <;> norm_num

theorem prod_flipSign (w : Nat → Bool) (ns : List Nat) : (ns.map (flipSign w)).prod = (-1) ^ ns.countP (fun v => w v) := by
  induction ns with
  | nil => simp
  | cons a ns ih =>
    rw [List.map_cons, List.prod_cons, ih, List.countP_cons]
    unfold flipSign
    cases w a <;> simp [pow_succ]

/-- In a check satisfied by `w`, the product of the other signs is the own sign. -/
theorem prod_others (w : Nat → Bool) {ns : List Nat} (hnd : ns.Nodup) (hw : 2 ∣ ns.countP (fun v => w v)) {v : Nat} (hv : v ∈ ns) :
    ((ns.filter (fun u => u ≠ v)).map (flipSign w)).prod = flipSign w v := by
  have h := prod_factor hnd hv (flipSign w)
  rw [prod_flipSign, Even.neg_one_pow (even_iff_two_dvd.2 hw)] at h
  have := congrArg (flipSign w v * ·) h
  simp only [mul_one] at this
  rw [this, ← mul_assoc, flipSign_mul_self, one_mul]

theorem sign_flipSign (w : Nat → Bool) (v : Nat) : (SignType.sign (flipSign w v) : ℝ) = flipSign w v := by
  unfold flipSign; split <;> simp

theorem msaRule_flip (w : Nat → Bool) {ns : List Nat} (hnd : ns.Nodup) (hw : 2 ∣ ns.countP (fun v => w v)) (x x' : Nat → ℝ)
    (hx : ∀ u, x' u = flipSign w u * x u) {v : Nat} (hv : v ∈ ns) : msaRule ns x' v = flipSign w v * msaRule ns x v := by
  unfold msaRule
  have e1 : ∀ u, (SignType.sign (x' u) : ℝ) = flipSign w u * (SignType.sign (x u) : ℝ) := by
    intro u
    rw [hx, sign_mul]
    push_cast
    rw [sign_flipSign]
  have e2 : ∀ u, |x' u| = |x u| := by
    intro u
    rw [hx, abs_mul, abs_flipSign, one_mul]
  simp only [e1, e2]
  rw [List.prod_map_mul, prod_others w hnd hw hv]
  ring

theorem artanh_odd {y : ℝ} : Real.artanh (-y) = -Real.artanh y := by
  by_cases h : |y| < 1
  · rw [abs_lt] at h
    refine Real.tanh_injective ?_
    rw [Real.tanh_neg, Real.tanh_artanh ⟨h.1, h.2⟩, Real.tanh_artanh ⟨by linarith, by linarith⟩]
  · have h1 : Real.artanh y = 0 := by
      rw [Real.artanh_eq_zero_iff]
      rcases le_abs.1 (not_lt.1 h) with h | h
      · exact Or.inr (Or.inr h)
      · exact Or.inl (by linarith)
    have h2 : Real.artanh (-y) = 0 := by
      rw [Real.artanh_eq_zero_iff]
      rcases le_abs.1 (not_lt.1 h) with h | h
      · exact Or.inl (by linarith)
      · exact Or.inr (Or.inr h)
    rw [h1, h2, neg_zero]

theorem clip_odd (x : ℝ) : max (-500) (min 500 (-x)) = -(max (-500) (min 500 x)) := by
  rcases le_total x 500 with h1 | h1 <;> rcases le_total (-500) x with h2 | h2
  · rw [min_eq_right h1, max_eq_right h2, min_eq_right (by linarith), max_eq_right (by linarith)]
  · rw [min_eq_right h1, max_eq_left h2, min_eq_left (by linarith), max_eq_right (by norm_num)]; norm_num
  · rw [min_eq_left h1, max_eq_right (by norm_num : (-500 : ℝ) ≤ 500), min_eq_right (by linarith), max_eq_left (by linarith)]
  · exfalso; linarith

theorem clip_flip (w : Nat → Bool) (v : Nat) (x : ℝ) : max (-500) (min 500 (flipSign w v * x)) = flipSign w v * max (-500) (min 500 x) := by
  unfold flipSign
  split
  · rw [neg_one_mul, neg_one_mul, clip_odd]
  · rw [one_mul, one_mul]

theorem spaRule_flip (w : Nat → Bool) {ns : List Nat} (hnd : ns.Nodup) (hw : 2 ∣ ns.countP (fun v => w v)) (x x' : Nat → ℝ)
    (hx : ∀ u, x' u = flipSign w u * x u) {v : Nat} (hv : v ∈ ns) : spaRule ns x' v = flipSign w v * spaRule ns x v := by
  unfold spaRule
  have hp := prod_others w hnd hw hv
  by_cases he : ns.filter (fun u => u ≠ v) = []
  · rw [if_pos he, if_pos he]
    rw [he] at hp
    simp at hp
    rw [← hp, one_mul]
  · rw [if_neg he, if_neg he]
    have e1 : ∀ u, Real.tanh (x' u / 2) = flipSign w u * Real.tanh (x u / 2) := by
      intro u
      rw [hx]
      unfold flipSign
      split
      · rw [neg_one_mul, neg_one_mul, neg_div, Real.tanh_neg]
      · rw [one_mul, one_mul]
    simp only [e1]
    rw [List.prod_map_mul, hp, ← clip_flip]
    congr 2
    unfold flipSign
    split
    · rw [neg_one_mul, neg_one_mul, artanh_odd]; ring
    · rw [one_mul, one_mul]

theorem checksHold_xor (H : Checks) (w d d' : Nat → Bool) (hw : ChecksHold H w) (h : ∀ ns ∈ H, ∀ v ∈ ns, d' v = xor (d v) (w v)) :
    ChecksHold H d' ↔ ChecksHold H d := by
  have key : ∀ ns : List Nat, (∀ v ∈ ns, d' v = xor (d v) (w v)) →
      (ns.countP (fun v => d' v)) % 2 = (ns.countP (fun v => d v) + ns.countP (fun v => w v)) % 2 := by
    intro ns
    induction ns with
    | nil => simp
    | cons a ns ih =>
      intro h
      have := ih (fun v hv => h v (List.mem_cons_of_mem _ hv))
      rw [List.countP_cons, List.countP_cons, List.countP_cons, h a (by simp)]
      cases d a <;> cases w a <;> simp <;> omega
  refine forall₂_congr fun ns hns => ?_
  have h1 := key ns (h ns hns)
  have h2 := hw ns hns
  omega

/-- C60 for a rule with the symmetry of a parity check. -/
theorem flip_core (alg : BpAlg) (rule : List Nat → (Nat → ℝ) → Nat → ℝ) (H : Checks) (nv n : Nat) (llrs : List ℝ) (hl : llrs.length = nv)
    (hH : GoodChecks H nv) (w : Nat → Bool) (hw : ChecksHold H w)
    (hrule : ∀ ns ∈ H, ∀ (x x' : Nat → ℝ), (∀ u, x' u = flipSign w u * x u) → ∀ v ∈ ns, rule ns x' v = flipSign w v * rule ns x v)
    (llrs' : List ℝ) (hl' : llrs' = (List.range nv).map (fun v => flipSign w v * llrs.getD v 0))
    (hdec : ∀ m ≤ n, ∃ K, StopsAt rule H (clippedLlr llrs) m K ∧ bpDecode nanSign oneLeft alg H nv m llrs = .ok (bpResult rule H nv llrs K))
    (hdec' : (∀ k c v, bpMsgs rule H (clippedLlr llrs') k c v = flipSign w v * bpMsgs rule H (clippedLlr llrs) k c v) →
      ∃ K, StopsAt rule H (clippedLlr llrs') n K ∧ bpDecode nanSign oneLeft alg H nv n llrs' = .ok (bpResult rule H nv llrs' K))
    (hz : ∀ m ≤ n, ∀ d o arr, bpDecode nanSign oneLeft alg H nv m llrs = .ok ([(d, o)], arr) → some 0 ∉ o) :
    ∃ d o arr arr', bpDecode nanSign oneLeft alg H nv n llrs = .ok ([(d, o)], arr) ∧
      bpDecode nanSign oneLeft alg H nv n llrs' = .ok ([(List.zipWith xor d ((List.range nv).map w),
        List.zipWith (fun (s : ℝ) x => Option.map (s * ·) x) ((List.range nv).map (flipSign w)) o)], arr') := by
  have hc : ∀ v, clippedLlr llrs' v = flipSign w v * clippedLlr llrs v := by
    intro v
    unfold clippedLlr
    rw [← clip_flip]
    congr 2
    rw [hl']
    by_cases hv : v < nv
    · rw [List.getD_eq_getElem _ _ (by simpa using hv), List.getElem_map, List.getElem_range]
    · rw [List.getD_eq_default _ _ (by simpa using hv), List.getD_eq_default _ _ (by omega), mul_zero]
  have sym := bpTotal_congr_rule rule H (clippedLlr llrs) (clippedLlr llrs') (flipSign w) hc hrule
  obtain ⟨K, hK, hd⟩ := hdec n le_rfl
  obtain ⟨K', hK', hd'⟩ := hdec' (fun k c v => (sym k).1 c v)
  -- no total is zero up to the stopping time
  have nz : ∀ j ≤ K, ∀ v < nv, bpTotal rule H (clippedLlr llrs) j v ≠ 0 := by
    intro j hj v hv h0
    obtain ⟨Kj, hKj, hdj⟩ := hdec j (hj.trans hK.1)
    have : Kj = j := by
      rcases hKj.2.1 with h | h
      · exact h
      · by_contra hne
        have : Kj < K := by have := hKj.1; omega
        exact hK.2.2 Kj this h
    subst this
    refine hz Kj (hj.trans hK.1) _ _ _ hdj ?_
    exact List.mem_map.2 ⟨v, List.mem_range.2 hv, by rw [h0]⟩
  have sgn : ∀ j ≤ K, ∀ v < nv, decide (bpTotal rule H (clippedLlr llrs') j v < 0) =
      xor (decide (bpTotal rule H (clippedLlr llrs) j v < 0)) (w v) := by
    intro j hj v hv
    have h0 := nz j hj v hv
    have : decide (bpTotal rule H (clippedLlr llrs') j v < 0) = decide (flipSign w v * bpTotal rule H (clippedLlr llrs) j v < 0) := by
      rw [decide_eq_decide, (sym j).2 v]
    rw [this]
    unfold flipSign
    cases hwv : w v
    · simp
    · simp only [if_true, neg_one_mul, Bool.xor_true]
      rcases lt_or_gt_of_ne h0 with h | h
      · rw [decide_eq_false (by linarith), decide_eq_true h]; rfl
      · rw [decide_eq_true (by linarith), decide_eq_false (by linarith)]; rfl
  have chk : ∀ j ≤ K, (ChecksHold H (fun v => bpTotal rule H (clippedLlr llrs') j v < 0) ↔ ChecksHold H (fun v => bpTotal rule H (clippedLlr llrs) j v < 0)) := by
    intro j hj
    exact checksHold_xor H w _ _ hw (fun ns hns v hv => sgn j hj v ((hH ns hns).2 v hv))
  have hst : StopsAt rule H (clippedLlr llrs') n K := by
    refine ⟨hK.1, ?_, fun j hj => ?_⟩
    · rcases hK.2.1 with h | h
      · exact Or.inl h
      · exact Or.inr ((chk K le_rfl).2 h)
    · rw [chk j hj.le]
      exact hK.2.2 j hj
  rw [hK'.unique hst] at hd'
  refine ⟨_, _, _, llrs'.map (fun x => max (-500) (min 500 x)), hd, ?_⟩
  rw [hd']
  unfold bpResult
  have e1 : (List.range nv).map (fun v => decide (bpTotal rule H (clippedLlr llrs') K v < 0)) =
      List.zipWith xor ((List.range nv).map (fun v => decide (bpTotal rule H (clippedLlr llrs) K v < 0))) ((List.range nv).map w) := by
    rw [List.zipWith_map_left, List.zipWith_map_right, List.zipWith_self]
    exact List.map_congr_left fun v hv => sgn K le_rfl v (List.mem_range.1 hv)
  have e2 : (List.range nv).map (fun v => some (bpTotal rule H (clippedLlr llrs') K v)) =
      List.zipWith (fun (s : ℝ) x => Option.map (s * ·) x) ((List.range nv).map (flipSign w)) ((List.range nv).map (fun v => some (bpTotal rule H (clippedLlr llrs) K v))) := by
    rw [List.zipWith_map_left, List.zipWith_map_right, List.zipWith_self]
    refine List.map_congr_left fun v _ => ?_
    simp only [Option.map_some]
    rw [(sym K).2 v]
  rw [e1, e2]

/-- C60: flipping the signs of the LLRs by a word of the code flips the decisions and the LLRs returned by min-sum decoding by
the same word, if no LLR returned with `n` or fewer iterations is zero (the sign of zero is taken as bit 0). -/
theorem C60_flip_msa (H : Checks) (nv n : Nat) (llrs : List ℝ) (hnv : 0 < nv) (hl : llrs.length = nv) (hH : GoodChecks H nv)
    (hdeg : ∀ ns ∈ H, ns.length ≠ 1) (w : Nat → Bool) (hw : ChecksHold H w)
    (hz : ∀ m ≤ n, ∀ d o arr, bpDecode nanSign oneLeft .msa H nv m llrs = .ok ([(d, o)], arr) → some 0 ∉ o) :
    ∃ d o arr arr', bpDecode nanSign oneLeft .msa H nv n llrs = .ok ([(d, o)], arr) ∧
      bpDecode nanSign oneLeft .msa H nv n ((List.range nv).map (fun v => (if w v then -1 else 1) * llrs.getD v 0)) =
        .ok ([(List.zipWith xor d ((List.range nv).map w),
          List.zipWith (fun (s : ℝ) x => Option.map (s * ·) x) ((List.range nv).map (fun v => if w v then -1 else 1)) o)], arr') :=
  flip_core nanSign oneLeft .msa msaRule H nv n llrs hl hH w hw
    (fun ns hns x x' hx v hv => msaRule_flip w (hH ns hns).1 (hw ns hns) x x' hx hv) _ rfl
    (fun m _ => C89_msa nanSign oneLeft H nv m llrs hnv hl hH hdeg)
    (fun _ => C89_msa nanSign oneLeft H nv n _ hnv (by simp) hH hdeg) hz

/-- C60 for sum-product decoding, if moreover no message from a variable to a check is zero. -/
theorem C60_flip_spa (H : Checks) (nv n : Nat) (llrs : List ℝ) (hnv : 0 < nv) (hl : llrs.length = nv) (hH : GoodChecks H nv)
    (w : Nat → Bool) (hw : ChecksHold H w)
    (hnz : ∀ k < n, ∀ c < H.length, ∀ v ∈ H.getD c [], bpMsgs spaRule H (clippedLlr llrs) k c v ≠ 0)
    (hz : ∀ m ≤ n, ∀ d o arr, bpDecode nanSign oneLeft .spa H nv m llrs = .ok ([(d, o)], arr) → some 0 ∉ o) :
    ∃ d o arr arr', bpDecode nanSign oneLeft .spa H nv n llrs = .ok ([(d, o)], arr) ∧
      bpDecode nanSign oneLeft .spa H nv n ((List.range nv).map (fun v => (if w v then -1 else 1) * llrs.getD v 0)) =
        .ok ([(List.zipWith xor d ((List.range nv).map w),
          List.zipWith (fun (s : ℝ) x => Option.map (s * ·) x) ((List.range nv).map (fun v => if w v then -1 else 1)) o)], arr') :=
  flip_core nanSign oneLeft .spa spaRule H nv n llrs hl hH w hw
    (fun ns hns x x' hx v hv => spaRule_flip w (hH ns hns).1 (hw ns hns) x x' hx hv) _ rfl
    (fun m hm => C89_spa_partial nanSign oneLeft H nv m llrs hnv hl hH (fun k hk => hnz k (by omega)))
    (fun hmsg => C89_spa_partial nanSign oneLeft H nv n _ hnv (by simp) hH (fun k hk c hc v hv => by
      have := hmsg k c v
      intro h0
      rw [h0] at this
      have h1 := hnz k hk c hc v hv
      rcases mul_eq_zero.1 this.symm with h | h
      · have := abs_flipSign w v
        rw [h] at this
        norm_num at this
      · exact h1 h)) hz

end Verif
