import Verif.Props.LdpcCorrect
/-
C113: min-sum decoding on the erasure channel (LLR 0 for an erased bit) is the peeling decoder.
-/
namespace Verif

variable (nanSign : NanSigns) (oneLeft : Py (List (List Bool × List (Option ℝ))))

/-- A stopping set: no check contains exactly one of its positions. -/
def StoppingSet (H : Checks) (S : Finset Nat) : Prop := ∀ ns ∈ H, ns.countP (fun v => v ∈ S) ≠ 1

theorem msaRule_nonneg {ns : List Nat} {x : Nat → ℝ} {v : Nat} (h : ∀ u ∈ ns, u ≠ v → 0 ≤ x u) : 0 ≤ msaRule ns x v := by
  unfold msaRule
  refine mul_nonneg (List.prod_nonneg ?_) (Real.iInf_nonneg fun u => abs_nonneg _)
  intro z hz
  obtain ⟨u, hu, rfl⟩ := List.mem_map.1 hz
  simp only [List.mem_filter, decide_eq_true_eq] at hu
  rcases (h u hu.1 hu.2).eq_or_lt with h0 | h0
  · rw [← h0]; simp
  · rw [sign_pos h0]; simp

theorem msaRule_pos {ns : List Nat} (hnd : ns.Nodup) (hl : ns.length ≠ 1) {v : Nat} (hv : v ∈ ns) {x : Nat → ℝ}
    (h : ∀ u ∈ ns, u ≠ v → 0 < x u) : 0 < msaRule ns x v := by
  obtain ⟨u0, h1, h2⟩ := exists_other hnd hl hv
  haveI : Nonempty {u // u ∈ ns ∧ u ≠ v} := ⟨⟨u0, h1, h2⟩⟩
  haveI : Finite {u // u ∈ ns ∧ u ≠ v} := Finite.of_injective (β := {u // u ∈ ns}) (fun u => ⟨u.1, u.2.1⟩) (by
    intro a b hab; exact Subtype.ext (congrArg (fun z : {u // u ∈ ns} => z.1) hab))
  obtain ⟨u, hu⟩ := exists_eq_ciInf_of_finite (f := fun u : {u // u ∈ ns ∧ u ≠ v} => |x u|)
  unfold msaRule
  rw [prod_signs_one (fun u hu => by
    simp only [List.mem_filter, decide_eq_true_eq] at hu
    exact h u hu.1 hu.2), one_mul, ← hu]
  exact abs_pos.2 (h u u.2.1 u.2.2).ne'

theorem msaRule_zero {ns : List Nat} {x : Nat → ℝ} {u v : Nat} (hu : u ∈ ns) (huv : u ≠ v) (h : x u = 0) : msaRule ns x v = 0 := by
  unfold msaRule
  rw [List.prod_eq_zero, zero_mul]
  exact List.mem_map.2 ⟨u, List.mem_filter.2 ⟨hu, by simpa using huv⟩, by rw [h]; simp⟩

/-- Right or erased messages stay right or erased. -/
theorem msgs_nonneg {H : Checks} {nv : Nat} (hH : GoodChecks H nv) {y : Nat → ℝ} (hy : ∀ v < nv, 0 ≤ y v) :
    ∀ k c, ∀ v < nv, 0 ≤ bpMsgs msaRule H y k c v := by
  intro k
  induction k with
  | zero => intro c v hv; exact hy v hv
  | succ k ih =>
    intro c v hv
    simp only [bpMsgs]
    refine add_nonneg (hy v hv) (List.sum_nonneg ?_)
    intro z hz
    obtain ⟨c', hc', rfl⟩ := List.mem_map.1 hz
    simp only [List.mem_filter, List.mem_range, decide_eq_true_eq] at hc'
    exact msaRule_nonneg fun u hu _ => ih c' u ((hH _ (getD_mem hc'.1)).2 u hu)

theorem total_nonneg {H : Checks} {nv : Nat} (hH : GoodChecks H nv) {y : Nat → ℝ} (hy : ∀ v < nv, 0 ≤ y v) (k : Nat) :
    ∀ v < nv, 0 ≤ bpTotal msaRule H y k v := by
  cases k with
  | zero => exact hy
  | succ k =>
    intro v hv
    simp only [bpTotal]
    refine add_nonneg (hy v hv) (List.sum_nonneg ?_)
    intro z hz
    obtain ⟨c', hc', rfl⟩ := List.mem_map.1 hz
    simp only [List.mem_filter, List.mem_range, decide_eq_true_eq] at hc'
    exact msaRule_nonneg fun u hu _ => msgs_nonneg hH hy k c' u ((hH _ (getD_mem hc'.1)).2 u hu)

/-- A peeling order: erased position `v` is solved at time `t v` by a check whose other positions are solved earlier. -/
def PeelOrder (H : Checks) (E : Finset Nat) (t : Nat → Nat) : Prop :=
  (∀ v ∉ E, t v = 0) ∧ ∀ v ∈ E, 1 ≤ t v ∧ t v ≤ E.card ∧ ∃ c < H.length, v ∈ H.getD c [] ∧ ∀ u ∈ H.getD c [], u ≠ v → t u < t v

/-- A set of positions without a (nonempty) stopping set can be peeled. -/
theorem exists_peelOrder {H : Checks} (hnd : ∀ ns ∈ H, ns.Nodup) : ∀ (m : Nat) (E : Finset Nat), E.card = m →
    (∀ S ⊆ E, S.Nonempty → ¬ StoppingSet H S) → ∃ t, PeelOrder H E t := by
  intro m
  induction m with
  | zero =>
    intro E hE _
    rw [Finset.card_eq_zero] at hE
    subst hE
    exact ⟨fun _ => 0, fun _ _ => rfl, fun v hv => absurd hv (Finset.notMem_empty v)⟩
  | succ m ih =>
    intro E hE hs
    have hne : E.Nonempty := Finset.card_pos.1 (by omega)
    have h1 := hs E (Finset.Subset.refl _) hne
    unfold StoppingSet at h1
    push Not at h1
    obtain ⟨ns, hns, hone⟩ := h1
    rw [List.countP_eq_length_filter, List.length_eq_one_iff] at hone
    obtain ⟨v, hv⟩ := hone
    have hmem : ∀ u, (u ∈ ns ∧ u ∈ E) ↔ u = v := by
      intro u
      have : u ∈ ns.filter (fun v => decide (v ∈ E)) ↔ u ∈ [v] := by rw [hv]
      simpa using this
    have hvv := (hmem v).2 rfl
    obtain ⟨t, ht0, ht⟩ := ih (E.erase v) (by rw [Finset.card_erase_of_mem hvv.2]; omega)
      (fun S hS => hs S (hS.trans (Finset.erase_subset _ _)))
    refine ⟨fun x => if x = v then 1 else if x ∈ E then t x + 1 else 0, ?_, ?_⟩
    · intro x hx
      have : x ≠ v := by rintro rfl; exact hx hvv.2
      simp [this, hx]
    · intro x hx
      by_cases hxv : x = v
      · subst hxv
        obtain ⟨c, hc, rfl⟩ := List.getElem_of_mem hns
        refine ⟨by simp, by simp only [if_true]; omega, c, hc, by rw [List.getD_eq_getElem _ _ hc]; exact hvv.1, ?_⟩
        intro u hu hux
        rw [List.getD_eq_getElem _ _ hc] at hu
        have : u ∉ E := fun h => hux ((hmem u).1 ⟨hu, h⟩)
        simp [hux, this]
      · obtain ⟨t1, t2, c, hc, hxc, hlt⟩ := ht x (Finset.mem_erase.2 ⟨hxv, hx⟩)
        rw [Finset.card_erase_of_mem hvv.2] at t2
        refine ⟨by simp [hxv, hx], by simp only [hxv, hx, if_false, if_true]; omega, c, hc, hxc, ?_⟩
        intro u hu hux
        have := hlt u hu hux
        simp only [hxv, hx, if_false, if_true]
        split
        · omega
        · split <;> omega

/-- Along a peeling order the messages become right. -/
theorem peel_msgs {H : Checks} {nv : Nat} (hH : GoodChecks H nv) (hdeg : ∀ ns ∈ H, ns.length ≠ 1) {y : Nat → ℝ} {E : Finset Nat} {t : Nat → Nat}
    (ht : PeelOrder H E t) (hy : ∀ v < nv, 0 ≤ y v) (hpos : ∀ v < nv, v ∉ E → 0 < y v) :
    ∀ k c, c < H.length → ∀ v ∈ H.getD c [], t v ≤ k → (v ∈ E → ∃ u ∈ H.getD c [], u ≠ v ∧ t v ≤ t u) → 0 < bpMsgs msaRule H y k c v := by
  intro k
  induction k with
  | zero =>
    intro c hc v hv htk _
    have hvn := (hH _ (getD_mem hc)).2 v hv
    refine hpos v hvn fun hE => ?_
    have := (ht.2 v hE).1
    omega
  | succ k ih =>
    intro c hc v hv htk hns
    have hvn := (hH _ (getD_mem hc)).2 v hv
    simp only [bpMsgs]
    have nn : ∀ z ∈ ((List.range H.length).filter (fun c' => decide (v ∈ H.getD c' [] ∧ c' ≠ c))).map
        (fun c' => msaRule (H.getD c' []) (bpMsgs msaRule H y k c') v), 0 ≤ z := by
      intro z hz
      obtain ⟨c', hc', rfl⟩ := List.mem_map.1 hz
      simp only [List.mem_filter, List.mem_range, decide_eq_true_eq] at hc'
      exact msaRule_nonneg fun u hu _ => msgs_nonneg hH hy k c' u ((hH _ (getD_mem hc'.1)).2 u hu)
    by_cases hE : v ∈ E
    · obtain ⟨t1, -, c0, hc0, hvc0, hlt⟩ := ht.2 v hE
      obtain ⟨u, hu, huv, hle⟩ := hns hE
      have hcc : c0 ≠ c := by
        rintro rfl
        have := hlt u hu huv
        omega
      have hm0 := getD_mem hc0
      have hchk : 0 < msaRule (H.getD c0 []) (bpMsgs msaRule H y k c0) v := by
        refine msaRule_pos (hH _ hm0).1 (hdeg _ hm0) hvc0 ?_
        intro u hu huv
        have := hlt u hu huv
        exact ih c0 hc0 u hu (by omega) fun _ => ⟨v, hvc0, huv.symm, by omega⟩
      have hin : msaRule (H.getD c0 []) (bpMsgs msaRule H y k c0) v ∈ ((List.range H.length).filter (fun c' => decide (v ∈ H.getD c' [] ∧ c' ≠ c))).map
        (fun c' => msaRule (H.getD c' []) (bpMsgs msaRule H y k c') v) :=
        List.mem_map.2 ⟨c0, List.mem_filter.2 ⟨List.mem_range.2 hc0, decide_eq_true ⟨hvc0, hcc⟩⟩, rfl⟩
      exact add_pos_of_nonneg_of_pos (hy v hvn) (hchk.trans_le (List.single_le_sum nn _ hin))
    · exact add_pos_of_pos_of_nonneg (hpos v hvn hE) (List.sum_nonneg nn)

theorem peel_total {H : Checks} {nv : Nat} (hH : GoodChecks H nv) (hdeg : ∀ ns ∈ H, ns.length ≠ 1) {y : Nat → ℝ} {E : Finset Nat} {t : Nat → Nat}
    (ht : PeelOrder H E t) (hy : ∀ v < nv, 0 ≤ y v) (hpos : ∀ v < nv, v ∉ E → 0 < y v) (k : Nat) {v : Nat} (hv : v < nv) (hk : t v ≤ k) :
    0 < bpTotal msaRule H y k v := by
  cases k with
  | zero =>
    refine hpos v hv fun hE => ?_
    have := (ht.2 v hE).1
    omega
  | succ k =>
    simp only [bpTotal]
    have nn : ∀ z ∈ ((List.range H.length).filter (fun c' => decide (v ∈ H.getD c' []))).map
        (fun c' => msaRule (H.getD c' []) (bpMsgs msaRule H y k c') v), 0 ≤ z := by
      intro z hz
      obtain ⟨c', hc', rfl⟩ := List.mem_map.1 hz
      simp only [List.mem_filter, List.mem_range, decide_eq_true_eq] at hc'
      exact msaRule_nonneg fun u hu _ => msgs_nonneg hH hy k c' u ((hH _ (getD_mem hc'.1)).2 u hu)
    by_cases hE : v ∈ E
    · obtain ⟨t1, -, c0, hc0, hvc0, hlt⟩ := ht.2 v hE
      have hm0 := getD_mem hc0
      have hchk : 0 < msaRule (H.getD c0 []) (bpMsgs msaRule H y k c0) v := by
        refine msaRule_pos (hH _ hm0).1 (hdeg _ hm0) hvc0 ?_
        intro u hu huv
        have := hlt u hu huv
        exact peel_msgs hH hdeg ht hy hpos k c0 hc0 u hu (by omega) fun _ => ⟨v, hvc0, huv.symm, by omega⟩
      have hin : msaRule (H.getD c0 []) (bpMsgs msaRule H y k c0) v ∈ ((List.range H.length).filter (fun c' => decide (v ∈ H.getD c' []))).map
        (fun c' => msaRule (H.getD c' []) (bpMsgs msaRule H y k c') v) :=
        List.mem_map.2 ⟨c0, List.mem_filter.2 ⟨List.mem_range.2 hc0, decide_eq_true hvc0⟩, rfl⟩
      exact add_pos_of_nonneg_of_pos (hy v hv) (hchk.trans_le (List.single_le_sum nn _ hin))
    · exact add_pos_of_pos_of_nonneg (hpos v hv hE) (List.sum_nonneg nn)

/-- In a stopping set of erased positions every message stays zero. -/
theorem stopping_zero {H : Checks} {nv : Nat} (hH : GoodChecks H nv) {y : Nat → ℝ} {S : Finset Nat} (hS : StoppingSet H S) (hy : ∀ v ∈ S, y v = 0) :
    ∀ k, (∀ c, ∀ v ∈ S, bpMsgs msaRule H y k c v = 0) ∧ ∀ v ∈ S, bpTotal msaRule H y k v = 0 := by
  have other : ∀ c < H.length, ∀ v ∈ S, v ∈ H.getD c [] → ∃ u ∈ H.getD c [], u ≠ v ∧ u ∈ S := by
    intro c hc v hv hvc
    by_contra hno
    push Not at hno
    refine hS _ (getD_mem hc) ?_
    have h1 : (H.getD c []).countP (fun u => decide (u ∈ S)) = (H.getD c []).countP (fun u => u == v) := by
      apply List.countP_congr
      intro u hu
      by_cases huv : u = v
      · subst huv; simp [hv]
      · have := hno u hu huv
        simp [this, huv]
    rw [h1]
    have := List.count_eq_one_of_mem (hH _ (getD_mem hc)).1 hvc
    rwa [List.count] at this
  have step : ∀ k, (∀ c, ∀ v ∈ S, bpMsgs msaRule H y k c v = 0) → ∀ c < H.length, ∀ v ∈ S, v ∈ H.getD c [] →
      msaRule (H.getD c []) (bpMsgs msaRule H y k c) v = 0 := by
    intro k ih c hc v hv hvc
    obtain ⟨u, hu, huv, huS⟩ := other c hc v hv hvc
    exact msaRule_zero hu huv (ih c u huS)
  have msgs : ∀ k c, ∀ v ∈ S, bpMsgs msaRule H y k c v = 0 := by
    intro k
    induction k with
    | zero => intro c v hv; exact hy v hv
    | succ k ih =>
      intro c v hv
      simp only [bpMsgs]
      rw [hy v hv, zero_add]
      apply List.sum_eq_zero
      intro z hz
      obtain ⟨c', hc', rfl⟩ := List.mem_map.1 hz
      simp only [List.mem_filter, List.mem_range, decide_eq_true_eq] at hc'
      exact step k ih c' hc'.1 v hv hc'.2.1
  intro k
  refine ⟨msgs k, ?_⟩
  cases k with
  | zero => exact hy
  | succ k =>
    intro v hv
    simp only [bpTotal]
    rw [hy v hv, zero_add]
    apply List.sum_eq_zero
    intro z hz
    obtain ⟨c', hc', rfl⟩ := List.mem_map.1 hz
    simp only [List.mem_filter, List.mem_range, decide_eq_true_eq] at hc'
    exact step k (msgs k) c' hc'.1 v hv hc'.2

/-- C113: a code word with the positions `E` erased (LLR 0) and all other LLRs of the right sign is recovered by min-sum decoding with at least
`|E|` iterations, if no nonempty part of `E` is a stopping set. -/
theorem C113_erasures (H : Checks) (nv n : Nat) (llrs : List ℝ) (hnv : 0 < nv) (hl : llrs.length = nv) (hH : GoodChecks H nv)
    (hdeg : ∀ ns ∈ H, ns.length ≠ 1) (w : Nat → Bool) (hw : ChecksHold H w) (E : Finset Nat) (hn : E.card ≤ n)
    (hgood : ∀ v < nv, v ∉ E → if w v then llrs.getD v 0 < 0 else 0 < llrs.getD v 0)
    (hbad : ∀ v ∈ E, llrs.getD v 0 = 0)
    (hstop : ∀ S ⊆ E, S.Nonempty → ¬ StoppingSet H S) :
    ∃ out arr, bpDecode nanSign oneLeft .msa H nv n llrs = .ok ([((List.range nv).map w, out)], arr) := by
  classical
  obtain ⟨K, hK, hdec⟩ := C89_msa nanSign oneLeft H nv n llrs hnv hl hH hdeg
  rw [hdec]
  obtain ⟨t, ht⟩ := exists_peelOrder (fun ns hns => (hH ns hns).1) _ E rfl hstop
  set y : Nat → ℝ := fun v => flipSign w v * clippedLlr llrs v with hyd
  have hpos : ∀ v < nv, v ∉ E → 0 < y v := by
    intro v hv hE
    have := hgood v hv hE
    rw [hyd]
    show 0 < flipSign w v * max (-500) (min 500 _)
    rw [← clip_flip]
    refine lt_max_of_lt_right (lt_min (by norm_num) ?_)
    unfold flipSign
    split at this <;> rename_i hwv <;> simp only [hwv, if_true, if_false, Bool.false_eq_true] <;> linarith
  have hzero : ∀ v ∈ E, y v = 0 := by
    intro v hE
    rw [hyd]
    show flipSign w v * max (-500) (min 500 _) = 0
    rw [hbad v hE]
    norm_num
  have hy : ∀ v < nv, 0 ≤ y v := by
    intro v hv
    by_cases hE : v ∈ E
    · exact (hzero v hE).ge
    · exact (hpos v hv hE).le
  have htE : ∀ v, t v ≤ E.card := by
    intro v
    by_cases hE : v ∈ E
    · exact (ht.2 v hE).2.1
    · rw [ht.1 v hE]; exact Nat.zero_le _
  have hright : ∀ k, ∀ v < nv, 0 < bpTotal msaRule H y k v → decide (bpTotal msaRule H (clippedLlr llrs) k v < 0) = w v :=
    fun k v _ hp => decide_flip (bpTotal_flip hH hw (clippedLlr llrs) k v) hp
  have hfin : ∀ v < nv, decide (bpTotal msaRule H (clippedLlr llrs) K v < 0) = w v := by
    rcases hK.2.1 with h | h
    · intro v hv
      exact hright K v hv (peel_total hH hdeg ht hy hpos K hv (by have := htE v; omega))
    · by_contra hcon
      push Not at hcon
      obtain ⟨v0, hv0, hne0⟩ := hcon
      set S : Finset Nat := (Finset.range nv).filter (fun v => decide (bpTotal msaRule H (clippedLlr llrs) K v < 0) ≠ w v) with hS
      have memS : ∀ v, v ∈ S ↔ v < nv ∧ decide (bpTotal msaRule H (clippedLlr llrs) K v < 0) ≠ w v := by
        intro v; rw [hS, Finset.mem_filter, Finset.mem_range]
      refine hstop S ?_ ⟨v0, (memS v0).2 ⟨hv0, hne0⟩⟩ ?_
      · intro v hv
        obtain ⟨hvn, hne⟩ := (memS v).1 hv
        by_contra hE
        exact hne (hright K v hvn (peel_total hH hdeg ht hy hpos K hvn (by rw [ht.1 v hE]; exact Nat.zero_le _)))
      · intro ns hns hone
        rw [List.countP_eq_length_filter, List.length_eq_one_iff] at hone
        obtain ⟨v, hv⟩ := hone
        have hmem : ∀ u, (u ∈ ns ∧ u ∈ S) ↔ u = v := by
          intro u
          have : u ∈ ns.filter (fun v => decide (v ∈ S)) ↔ u ∈ [v] := by rw [hv]
          simpa using this
        have hvv := (hmem v).2 rfl
        obtain ⟨u, hu, huv, hd⟩ := differ_check hH hw h hns hvv.1 ((memS v).1 hvv.2).2
        exact huv ((hmem u).1 ⟨hu, (memS u).2 ⟨(hH ns hns).2 u hu, hd⟩⟩)
  unfold bpResult
  have e : (List.range nv).map (fun v => decide (bpTotal msaRule H (clippedLlr llrs) K v < 0)) = (List.range nv).map w :=
    List.map_congr_left fun v hv => hfin v (List.mem_range.1 hv)
  rw [e]
  exact ⟨_, _, rfl⟩

/-- C113, the condition is needed: the erased positions of a stopping set are returned with LLR 0 and bit 0, whatever the other LLRs and the
number of iterations. -/
theorem C113_stopping (H : Checks) (nv n : Nat) (llrs : List ℝ) (hnv : 0 < nv) (hl : llrs.length = nv) (hH : GoodChecks H nv)
    (hdeg : ∀ ns ∈ H, ns.length ≠ 1) (S : Finset Nat) (hS : StoppingSet H S) (hbad : ∀ v ∈ S, llrs.getD v 0 = 0) :
    ∃ dec out arr, bpDecode nanSign oneLeft .msa H nv n llrs = .ok ([(dec, out)], arr) ∧
      ∀ v ∈ S, v < nv → dec[v]? = some false ∧ out[v]? = some (some 0) := by
  obtain ⟨K, hK, hdec⟩ := C89_msa nanSign oneLeft H nv n llrs hnv hl hH hdeg
  refine ⟨_, _, _, hdec, ?_⟩
  intro v hv hvn
  have := (stopping_zero hH (y := clippedLlr llrs) hS (fun v hv => by unfold clippedLlr; rw [hbad v hv]; norm_num) K).2 v hv
  simp [hvn, this]

end Verif
