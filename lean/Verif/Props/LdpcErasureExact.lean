import Verif.Props.LdpcErasure
import Verif.Props.LdpcShipped
import Verif.Props.LdpcCorrectEx
import Verif.Props.BscCoding
/-
C113 (exact form), C129: what min-sum decoding returns on the erasure channel, and its error probability.
-/
namespace Verif

variable (nanSign : NanSigns) (oneLeft : Py (List (List Bool × List (Option ℝ))))

/-- A peeling order of `E \ S`: position `v` is solved at time `t v` by a check whose other positions are solved earlier; the positions of `S` are
never solved. -/
def PeelRest (H : Checks) (E S : Finset Nat) (t : Nat → Nat) : Prop :=
  (∀ v ∉ E, t v = 0) ∧ (∀ v ∈ S, t v = E.card + 1) ∧
    ∀ v ∈ E, v ∉ S → 1 ≤ t v ∧ t v ≤ E.card ∧ ∃ c < H.length, v ∈ H.getD c [] ∧ ∀ u ∈ H.getD c [], u ≠ v → t u < t v

/-- What is outside the largest stopping set can be peeled. -/
theorem exists_peelRest {H : Checks} {S : Finset Nat} (hS : StoppingSet H S) : ∀ (m : Nat) (E : Finset Nat), (E \ S).card = m → S ⊆ E →
    (∀ T ⊆ E, StoppingSet H T → T ⊆ S) → ∃ t, PeelRest H E S t := by
  intro m
  induction m with
  | zero =>
    intro E hE hSE _
    rw [Finset.card_eq_zero, Finset.sdiff_eq_empty_iff_subset] at hE
    have : E = S := Finset.Subset.antisymm hE hSE
    subst this
    exact ⟨fun v => if v ∈ E then E.card + 1 else 0, fun v hv => if_neg hv, fun v hv => if_pos hv, fun v hv hn => absurd hv hn⟩
  | succ m ih =>
    intro E hE hSE hs
    have h1 : ¬ StoppingSet H E := by
      intro h
      have := Finset.sdiff_eq_empty_iff_subset.2 (hs E (Finset.Subset.refl _) h)
      rw [this] at hE
      simp at hE
    unfold StoppingSet at h1
    push Not at h1
    obtain ⟨ns, hns, hone⟩ := h1
    rw [List.countP_eq_length_filter, List.length_eq_one_iff] at hone
    obtain ⟨v, hv⟩ := hone
    have hmem : ∀ u, (u ∈ ns ∧ u ∈ E) ↔ u = v := by
      intro u
      have : u ∈ ns.filter (fun v => decide (v ∈ E)) ↔ u ∈ [v] := by rw [hv]
      simpa using this
    have hvv := (hmem v).2 rfl
    have hvS : v ∉ S := by
      intro hvS
      refine hS ns hns ?_
      have : ns.countP (fun u => decide (u ∈ S)) = ns.countP (fun u => decide (u ∈ E)) := by
        apply List.countP_congr
        intro u hu
        by_cases huE : u ∈ E
        · have := (hmem u).1 ⟨hu, huE⟩
          subst this
          simp [hvS, huE]
        · have : u ∉ S := fun h => huE (hSE h)
          simp [huE, this]
      rw [this, List.countP_eq_length_filter, hv]
      rfl
    have hpos : 1 ≤ E.card := Finset.card_pos.2 ⟨v, hvv.2⟩
    obtain ⟨t, ht0, htS, ht⟩ := ih (E.erase v) (by
        rw [Finset.erase_sdiff_comm, Finset.card_erase_of_mem (Finset.mem_sdiff.2 ⟨hvv.2, hvS⟩)]; omega)
      (fun x hx => Finset.mem_erase.2 ⟨fun h => hvS (h ▸ hx), hSE hx⟩)
      (fun T hT => hs T (hT.trans (Finset.erase_subset _ _)))
    rw [Finset.card_erase_of_mem hvv.2] at htS
    refine ⟨fun x => if x = v then 1 else if x ∈ E then t x + 1 else 0, ?_, ?_, ?_⟩
    · intro x hx
      have : x ≠ v := by rintro rfl; exact hx hvv.2
      simp [this, hx]
    · intro x hx
      have h1 : x ≠ v := by rintro rfl; exact hvS hx
      simp only [h1, hSE hx, if_false, if_true, htS x hx]
      omega
    · intro x hx hxS
      by_cases hxv : x = v
      · subst hxv
        obtain ⟨c, hc, rfl⟩ := List.getElem_of_mem hns
        refine ⟨by simp, by simp only [if_true]; omega, c, hc, by rw [List.getD_eq_getElem _ _ hc]; exact hvv.1, ?_⟩
        intro u hu hux
        rw [List.getD_eq_getElem _ _ hc] at hu
        have : u ∉ E := fun h => hux ((hmem u).1 ⟨hu, h⟩)
        simp [hux, this]
      · obtain ⟨t1, t2, c, hc, hxc, hlt⟩ := ht x (Finset.mem_erase.2 ⟨hxv, hx⟩) hxS
        rw [Finset.card_erase_of_mem hvv.2] at t2
        refine ⟨by simp [hxv, hx], by simp only [hxv, hx, if_false, if_true]; omega, c, hc, hxc, ?_⟩
        intro u hu hux
        have := hlt u hu hux
        simp only [hxv, hx, if_false, if_true]
        split
        · omega
        · split <;> omega

theorem peelRest_msgs {H : Checks} {nv : Nat} (hH : GoodChecks H nv) (hdeg : ∀ ns ∈ H, ns.length ≠ 1) {y : Nat → ℝ} {E S : Finset Nat} {t : Nat → Nat}
    (ht : PeelRest H E S t) (hy : ∀ v < nv, 0 ≤ y v) (hpos : ∀ v < nv, v ∉ E → 0 < y v) :
    ∀ k c, c < H.length → ∀ v ∈ H.getD c [], v ∉ S → t v ≤ k → (v ∈ E → ∃ u ∈ H.getD c [], u ≠ v ∧ t v ≤ t u) → 0 < bpMsgs msaRule H y k c v := by
  intro k
  induction k with
  | zero =>
    intro c hc v hv hvS htk _
    have hvn := (hH _ (getD_mem hc)).2 v hv
    refine hpos v hvn fun hE => ?_
    have := (ht.2.2 v hE hvS).1
    omega
  | succ k ih =>
    intro c hc v hv hvS htk hns
    have hvn := (hH _ (getD_mem hc)).2 v hv
    simp only [bpMsgs]
    have nn : ∀ z ∈ ((List.range H.length).filter (fun c' => decide (v ∈ H.getD c' [] ∧ c' ≠ c))).map
        (fun c' => msaRule (H.getD c' []) (bpMsgs msaRule H y k c') v), 0 ≤ z := by
      intro z hz
      obtain ⟨c', hc', rfl⟩ := List.mem_map.1 hz
      simp only [List.mem_filter, List.mem_range, decide_eq_true_eq] at hc'
      exact msaRule_nonneg fun u hu _ => msgs_nonneg hH hy k c' u ((hH _ (getD_mem hc'.1)).2 u hu)
    by_cases hE : v ∈ E
    · obtain ⟨t1, tE, c0, hc0, hvc0, hlt⟩ := ht.2.2 v hE hvS
      obtain ⟨u, hu, huv, hle⟩ := hns hE
      have hcc : c0 ≠ c := by
        rintro rfl
        have := hlt u hu huv
        omega
      have hm0 := getD_mem hc0
      have hchk : 0 < msaRule (H.getD c0 []) (bpMsgs msaRule H y k c0) v := by
        refine msaRule_pos (hH _ hm0).1 (hdeg _ hm0) hvc0 ?_
        intro u hu huv
        have := hlt u hu huv
        exact ih c0 hc0 u hu (fun hS => by have := ht.2.1 u hS; omega) (by omega) fun _ => ⟨v, hvc0, huv.symm, by omega⟩
      have hin : msaRule (H.getD c0 []) (bpMsgs msaRule H y k c0) v ∈ ((List.range H.length).filter (fun c' => decide (v ∈ H.getD c' [] ∧ c' ≠ c))).map
        (fun c' => msaRule (H.getD c' []) (bpMsgs msaRule H y k c') v) :=
        List.mem_map.2 ⟨c0, List.mem_filter.2 ⟨List.mem_range.2 hc0, decide_eq_true ⟨hvc0, hcc⟩⟩, rfl⟩
      exact add_pos_of_nonneg_of_pos (hy v hvn) (hchk.trans_le (List.single_le_sum nn _ hin))
    · exact add_pos_of_pos_of_nonneg (hpos v hvn hE) (List.sum_nonneg nn)

theorem peelRest_total {H : Checks} {nv : Nat} (hH : GoodChecks H nv) (hdeg : ∀ ns ∈ H, ns.length ≠ 1) {y : Nat → ℝ} {E S : Finset Nat} {t : Nat → Nat}
    (ht : PeelRest H E S t) (hy : ∀ v < nv, 0 ≤ y v) (hpos : ∀ v < nv, v ∉ E → 0 < y v) (k : Nat) {v : Nat} (hv : v < nv) (hvS : v ∉ S) (hk : t v ≤ k) :
    0 < bpTotal msaRule H y k v := by
  cases k with
  | zero =>
    refine hpos v hv fun hE => ?_
    have := (ht.2.2 v hE hvS).1
    omega
  | succ k =>
    simp only [bpTotal]
    have nn : ∀ z ∈ ((List.range H.length).filter (fun c' => decide (v ∈ H.getD c' []))).map
        (fun c' => msaRule (H.getD c' []) (bpMsgs msaRule H y k c') v), 0 ≤ z := by
      intro z hz
      obtain ⟨c', hc', rfl⟩ := List.mem_map.1 hz
      simp only [List.mem_filter, List.mem_range, decide_eq_true_eq] at hc'
      exact msaRule_nonneg fun u hu _ => msgs_nonneg hH hy k c' u ((hH _ (getD_mem hc'.1)).2 u hu)
    by_cases hE : v ∈ E
    · obtain ⟨t1, tE, c0, hc0, hvc0, hlt⟩ := ht.2.2 v hE hvS
      have hm0 := getD_mem hc0
      have hchk : 0 < msaRule (H.getD c0 []) (bpMsgs msaRule H y k c0) v := by
        refine msaRule_pos (hH _ hm0).1 (hdeg _ hm0) hvc0 ?_
        intro u hu huv
        have := hlt u hu huv
        exact peelRest_msgs hH hdeg ht hy hpos k c0 hc0 u hu (fun hS => by have := ht.2.1 u hS; omega) (by omega) fun _ => ⟨v, hvc0, huv.symm, by omega⟩
      have hin : msaRule (H.getD c0 []) (bpMsgs msaRule H y k c0) v ∈ ((List.range H.length).filter (fun c' => decide (v ∈ H.getD c' []))).map
        (fun c' => msaRule (H.getD c' []) (bpMsgs msaRule H y k c') v) :=
        List.mem_map.2 ⟨c0, List.mem_filter.2 ⟨List.mem_range.2 hc0, decide_eq_true hvc0⟩, rfl⟩
      exact add_pos_of_nonneg_of_pos (hy v hv) (hchk.trans_le (List.single_le_sum nn _ hin))
    · exact add_pos_of_pos_of_nonneg (hpos v hv hE) (List.sum_nonneg nn)

/-- The position is in a stopping set of erased positions. -/
def Trapped (H : Checks) (E : Finset Nat) (v : Nat) : Prop := ∃ S ⊆ E, StoppingSet H S ∧ v ∈ S

theorem stopping_empty (H : Checks) : StoppingSet H ∅ := by
  intro ns _
  simp

theorem countP_mem_eq_one {ns : List Nat} {S : Finset Nat} (h : ns.countP (fun v => decide (v ∈ S)) = 1) : ∃ v, ∀ u, (u ∈ ns ∧ u ∈ S) ↔ u = v := by
  rw [List.countP_eq_length_filter, List.length_eq_one_iff] at h
  obtain ⟨v, hv⟩ := h
  refine ⟨v, fun u => ?_⟩
  have : u ∈ ns.filter (fun v => decide (v ∈ S)) ↔ u ∈ [v] := by rw [hv]
  simpa using this

theorem countP_one_of {ns : List Nat} (hnd : ns.Nodup) {S : Finset Nat} {v : Nat} (h : ∀ u, (u ∈ ns ∧ u ∈ S) ↔ u = v) :
    ns.countP (fun v => decide (v ∈ S)) = 1 := by
  have hvv := (h v).2 rfl
  have h1 : ns.countP (fun u => decide (u ∈ S)) = ns.countP (fun u => u == v) := by
    apply List.countP_congr
    intro u hu
    by_cases huv : u = v
    · subst huv; simp [hvv.2]
    · have : u ∉ S := fun hS => huv ((h u).1 ⟨hu, hS⟩)
      simp [this, huv]
  rw [h1]
  have := List.count_eq_one_of_mem hnd hvv.1
  rwa [List.count] at this

/-- The union of stopping sets is a stopping set. -/
theorem stopping_union {H : Checks} (hnd : ∀ ns ∈ H, ns.Nodup) {S T : Finset Nat} (hS : StoppingSet H S) (hT : StoppingSet H T) : StoppingSet H (S ∪ T) := by
  intro ns hns h1
  obtain ⟨v, hv⟩ := countP_mem_eq_one h1
  have hvv := (hv v).2 rfl
  rcases Finset.mem_union.1 hvv.2 with h | h
  · refine hS ns hns (countP_one_of (hnd ns hns) (v := v) fun u => ⟨fun hu => (hv u).1 ⟨hu.1, Finset.mem_union_left _ hu.2⟩, ?_⟩)
    rintro rfl
    exact ⟨hvv.1, h⟩
  · refine hT ns hns (countP_one_of (hnd ns hns) (v := v) fun u => ⟨fun hu => (hv u).1 ⟨hu.1, Finset.mem_union_right _ hu.2⟩, ?_⟩)
    rintro rfl
    exact ⟨hvv.1, h⟩

/-- Every set of positions has a largest stopping set. -/
theorem exists_largest {H : Checks} (hnd : ∀ ns ∈ H, ns.Nodup) (E : Finset Nat) : ∃ S ⊆ E, StoppingSet H S ∧ ∀ T ⊆ E, StoppingSet H T → T ⊆ S := by
  classical
  refine ⟨(E.powerset.filter (StoppingSet H)).sup id, ?_, ?_, ?_⟩
  · refine Finset.sup_le fun T hT => ?_
    exact Finset.mem_powerset.1 (Finset.mem_filter.1 hT).1
  · refine Finset.sup_induction (p := StoppingSet H) (stopping_empty H) (fun a ha b hb => stopping_union hnd ha hb) ?_
    intro T hT
    exact (Finset.mem_filter.1 hT).2
  · intro T hT hs
    exact Finset.le_sup (f := id) (Finset.mem_filter.2 ⟨Finset.mem_powerset.2 hT, hs⟩)

open Classical in
/-- C113, exactly: a code word `w` with the positions `E` erased (LLR 0) and all other LLRs of the right sign, decoded by min-sum with at least `|E|`
iterations: bit `v` of the result is right unless `w v` is 1 and `v` is in a stopping set of erased positions, and then it is 0. -/
theorem C113_exact (H : Checks) (nv n : Nat) (llrs : List ℝ) (hnv : 0 < nv) (hl : llrs.length = nv) (hH : GoodChecks H nv)
    (hdeg : ∀ ns ∈ H, ns.length ≠ 1) (w : Nat → Bool) (hw : ChecksHold H w) (E : Finset Nat) (hn : E.card ≤ n)
    (hgood : ∀ v < nv, v ∉ E → if w v then llrs.getD v 0 < 0 else 0 < llrs.getD v 0)
    (hbad : ∀ v ∈ E, llrs.getD v 0 = 0) :
    ∃ out arr, bpDecode nanSign oneLeft .msa H nv n llrs =
      .ok ([((List.range nv).map (fun v => w v && ¬ Trapped H E v), out)], arr) := by
  obtain ⟨K, hK, hdec⟩ := C89_msa nanSign oneLeft H nv n llrs hnv hl hH hdeg
  rw [hdec]
  obtain ⟨M, hME, hM, hmax⟩ := exists_largest (fun ns hns => (hH ns hns).1) E
  have hin : ∀ v, Trapped H E v ↔ v ∈ M :=
    fun v => ⟨fun ⟨S, h1, h2, h3⟩ => hmax S h1 h2 h3, fun h => ⟨M, hME, hM, h⟩⟩
  obtain ⟨t, ht⟩ := exists_peelRest hM _ E rfl hME hmax
  set y : Nat → ℝ := fun v => flipSign w v * clippedLlr llrs v with hyd
  have hpos : ∀ v < nv, v ∉ E → 0 < y v := by
    intro v hv hE
    have := hgood v hv hE
    rw [hyd]
    show 0 < flipSign w v * max (-500) (min 500 _)
    rw [← clip_flip]
    refine lt_max_of_lt_right (lt_min (by norm_num) ?_)
    unfold flipSign
    split at this <;> rename_i hwv <;> simp only [hwv, if_true, if_false, Bool.false_eq_true] <;> linarith
  have hzero : ∀ v ∈ E, y v = 0 := by
    intro v hE
    rw [hyd]
    show flipSign w v * max (-500) (min 500 _) = 0
    rw [hbad v hE]
    norm_num
  have hy : ∀ v < nv, 0 ≤ y v := by
    intro v hv
    by_cases hE : v ∈ E
    · exact (hzero v hE).ge
    · exact (hpos v hv hE).le
  have htE : ∀ v, v ∉ M → t v ≤ E.card := by
    intro v hvM
    by_cases hE : v ∈ E
    · exact (ht.2.2 v hE hvM).2.1
    · rw [ht.1 v hE]; exact Nat.zero_le _
  have hright : ∀ k, ∀ v < nv, 0 < bpTotal msaRule H y k v → decide (bpTotal msaRule H (clippedLlr llrs) k v < 0) = w v :=
    fun k v _ hp => decide_flip (bpTotal_flip hH hw (clippedLlr llrs) k v) hp
  have hfin : ∀ v < nv, v ∉ M → decide (bpTotal msaRule H (clippedLlr llrs) K v < 0) = w v := by
    rcases hK.2.1 with h | h
    · intro v hv hvM
      exact hright K v hv (peelRest_total hH hdeg ht hy hpos K hv hvM (by have := htE v hvM; omega))
    · intro v0 hv0 hvM
      by_contra hne0
      set S : Finset Nat := (Finset.range nv).filter (fun v => decide (bpTotal msaRule H (clippedLlr llrs) K v < 0) ≠ w v) with hS
      have memS : ∀ v, v ∈ S ↔ v < nv ∧ decide (bpTotal msaRule H (clippedLlr llrs) K v < 0) ≠ w v := by
        intro v; rw [hS, Finset.mem_filter, Finset.mem_range]
      refine hvM (hmax S ?_ ?_ ((memS v0).2 ⟨hv0, hne0⟩))
      · intro v hv
        obtain ⟨hvn, hne⟩ := (memS v).1 hv
        by_contra hE
        exact hne (hright K v hvn (peelRest_total hH hdeg ht hy hpos K hvn (fun h => hE (hME h)) (by rw [ht.1 v hE]; exact Nat.zero_le _)))
      · intro ns hns hone
        obtain ⟨v, hmem⟩ := countP_mem_eq_one hone
        have hvv := (hmem v).2 rfl
        obtain ⟨u, hu, huv, hd⟩ := differ_check hH hw h hns hvv.1 ((memS v).1 hvv.2).2
        exact huv ((hmem u).1 ⟨hu, (memS u).2 ⟨(hH ns hns).2 u hu, hd⟩⟩)
  have hlost : ∀ v ∈ M, decide (bpTotal msaRule H (clippedLlr llrs) K v < 0) = false := by
    intro v hv
    have := (stopping_zero hH (y := clippedLlr llrs) hM (fun v hv => by unfold clippedLlr; rw [hbad v (hME hv)]; norm_num) K).2 v hv
    rw [this]
    simp
  unfold bpResult
  have e : (List.range nv).map (fun v => decide (bpTotal msaRule H (clippedLlr llrs) K v < 0)) =
      (List.range nv).map (fun v => w v && ¬ Trapped H E v) := by
    refine List.map_congr_left fun v hv => ?_
    by_cases hvM : v ∈ M
    · rw [hlost v hvM]
      simp [(hin v).2 hvM]
    · rw [hfin v (List.mem_range.1 hv) hvM]
      have : ¬ Trapped H E v := fun h => hvM ((hin v).1 h)
      simp [this]
  rw [e]
  exact ⟨_, _, rfl⟩

end Verif
