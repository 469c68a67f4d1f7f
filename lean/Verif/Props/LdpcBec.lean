import Verif.Props.LdpcErasureExact
/-
C129: error probability of min-sum decoding over the binary erasure channel and the binary symmetric channel.
-/
namespace Verif
open MeasureTheory ProbabilityTheory Finset

variable (nanSign : NanSigns) (oneLeft : Py (List (List Bool × List (Option ℝ))))

/-- The LLR of a received bit (0, 1, or -1 for an erased one): `L`, `-L` or 0. -/
noncomputable def bitLlr (L : ℝ) (x : Int) : ℝ := if x = -1 then 0 else if x = 1 then -L else L

/-- The word `c` sent through `bec`, as LLRs. -/
noncomputable def becLlrs (c : List Int) (p L : ℝ) (u : Nat → ℝ) : List ℝ :=
  let r := bec [c] 0 p u
  (r.1.getD r.2 []).map (bitLlr L)

/-- The word `c` sent through `bsc`, as LLRs. -/
noncomputable def bscLlrs (c : List Int) (p L : ℝ) (u : Nat → ℝ) : List ℝ :=
  let r := bsc [c] 0 p u
  (r.1.getD r.2 []).map (bitLlr L)

open Classical in
/-- The erased positions. -/
noncomputable def erasedSet (nv : Nat) (p : ℝ) (u : Nat → ℝ) : Finset Nat := (range nv).filter fun i => u i ≤ p

/-- The decoder returns the word `c`. -/
def Returns (r : Py (List (List Bool × List (Option ℝ)) × List ℝ)) (c : List Int) : Prop :=
  ∃ d out arr, r = .ok ([(d, out)], arr) ∧ d.map (fun b => if b then (1 : Int) else 0) = c

open Classical in
/-- C129, one transmission over the erasure channel: every bit is right, except that the ones in stopping sets of erased positions become zeros. -/
theorem C129_bec (H : Checks) (nv n : Nat) (hnv : 0 < nv) (hH : GoodChecks H nv) (hdeg : ∀ ns ∈ H, ns.length ≠ 1) (c : List Int) (hl : c.length = nv)
    (hw : ChecksHold H (fun v => c.getD v 0 = 1)) (hc : ∀ x ∈ c, x = 0 ∨ x = 1) (p L : ℝ) (hL : 0 < L) (u : Nat → ℝ) (hn : (erasedSet nv p u).card ≤ n) :
    ∃ out arr, bpDecode nanSign oneLeft .msa H nv n (becLlrs c p L u) =
      .ok ([((List.range nv).map (fun v => c.getD v 0 = 1 && ¬ Trapped H (erasedSet nv p u) v), out)], arr) := by
  obtain ⟨-, e2, e3, -⟩ := C74_bec [c] 0 (by simp) p u
  have e0 : ([c] : IntHeap).getD 0 [] = c := rfl
  rw [e0] at e2 e3
  have hr : (bec [c] 0 p u).2 = ([c] : IntHeap).length := rfl
  have hlen : (becLlrs c p L u).length = nv := by
    unfold becLlrs
    dsimp only
    rw [List.length_map, hr, e2, hl]
  have hval : ∀ v < nv, (becLlrs c p L u).getD v 0 = bitLlr L (if u v ≤ p then -1 else c.getD v 0) := by
    intro v hv
    rw [← e3 v (by omega)]
    unfold becLlrs
    dsimp only
    rw [hr]
    have h1 : v < ((bec [c] 0 p u).1.getD ([c] : IntHeap).length []).length := by rw [e2]; omega
    rw [List.getD_eq_getElem _ _ (by rw [List.length_map]; exact h1), List.getElem_map, List.getD_eq_getElem _ _ h1]
  refine C113_exact nanSign oneLeft H nv n _ hnv hlen hH hdeg (fun v => decide (c.getD v 0 = 1)) hw _ hn ?_ ?_
  · intro v hv hE
    have hu : ¬ u v ≤ p := fun h => hE (mem_filter.2 ⟨mem_range.2 hv, h⟩)
    rw [hval v hv, if_neg hu]
    have h01 : c.getD v 0 = 0 ∨ c.getD v 0 = 1 := by
      rw [List.getD_eq_getElem _ _ (by omega)]
      exact hc _ (List.getElem_mem _)
    unfold bitLlr
    rcases h01 with h | h <;> simp only [h] <;> simp [hL]
  · intro v hv
    obtain ⟨h1, h2⟩ := mem_filter.1 hv
    rw [hval v (mem_range.1 h1), if_pos h2]
    unfold bitLlr
    simp

/-- The word is not returned exactly when a stopping set of erased positions contains a one of the word. -/
theorem bec_wrong (H : Checks) (nv n : Nat) (hnv : 0 < nv) (hH : GoodChecks H nv) (hdeg : ∀ ns ∈ H, ns.length ≠ 1) (c : List Int) (hl : c.length = nv)
    (hw : ChecksHold H (fun v => c.getD v 0 = 1)) (hc : ∀ x ∈ c, x = 0 ∨ x = 1) (p L : ℝ) (hL : 0 < L) (hn : nv ≤ n) (u : Nat → ℝ) :
    ¬ Returns (bpDecode nanSign oneLeft .msa H nv n (becLlrs c p L u)) c ↔ ∃ v < nv, c.getD v 0 = 1 ∧ Trapped H (erasedSet nv p u) v := by
  classical
  have hcard : (erasedSet nv p u).card ≤ n := by
    refine le_trans (card_filter_le _ _) ?_
    rw [card_range]; exact hn
  obtain ⟨out, arr, h⟩ := C129_bec nanSign oneLeft H nv n hnv hH hdeg c hl hw hc p L hL u hcard
  rw [← not_iff_not, not_not]
  push Not
  unfold Returns
  rw [h]
  constructor
  · rintro ⟨d, o, a, h1, h2⟩ v hv h3 h4
    cases h1
    have : (List.map (fun b => if b then (1 : Int) else 0) ((List.range nv).map (fun v => decide (c.getD v 0 = 1) && decide (¬ Trapped H (erasedSet nv p u) v)))).getD v 0 = c.getD v 0 := by
      rw [h2]
    rw [h3, List.getD_eq_getElem _ _ (by simpa using hv)] at this
    simp [h4] at this
  · intro h1
    refine ⟨_, _, _, rfl, ?_⟩
    refine List.ext_getElem (by simp [hl]) fun v hv1 hv2 => ?_
    have hv : v < nv := by omega
    have h2 := h1 v hv
    simp only [List.getElem_map, List.getElem_range]
    rw [List.getD_eq_getElem _ _ hv2] at h2 ⊢
    rcases hc _ (List.getElem_mem hv2) with h | h
    · simp [h]
    · simp [h, h2 h]

/-- The probability that exactly the positions `E` are erased. -/
theorem erased_prob {Ω : Type*} [MeasurableSpace Ω] {P : Measure Ω} [IsProbabilityMeasure P] {u : Ω → ℕ → ℝ} (hu : UniformDraws P u)
    (hind : iIndepFun (fun i ω => u ω i) P) {p : ℝ} (h0 : 0 ≤ p) (h1 : p ≤ 1) {nv : Nat} {E : Finset Nat} (hE : E ⊆ range nv) :
    P {ω | erasedSet nv p (u ω) = E} = ENNReal.ofReal (p ^ E.card * (1 - p) ^ (nv - E.card)) := by
  classical
  have hset : {ω | erasedSet nv p (u ω) = E} = ⋂ i ∈ range nv, (fun ω => u ω i) ⁻¹' (if i ∈ E then Set.Iic p else Set.Ioi p) := by
    ext ω
    simp only [Set.mem_ofPred_eq, Set.mem_iInter, Set.mem_preimage]
    constructor
    · intro h i hi
      by_cases hiE : i ∈ E
      · rw [if_pos hiE]
        rw [← h] at hiE
        exact (mem_filter.1 hiE).2
      · rw [if_neg hiE]
        rw [← h] at hiE
        have : ¬ u ω i ≤ p := fun hle => hiE (mem_filter.2 ⟨hi, hle⟩)
        exact not_le.1 this
    · intro h
      ext i
      constructor
      · intro hi
        obtain ⟨hi1, hi2⟩ := mem_filter.1 hi
        by_contra hiE
        have := h i hi1
        rw [if_neg hiE] at this
        exact absurd hi2 (not_le.2 this)
      · intro hi
        have := h i (hE hi)
        rw [if_pos hi] at this
        exact mem_filter.2 ⟨hE hi, this⟩
  rw [hset, hind.measure_inter_preimage_eq_mul (range nv) (sets := fun i => if i ∈ E then Set.Iic p else Set.Ioi p) (fun i _ => by
    split
    · exact measurableSet_Iic
    · exact measurableSet_Ioi)]
  have e1 : ∀ i ∈ range nv, P ((fun ω => u ω i) ⁻¹' (if i ∈ E then Set.Iic p else Set.Ioi p)) = if i ∈ E then ENNReal.ofReal p else ENNReal.ofReal (1 - p) := by
    intro i _
    have hle : P ((fun ω => u ω i) ⁻¹' Set.Iic p) = ENNReal.ofReal p := uniform_le hu p h0 h1 i
    split
    · exact hle
    · have hc : (fun ω => u ω i) ⁻¹' Set.Ioi p = ((fun ω => u ω i) ⁻¹' Set.Iic p)ᶜ := by
        rw [← Set.preimage_compl, Set.compl_Iic]
      have hn : NullMeasurableSet ((fun ω => u ω i) ⁻¹' Set.Iic p) P := (hu i).aemeasurable.nullMeasurableSet_preimage measurableSet_Iic
      rw [hc, prob_compl_eq_one_sub₀ hn, hle, ENNReal.ofReal_sub _ h0, ENNReal.ofReal_one]
  rw [prod_congr rfl e1, prod_ite, prod_const, prod_const, filter_mem_eq_inter, inter_eq_right.2 hE]
  have e2 : (filter (fun x => x ∉ E) (range nv)).card = nv - E.card := by
    rw [filter_notMem_eq_sdiff, card_sdiff_of_subset hE, card_range]
  rw [e2, ENNReal.ofReal_mul (pow_nonneg h0 _), ENNReal.ofReal_pow h0, ENNReal.ofReal_pow (by linarith)]

theorem erased_subset (nv : Nat) (p : ℝ) (u : Nat → ℝ) : erasedSet nv p u ⊆ range nv := by
  classical
  exact filter_subset _ _

open Classical in
/-- The probability of any event of the erased positions. -/
theorem erased_event {Ω : Type*} [MeasurableSpace Ω] {P : Measure Ω} [IsProbabilityMeasure P] {u : Ω → ℕ → ℝ} (hu : UniformDraws P u)
    (hind : iIndepFun (fun i ω => u ω i) P) {p : ℝ} (h0 : 0 ≤ p) (h1 : p ≤ 1) (nv : Nat) (Q : Finset Nat → Prop) :
    P {ω | Q (erasedSet nv p (u ω))} = ENNReal.ofReal (∑ E ∈ (range nv).powerset.filter Q, p ^ E.card * (1 - p) ^ (nv - E.card)) := by
  have hset : {ω | Q (erasedSet nv p (u ω))} = ⋃ E ∈ (range nv).powerset.filter Q, {ω | erasedSet nv p (u ω) = E} := by
    ext ω
    simp only [Set.mem_ofPred_eq, Set.mem_iUnion, mem_filter, mem_powerset, exists_prop]
    exact ⟨fun h => ⟨_, ⟨erased_subset _ _ _, h⟩, rfl⟩, fun ⟨E, ⟨_, h2⟩, h3⟩ => h3 ▸ h2⟩
  have hmeas : ∀ E, NullMeasurableSet {ω | erasedSet nv p (u ω) = E} P := by
    intro E
    have hs : {ω | erasedSet nv p (u ω) = E} = ⋂ i : Nat, {ω | (i < nv ∧ u ω i ≤ p) ↔ i ∈ E} := by
      ext ω
      simp only [Set.mem_ofPred_eq, Set.mem_iInter, Finset.ext_iff, erasedSet, mem_filter, mem_range]
    rw [hs]
    refine NullMeasurableSet.iInter fun i => ?_
    have hn : NullMeasurableSet ((fun ω => u ω i) ⁻¹' Set.Iic p) P := (hu i).aemeasurable.nullMeasurableSet_preimage measurableSet_Iic
    by_cases hi : i < nv
    · by_cases hE : i ∈ E
      · have : {ω | (i < nv ∧ u ω i ≤ p) ↔ i ∈ E} = (fun ω => u ω i) ⁻¹' Set.Iic p := by
          ext ω; simp [hi, hE]
        rw [this]; exact hn
      · have : {ω | (i < nv ∧ u ω i ≤ p) ↔ i ∈ E} = ((fun ω => u ω i) ⁻¹' Set.Iic p)ᶜ := by
          ext ω; simp [hi, hE]
        rw [this]; exact hn.compl
    · by_cases hE : i ∈ E
      · have : {ω | (i < nv ∧ u ω i ≤ p) ↔ i ∈ E} = ∅ := by
          ext ω; simp [hi, hE]
        rw [this]; exact nullMeasurableSet_empty
      · have : {ω | (i < nv ∧ u ω i ≤ p) ↔ i ∈ E} = Set.univ := by
          ext ω; simp [hi, hE]
        rw [this]; exact MeasurableSet.univ.nullMeasurableSet
  rw [hset, measure_biUnion_finset₀ _ (fun E _ => hmeas E), ENNReal.ofReal_sum_of_nonneg]
  · refine sum_congr rfl fun E hE => ?_
    exact erased_prob hu hind h0 h1 (mem_powerset.1 (mem_filter.1 hE).1)
  · intro E _
    exact mul_nonneg (pow_nonneg h0 _) (pow_nonneg (by linarith) _)
  · intro E _ E' _ hne
    refine Disjoint.aedisjoint ?_
    refine Set.disjoint_left.2 ?_
    intro ω h1 h2
    exact hne (h1.symm.trans h2)

/-- The erased positions contain a stopping set with a one of the word. -/
def Fatal (H : Checks) (c : List Int) (E : Finset Nat) : Prop := ∃ S ⊆ E, StoppingSet H S ∧ ∃ v ∈ S, c.getD v 0 = 1

open Classical in
/-- C129: the exact block error probability of min-sum decoding (at least `nv` iterations) over the erasure channel. -/
theorem C129_bec_exact (H : Checks) (nv n : Nat) (hnv : 0 < nv) (hH : GoodChecks H nv) (hdeg : ∀ ns ∈ H, ns.length ≠ 1) (c : List Int) (hl : c.length = nv)
    (hw : ChecksHold H (fun v => c.getD v 0 = 1)) (hc : ∀ x ∈ c, x = 0 ∨ x = 1) (L : ℝ) (hL : 0 < L) (hn : nv ≤ n)
    {Ω : Type*} [MeasurableSpace Ω] {P : Measure Ω} [IsProbabilityMeasure P] {u : Ω → ℕ → ℝ} (hu : UniformDraws P u)
    (hind : iIndepFun (fun i ω => u ω i) P) {p : ℝ} (h0 : 0 ≤ p) (h1 : p ≤ 1) :
    P {ω | ¬ Returns (bpDecode nanSign oneLeft .msa H nv n (becLlrs c p L (u ω))) c} =
      ENNReal.ofReal (∑ E ∈ (range nv).powerset.filter (Fatal H c),
        p ^ E.card * (1 - p) ^ (nv - E.card)) := by
  have hset : {ω | ¬ Returns (bpDecode nanSign oneLeft .msa H nv n (becLlrs c p L (u ω))) c} =
      {ω | Fatal H c (erasedSet nv p (u ω))} := by
    ext ω
    simp only [Set.mem_ofPred_eq]
    rw [bec_wrong nanSign oneLeft H nv n hnv hH hdeg c hl hw hc p L hL hn]
    constructor
    · rintro ⟨v, hv, h1, S, hS, hs, hvS⟩
      exact ⟨S, hS, hs, v, hvS, h1⟩
    · rintro ⟨S, hS, hs, v, hvS, h1⟩
      exact ⟨v, mem_range.1 (erased_subset _ _ _ (hS hvS)), h1, S, hS, hs, hvS⟩
  rw [hset]
  exact erased_event hu hind h0 h1 nv _

theorem erased_contains {Ω : Type*} [MeasurableSpace Ω] {P : Measure Ω} {u : Ω → ℕ → ℝ} (hu : UniformDraws P u)
    (hind : iIndepFun (fun i ω => u ω i) P) {p : ℝ} (h0 : 0 ≤ p) (h1 : p ≤ 1) {nv : Nat} {S : Finset Nat} (hS : S ⊆ range nv) :
    P {ω | S ⊆ erasedSet nv p (u ω)} = ENNReal.ofReal (p ^ S.card) := by
  classical
  have e1 : {ω | S ⊆ erasedSet nv p (u ω)} = ⋂ i ∈ S, (fun ω => u ω i) ⁻¹' Set.Iic p := by
    ext ω
    simp only [Set.mem_ofPred_eq, Set.mem_iInter, Set.mem_preimage, Set.mem_Iic]
    exact ⟨fun h i hi => (mem_filter.1 (h hi)).2, fun h i hi => mem_filter.2 ⟨hS hi, h i hi⟩⟩
  rw [e1, hind.measure_inter_preimage_eq_mul S (sets := fun _ => Set.Iic p) (fun i _ => measurableSet_Iic)]
  have e2 : ∀ i ∈ S, P ((fun ω => u ω i) ⁻¹' Set.Iic p) = ENNReal.ofReal p := fun i _ => uniform_le hu p h0 h1 i
  rw [prod_congr rfl e2, prod_const, ENNReal.ofReal_pow h0]

/-- Without cycles of length 4 a stopping set has more positions than every bit has checks. -/
theorem stopping_size {H : Checks} {nv d : Nat} (hg : NoFourCycle H) (hcol : ∀ v < nv, d ≤ (checksOf H v).length) {S : Finset Nat} (hS : StoppingSet H S)
    (hnd : ∀ ns ∈ H, ns.Nodup) {v : Nat} (hvn : v < nv) (hv : v ∈ S) : d + 1 ≤ S.card := by
  classical
  have other : ∀ c ∈ checksOf H v, ∃ u, u ∈ H.getD c [] ∧ u ≠ v ∧ u ∈ S := by
    intro c hc
    unfold checksOf at hc
    simp only [List.mem_filter, List.mem_range, decide_eq_true_eq] at hc
    by_contra hno
    push Not at hno
    refine hS _ (getD_mem hc.1) (countP_one_of (hnd _ (getD_mem hc.1)) (v := v) fun u => ⟨fun hu => ?_, ?_⟩)
    · by_contra huv
      exact hno u hu.1 huv hu.2
    · rintro rfl
      exact ⟨hc.2, hv⟩
  choose! f hf using other
  have hinj : ((checksOf H v).toFinset.image f).card = (checksOf H v).toFinset.card := by
    refine card_image_of_injOn fun a ha b hb hab => ?_
    rw [mem_coe, List.mem_toFinset] at ha hb
    by_contra hne
    have ha' := ha
    have hb' := hb
    unfold checksOf at ha' hb'
    simp only [List.mem_filter, List.mem_range, decide_eq_true_eq] at ha' hb'
    exact (hf a ha).2.1 (hg a ha'.1 b hb'.1 hne (f a) (hf a ha).1 v ha'.2 (hab ▸ (hf b hb).1) hb'.2)
  have hsub : (checksOf H v).toFinset.image f ⊆ S.erase v := by
    intro x hx
    obtain ⟨c, hc, rfl⟩ := mem_image.1 hx
    have := hf c (List.mem_toFinset.1 hc)
    exact mem_erase.2 ⟨this.2.1, this.2.2⟩
  have h1 := card_le_card hsub
  rw [hinj, List.toFinset_card_of_nodup (checksOf_nodup H v), card_erase_of_mem hv] at h1
  have := hcol v hvn
  have := card_pos.2 ⟨v, hv⟩
  omega

/-- C129: bounds of the block error probability over the erasure channel.  For every code: at least `p^|S|` for every stopping set `S` with a one of the
word.  Without cycles of length 4 and with every bit in at least `d` checks: at most `C(nv, d+1) p^(d+1)`. -/
theorem C129_bec_bounds (H : Checks) (nv n : Nat) (hnv : 0 < nv) (hH : GoodChecks H nv) (hdeg : ∀ ns ∈ H, ns.length ≠ 1) (c : List Int) (hl : c.length = nv)
    (hw : ChecksHold H (fun v => c.getD v 0 = 1)) (hc : ∀ x ∈ c, x = 0 ∨ x = 1) (L : ℝ) (hL : 0 < L) (hn : nv ≤ n)
    {Ω : Type*} [MeasurableSpace Ω] {P : Measure Ω} {u : Ω → ℕ → ℝ} (hu : UniformDraws P u)
    (hind : iIndepFun (fun i ω => u ω i) P) {p : ℝ} (h0 : 0 ≤ p) (h1 : p ≤ 1) :
    (∀ S ⊆ range nv, StoppingSet H S → (∃ v ∈ S, c.getD v 0 = 1) →
      ENNReal.ofReal (p ^ S.card) ≤ P {ω | ¬ Returns (bpDecode nanSign oneLeft .msa H nv n (becLlrs c p L (u ω))) c}) ∧
    (∀ d, NoFourCycle H → (∀ v < nv, d ≤ (checksOf H v).length) →
      P {ω | ¬ Returns (bpDecode nanSign oneLeft .msa H nv n (becLlrs c p L (u ω))) c} ≤ ENNReal.ofReal (nv.choose (d + 1) * p ^ (d + 1))) := by
  classical
  constructor
  · intro S hS hs hv
    rw [← erased_contains hu hind h0 h1 hS]
    refine measure_mono fun ω hω => ?_
    have hω : S ⊆ erasedSet nv p (u ω) := hω
    show ¬ Returns _ c
    rw [bec_wrong nanSign oneLeft H nv n hnv hH hdeg c hl hw hc p L hL hn]
    obtain ⟨v, hv, h2⟩ := hv
    exact ⟨v, mem_range.1 (hS hv), h2, S, hω, hs, hv⟩
  · intro d hg hcol
    refine (measure_mono ?_).trans (flips_tail hu hind h0 h1 nv d)
    intro ω hω
    have hω : ¬ Returns (bpDecode nanSign oneLeft .msa H nv n (becLlrs c p L (u ω))) c := hω
    rw [bec_wrong nanSign oneLeft H nv n hnv hH hdeg c hl hw hc p L hL hn] at hω
    obtain ⟨v, hv, h2, S, hS, hs, hvS⟩ := hω
    show d < flips nv p (u ω)
    have h3 := stopping_size hg hcol hs (fun ns hns => (hH ns hns).1) hv hvS
    have h4 : S.card ≤ flips nv p (u ω) := card_le_card hS
    omega

open Classical in
theorem becLlrs_eq (c : List Int) (p L : ℝ) (u : Nat → ℝ) :
    becLlrs c p L u = (List.range c.length).map fun v => bitLlr L (if u v ≤ p then -1 else c.getD v 0) := by
  obtain ⟨-, e2, e3, -⟩ := C74_bec [c] 0 (by simp) p u
  have e0 : ([c] : IntHeap).getD 0 [] = c := rfl
  rw [e0] at e2 e3
  have hr : (bec [c] 0 p u).2 = ([c] : IntHeap).length := rfl
  unfold becLlrs
  dsimp only
  rw [hr]
  refine List.ext_getElem (by simp only [List.length_map, List.length_range, e2]) fun v h1 h2 => ?_
  have hv : v < c.length := by simpa using h2
  rw [List.getElem_map, List.getElem_map, List.getElem_range, ← e3 v hv]
  congr 1
  exact (List.getD_eq_getElem _ _ (by omega)).symm

open Classical in
theorem bscLlrs_eq (c : List Int) (hc : ∀ x ∈ c, x = 0 ∨ x = 1) (p L : ℝ) (u : Nat → ℝ) :
    bscLlrs c p L u = (List.range c.length).map fun v => bitLlr L (if u v ≤ p then 1 - c.getD v 0 else c.getD v 0) := by
  obtain ⟨-, e2, e3, -⟩ := C74_bsc [c] 0 (by simp) hc p u
  have e0 : ([c] : IntHeap).getD 0 [] = c := rfl
  rw [e0] at e2 e3
  have hr : (bsc [c] 0 p u).2 = ([c] : IntHeap).length := rfl
  unfold bscLlrs
  dsimp only
  rw [hr]
  refine List.ext_getElem (by simp only [List.length_map, List.length_range, e2]) fun v h1 h2 => ?_
  have hv : v < c.length := by simpa using h2
  rw [List.getElem_map, List.getElem_map, List.getElem_range, ← e3 v hv]
  congr 1
  exact (List.getD_eq_getElem _ _ (by omega)).symm

/-- The decoder returns the words `cs`, one per block. -/
def ReturnsAll (r : Py (List (List Bool × List (Option ℝ)) × List ℝ)) (cs : List (List Int)) : Prop :=
  ∃ out arr, r = .ok (out, arr) ∧ out.map (fun r => r.1.map (fun b => if b then (1 : Int) else 0)) = cs

theorem flatten_len {α : Type} {nv : Nat} {cs : List (List α)} (h : ∀ c ∈ cs, c.length = nv) : cs.flatten.length = cs.length * nv := by
  rw [List.length_flatten, List.map_congr_left (g := fun _ => nv) (fun b hb => h b hb)]
  simp

theorem block_lt {q nv b v : Nat} (hb : b < q) (hv : v < nv) : b * nv + v < q * nv := by
  calc b * nv + v < b * nv + nv := by omega
    _ = (b + 1) * nv := by ring
    _ ≤ q * nv := Nat.mul_le_mul_right _ hb

/-- A block of the received words is the received block. -/
theorem becLlrs_block {nv : Nat} {cs : List (List Int)} (h : ∀ c ∈ cs, c.length = nv) {b : Nat} (hb : b < cs.length) (p L : ℝ) (u : Nat → ℝ) :
    ((becLlrs cs.flatten p L u).drop (b * nv)).take nv = becLlrs (cs.getD b []) p L (fun i => u (b * nv + i)) := by
  have hl : (cs.getD b []).length = nv := by rw [List.getD_eq_getElem _ _ hb]; exact h _ (List.getElem_mem hb)
  have h2 : (b + 1) * nv ≤ cs.length * nv := Nat.mul_le_mul_right _ hb
  rw [Nat.add_mul, one_mul] at h2
  rw [becLlrs_eq, becLlrs_eq]
  refine List.ext_getElem (by rw [List.length_take, List.length_drop, List.length_map, List.length_range, flatten_len h, List.length_map, List.length_range, hl]; omega)
    fun v h3 h4 => ?_
  have hv : v < nv := by rw [List.length_map, List.length_range, hl] at h4; exact h4
  simp only [List.getElem_take, List.getElem_drop, List.getElem_map, List.getElem_range]
  rw [flatten_getD 0 nv cs h b hb v hv]

theorem bscLlrs_block {nv : Nat} {cs : List (List Int)} (h : ∀ c ∈ cs, c.length = nv) (hbit : ∀ c ∈ cs, ∀ x ∈ c, x = 0 ∨ x = 1) {b : Nat} (hb : b < cs.length)
    (p L : ℝ) (u : Nat → ℝ) :
    ((bscLlrs cs.flatten p L u).drop (b * nv)).take nv = bscLlrs (cs.getD b []) p L (fun i => u (b * nv + i)) := by
  have hm : cs.getD b [] ∈ cs := by rw [List.getD_eq_getElem _ _ hb]; exact List.getElem_mem hb
  have hl : (cs.getD b []).length = nv := h _ hm
  have h2 : (b + 1) * nv ≤ cs.length * nv := Nat.mul_le_mul_right _ hb
  rw [Nat.add_mul, one_mul] at h2
  rw [bscLlrs_eq _ (fun x hx => by obtain ⟨c, hc, hxc⟩ := List.mem_flatten.1 hx; exact hbit c hc x hxc), bscLlrs_eq _ (hbit _ hm)]
  refine List.ext_getElem (by rw [List.length_take, List.length_drop, List.length_map, List.length_range, flatten_len h, List.length_map, List.length_range, hl]; omega)
    fun v h3 h4 => ?_
  have hv : v < nv := by rw [List.length_map, List.length_range, hl] at h4; exact h4
  simp only [List.getElem_take, List.getElem_drop, List.getElem_map, List.getElem_range]
  rw [flatten_getD 0 nv cs h b hb v hv]

/-- Words that are returned one by one are returned together. -/
theorem returns_all (H : Checks) (nv n : Nat) (hnv : 0 < nv) {cs : List (List Int)} (hne : cs ≠ []) (llrs : List ℝ) (hl : llrs.length = cs.length * nv)
    (h : ∀ b < cs.length, ∀ nanSign oneLeft, Returns (bpDecode nanSign oneLeft .msa H nv n ((llrs.drop (b * nv)).take nv)) (cs.getD b [])) :
    ReturnsAll (bpDecode nanSign oneLeft .msa H nv n llrs) cs := by
  have hW : ∀ b < cs.length, ∀ nanSign oneLeft, ∃ out arr, bpDecode nanSign oneLeft .msa H nv n ((llrs.drop (b * nv)).take nv) =
      .ok ([((cs.getD b []).map (fun x => decide (x = 1)), out)], arr) := by
    intro b hb ns ol
    obtain ⟨d, out, arr, h1, h2⟩ := h b hb ns ol
    refine ⟨out, arr, ?_⟩
    rw [h1, ← h2, List.map_map]
    have : d.map ((fun x : Int => decide (x = 1)) ∘ fun b : Bool => if b then (1 : Int) else 0) = d := by
      conv_rhs => rw [← List.map_id d]
      refine List.map_congr_left fun b _ => ?_
      cases b <;> rfl
    rw [this]
  have hne' : llrs ≠ [] := by
    rintro rfl
    have := Nat.mul_pos (List.length_pos_iff.2 hne) hnv
    rw [← hl] at this
    simp at this
  obtain ⟨out, arr, h1, h2⟩ := bpDecode_blocks nanSign oneLeft .msa H nv n cs.length llrs hnv hl hne' (fun b => (cs.getD b []).map (fun x => decide (x = 1))) hW
  refine ⟨out, arr, h1, ?_⟩
  have : out.map (fun r => r.1.map (fun b => if b then (1 : Int) else 0)) = (out.map Prod.fst).map (fun l => l.map (fun b => if b then (1 : Int) else 0)) := by
    rw [List.map_map]; rfl
  rw [this, h2, List.map_map]
  refine List.ext_getElem (by simp) fun b h3 h4 => ?_
  simp only [List.getElem_map, List.getElem_range, Function.comp]
  obtain ⟨d, -, -, -, h5⟩ := h b h4 nanSign oneLeft
  rw [← List.getD_eq_getElem _ [] h4, ← h5, List.map_map, List.map_map]
  refine List.map_congr_left fun b _ => ?_
  cases b <;> rfl

theorem uniform_shift {Ω : Type*} [MeasurableSpace Ω] {P : Measure Ω} {u : Ω → ℕ → ℝ} (hu : UniformDraws P u) (k : Nat) : UniformDraws P (fun ω i => u ω (k + i)) :=
  fun i => hu (k + i)

theorem indep_shift {Ω : Type*} [MeasurableSpace Ω] {P : Measure Ω} {u : Ω → ℕ → ℝ} (hind : iIndepFun (fun i ω => u ω i) P) (k : Nat) :
    iIndepFun (fun i ω => u ω (k + i)) P :=
  hind.precomp (g := fun i => k + i) (fun a b h => by dsimp only at h; omega)

/-- C129: several words over the erasure channel, no cycles of length 4, every bit in at least `d` checks: not all of them are returned with probability at
most `B C(nv, d+1) p^(d+1)` for `B` blocks. -/
theorem C129_bec_blocks (H : Checks) (nv n d : Nat) (hnv : 0 < nv) (hH : GoodChecks H nv) (hdeg : ∀ ns ∈ H, ns.length ≠ 1) (hg : NoFourCycle H)
    (hcol : ∀ v < nv, d ≤ (checksOf H v).length) (cs : List (List Int)) (hne : cs ≠ [])
    (hcs : ∀ c ∈ cs, c.length = nv ∧ ChecksHold H (fun v => c.getD v 0 = 1) ∧ ∀ x ∈ c, x = 0 ∨ x = 1) (L : ℝ) (hL : 0 < L) (hn : nv ≤ n)
    {Ω : Type*} [MeasurableSpace Ω] {P : Measure Ω} {u : Ω → ℕ → ℝ} (hu : UniformDraws P u)
    (hind : iIndepFun (fun i ω => u ω i) P) {p : ℝ} (h0 : 0 ≤ p) (h1 : p ≤ 1) :
    P {ω | ¬ ReturnsAll (bpDecode nanSign oneLeft .msa H nv n (becLlrs cs.flatten p L (u ω))) cs} ≤ ENNReal.ofReal (cs.length * (nv.choose (d + 1) * p ^ (d + 1))) := by
  classical
  have hlen : ∀ c ∈ cs, c.length = nv := fun c hc => (hcs c hc).1
  have hsub : {ω | ¬ ReturnsAll (bpDecode nanSign oneLeft .msa H nv n (becLlrs cs.flatten p L (u ω))) cs} ⊆
      ⋃ b ∈ range cs.length, {ω | d < flips nv p (fun i => u ω (b * nv + i))} := by
    intro ω hω
    by_contra hno
    refine hω (returns_all nanSign oneLeft H nv n hnv hne _ (by rw [becLlrs_eq, List.length_map, List.length_range, flatten_len hlen]) ?_)
    intro b hb ns ol
    have hm : cs.getD b [] ∈ cs := by rw [List.getD_eq_getElem _ _ hb]; exact List.getElem_mem hb
    obtain ⟨c1, c2, c3⟩ := hcs _ hm
    rw [becLlrs_block hlen hb]
    by_contra hbad
    rw [bec_wrong ns ol H nv n hnv hH hdeg _ c1 c2 c3 p L hL hn] at hbad
    obtain ⟨v, hv, h2, S, hS, hs, hvS⟩ := hbad
    have h3 := stopping_size hg hcol hs (fun ns hns => (hH ns hns).1) hv hvS
    have h4 : S.card ≤ flips nv p (fun i => u ω (b * nv + i)) := card_le_card hS
    refine hno (Set.mem_biUnion (mem_range.2 hb) ?_)
    show d < flips nv p (fun i => u ω (b * nv + i))
    omega
  refine (measure_mono hsub).trans ((measure_biUnion_finset_le _ _).trans ?_)
  refine (sum_le_sum fun b _ => flips_tail (uniform_shift hu (b * nv)) (indep_shift hind (b * nv)) h0 h1 nv d).trans ?_
  rw [sum_const, card_range, nsmul_eq_mul, ENNReal.ofReal_mul (p := (cs.length : ℝ)) (Nat.cast_nonneg _), ENNReal.ofReal_natCast]

/-- C129: several words over the binary symmetric channel, no cycles of length 4, every bit in at least `2 e` checks: not all of them are returned with
probability at most `B C(nv, e+1) p^(e+1)` for `B` blocks. -/
theorem C129_bsc_blocks (H : Checks) (nv n e : Nat) (hnv : 0 < nv) (hH : GoodChecks H nv) (hdeg : ∀ ns ∈ H, ns.length ≠ 1) (hg : NoFourCycle H)
    (hcol : ∀ v < nv, 2 * e ≤ (checksOf H v).length) (cs : List (List Int)) (hne : cs ≠ [])
    (hcs : ∀ c ∈ cs, c.length = nv ∧ ChecksHold H (fun v => c.getD v 0 = 1) ∧ ∀ x ∈ c, x = 0 ∨ x = 1) (L : ℝ) (hL : 0 < L) (hn : 1 ≤ n)
    {Ω : Type*} [MeasurableSpace Ω] {P : Measure Ω} {u : Ω → ℕ → ℝ} (hu : UniformDraws P u)
    (hind : iIndepFun (fun i ω => u ω i) P) {p : ℝ} (h0 : 0 ≤ p) (h1 : p ≤ 1) :
    P {ω | ¬ ReturnsAll (bpDecode nanSign oneLeft .msa H nv n (bscLlrs cs.flatten p L (u ω))) cs} ≤ ENNReal.ofReal (cs.length * (nv.choose (e + 1) * p ^ (e + 1))) := by
  classical
  have hlen : ∀ c ∈ cs, c.length = nv := fun c hc => (hcs c hc).1
  have hbit : ∀ c ∈ cs, ∀ x ∈ c, x = 0 ∨ x = 1 := fun c hc => (hcs c hc).2.2
  have hsub : {ω | ¬ ReturnsAll (bpDecode nanSign oneLeft .msa H nv n (bscLlrs cs.flatten p L (u ω))) cs} ⊆
      ⋃ b ∈ range cs.length, {ω | e < flips nv p (fun i => u ω (b * nv + i))} := by
    intro ω hω
    by_contra hno
    refine hω (returns_all nanSign oneLeft H nv n hnv hne _ (by
      rw [bscLlrs_eq _ (fun x hx => by obtain ⟨c, hc, hxc⟩ := List.mem_flatten.1 hx; exact hbit c hc x hxc), List.length_map, List.length_range, flatten_len hlen]) ?_)
    intro b hb ns ol
    have hm : cs.getD b [] ∈ cs := by rw [List.getD_eq_getElem _ _ hb]; exact List.getElem_mem hb
    obtain ⟨c1, c2, c3⟩ := hcs _ hm
    rw [bscLlrs_block hlen hbit hb]
    have hfl : flips nv p (fun i => u ω (b * nv + i)) ≤ e := by
      by_contra hgt
      exact hno (Set.mem_biUnion (mem_range.2 hb) (show e < flips nv p (fun i => u ω (b * nv + i)) by omega))
    set c := cs.getD b [] with hc
    set v' : Nat → ℝ := fun i => u ω (b * nv + i)
    rw [bscLlrs_eq c c3]
    have h01 : ∀ v < nv, c.getD v 0 = 0 ∨ c.getD v 0 = 1 := by
      intro v hv
      rw [List.getD_eq_getElem _ _ (by omega)]
      exact c3 _ (List.getElem_mem _)
    have hval : ∀ v < nv, ((List.range c.length).map fun v => bitLlr L (if v' v ≤ p then 1 - c.getD v 0 else c.getD v 0)).getD v 0 =
        bitLlr L (if v' v ≤ p then 1 - c.getD v 0 else c.getD v 0) := by
      intro v hv
      rw [List.getD_eq_getElem _ _ (by rw [List.length_map, List.length_range]; omega), List.getElem_map, List.getElem_range]
    obtain ⟨out, arr, h⟩ := C112_errors ns ol H nv n e ((List.range c.length).map fun v => bitLlr L (if v' v ≤ p then 1 - c.getD v 0 else c.getD v 0)) hnv
      (by rw [List.length_map, List.length_range, c1]) hH hdeg hg hcol (fun v => decide (c.getD v 0 = 1)) c2 hn L hL (by
        intro x hx
        obtain ⟨v, hv, rfl⟩ := List.mem_map.1 hx
        have hv : v < nv := by rw [List.mem_range, c1] at hv; exact hv
        unfold bitLlr
        rcases h01 v hv with h | h <;> simp only [h] <;> by_cases hu : v' v ≤ p <;> simp [hu, abs_of_pos hL]) (by
        refine le_trans ?_ hfl
        unfold flips
        rw [← List.toFinset_card_of_nodup (List.nodup_range.filter _)]
        refine card_le_card fun v hv => ?_
        rw [List.mem_toFinset, List.mem_filter, List.mem_range] at hv
        obtain ⟨hv, hd⟩ := hv
        refine mem_filter.2 ⟨mem_range.2 hv, ?_⟩
        by_contra hu
        rw [hval v hv, if_neg hu] at hd
        revert hd
        unfold bitLlr
        rcases h01 v hv with h | h <;> simp only [h] <;> simp [hL, hL.le])
    refine ⟨_, out, arr, h, ?_⟩
    refine List.ext_getElem (by simp [c1]) fun v hv1 hv2 => ?_
    simp only [List.getElem_map, List.getElem_range]
    rw [List.getD_eq_getElem _ _ hv2]
    rcases c3 _ (List.getElem_mem hv2) with h | h <;> simp [h]
  refine (measure_mono hsub).trans ((measure_biUnion_finset_le _ _).trans ?_)
  refine (sum_le_sum fun b _ => flips_tail (uniform_shift hu (b * nv)) (indep_shift hind (b * nv)) h0 h1 nv e).trans ?_
  rw [sum_const, card_range, nsmul_eq_mul, ENNReal.ofReal_mul (p := (cs.length : ℝ)) (Nat.cast_nonneg _), ENNReal.ofReal_natCast]

/-- A word of the code given by its matrix satisfies the checks. -/
theorem word_checks {H : Checks} {nv : Nat} (hs : sortedChecks H nv = true) {c : List Int} (hl : c.length = nv) (hc : ∀ x ∈ c, x = 0 ∨ x = 1)
    (h : Syndrome0 (rowsOf nv H) c) : ChecksHold H (fun v => c.getD v 0 = 1) := by
  have hrl : ∀ r ∈ rowsOf nv H, r.length = nv := by
    intro r hr
    obtain ⟨ns, -, rfl⟩ := List.mem_map.1 hr
    simp
  have hrb : ∀ r ∈ rowsOf nv H, ∀ x ∈ r, x = 0 ∨ x = 1 := by
    intro r hr x hx
    obtain ⟨ns, -, rfl⟩ := List.mem_map.1 hr
    obtain ⟨v, -, rfl⟩ := List.mem_map.1 hx
    split <;> simp
  have e : ((List.range nv).map fun v => decide (c.getD v 0 = 1)).map (fun b => if b then (1 : Int) else 0) = c := by
    refine List.ext_getElem (by rw [hl]; simp) fun v hv1 hv2 => ?_
    simp only [List.getElem_map, List.getElem_range, decide_eq_true_eq]
    rw [List.getD_eq_getElem _ _ hv2]
    rcases hc _ (List.getElem_mem hv2) with h | h <;> rw [h] <;> rfl
  have := (checksOfRows_syndrome (rowsOf nv H) nv hrl hrb ((List.range nv).map fun v => decide (c.getD v 0 = 1)) (by simp)).2 (by rw [e]; exact h)
  rw [checksOfRows_rowsOf hs] at this
  intro ns hns
  rw [List.countP_congr (q := fun v => ((List.range nv).map fun v => decide (c.getD v 0 = 1)).getD v false)]
  · exact this ns hns
  · intro v hv
    have := (sorted_good hs ns hns).2 v hv
    simp [List.getD_eq_getElem?_getD, this]

/-- C129, designs/ldpc/gallager/96.33.964.txt: words of this code over the erasure channel (96 iterations) and the symmetric channel. -/
theorem C129_gallager964 : ∃ q, getLdpc gallager964Text = .ok q ∧ buildParity q = .ok (rowsOf 96 gallager964Checks) ∧
    ∀ (words : List (List Int)), words ≠ [] → (∀ c ∈ words, c.length = 96 ∧ (∀ x ∈ c, x = 0 ∨ x = 1) ∧ Syndrome0 (rowsOf 96 gallager964Checks) c) →
      ∀ {Ω : Type*} [MeasurableSpace Ω] {P : Measure Ω} {u : Ω → ℕ → ℝ}, UniformDraws P u → iIndepFun (fun i ω => u ω i) P →
        ∀ (p L : ℝ) (n : Nat), 0 ≤ p → p ≤ 1 → 0 < L →
          (96 ≤ n → P {ω | ¬ ReturnsAll (ldpcBpDecode nanSign oneLeft q .msa n (becLlrs words.flatten p L (u ω))) words} ≤
            ENNReal.ofReal (words.length * (3321960 * p ^ 4))) ∧
          (1 ≤ n → P {ω | ¬ ReturnsAll (ldpcBpDecode nanSign oneLeft q .msa n (bscLlrs words.flatten p L (u ω))) words} ≤
            ENNReal.ofReal (words.length * (4560 * p ^ 2))) := by
  obtain ⟨q, h1, h2, h3, h4⟩ := gallager964_params
  refine ⟨q, h1, h4, ?_⟩
  intro words hne hw Ω _ P u hu hind p L n h0 hp hL
  have hcs : ∀ c ∈ words, c.length = 96 ∧ ChecksHold gallager964Checks (fun v => c.getD v 0 = 1) ∧ ∀ x ∈ c, x = 0 ∨ x = 1 :=
    fun c hc => ⟨(hw c hc).1, word_checks gallager964_sorted (hw c hc).1 (hw c hc).2.1 (hw c hc).2.2, (hw c hc).2.1⟩
  have hdec : ∀ llrs, ldpcBpDecode nanSign oneLeft q .msa n llrs = bpDecode nanSign oneLeft .msa gallager964Checks 96 n llrs := fun llrs =>
    ldpcBpDecode_checks nanSign oneLeft q (nv := 96) (m := 48) (by exact_mod_cast h2) (by exact_mod_cast h3) (by norm_num) (by norm_num) h4
      gallager964_sorted gallager964_det .msa n llrs
  have hdeg : ∀ ns ∈ gallager964Checks, ns.length ≠ 1 := fun ns hns h => by have := gallager964_rows ns hns; omega
  have c4 : (Nat.choose 96 (3 + 1)) = 3321960 := by decide +kernel
  have c2 : (Nat.choose 96 (1 + 1)) = 4560 := by decide +kernel
  simp only [hdec]
  constructor
  · intro hn
    have := C129_bec_blocks nanSign oneLeft gallager964Checks 96 n 3 (by norm_num) (sorted_good gallager964_sorted) hdeg gallager964_girth gallager964_deg words hne hcs
      L hL hn hu hind h0 hp
    rw [c4] at this
    exact_mod_cast this
  · intro hn
    have := C129_bsc_blocks nanSign oneLeft gallager964Checks 96 n 1 (by norm_num) (sorted_good gallager964_sorted) hdeg gallager964_girth
      (fun v hv => (by norm_num : 2 * 1 ≤ 3).trans (gallager964_deg v hv)) words hne hcs L hL hn hu hind h0 hp
    rw [c2] at this
    exact_mod_cast this

theorem takes_eq {H : List (List Int)} {nv k : Nat} {ms words : List (List Int)}
    (hF : List.Forall₂ (fun m c => m.length = k ∧ SystematicCodeword H nv m c) ms words) : words.map (List.take k) = ms := by
  induction hF with
  | nil => rfl
  | cons h _ ih =>
    rw [List.map_cons, ih]
    congr 1
    rw [← h.1]
    exact h.2.2.2.1

/-- C129, designs/ldpc/wimax/1440.720.txt, with its encoder: every message over the erasure channel (1440 iterations) and the symmetric channel. -/
theorem C129_wimax1440 : ∃ txt q, writeLdpc 1440 (rowsNat 1440 wimax1440Checks) = .ok txt ∧ getLdpc txt = .ok q ∧
    ∀ (msg : List Int), (∀ x ∈ msg, x = 0 ∨ x = 1) → msg ≠ [] → ∀ pad : Bool, (pad = true ∨ 720 ∣ msg.length) →
      ∃ words z, ldpcEncode q msg pad = .ok words ∧ z < 720 ∧ (words.map (List.take 720)).flatten = msg ++ List.replicate z 0 ∧ (∀ c ∈ words, c.length = 1440) ∧
      ∀ {Ω : Type*} [MeasurableSpace Ω] {P : Measure Ω} {u : Ω → ℕ → ℝ}, UniformDraws P u → iIndepFun (fun i ω => u ω i) P →
        ∀ (p L : ℝ) (n : Nat), 0 ≤ p → p ≤ 1 → 0 < L →
          (1440 ≤ n → P {ω | ¬ ReturnsAll (ldpcBpDecode nanSign oneLeft q .msa n (becLlrs words.flatten p L (u ω))) words} ≤
            ENNReal.ofReal (words.length * (496627680 * p ^ 3))) ∧
          (1 ≤ n → P {ω | ¬ ReturnsAll (ldpcBpDecode nanSign oneLeft q .msa n (bscLlrs words.flatten p L (u ω))) words} ≤
            ENNReal.ofReal (words.length * (1036080 * p ^ 2))) := by
  have hl := wimax1440_length
  obtain ⟨txt, q, h1, h2, h3, h4, h5⟩ := params_of_checks wimax1440_sorted (by intro h0; rw [h0] at hl; cases hl)
    (fun ns hns h0 => by have := wimax1440_rows ns hns; rw [h0] at this; simp at this) (fun v hv => (by norm_num : 1 ≤ 2).trans (wimax1440_deg v hv))
  refine ⟨txt, q, h1, h2, ?_⟩
  intro msg hmsg hne pad hpad
  have e1 : q.nv.toNat = 1440 := by rw [h3]; rfl
  have e2 : q.nc.toNat = 720 := by rw [h4, hl]; rfl
  obtain ⟨ms, z, words, he, hmz, hz, hF⟩ := C56_unimodular q _ h5 (by omega) (by omega) (by rw [e1, e2]; exact wimax1440_det) msg hmsg pad
    (by rw [e1, e2]; exact hpad)
  rw [e1, e2] at hz hF
  have hword : ∀ c ∈ words, ∃ m, m.length = 720 ∧ SystematicCodeword (rowsOf 1440 wimax1440Checks) 1440 m c := by
    intro c hc
    obtain ⟨i, hi, rfl⟩ := List.getElem_of_mem hc
    obtain ⟨e, h⟩ := List.forall₂_iff_get.1 hF
    exact ⟨_, h i (by omega) hi⟩
  have hcs : ∀ c ∈ words, c.length = 1440 ∧ ChecksHold wimax1440Checks (fun v => c.getD v 0 = 1) ∧ ∀ x ∈ c, x = 0 ∨ x = 1 := by
    intro c hc
    obtain ⟨m, -, w1, w2, -, w4⟩ := hword c hc
    exact ⟨w1, word_checks wimax1440_sorted w1 w2 w4, w2⟩
  have hne' : words ≠ [] := by
    rintro rfl
    cases hF
    simp at hmz
    exact hne hmz.1
  refine ⟨words, z, he, hz, ?_, fun c hc => (hcs c hc).1, ?_⟩
  · rw [← hmz, takes_eq hF]
  intro Ω _ P u hu hind p L n h0 hp hL
  have hdet0 : (tailMatrix (rowsOf 1440 wimax1440Checks) 720 1440).det ≠ 0 := by
    rcases wimax1440_det with h | h <;> rw [h] <;> norm_num
  have hdec : ∀ llrs, ldpcBpDecode nanSign oneLeft q .msa n llrs = bpDecode nanSign oneLeft .msa wimax1440Checks 1440 n llrs := fun llrs =>
    ldpcBpDecode_checks nanSign oneLeft q (nv := 1440) (m := 720) (by exact_mod_cast h3) (by rw [h4, hl]) (by norm_num) (by norm_num) h5
      wimax1440_sorted hdet0 .msa n llrs
  have hdeg : ∀ ns ∈ wimax1440Checks, ns.length ≠ 1 := fun ns hns h => by have := wimax1440_rows ns hns; omega
  have c3 : (Nat.choose 1440 (2 + 1)) = 496627680 := by rw [Nat.choose_eq_descFactorial_div_factorial]; decide +kernel
  have c2 : (Nat.choose 1440 (1 + 1)) = 1036080 := by rw [Nat.choose_eq_descFactorial_div_factorial]; decide +kernel
  simp only [hdec]
  constructor
  · intro hn
    have := C129_bec_blocks nanSign oneLeft wimax1440Checks 1440 n 2 (by norm_num) (sorted_good wimax1440_sorted) hdeg wimax1440_girth wimax1440_deg words hne' hcs
      L hL hn hu hind h0 hp
    rw [c3] at this
    exact_mod_cast this
  · intro hn
    have := C129_bsc_blocks nanSign oneLeft wimax1440Checks 1440 n 1 (by norm_num) (sorted_good wimax1440_sorted) hdeg wimax1440_girth
      (fun v hv => (by norm_num : 2 * 1 ≤ 2).trans (wimax1440_deg v hv)) words hne' hcs L hL hn hu hind h0 hp
    rw [c2] at this
    exact_mod_cast this


end Verif
