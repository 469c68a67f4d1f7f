import Verif.Spec.ModemError
import Verif.Props.WifiLink
import Verif.Props.MonteCarlo
import Verif.Props.AwgnErrors
import Verif.Lemmas.RandomBlocks
import Mathlib.MeasureTheory.Function.Floor
/-
C125: the bit error ratio simulated for an uncoded modem over Gaussian noise.
-/
namespace Verif
open MeasureTheory ProbabilityTheory Finset Filter Topology

/-! ### The first nearest point -/

theorem argminFirst_le {β : Type} [LinearOrder β] : ∀ (l : List β) (i : Nat) (hi : i < l.length), (∀ x ∈ l, l[i] ≤ x) → argminFirst l ≤ i := by
  intro l
  induction l with
  | nil => intro i hi; simp at hi
  | cons x xs ih =>
    intro i hi h
    simp only [argminFirst]
    split
    · rename_i hlt
      cases i with
      | zero =>
        exfalso
        have hne : xs ≠ [] := by rintro rfl; simp at hlt
        obtain ⟨h1, -⟩ := argminFirst_spec xs hne
        rw [List.getD_eq_getElem _ _ h1] at hlt
        have := h _ (List.mem_cons_of_mem _ (List.getElem_mem h1))
        simp only [List.getElem_cons_zero] at this
        exact absurd hlt (not_lt.2 this)
      | succ i =>
        have := ih i (by simpa using hi) (fun y hy => by simpa using h y (List.mem_cons_of_mem _ hy))
        omega
    · omega

theorem nearestIdx_eq {s : Modem} (hs : s.Consistent) (y : ℂ) : nearestIdx s y = nearestLabel s.constellation y := by
  obtain ⟨h1, h2⟩ := nearestIdx_spec hs y
  unfold nearestLabel
  apply le_antisymm
  · have hmem : sInf {l | l < s.constellation.length ∧ ∀ x ∈ s.constellation, ‖y - s.constellation.getD l 0‖ ≤ ‖y - x‖} ∈
        {l | l < s.constellation.length ∧ ∀ x ∈ s.constellation, ‖y - s.constellation.getD l 0‖ ≤ ‖y - x‖} :=
      Nat.sInf_mem ⟨nearestIdx s y, h1, fun x hx => by rw [List.getD_eq_getElem _ _ h1]; exact h2 x hx⟩
    obtain ⟨m1, m2⟩ := hmem
    refine argminFirst_le _ _ (by simpa using m1) ?_
    intro x hx
    obtain ⟨c, hc, rfl⟩ := List.mem_map.1 hx
    rw [List.getElem_map]
    have := m2 c hc
    rwa [List.getD_eq_getElem _ _ m1] at this
  · exact Nat.sInf_le ⟨h1, fun x hx => by rw [List.getD_eq_getElem _ _ h1]; exact h2 x hx⟩

/-! ### One chunk -/

/-- A generator that delivers two given streams. -/
def streamRng : Rng ((Nat → Int) × (Nat → ℝ)) where
  bits := fun g n => ((List.range n).map g.1, (fun k => g.1 (n + k), g.2))
  normals := fun g n => (g.2, (g.1, fun k => g.2 (n + k)))

/-- The label of the `j`-th group of `k` bits, first bit first. -/
def groupLabel (k : Nat) (β : Nat → Int) (j : Nat) : Nat := ∑ i ∈ range k, (β (j * k + i)).toNat * 2 ^ (k - 1 - i)

/-- The wrong bits of a chunk of `N` symbols. -/
noncomputable def chunkWrong (cst : List ℂ) (k : Nat) (σ : ℝ) (N : Nat) (β : Nat → Int) (ζ : Nat → ℝ) : Nat :=
  ∑ j ∈ range N, labelDiff k (groupLabel k β j) (nearestLabel cst (cst.getD (groupLabel k β j) 0 + σ * (ζ j + Complex.I * ζ (N + j))))

theorem labelDiff_eq (k a b : Nat) : ((range k).filter fun i => (toBits k a).getD i 0 ≠ (toBits k b).getD i 0).card = labelDiff k a b := by
  unfold labelDiff
  rw [card_filter, card_filter, ← sum_range_reflect]
  apply sum_congr rfl
  intro i hi
  rw [mem_range] at hi
  rw [toBits_getD (by omega), toBits_getD (by omega)]
  have e : k - 1 - (k - 1 - i) = i := by omega
  rw [e, Nat.testBit_eq_decide_div_mod_eq, Nat.testBit_eq_decide_div_mod_eq]
  have := Nat.mod_lt (a / 2 ^ i) (by norm_num : 0 < 2)
  have := Nat.mod_lt (b / 2 ^ i) (by norm_num : 0 < 2)
  have : (a / 2 ^ i % 2 ≠ b / 2 ^ i % 2) ↔ (decide (a / 2 ^ i % 2 = 1) ≠ decide (b / 2 ^ i % 2 = 1)) := by
    rw [Ne, Ne, decide_eq_decide]
    omega
  simp only [this]

theorem card_blocks (p : Nat → Prop) [DecidablePred p] (k N : Nat) :
    ((range (N * k)).filter p).card = ∑ j ∈ range N, ((range k).filter fun i => p (j * k + i)).card := by
  induction N with
  | zero => simp
  | succ N ih =>
    rw [sum_range_succ, ← ih, Nat.succ_mul]
    simp only [card_filter]
    rw [sum_range_add]

theorem inSyms_group {k N : Nat} (hk : 0 < k) (β : Nat → Int) :
    inSyms k (((List.range (N * k)).map β).map Int.toNat) = (List.range N).map (groupLabel k β) := by
  unfold inSyms
  rw [List.length_map, List.length_map, List.length_range, Nat.mul_div_cancel _ hk]
  apply List.map_congr_left
  intro j hj
  rw [List.mem_range] at hj
  have hjk : j * k + k ≤ N * k := by
    calc j * k + k = (j + 1) * k := by ring
      _ ≤ _ := Nat.mul_le_mul_right _ hj
  set g := (((((List.range (N * k)).map β).map Int.toNat).drop (j * k)).take k) with hg
  have hl : g.length = k := by simp [hg]; omega
  rw [bitarray2dec_eq_sum, hl]
  unfold groupLabel
  rw [← List.sum_toFinset _ List.nodup_range, List.toFinset_range]
  apply sum_congr rfl
  intro i hi
  rw [mem_range] at hi
  congr 1
  rw [List.getD_eq_getElem _ _ (by rw [hl]; exact hi)]
  simp [hg]

theorem getD_flatMap {α : Type} (f : α → List Nat) (k : Nat) (hf : ∀ a, (f a).length = k) (l : List α) {j i : Nat} (hj : j < l.length) (hi : i < k) :
    (l.flatMap f).getD (j * k + i) 0 = (f l[j]).getD i 0 := by
  rw [← flatMap_block f k hf l j hj]
  simp only [List.getD_eq_getElem?_getD, List.getElem?_take, if_pos hi, List.getElem?_drop]

theorem uncoded_chunk {s : Modem} (hs : s.Consistent) (hm : 2 ≤ s.m) {std : ℝ} (bufLen : Nat → Nat) (memory : Siso × ((Nat → Int) × (Nat → ℝ)) → Nat → ℝ) {N : Nat}
    (hN : 0 < N) {ch : Siso} (hch : ch.Unfaded std) {β : Nat → Int} (hβ : ∀ i, β i = 0 ∨ β i = 1) (ζ : Nat → ℝ) :
    ∃ ch' : Siso, ch'.Unfaded std ∧ (uncodedLink streamRng s).chunkErrors bufLen memory (N * s.nbits) (ch, (β, ζ)) =
      .ok ((chunkWrong s.constellation s.nbits (std / 2) N β ζ : Int), (ch', (fun i => β (N * s.nbits + i), fun i => ζ (4 * N + i)))) := by
  have hk := hs.nbits_pos hm
  set k := s.nbits with hkdef
  set msg := (List.range (N * k)).map β with hmsg
  have hmlen : msg.length = N * k := by simp [hmsg]
  have hbit : ∀ a ∈ msg, a = 0 ∨ a = 1 := by
    intro a ha
    obtain ⟨i, -, rfl⟩ := List.mem_map.1 ha
    exact hβ i
  obtain ⟨hb2, hcast⟩ := toNat_bits hbit
  set bits := msg.map Int.toNat with hbits
  have hblen : bits.length = N * k := by simp [hbits, hmlen]
  have hbne : bits ≠ [] := by
    intro e
    rw [e] at hblen
    have := Nat.mul_pos hN hk
    simp at hblen
    omega
  have hmod := modulate_ok hs hm hb2 hbne hblen
  rw [inSyms_group hk, List.map_map] at hmod
  set syms := (List.range N).map ((fun l => s.constellation.getD l 0) ∘ groupLabel k β) with hsyms
  have hslen : syms.length = N := by simp [hsyms]
  have hsne : syms ≠ [] := by
    intro e
    rw [e] at hslen
    simp at hslen
    omega
  set ys := (List.range N).map (fun j => s.constellation.getD (groupLabel k β j) 0 + (std / 2 : ℝ) * ((ζ j : ℂ) + Complex.I * (ζ (N + j) : ℂ))) with hys
  obtain ⟨h1, h2, h3⟩ := hch
  have hprop : ∃ ch' : Siso, ch'.Unfaded std ∧ sisoPropagate streamRng (ch, (fun i => β (N * k + i), ζ)) (.cplx syms) =
      .ok (ys, (ch', (fun i => β (N * k + i), fun i => ζ (4 * N + i)))) := by
    have htoC : (Signal.cplx syms).toC = syms := rfl
    have h0 : ∃ ch' : Siso, ch'.Unfaded std ∧ ch.propagate (.cplx syms) ζ = (ch', .ok ys) := by
      unfold Siso.propagate
      rw [if_neg (by rw [htoC]; exact hsne), if_neg (by simp [h2])]
      simp only [htoC, h3]
      refine ⟨_, ?_, Prod.ext rfl (congrArg Except.ok ?_)⟩
      · exact ⟨h1, h2, rfl⟩
      · apply List.ext_getElem
        · simp [hys, hslen]
        · intro i g1 g2
          have hi : i < N := by simpa [hys] using g2
          simp only [List.getElem_zipWith, List.getElem_map, List.getElem_range, hys, hsyms, Function.comp, List.length_map, List.length_range]
          have hg : ∀ z, ch.gainSample N z i = 1 := by
            intro z
            unfold Siso.gainSample
            rw [if_pos h2, h1]
            simp [Num.toC]
          rw [hg, one_mul]
          simp only [noiseSample, h2, if_true]
          push_cast
          ring
    obtain ⟨ch', g1, g2⟩ := h0
    refine ⟨ch', g1, ?_⟩
    unfold sisoPropagate
    simp only [streamRng, htoC, g2, h2, drawCount, if_true, hslen]
    congr 5
    funext i
    congr 1
    ring
  obtain ⟨ch', hch', hprop⟩ := hprop
  refine ⟨ch', hch', ?_⟩
  set labs := ys.map (nearestIdx s) with hlabs
  have hllen : labs.length = N := by simp [hlabs, hys]
  set dec := (labs.flatMap (toBits k)).map (fun (x : Nat) => (x : ℝ)) with hdec
  have hdlen : dec.length = N * k := by
    rw [hdec, List.length_map, List.length_flatMap, List.map_congr_left (g := fun _ => k) (fun a _ => toBits_length _ _),
      List.map_const', List.sum_replicate, hllen, smul_eq_mul]
  have hsend : (uncodedLink streamRng s).send bufLen memory (N * k) (ch, (β, ζ)) =
      .ok (msg, dec, (ch', (fun i => β (N * k + i), fun i => ζ (4 * N + i)))) := by
    have e1 : streamRng.bits (β, ζ) (N * k) = (msg, (fun i => β (N * k + i), ζ)) := rfl
    have e2 : ∀ v, demodulate s ys "hard" v = .ok (.bits (labs.flatMap (toBits k))) := by
      intro v
      unfold demodulate
      rw [if_pos rfl, demodHard_ok hs]
      rfl
    simp only [Link.send, uncodedLink, sisoLink, Bind.bind, Except.bind, e1]
    rw [← hbits, hmod]
    simp only [Except.map, hprop, Link.received, Link.decode, defaultDecoder, Bool.false_eq_true, if_false, e2]
    rfl
  have hdget : ∀ j < N, ∀ i < k, dec.getD (j * k + i) 0 = (((toBits k (nearestLabel s.constellation (s.constellation.getD (groupLabel k β j) 0 +
      (std / 2 : ℝ) * ((ζ j : ℂ) + Complex.I * (ζ (N + j) : ℂ))))).getD i 0 : Nat) : ℝ) := by
    intro j hj i hi
    have hlt : j * k + i < N * k := by
      calc j * k + i < j * k + k := by omega
        _ = (j + 1) * k := by ring
        _ ≤ _ := Nat.mul_le_mul_right _ hj
    have e := getD_flatMap (toBits k) k (fun a => toBits_length _ _) labs (j := j) (i := i) (by omega) hi
    rw [hdec, List.getD_eq_getElem _ _ (by rw [← hdec, hdlen]; exact hlt), List.getElem_map, ← List.getD_eq_getElem _ 0, e]
    congr 3
    simp [hlabs, hys, nearestIdx_eq hs]
  have hmget : ∀ j < N, ∀ i < k, ((msg.getD (j * k + i) 0 : Int) : ℝ) = (((toBits k (groupLabel k β j)).getD i 0 : Nat) : ℝ) := by
    intro j hj i hi
    have hlt : j * k + i < N * k := by
      calc j * k + i < j * k + k := by omega
        _ = (j + 1) * k := by ring
        _ ≤ _ := Nat.mul_le_mul_right _ hj
    rw [← hcast _ (by omega)]
    have e := getD_flatMap (toBits k) k (fun a => toBits_length _ _) (inSyms k bits) (j := j) (i := i) (by rw [inSyms_group hk]; simpa using hj) hi
    rw [flatMap_inSyms hk hb2 hblen] at e
    rw [e]
    congr 3
    have e3 : inSyms k bits = (List.range N).map (groupLabel k β) := inSyms_group hk β
    simp [e3]
  have hsplit : ∀ i < N * k, ∃ j < N, ∃ i' < k, i = j * k + i' := by
    intro i hi
    refine ⟨i / k, (Nat.div_lt_iff_lt_mul hk).2 hi, i % k, Nat.mod_lt _ hk, ?_⟩
    rw [Nat.mul_comm]
    exact (Nat.div_add_mod i k).symm
  have herr : countErrors msg dec = .ok (chunkWrong s.constellation k (std / 2) N β ζ : Int) := by
    rw [C81_errors msg dec hbit (by omega) (by
      intro i hi
      rw [hmlen] at hi
      obtain ⟨j, hj, i', hi', rfl⟩ := hsplit i hi
      rw [hdget j hj i' hi', toBits_getD hi']
      rcases Nat.mod_two_eq_zero_or_one (nearestLabel s.constellation (s.constellation.getD (groupLabel k β j) 0 +
        (std / 2 : ℝ) * ((ζ j : ℂ) + Complex.I * (ζ (N + j) : ℂ))) / 2 ^ (k - 1 - i')) with h | h <;> rw [h] <;> simp)]
    congr 2
    unfold bitErrors chunkWrong
    rw [hmlen, card_blocks]
    apply sum_congr rfl
    intro j hj
    rw [mem_range] at hj
    rw [← labelDiff_eq]
    congr 1
    apply filter_congr
    intro i hi
    rw [mem_range] at hi
    rw [hdget j hj i hi, hmget j hj i hi, Ne, Nat.cast_inj]
  simp only [Link.chunkErrors]
  rw [hsend]
  simp only [Bind.bind, Except.bind, Pure.pure, Except.pure]
  rw [herr]

/-- All the chunks. -/
theorem uncoded_run {s : Modem} (hs : s.Consistent) (hm : 2 ≤ s.m) {std : ℝ} (bufLen : Nat → Nat) (memory : Siso × ((Nat → Int) × (Nat → ℝ)) → Nat → ℝ) {N : Nat}
    (hN : 0 < N) {ch : Siso} (hch : ch.Unfaded std) {β : Nat → Int} (hβ : ∀ i, β i = 0 ∨ β i = 1) (ζ : Nat → ℝ) :
    ChunkErrors (uncodedLink streamRng s) bufLen memory (N * s.nbits) (ch, (β, ζ)) fun i =>
      (chunkWrong s.constellation s.nbits (std / 2) N (fun a => β (i * (N * s.nbits) + a)) (fun a => ζ (i * (4 * N) + a)) : Int) := by
  have hex : ∀ c : {c : Siso // c.Unfaded std}, ∀ β : {β : Nat → Int // ∀ i, β i = 0 ∨ β i = 1}, ∀ ζ, ∃ c' : {c : Siso // c.Unfaded std},
      (uncodedLink streamRng s).chunkErrors bufLen memory (N * s.nbits) (c.1, (β.1, ζ)) =
      .ok ((chunkWrong s.constellation s.nbits (std / 2) N β.1 ζ : Int), (c'.1, (fun i => β.1 (N * s.nbits + i), fun i => ζ (4 * N + i)))) := by
    intro c β ζ
    obtain ⟨ch', h1, h2⟩ := uncoded_chunk hs hm bufLen memory hN c.2 β.2 ζ
    exact ⟨⟨ch', h1⟩, h2⟩
  choose nx hnx using hex
  set B : Nat → {β : Nat → Int // ∀ i, β i = 0 ∨ β i = 1} := fun i => ⟨fun a => β (i * (N * s.nbits) + a), fun a => hβ _⟩ with hB
  set Z : Nat → Nat → ℝ := fun i a => ζ (i * (4 * N) + a) with hZ
  let cs : Nat → {c : Siso // c.Unfaded std} := fun i => Nat.rec ⟨ch, hch⟩ (fun i c => nx c (B i) (Z i)) i
  refine ⟨fun i => ((cs i).1, ((B i).1, Z i)), ?_, fun i => ?_⟩
  · simp [cs, hB, hZ]
  · rw [hnx]
    dsimp only
    congr 3
    refine Prod.ext ?_ ?_
    · funext a
      simp only [hB]
      congr 1
      ring
    · funext a
      simp only [hZ]
      congr 1
      ring

/-! ### Measurability -/

theorem nearestLabel_mem {cst : List ℂ} (hne : cst ≠ []) (y : ℂ) :
    nearestLabel cst y < cst.length ∧ ∀ x ∈ cst, ‖y - cst.getD (nearestLabel cst y) 0‖ ≤ ‖y - x‖ := by
  have hn : {l | l < cst.length ∧ ∀ x ∈ cst, ‖y - cst.getD l 0‖ ≤ ‖y - x‖}.Nonempty := by
    obtain ⟨h1, h2⟩ := argminFirst_spec (cst.map fun c => ‖y - c‖) (by simpa using hne)
    have h1' : argminFirst (cst.map fun c => ‖y - c‖) < cst.length := by simpa using h1
    refine ⟨_, h1', fun x hx => ?_⟩
    rw [List.getD_eq_getElem _ _ h1']
    have := h2 _ (List.mem_map.2 ⟨x, hx, rfl⟩)
    rwa [List.getElem_map] at this
  exact Nat.sInf_mem hn

theorem nearestLabel_measurable {cst : List ℂ} (hne : cst ≠ []) : Measurable (nearestLabel cst) := by
  have hA : ∀ l, MeasurableSet {y : ℂ | l < cst.length ∧ ∀ x ∈ cst, ‖y - cst.getD l 0‖ ≤ ‖y - x‖} := by
    intro l
    have : {y : ℂ | l < cst.length ∧ ∀ x ∈ cst, ‖y - cst.getD l 0‖ ≤ ‖y - x‖} =
        {y : ℂ | l < cst.length} ∩ ⋂ x ∈ cst.toFinset, {y : ℂ | ‖y - cst.getD l 0‖ ≤ ‖y - x‖} := by
      ext y; simp
    rw [this]
    refine MeasurableSet.inter (MeasurableSet.const _) (Finset.measurableSet_biInter _ fun x _ => ?_)
    exact measurableSet_le (by fun_prop) (by fun_prop)
  refine measurable_to_countable' fun l => ?_
  have : nearestLabel cst ⁻¹' {l} = {y : ℂ | l < cst.length ∧ ∀ x ∈ cst, ‖y - cst.getD l 0‖ ≤ ‖y - x‖} \
      ⋃ l' ∈ range l, {y : ℂ | l' < cst.length ∧ ∀ x ∈ cst, ‖y - cst.getD l' 0‖ ≤ ‖y - x‖} := by
    ext y
    simp only [Set.mem_preimage, Set.mem_singleton_iff, Set.mem_sdiff, Set.mem_iUnion, mem_range, Set.mem_ofPred_eq, exists_prop, not_exists]
    constructor
    · rintro rfl
      refine ⟨nearestLabel_mem hne y, fun l' h => ?_⟩
      exact Nat.notMem_of_lt_sInf h.1 h.2
    · rintro ⟨h1, h2⟩
      apply le_antisymm
      · exact Nat.sInf_le h1
      · by_contra hlt
        push Not at hlt
        exact h2 _ ⟨hlt, nearestLabel_mem hne y⟩
  rw [this]
  exact (hA l).diff (Finset.measurableSet_biUnion _ fun l' _ => hA l')

/-- Wrong bits of one symbol, as a function of its label and the noise. -/
noncomputable def symWrong (cst : List ℂ) (k : Nat) (σ : ℝ) (l : Nat) (n : ℝ × ℝ) : ℝ :=
  (labelDiff k l (nearestLabel cst (cst.getD l 0 + σ * (n.1 + Complex.I * n.2))) : ℝ)

theorem symWrong_measurable {cst : List ℂ} (hne : cst ≠ []) (k : Nat) (σ : ℝ) (l : Nat) : Measurable (symWrong cst k σ l) := by
  unfold symWrong
  exact (measurable_from_top (f := fun m : ℕ => (labelDiff k l m : ℝ))).comp ((nearestLabel_measurable hne).comp (by fun_prop))

theorem labelDiff_le (k a b : Nat) : labelDiff k a b ≤ k := by
  unfold labelDiff
  exact (card_filter_le _ _).trans (by simp)

theorem symWrong_bound (cst : List ℂ) (k : Nat) (σ : ℝ) (l : Nat) (n : ℝ × ℝ) : 0 ≤ symWrong cst k σ l n ∧ symWrong cst k σ l n ≤ k := by
  unfold symWrong
  exact ⟨by positivity, by exact_mod_cast labelDiff_le _ _ _⟩

theorem groupLabel_measurable (k j : Nat) : Measurable fun (β : ℕ → ℤ) => groupLabel k β j := by
  unfold groupLabel
  refine Finset.measurable_fun_sum _ fun i _ => ?_
  exact (measurable_from_top (f := fun m : ℤ => m.toNat * 2 ^ (k - 1 - i))).comp (measurable_pi_apply (j * k + i))

theorem chunkWrong_cast (cst : List ℂ) (k : Nat) (σ : ℝ) (N : Nat) (β : Nat → Int) (ζ : Nat → ℝ) :
    (chunkWrong cst k σ N β ζ : ℝ) = ∑ j ∈ range N, symWrong cst k σ (groupLabel k β j) (ζ j, ζ (N + j)) := by
  unfold chunkWrong symWrong
  push_cast
  rfl

theorem symWrong_meas2 {cst : List ℂ} (hne : cst ≠ []) (k : Nat) (σ : ℝ) : Measurable fun q : ℕ × (ℝ × ℝ) => symWrong cst k σ q.1 q.2 :=
  measurable_from_prod_countable_right fun l => symWrong_measurable hne k σ l

theorem chunk_args (k N j : ℕ) : Measurable fun p : (ℕ → ℤ) × (ℕ → ℝ) => (groupLabel k p.1 j, (p.2 j, p.2 (N + j))) := by
    refine Measurable.prodMk ((groupLabel_measurable k j).comp measurable_fst) (Measurable.prodMk ?_ ?_)
    · exact (measurable_pi_apply j).comp measurable_snd
    · exact (measurable_pi_apply (N + j)).comp measurable_snd

theorem chunkWrong_measurable {cst : List ℂ} (hne : cst ≠ []) (k : Nat) (σ : ℝ) (N : Nat) :
    Measurable fun (p : (ℕ → ℤ) × (ℕ → ℝ)) => (chunkWrong cst k σ N p.1 p.2 : ℝ) := by
  have h3 : (fun (p : (ℕ → ℤ) × (ℕ → ℝ)) => (chunkWrong cst k σ N p.1 p.2 : ℝ)) = fun p => ∑ j ∈ range N, symWrong cst k σ (groupLabel k p.1 j) (p.2 j, p.2 (N + j)) := by
    funext p
    exact chunkWrong_cast _ _ _ _ _ _
  rw [h3]
  have h4 : ∀ j, Measurable fun p : (ℕ → ℤ) × (ℕ → ℝ) => symWrong cst k σ (groupLabel k p.1 j) (p.2 j, p.2 (N + j)) := by
    intro j
    have := (symWrong_meas2 hne k σ).comp (chunk_args k N j)
    simp only [Function.comp_def] at this
    exact this
  exact Finset.measurable_fun_sum (range N) fun j _ => h4 j

theorem chunkWrong_congr {cst : List ℂ} {k : Nat} {σ : ℝ} {N : Nat} {β β' : Nat → Int} {ζ ζ' : Nat → ℝ} (hβ : ∀ a < N * k, β a = β' a) (hζ : ∀ a < 2 * N, ζ a = ζ' a) :
    chunkWrong cst k σ N β ζ = chunkWrong cst k σ N β' ζ' := by
  unfold chunkWrong
  apply sum_congr rfl
  intro j hj
  rw [mem_range] at hj
  have hg : groupLabel k β j = groupLabel k β' j := by
    unfold groupLabel
    apply sum_congr rfl
    intro i hi
    rw [mem_range] at hi
    rw [hβ _ (by
      calc j * k + i < j * k + k := by omega
        _ = (j + 1) * k := by ring
        _ ≤ _ := Nat.mul_le_mul_right _ hj)]
  rw [hg, hζ j (by omega), hζ (N + j) (by omega)]

/-! ### The chunks are independent -/

section
variable {Ω : Type*} [MeasurableSpace Ω] {P : Measure Ω} {b : Ω → ℕ → Int} {z : Ω → ℕ → ℝ}

theorem FairDraws.aemeasurable (h : FairDraws P b z) (j : ℕ ⊕ ℕ) : AEMeasurable (fun ω => Sum.elim (fun i => (b ω i : ℝ)) (fun i => z ω i) j) P := by
  rcases j with i | i
  · exact ((measurable_from_top (f := fun m : ℤ => (m : ℝ))).comp (h.measurable i)).aemeasurable
  · exact (h.normal i).aemeasurable

theorem FairDraws.law (h : FairDraws P b z) (i i' : ℕ) : P.map (fun ω => (b ω i : ℝ)) = P.map (fun ω => (b ω i' : ℝ)) := by
  have := h.indep.isProbabilityMeasure
  have hz : ∀ i, P {ω | b ω i = 0} = 1 / 2 := by
    intro i
    have hm : MeasurableSet {ω | b ω i = 1} := h.measurable i (measurableSet_singleton 1)
    have : {ω | b ω i = 0} = {ω | b ω i = 1}ᶜ := by
      ext ω
      rcases h.bit ω i with e | e <;> simp [e]
    rw [this, prob_compl_eq_one_sub hm, h.fair i]
    norm_num
  have hm : ∀ i, Measurable fun ω => (b ω i : ℝ) := fun i => (measurable_from_top (f := fun m : ℤ => (m : ℝ))).comp (h.measurable i)
  ext s hs
  rw [Measure.map_apply (hm i) hs, Measure.map_apply (hm i') hs]
  classical
  have key : ∀ i, P ((fun ω => (b ω i : ℝ)) ⁻¹' s) = (if (0 : ℝ) ∈ s then 1 / 2 else 0) + (if (1 : ℝ) ∈ s then 1 / 2 else 0) := by
    intro i
    have e : (fun ω => (b ω i : ℝ)) ⁻¹' s = {ω | b ω i = 0 ∧ (0 : ℝ) ∈ s} ∪ {ω | b ω i = 1 ∧ (1 : ℝ) ∈ s} := by
      ext ω
      rcases h.bit ω i with e | e <;> simp [e]
    have m1 : MeasurableSet {ω | b ω i = 1 ∧ (1 : ℝ) ∈ s} := (h.measurable i (measurableSet_singleton 1)).inter (MeasurableSet.const _)
    rw [e, measure_union (by
      rw [Set.disjoint_left]
      rintro ω ⟨h1, -⟩ ⟨h2, -⟩
      omega) m1]
    congr 1
    · by_cases h0 : (0 : ℝ) ∈ s <;> simp [h0]
      simpa using hz i
    · by_cases h0 : (1 : ℝ) ∈ s <;> simp [h0]
      simpa using h.fair i
  rw [key, key]

theorem chunks_iid (h : FairDraws P b z) {cst : List ℂ} (hne : cst ≠ []) (k : Nat) (σ : ℝ) (N : Nat) :
    iIndepFun (fun i ω => (chunkWrong cst k σ N (fun a => b ω (i * (N * k) + a)) (fun a => z ω (i * (4 * N) + a)) : ℝ)) P ∧
    ∀ i, IdentDistrib (fun ω => (chunkWrong cst k σ N (fun a => b ω (i * (N * k) + a)) (fun a => z ω (i * (4 * N) + a)) : ℝ))
      (fun ω => (chunkWrong cst k σ N (fun a => b ω (0 * (N * k) + a)) (fun a => z ω (0 * (4 * N) + a)) : ℝ)) P P := by
  classical
  set X : ℕ → Fin (N * k) ⊕ Fin (2 * N) → Ω → ℝ := fun i a ω =>
    Sum.elim (fun (a : Fin (N * k)) => (b ω (i * (N * k) + (a : ℕ)) : ℝ)) (fun (a : Fin (2 * N)) => z ω (i * (4 * N) + (a : ℕ))) a with hX
  have hXe : ∀ i a ω, X i a ω = Sum.elim (fun i => (b ω i : ℝ)) (fun i => z ω i) (Sum.map (fun (a : Fin (N * k)) => i * (N * k) + a) (fun (a : Fin (2 * N)) => i * (4 * N) + a) a) := by
    intro i a ω
    rcases a with a | a <;> rfl
  have hdiv : ∀ {c i i' a a' : ℕ}, a < c → a' < c → i * c + a = i' * c + a' → i = i' ∧ a = a' := by
    intro c i i' a a' ha ha' h
    have h1 : (i * c + a) / c = i := by rw [mul_comm, Nat.mul_add_div (by omega), Nat.div_eq_of_lt ha, add_zero]
    have h2 : (i' * c + a') / c = i' := by rw [mul_comm, Nat.mul_add_div (by omega), Nat.div_eq_of_lt ha', add_zero]
    have e1 : i = i' := by rw [← h1, ← h2, h]
    subst e1
    exact ⟨rfl, by omega⟩
  let F : (Fin (N * k) ⊕ Fin (2 * N) → ℝ) → ℝ := fun x => (chunkWrong cst k σ N
    (fun a => if ha : a < N * k then ⌊x (Sum.inl ⟨a, ha⟩)⌋ else 0) (fun a => if ha : a < 2 * N then x (Sum.inr ⟨a, ha⟩) else 0) : ℝ)
  have hF : Measurable F := by
    suffices h2 : Measurable fun (x : Fin (N * k) ⊕ Fin (2 * N) → ℝ) => ((fun a => if ha : a < N * k then ⌊x (Sum.inl ⟨a, ha⟩)⌋ else 0 : ℕ → ℤ),
        (fun a => if ha : a < 2 * N then x (Sum.inr ⟨a, ha⟩) else 0 : ℕ → ℝ)) by
      have := (chunkWrong_measurable hne k σ N).comp h2
      simp only [Function.comp_def] at this
      exact this
    refine Measurable.prodMk (measurable_pi_lambda _ fun a => ?_) (measurable_pi_lambda _ fun a => ?_)
    · by_cases ha : a < N * k
      · simp only [ha, dif_pos]
        exact Measurable.floor (measurable_pi_apply _)
      · simp only [ha, dif_neg, not_false_eq_true]
        exact measurable_const
    · by_cases ha : a < 2 * N
      · simp only [ha, dif_pos]
        exact measurable_pi_apply _
      · simp only [ha, dif_neg, not_false_eq_true]
        exact measurable_const
  have hFX : ∀ i ω, F (fun a => X i a ω) = (chunkWrong cst k σ N (fun a => b ω (i * (N * k) + a)) (fun a => z ω (i * (4 * N) + a)) : ℝ) := by
    intro i ω
    simp only [F]
    congr 1
    apply chunkWrong_congr
    · intro a ha
      simp [ha, hX]
    · intro a ha
      simp [ha, hX]
  have hmX : ∀ i a, AEMeasurable (X i a) P := by
    intro i a
    simp only [funext (hXe i a)]
    exact h.aemeasurable _
  have key := blocks_iid (P := P) (X := X) hmX (by
    have := h.indep.precomp (g := fun (q : (_ : ℕ) × (Fin (N * k) ⊕ Fin (2 * N))) =>
      Sum.map (fun (a : Fin (N * k)) => q.1 * (N * k) + (a : ℕ)) (fun (a : Fin (2 * N)) => q.1 * (4 * N) + (a : ℕ)) q.2) (by
        rintro ⟨i, a⟩ ⟨i', a'⟩ hq
        rcases a with a | a <;> rcases a' with a' | a' <;> simp only [Sum.map_inl, Sum.map_inr, Sum.inl.injEq, Sum.inr.injEq, reduceCtorEq] at hq
        · obtain ⟨rfl, e⟩ := hdiv a.2 a'.2 hq
          rw [Fin.ext e]
        · obtain ⟨rfl, e⟩ := hdiv (by have := a.2; omega) (by have := a'.2; omega) hq
          rw [Fin.ext e])
    simpa only [Function.comp_def, ← hXe] using this) (by
    intro i a
    rcases a with a | a
    · exact h.law _ _
    · show P.map (fun ω => z ω _) = P.map (fun ω => z ω _)
      rw [(h.normal _).map_eq, (h.normal _).map_eq]) hF
  simp only [hFX] at key
  exact key

/-! ### The mean -/

theorem groupLabel_iff {k : Nat} {β : Nat → Int} (hβ : ∀ i, β i = 0 ∨ β i = 1) {j l : Nat} (hl : l < 2 ^ k) :
    groupLabel k β j = l ↔ ∀ i < k, β (j * k + i) = (l / 2 ^ (k - 1 - i) % 2 : ℕ) := by
  set g := (List.range k).map fun i => (β (j * k + i)).toNat with hg
  have hlen : g.length = k := by simp [hg]
  have hlab : groupLabel k β j = bitarray2dec g := by
    rw [bitarray2dec_eq_sum, hlen]
    unfold groupLabel
    rw [← List.sum_toFinset _ List.nodup_range, List.toFinset_range]
    apply sum_congr rfl
    intro i hi
    rw [mem_range] at hi
    congr 1
    rw [List.getD_eq_getElem _ _ (by rw [hlen]; exact hi)]
    simp [hg]
  have hlt : ∀ x ∈ g, x < 2 := by
    intro x hx
    obtain ⟨i, -, rfl⟩ := List.mem_map.1 hx
    rcases hβ (j * k + i) with e | e <;> rw [e] <;> decide
  have hgi : ∀ i (hi : i < k), g.getD i 0 = (β (j * k + i)).toNat := by
    intro i hi
    rw [List.getD_eq_getElem _ _ (by rw [hlen]; exact hi)]
    simp [hg]
  rw [hlab]
  constructor
  · rintro rfl i hi
    have e := toBits_bitarray2dec hlt
    rw [hlen] at e
    have e2 := toBits_getD (l := bitarray2dec g) hi
    rw [e, hgi i hi] at e2
    rw [← e2]
    rcases hβ (j * k + i) with e | e <;> rw [e] <;> rfl
  · intro h
    rw [← bitarray2dec_toBits hl]
    congr 1
    apply List.ext_getElem
    · rw [hlen, toBits_length]
    · intro i h1 h2
      rw [hlen] at h1
      rw [← List.getD_eq_getElem _ 0, ← List.getD_eq_getElem _ 0, hgi i h1, toBits_getD h1, h i h1]
      exact Int.toNat_natCast _

theorem groupLabel_lt {k : Nat} {β : Nat → Int} (hβ : ∀ i, β i = 0 ∨ β i = 1) (j : Nat) : groupLabel k β j < 2 ^ k := by
  have : groupLabel k β j ≤ ∑ i ∈ range k, 2 ^ (k - 1 - i) := by
    unfold groupLabel
    refine sum_le_sum fun i _ => ?_
    rcases hβ (j * k + i) with e | e <;> rw [e] <;> simp
  rw [sum_range_reflect (fun i => 2 ^ i)] at this
  have h2 := Nat.geomSum_eq (le_refl 2) k
  have := Nat.two_pow_pos k
  omega

theorem FairDraws.prob (h : FairDraws P b z) (i : ℕ) {v : Int} (hv : v = 0 ∨ v = 1) : P ((fun ω => (b ω i : ℝ)) ⁻¹' {(v : ℝ)}) = 1 / 2 := by
  have := h.indep.isProbabilityMeasure
  have hm : MeasurableSet {ω | b ω i = 1} := h.measurable i (measurableSet_singleton 1)
  rcases hv with rfl | rfl
  · have : (fun ω => (b ω i : ℝ)) ⁻¹' {((0 : Int) : ℝ)} = {ω | b ω i = 1}ᶜ := by
      ext ω
      rcases h.bit ω i with e | e <;> simp [e]
    rw [this, prob_compl_eq_one_sub hm, h.fair i]
    norm_num
  · have : (fun ω => (b ω i : ℝ)) ⁻¹' {((1 : Int) : ℝ)} = {ω | b ω i = 1} := by
      ext ω
      rcases h.bit ω i with e | e <;> simp [e]
    rw [this, h.fair i]

/-- The labels are uniform. -/
theorem FairDraws.label (h : FairDraws P b z) (k j : ℕ) {l : ℕ} (hl : l < 2 ^ k) : P {ω | groupLabel k (b ω) j = l} = (1 / 2) ^ k := by
  have hi : iIndepFun (fun i ω => (b ω (j * k + i) : ℝ)) P := h.indep.precomp (g := fun i => Sum.inl (j * k + i)) (by
    intro i i' e
    simpa using e)
  have e : {ω | groupLabel k (b ω) j = l} = ⋂ i ∈ range k, (fun ω => (b ω (j * k + i) : ℝ)) ⁻¹' {(((l / 2 ^ (k - 1 - i) % 2 : ℕ) : Int) : ℝ)} := by
    ext ω
    simp only [Set.mem_iInter, mem_range, Set.mem_preimage, Set.mem_singleton_iff, Int.cast_inj]
    exact groupLabel_iff (h.bit ω) hl
  rw [e, hi.measure_inter_preimage_eq_mul (range k) (fun i _ => measurableSet_singleton _), prod_congr rfl (g := fun _ => 1 / 2) (fun i _ => h.prob _ (by omega)), prod_const, card_range]

/-- The noise of a symbol: two independent standard normal variables. -/
theorem FairDraws.noise (h : FairDraws P b z) {i j : ℕ} (hij : i ≠ j) : P.map (fun ω => (z ω i, z ω j)) = noise2 := by
  have := h.indep.isProbabilityMeasure
  have hi : IndepFun (fun ω => z ω i) (fun ω => z ω j) P := h.indep.indepFun (i := Sum.inr i) (j := Sum.inr j) (by simpa using hij)
  rw [(indepFun_iff_map_prod_eq_prod_map_map (h.normal i).aemeasurable (h.normal j).aemeasurable).1 hi, (h.normal i).map_eq, (h.normal j).map_eq]
  rfl

theorem FairDraws.label_noise (h : FairDraws P b z) (k j : ℕ) (i i' : ℕ) : IndepFun (fun ω => groupLabel k (b ω) j) (fun ω => (z ω i, z ω i')) P := by
  classical
  have h0 := h.indep.isProbabilityMeasure
  set S : Finset (ℕ ⊕ ℕ) := (range k).image fun a => Sum.inl (j * k + a) with hS
  set T : Finset (ℕ ⊕ ℕ) := {Sum.inr i, Sum.inr i'} with hT
  have hST : Disjoint S T := by
    rw [Finset.disjoint_left]
    intro x hx hx'
    simp only [hS, hT, mem_image, mem_insert, mem_singleton] at hx hx'
    obtain ⟨a, -, rfl⟩ := hx
    simp at hx'
  have key := h.indep.indepFun_finset₀ S T hST h.aemeasurable
  have hmem : ∀ a : Fin k, (Sum.inl (j * k + (a : ℕ)) : ℕ ⊕ ℕ) ∈ S := fun a => by simp only [hS, mem_image, mem_range]; exact ⟨a, a.2, rfl⟩
  have hφ : Measurable fun (x : S → ℝ) => ∑ a : Fin k, ⌊x ⟨_, hmem a⟩⌋.toNat * 2 ^ (k - 1 - (a : ℕ)) := by
    refine Finset.measurable_fun_sum _ fun a _ => ?_
    have := (measurable_from_top (f := fun m : ℤ => m.toNat * 2 ^ (k - 1 - (a : ℕ)))).comp (Measurable.floor (measurable_pi_apply (X := fun _ : S => ℝ) ⟨_, hmem a⟩))
    simp only [Function.comp_def] at this
    exact this
  have hψ : Measurable fun (x : T → ℝ) => (x ⟨Sum.inr i, by simp [hT]⟩, x ⟨Sum.inr i', by simp [hT]⟩) :=
    Measurable.prodMk (measurable_pi_apply _) (measurable_pi_apply _)
  have := key.comp hφ hψ
  simp only [Function.comp_def] at this
  have e : (fun ω => groupLabel k (b ω) j) = fun ω => ∑ a : Fin k, ⌊(b ω (j * k + (a : ℕ)) : ℝ)⌋.toNat * 2 ^ (k - 1 - (a : ℕ)) := by
    funext ω
    unfold groupLabel
    rw [← Fin.sum_univ_eq_sum_range (fun i => (b ω (j * k + i)).toNat * 2 ^ (k - 1 - i))]
    simp
  rw [e]
  exact this

theorem symWrong_mean (h : FairDraws P b z) {cst : List ℂ} (hne : cst ≠ []) (k : ℕ) (σ : ℝ) (j : ℕ) {i i' : ℕ} (hij : i ≠ i') :
    Integrable (fun ω => symWrong cst k σ (groupLabel k (b ω) j) (z ω i, z ω i')) P ∧
    ∫ ω, symWrong cst k σ (groupLabel k (b ω) j) (z ω i, z ω i') ∂P = (∑ l ∈ range (2 ^ k), ∫ n, symWrong cst k σ l n ∂noise2) / 2 ^ k := by
  classical
  have h0 := h.indep.isProbabilityMeasure
  have hU : AEMeasurable (fun ω => (z ω i, z ω i')) P := (h.normal i).aemeasurable.prodMk (h.normal i').aemeasurable
  have hbm : Measurable b := measurable_pi_lambda _ h.measurable
  have hX : Measurable fun ω => groupLabel k (b ω) j := by
    have := (groupLabel_measurable k j).comp hbm
    simp only [Function.comp_def] at this
    exact this
  have hsum : (fun ω => symWrong cst k σ (groupLabel k (b ω) j) (z ω i, z ω i')) =
      fun ω => ∑ l ∈ range (2 ^ k), (if groupLabel k (b ω) j = l then (1 : ℝ) else 0) * symWrong cst k σ l (z ω i, z ω i') := by
    funext ω
    rw [sum_eq_single_of_mem (groupLabel k (b ω) j) (mem_range.2 (groupLabel_lt (h.bit ω) j))]
    · simp
    · intro l _ hne'
      rw [if_neg (Ne.symm hne'), zero_mul]
  have hf : ∀ l, Measurable fun m : ℕ => if m = l then (1 : ℝ) else 0 := fun l => measurable_from_top
  have iA : ∀ l, Integrable (fun ω => if groupLabel k (b ω) j = l then (1 : ℝ) else 0) P := by
    intro l
    have hm : Measurable fun ω => if groupLabel k (b ω) j = l then (1 : ℝ) else 0 := by
      have := (hf l).comp hX
      simp only [Function.comp_def] at this
      exact this
    exact Integrable.of_bound hm.aestronglyMeasurable 1 (Eventually.of_forall fun ω => by split <;> simp)
  have iB : ∀ l, Integrable (fun ω => symWrong cst k σ l (z ω i, z ω i')) P := by
    intro l
    refine Integrable.of_bound ((symWrong_measurable hne k σ l).comp_aemeasurable hU).aestronglyMeasurable k (Eventually.of_forall fun ω => ?_)
    obtain ⟨a, b⟩ := symWrong_bound cst k σ l (z ω i, z ω i')
    rw [Real.norm_of_nonneg a]
    exact b
  have hind : ∀ l, IndepFun (fun ω => if groupLabel k (b ω) j = l then (1 : ℝ) else 0) (fun ω => symWrong cst k σ l (z ω i, z ω i')) P := by
    intro l
    have := (h.label_noise k j i i').comp (hf l) (symWrong_measurable hne k σ l)
    simp only [Function.comp_def] at this
    exact this
  rw [hsum]
  have iC : ∀ l, Integrable (fun ω => (if groupLabel k (b ω) j = l then (1 : ℝ) else 0) * symWrong cst k σ l (z ω i, z ω i')) P := fun l => (hind l).integrable_mul (iA l) (iB l)
  refine ⟨integrable_finsetSum _ fun l _ => iC l, ?_⟩
  rw [integral_finsetSum _ fun l _ => iC l, sum_div]
  apply sum_congr rfl
  intro l hl
  rw [mem_range] at hl
  rw [(hind l).integral_fun_mul_eq_mul_integral (iA l).aestronglyMeasurable (iB l).aestronglyMeasurable]
  have e1 : ∫ ω, (if groupLabel k (b ω) j = l then (1 : ℝ) else 0) ∂P = 1 / 2 ^ k := by
    have hset : MeasurableSet {ω | groupLabel k (b ω) j = l} := hX (measurableSet_singleton l)
    have e : (fun ω => if groupLabel k (b ω) j = l then (1 : ℝ) else 0) = {ω | groupLabel k (b ω) j = l}.indicator 1 := by
      funext ω
      by_cases hω : groupLabel k (b ω) j = l
      · rw [if_pos hω, Set.indicator_of_mem (show ω ∈ {ω | groupLabel k (b ω) j = l} from hω)]; rfl
      · rw [if_neg hω, Set.indicator_of_notMem (show ω ∉ {ω | groupLabel k (b ω) j = l} from hω)]
    rw [e, integral_indicator_one hset, Measure.real, h.label k j hl]
    simp
  have e2 : ∫ ω, symWrong cst k σ l (z ω i, z ω i') ∂P = ∫ n, symWrong cst k σ l n ∂noise2 := by
    rw [← h.noise hij]
    exact (integral_map hU (symWrong_measurable hne k σ l).aestronglyMeasurable).symm
  rw [e1, e2]
  ring

theorem chunk_mean (h : FairDraws P b z) {cst : List ℂ} (hne : cst ≠ []) {k : ℕ} (hk : 0 < k) (σ : ℝ) {N : ℕ} (hN : 0 < N) :
    Integrable (fun ω => (chunkWrong cst k σ N (b ω) (z ω) : ℝ)) P ∧
    (∫ ω, (chunkWrong cst k σ N (b ω) (z ω) : ℝ) ∂P) / (N * k : ℕ) = bitErrorProb cst k σ := by
  simp only [chunkWrong_cast]
  have hj : ∀ j, _ := fun j => symWrong_mean h hne k σ j (i := j) (i' := N + j) (by omega)
  refine ⟨integrable_finsetSum _ fun j _ => (hj j).1, ?_⟩
  rw [integral_finsetSum _ fun j _ => (hj j).1, sum_congr rfl fun j _ => (hj j).2, sum_const, card_range, nsmul_eq_mul]
  unfold bitErrorProb
  have : (N : ℝ) ≠ 0 := by positivity
  have : (k : ℝ) ≠ 0 := by positivity
  push_cast
  simp only [symWrong]
  field_simp

end

/-- C125: the bit error ratio that `link_performance` reports for an uncoded modem with hard decisions over `SISOFlatChannel` without fading tends, when
`send_max` and `err_min` grow, to the bit error probability of the constellation at that SNR: Gaussian noise of variance `Es / (2 · 10^(snr/10))` per component. -/
theorem C125_awgn {s : Modem} (hs : s.Consistent) (hm : 2 ≤ s.m) (bufLen : ℚ → Nat → Nat) (memory : Siso × ((Nat → Int) × (Nat → ℝ)) → Nat → ℝ) {ch : Siso}
    (hf : ch.fading = (.cplx 1, 0)) (hc : ch.isComplex = true) (snr : ℝ) (sc : Int) {Ω : Type*} [MeasurableSpace Ω] {P : Measure Ω} {b : Ω → ℕ → Int} {z : Ω → ℕ → ℝ}
    (h : FairDraws P b z) :
    ∀ᵐ ω ∂P, ∀ sendMax errMin : Nat → Int, (∀ j, 0 < sendMax j) → (∀ j, 0 < errMin j) → Tendsto sendMax atTop atTop → Tendsto errMin atTop atTop →
      ∃ ber : Nat → ℚ, (∀ j, ReportsBer (uncodedLink streamRng s) bufLen memory snr (sendMax j) (errMin j) sc 1 (ch, (b ω, z ω)) (ber j)) ∧
        Tendsto (fun j => (ber j : ℝ)) atTop (𝓝 (bitErrorProb s.constellation s.nbits (Real.sqrt (s.Es / (2 * (10 : ℝ) ^ (snr / 10)))))) := by
  have hk := hs.nbits_pos hm
  obtain ⟨d, hd, H⟩ := C124_consistent (lk := uncodedLink streamRng s) (bufLen := bufLen) (junk := memory) (rate := 1) hk Nat.one_pos (by norm_num) sc snr
  obtain ⟨d', hd', hpos, hwv, -⟩ := C80_chunk (B := s.nbits) (T := 1) hk Nat.one_pos (rate := 1) (by norm_num) sc
  have : d = d' := by
    rw [show linkDivider (uncodedLink streamRng s).bitsPerSymbol (uncodedLink streamRng s).nbTx 1 = linkDivider s.nbits 1 1 from rfl, hd'] at hd
    exact (Except.ok.inj hd).symm
  subst this
  obtain ⟨N, hN⟩ := hwv
  have hc1 : linkChunk d sc = N * s.nbits := by
    rw [div_one, mul_one] at hN
    exact_mod_cast hN
  have hN0 : 0 < N := by
    rcases Nat.eq_zero_or_pos N with e | e
    · rw [hc1, e] at hpos; simp at hpos
    · exact e
  rw [hc1] at H
  set std := Real.sqrt (2 * s.Es / (((1 : ℚ) : ℝ) * (10 : ℝ) ^ (snr / 10))) with hstd
  have hset : ∃ ch1 : Siso, ch1.Unfaded std ∧ ∀ g, (uncodedLink streamRng s).setSnr (ch, g) snr 1 s.Es = .ok (ch1, g) := by
    obtain ⟨⟨ch1, g⟩, h1, h2⟩ := setSnr_ok (w := (ch, ((fun _ => 0, fun _ => 0) : (Nat → Int) × (Nat → ℝ)))) (snr := snr) (Es := s.Es) (rate := 1) one_pos hf hc
    refine ⟨ch1, h2, fun g' => ?_⟩
    show sisoSetSnr _ _ _ _ = _
    simp only [sisoSetSnr] at h1 ⊢
    revert h1
    rcases ch.step (.setSnrDb snr ((1 : ℚ) : ℝ) s.Es) with ⟨c, _ | e⟩
    · intro h1
      simp only [Except.ok.injEq, Prod.mk.injEq] at h1 ⊢
      exact ⟨h1.1, trivial⟩
    · intro h1
      simp at h1
  obtain ⟨ch1, hu, hset⟩ := hset
  have hσ : std / 2 = Real.sqrt (s.Es / (2 * (10 : ℝ) ^ (snr / 10))) := by
    have hp : (0 : ℝ) < (10 : ℝ) ^ (snr / 10) := Real.rpow_pos_of_pos (by norm_num) _
    have e : s.Es / (2 * (10 : ℝ) ^ (snr / 10)) = 2 * s.Es / (((1 : ℚ) : ℝ) * (10 : ℝ) ^ (snr / 10)) / 4 := by
      push_cast
      field_simp
      norm_num
    rw [e, Real.sqrt_div' _ (by norm_num : (0 : ℝ) ≤ 4), show Real.sqrt 4 = 2 by rw [show (4 : ℝ) = 2 ^ 2 by norm_num, Real.sqrt_sq (by norm_num)]]
  obtain ⟨k1, k2⟩ := chunks_iid h hs.ne_nil s.nbits (std / 2) N
  obtain ⟨k3, k4⟩ := chunk_mean h hs.ne_nil hk (std / 2) hN0
  have key := H (P := P) (w := fun ω => (ch, (b ω, z ω))) (w1 := fun ω => (ch1, (b ω, z ω)))
    (e := fun i ω => (chunkWrong s.constellation s.nbits (std / 2) N (fun a => b ω (i * (N * s.nbits) + a)) (fun a => z ω (i * (4 * N) + a)) : Int))
    (Eventually.of_forall fun ω => ⟨hset _, uncoded_run hs hm (bufLen 1) memory hN0 hu (h.bit ω) (z ω)⟩) (by simpa using k3)
    (fun i j hij => by simpa using k1.indepFun hij) (fun i => by simpa using k2 i)
  simp only [Int.cast_natCast, zero_mul, zero_add] at key
  rw [k4, hσ] at key
  exact key

end Verif
