import Verif.Props.MonteCarlo
import Verif.Props.BscCoding
import Verif.Lemmas.RandomBlocks
/-
C124 for a link over the binary symmetric channel `bsc`.
-/
namespace Verif
open MeasureTheory ProbabilityTheory Finset Filter Topology

variable {ρ : Type}

/-- A link over `bsc` with crossover probability `p`: bits are sent as they are, the SNR is ignored, the receiver returns what it gets.  The world is the
state of the generator of the message bits and the stream of uniform draws that is still to come; `bsc` uses one draw per bit (channels.py:669). -/
noncomputable def bscLink (bits : ρ → Nat → List Int × ρ) (p : ℝ) : Link (ρ × (Nat → ℝ)) (List Int) Int Unit Unit where
  bitsPerSymbol := 1
  nbTx := 1
  Es := 1
  constellation := ()
  isMimo := false
  setSnr := fun w _ _ _ => .ok w
  choice := fun w n => ((bits w.1 n).1, ((bits w.1 n).2, w.2))
  modulate := fun msg => .ok msg
  propagate := fun w msg => .ok ((bsc [msg] 0 p w.2).1.getD (bsc [msg] 0 p w.2).2 [], (w.1, fun k => w.2 (msg.length + k)))
  gains := fun _ => []
  noiseStd := fun _ => 0
  receive := fun _ _ _ _ => .error .typeError
  receiveAll := fun y _ _ _ => .ok (y.map fun (z : Int) => (z : ℝ))
  decoder := defaultDecoder

theorem bscLink_chunk {bits : ρ → Nat → List Int × ρ} (hb : ∀ g n, (bits g n).1.length = n ∧ ∀ x ∈ (bits g n).1, x = 0 ∨ x = 1) (p : ℝ) (bufLen : Nat → Nat)
    (junk : ρ × (Nat → ℝ) → Nat → ℝ) (c : Nat) (g : ρ) (u : Nat → ℝ) :
    (bscLink bits p).chunkErrors bufLen junk c (g, u) = .ok ((flips c p u : Int), ((bits g c).2, fun k => u (c + k))) := by
  classical
  obtain ⟨hl, h01⟩ := hb g c
  have hbits : ∀ x ∈ ([(bits g c).1] : IntHeap).getD 0 [], x = 0 ∨ x = 1 := h01
  obtain ⟨b1, b2, b3, -⟩ := C74_bsc [(bits g c).1] 0 (by simp) hbits p u
  have e0 : ([(bits g c).1] : IntHeap).getD 0 [] = (bits g c).1 := rfl
  rw [e0] at b2 b3
  set out := (bsc [(bits g c).1] 0 p u).1.getD ([(bits g c).1] : IntHeap).length [] with hout
  have hsend : (bscLink bits p).send bufLen junk c (g, u) =
      .ok ((bits g c).1, out.map (fun (z : Int) => (z : ℝ)), ((bits g c).2, fun k => u (c + k))) := by
    show Except.ok ((bits g c).1, ((bsc [(bits g c).1] 0 p u).1.getD (bsc [(bits g c).1] 0 p u).2 []).map (fun (z : Int) => (z : ℝ)),
      ((bits g c).2, fun k => u ((bits g c).1.length + k))) = _
    rw [b1, hl]
  have hmsg : ∀ i < c, (bits g c).1.getD i 0 = 0 ∨ (bits g c).1.getD i 0 = 1 := fun i hi => h01 _ (by
    rw [List.getD_eq_getElem _ _ (by omega)]; exact List.getElem_mem _)
  have hget : ∀ i < c, (out.map (fun (z : Int) => (z : ℝ))).getD i 0 = ((if u i ≤ p then 1 - (bits g c).1.getD i 0 else (bits g c).1.getD i 0 : Int) : ℝ) := by
    intro i hi
    rw [← b3 i (by omega), List.getD_eq_getElem _ _ (by rw [List.length_map, b2, hl]; exact hi), List.getElem_map, List.getD_eq_getElem _ _ (by rw [b2, hl]; exact hi)]
  have herr : countErrors (bits g c).1 (out.map fun (z : Int) => (z : ℝ)) = .ok (flips c p u : Int) := by
    rw [C81_errors _ _ h01 (by rw [List.length_map, b2]) (by
      intro i hi
      rw [hl] at hi
      rw [hget i hi]
      rcases hmsg i hi with h | h <;> rw [h] <;> split <;> simp)]
    congr 2
    unfold bitErrors flips
    rw [hl]
    congr 1
    apply filter_congr
    intro i hi
    rw [mem_range] at hi
    rw [hget i hi]
    by_cases hu : u i ≤ p
    · rw [if_pos hu]
      simp only [hu, iff_true]
      rcases hmsg i hi with h | h <;> rw [h] <;> norm_num
    · rw [if_neg hu]
      simp [hu]
  simp only [Link.chunkErrors]
  rw [hsend]
  simp only [Bind.bind, Except.bind, Pure.pure, Except.pure]
  rw [herr]

/-- The chunk errors of the whole simulation. -/
theorem bscLink_run {bits : ρ → Nat → List Int × ρ} (hb : ∀ g n, (bits g n).1.length = n ∧ ∀ x ∈ (bits g n).1, x = 0 ∨ x = 1) (p : ℝ) (bufLen : Nat → Nat)
    (junk : ρ × (Nat → ℝ) → Nat → ℝ) (c : Nat) (g : ρ) (u : Nat → ℝ) :
    ChunkErrors (bscLink bits p) bufLen junk c (g, u) fun i => (flips c p (fun k => u (i * c + k)) : Int) := by
  refine ⟨fun i => ((fun g => (bits g c).2)^[i] g, fun k => u (i * c + k)), by simp, fun i => ?_⟩
  rw [bscLink_chunk hb]
  dsimp only
  rw [Function.iterate_succ_apply']
  congr 4
  funext k
  congr 1
  ring

/-- Number of draws at most `p`, as a function of a block. -/
noncomputable def flipsOf (c : Nat) (p : ℝ) (x : Fin c → ℝ) : ℝ := open Classical in ∑ k, if x k ≤ p then 1 else 0

theorem flipsOf_measurable (c : Nat) (p : ℝ) : Measurable (flipsOf c p) := by
  classical
  unfold flipsOf
  refine Finset.measurable_fun_sum _ fun k _ => ?_
  exact Measurable.ite (measurableSet_le (measurable_pi_apply k) measurable_const) measurable_const measurable_const

theorem flips_eq (c : Nat) (p : ℝ) (v : Nat → ℝ) : ((flips c p v : Int) : ℝ) = flipsOf c p fun k => v k := by
  classical
  unfold flips flipsOf
  rw [card_filter, Int.cast_natCast, Nat.cast_sum, ← Fin.sum_univ_eq_sum_range (fun i => ((if v i ≤ p then 1 else 0 : ℕ) : ℝ))]
  exact sum_congr rfl fun k _ => by split <;> simp

theorem flips_iid {Ω : Type*} [MeasurableSpace Ω] {P : Measure Ω} {u : Ω → ℕ → ℝ} (hu : UniformDraws P u) (hind : iIndepFun (fun i ω => u ω i) P) (c : Nat) (p : ℝ) :
    iIndepFun (fun i ω => ((flips c p (fun k => u ω (i * c + k)) : Int) : ℝ)) P ∧
    ∀ i, IdentDistrib (fun ω => ((flips c p (fun k => u ω (i * c + k)) : Int) : ℝ)) (fun ω => ((flips c p (fun k => u ω (0 * c + k)) : Int) : ℝ)) P P := by
  have key := blocks_iid (P := P) (X := fun i (k : Fin c) ω => u ω (i * c + k)) (fun i k => (hu _).aemeasurable) (hind.precomp (g := fun (q : (_ : ℕ) × Fin c) => q.1 * c + q.2) (by
    rintro ⟨i, k⟩ ⟨i', k'⟩ h
    dsimp only at h
    have hk := k.2
    have hk' := k'.2
    have e1 : i = i' := by
      have h1 : (i * c + k) / c = i := by rw [mul_comm, Nat.mul_add_div (by omega), Nat.div_eq_of_lt hk, add_zero]
      have h2 : (i' * c + k') / c = i' := by rw [mul_comm, Nat.mul_add_div (by omega), Nat.div_eq_of_lt hk', add_zero]
      rw [← h1, ← h2, h]
    subst e1
    have : k = k' := Fin.ext (by omega)
    rw [this])) (fun i k => by rw [(hu _).map_eq, (hu _).map_eq]) (flipsOf_measurable c p)
  simp only [flips_eq]
  exact key

theorem flips_mean {Ω : Type*} [MeasurableSpace Ω] {P : Measure Ω} [IsProbabilityMeasure P] {u : Ω → ℕ → ℝ} (hu : UniformDraws P u) (c : Nat) {p : ℝ} (h0 : 0 ≤ p) (h1 : p ≤ 1) (i : Nat) :
    Integrable (fun ω => ((flips c p (fun k => u ω (i * c + k)) : Int) : ℝ)) P ∧ ∫ ω, ((flips c p (fun k => u ω (i * c + k)) : Int) : ℝ) ∂P = c * p := by
  classical
  simp only [flips_eq]
  unfold flipsOf
  have hg : Measurable (fun x : ℝ => if x ≤ p then (1 : ℝ) else 0) := Measurable.ite (measurableSet_le measurable_id measurable_const) measurable_const measurable_const
  have hi : ∀ k : Fin c, Integrable (fun ω => if u ω (i * c + k) ≤ p then (1 : ℝ) else 0) P := fun k =>
    Integrable.of_bound (hg.comp_aemeasurable (hu (i * c + k)).aemeasurable).aestronglyMeasurable 1 (Eventually.of_forall fun ω => by split <;> simp)
  have hv : ∀ k : Fin c, ∫ ω, (if u ω (i * c + k) ≤ p then (1 : ℝ) else 0) ∂P = p := by
    intro k
    have e1 : ∫ ω, (if u ω (i * c + k) ≤ p then (1 : ℝ) else 0) ∂P = ∫ x, (if x ≤ p then (1 : ℝ) else 0) ∂(volume.restrict (Set.Ico (0 : ℝ) 1)) := by
      rw [← (hu (i * c + k)).map_eq]
      exact (integral_map (hu (i * c + k)).aemeasurable hg.aestronglyMeasurable).symm
    rw [e1]
    have e2 : (fun x : ℝ => if x ≤ p then (1 : ℝ) else 0) = (Set.Iic p).indicator 1 := by
      funext x
      by_cases hx : x ≤ p
      · rw [if_pos hx, Set.indicator_of_mem (show x ∈ Set.Iic p from hx)]; rfl
      · rw [if_neg hx, Set.indicator_of_notMem (show x ∉ Set.Iic p from hx)]
    rw [e2, integral_indicator_one measurableSet_Iic, Measure.real, Measure.restrict_apply measurableSet_Iic]
    have e3 := uniform_le hu p h0 h1 0
    rw [(hu 0).measure_eq (p := fun x => x ≤ p) measurableSet_Iic, Measure.restrict_apply (show MeasurableSet {x : ℝ | x ≤ p} from measurableSet_Iic)] at e3
    rw [show Set.Iic p ∩ Set.Ico 0 1 = {x : ℝ | x ≤ p} ∩ Set.Ico 0 1 from rfl, e3, ENNReal.toReal_ofReal h0]
  refine ⟨integrable_finsetSum _ fun k _ => hi k, ?_⟩
  rw [integral_finsetSum _ fun k _ => hi k, sum_congr rfl fun k _ => hv k, sum_const, card_univ, Fintype.card_fin, nsmul_eq_mul]

theorem bsc_divider : linkDivider 1 1 1 = .ok 1 := by
  simp only [linkDivider]
  norm_num

/-- C124 for `bsc`: the simulated bit error ratio of a link over the binary symmetric channel tends to the crossover probability. -/
theorem C124_bsc {bits : ρ → Nat → List Int × ρ} (hb : ∀ g n, (bits g n).1.length = n ∧ ∀ x ∈ (bits g n).1, x = 0 ∨ x = 1) (bufLen : ℚ → Nat → Nat)
    (junk : ρ × (Nat → ℝ) → Nat → ℝ) (g : ρ) (snr : ℝ) (sc : Int) {p : ℝ} (h0 : 0 ≤ p) (h1 : p ≤ 1) {Ω : Type*} [MeasurableSpace Ω] {P : Measure Ω} {u : Ω → ℕ → ℝ} (hu : UniformDraws P u)
    (hind : iIndepFun (fun i ω => u ω i) P) :
    ∀ᵐ ω ∂P, ∀ sendMax errMin : Nat → Int, (∀ j, 0 < sendMax j) → (∀ j, 0 < errMin j) → Tendsto sendMax atTop atTop → Tendsto errMin atTop atTop →
      ∃ ber : Nat → ℚ, (∀ j, ReportsBer (bscLink bits p) bufLen junk snr (sendMax j) (errMin j) sc 1 (g, u ω) (ber j)) ∧
        Tendsto (fun j => (ber j : ℝ)) atTop (𝓝 p) := by
  have := hind.isProbabilityMeasure
  obtain ⟨d, hd, H⟩ := C124_consistent (lk := bscLink bits p) (bufLen := bufLen) (junk := junk) (rate := 1) Nat.one_pos Nat.one_pos (by norm_num) sc snr
  rw [show linkDivider (bscLink bits p).bitsPerSymbol (bscLink bits p).nbTx 1 = linkDivider 1 1 1 from rfl, bsc_divider] at hd
  cases hd
  set c := linkChunk 1 sc with hc
  have hcpos : 0 < c := by rw [hc]; unfold linkChunk; omega
  obtain ⟨k1, k2⟩ := flips_iid hu hind c p
  obtain ⟨k3, k4⟩ := flips_mean hu c h0 h1 0
  have key := H (P := P) (w := fun ω => (g, u ω)) (w1 := fun ω => (g, u ω)) (e := fun i ω => (flips c p (fun k => u ω (i * c + k)) : Int))
    (Eventually.of_forall fun ω => ⟨rfl, bscLink_run hb p (bufLen 1) junk c g (u ω)⟩) k3 (fun i j hij => k1.indepFun hij) k2
  rw [k4] at key
  have : (c : ℝ) * p / c = p := by
    have : (c : ℝ) ≠ 0 := by positivity
    field_simp
  rw [this] at key
  exact key

/-- C124 as stated is false: with early stopping the estimate is biased.  Over `bsc`, with chunks of one bit, at most two bits and `err_min = 1`, the mean of
the ratio reported is `p + p (1 - p) / 2`. -/
theorem C124_unbiased_refuted {bits : ρ → Nat → List Int × ρ} (hb : ∀ g n, (bits g n).1.length = n ∧ ∀ x ∈ (bits g n).1, x = 0 ∨ x = 1) (bufLen : ℚ → Nat → Nat)
    (junk : ρ × (Nat → ℝ) → Nat → ℝ) (g : ρ) (snr : ℝ) {p : ℝ} (h0 : 0 ≤ p) (h1 : p ≤ 1) {Ω : Type*} [MeasurableSpace Ω] {P : Measure Ω} {u : Ω → ℕ → ℝ} (hu : UniformDraws P u)
    (hind : iIndepFun (fun i ω => u ω i) P) :
    ∃ ber : Ω → ℚ, (∀ ω, ReportsBer (bscLink bits p) bufLen junk snr 2 1 1 1 (g, u ω) (ber ω)) ∧ ∫ ω, (ber ω : ℝ) ∂P = p + p * (1 - p) / 2 := by
  classical
  have := hind.isProbabilityMeasure
  set b : ℕ → Ω → ℝ := fun i ω => ((flips 1 p (fun k => u ω (i * 1 + k)) : Int) : ℝ) with hbdef
  have hflip : ∀ i ω, (flips 1 p (fun k => u ω (i * 1 + k)) : Int) = if u ω i ≤ p then 1 else 0 := by
    intro i ω
    unfold flips
    rw [card_filter, sum_range_one]
    simp
  have hchunk : linkChunk 1 1 = 1 := by decide
  refine ⟨fun ω => if u ω 0 ≤ p then 1 else if u ω 1 ≤ p then 1 / 2 else 0, fun ω => ?_, ?_⟩
  · have hrun := bscLink_run hb p (bufLen 1) junk (linkChunk 1 1) g (u ω)
    rw [hchunk] at hrun
    simp only [hflip] at hrun
    by_cases hu0 : u ω 0 ≤ p
    · have := reportsBer (lk := bscLink bits p) (bufLen := bufLen) (junk := junk) (rate := 1) Nat.one_pos Nat.one_pos (by norm_num) bsc_divider (sc := 1) (snr := snr)
        (w := (g, u ω)) (w1 := (g, u ω)) rfl (by rw [hchunk]; exact hrun) (sendMax := 2) (errMin := 1) (τ := 1) le_rfl (Or.inr (by rw [sum_range_one, if_pos hu0])) (by
          intro j hj
          have : j = 0 := by omega
          subst this
          simp)
      dsimp only
      rw [if_pos hu0]
      convert this using 1
      rw [sum_range_one, if_pos hu0, hchunk]
      norm_num
    · have := reportsBer (lk := bscLink bits p) (bufLen := bufLen) (junk := junk) (rate := 1) Nat.one_pos Nat.one_pos (by norm_num) bsc_divider (sc := 1) (snr := snr)
        (w := (g, u ω)) (w1 := (g, u ω)) rfl (by rw [hchunk]; exact hrun) (sendMax := 2) (errMin := 1) (τ := 2) (by decide) (Or.inl (by rw [hchunk]; norm_num)) (by
          intro j hj
          have : j = 0 ∨ j = 1 := by omega
          rcases this with rfl | rfl
          · simp
          · rw [sum_range_one, if_neg hu0, hchunk]; norm_num)
      dsimp only
      rw [if_neg hu0]
      convert this using 1
      rw [sum_range_succ, sum_range_one, if_neg hu0, hchunk]
      split <;> norm_num
  · obtain ⟨i0, m0⟩ := flips_mean hu 1 h0 h1 0
    obtain ⟨i1, m1⟩ := flips_mean hu 1 h0 h1 1
    obtain ⟨k1, -⟩ := flips_iid hu hind 1 p
    have h01 := k1.indepFun (show (0 : ℕ) ≠ 1 by decide)
    have e1 : (fun ω => (((if u ω 0 ≤ p then 1 else if u ω 1 ≤ p then 1 / 2 else 0 : ℚ)) : ℝ)) = fun ω => b 0 ω + (b 1 ω - b 0 ω * b 1 ω) / 2 := by
      funext ω
      simp only [hbdef, hflip]
      by_cases hu0 : u ω 0 ≤ p <;> by_cases hu1 : u ω 1 ≤ p <;> simp [hu0, hu1]
    have i2 : Integrable (fun ω => b 0 ω * b 1 ω) P := h01.integrable_mul i0 i1
    have m2 : ∫ ω, b 0 ω * b 1 ω ∂P = p * p := by
      rw [h01.integral_fun_mul_eq_mul_integral i0.aestronglyMeasurable i1.aestronglyMeasurable, m0, m1]
      simp
    have j0 : Integrable (b 0) P := i0
    have j1 : Integrable (b 1) P := i1
    have j2 : Integrable (fun ω => (b 1 ω - b 0 ω * b 1 ω) / 2) P := (j1.sub i2).div_const 2
    have n0 : ∫ ω, b 0 ω ∂P = (1 : ℕ) * p := m0
    have n1 : ∫ ω, b 1 ω ∂P = (1 : ℕ) * p := m1
    rw [e1, integral_add j0 j2, integral_div, integral_sub j1 i2, m2, n0, n1]
    push_cast
    ring

/-- Variance of the number of flips of a block of `c` draws: `c p (1 - p)`. -/
theorem flips_variance {Ω : Type*} [MeasurableSpace Ω] {P : Measure Ω} [IsProbabilityMeasure P] {u : Ω → ℕ → ℝ} (hu : UniformDraws P u)
    (hind : iIndepFun (fun i ω => u ω i) P) (c : Nat) {p : ℝ} (h0 : 0 ≤ p) (h1 : p ≤ 1) (i : Nat) :
    MemLp (fun ω => ((flips c p (fun k => u ω (i * c + k)) : Int) : ℝ)) 2 P ∧
    variance (fun ω => ((flips c p (fun k => u ω (i * c + k)) : Int) : ℝ)) P = c * (p * (1 - p)) := by
  classical
  set b : Nat → Ω → ℝ := fun j ω => if u ω j ≤ p then 1 else 0 with hb
  have hg : Measurable (fun x : ℝ => if x ≤ p then (1 : ℝ) else 0) := Measurable.ite (measurableSet_le measurable_id measurable_const) measurable_const measurable_const
  have hL : ∀ j, MemLp (b j) 2 P := fun j =>
    MemLp.of_bound (hg.comp_aemeasurable (hu j).aemeasurable).aestronglyMeasurable 1 (Eventually.of_forall fun ω => by simp only [hb]; split <;> simp)
  have he : (fun ω => ((flips c p (fun k => u ω (i * c + k)) : Int) : ℝ)) = ∑ k : Fin c, b (i * c + k) := by
    funext ω
    rw [flips_eq, Finset.sum_apply]
    rfl
  have hmean : ∀ j, ∫ ω, b j ω ∂P = p := by
    intro j
    have h := (flips_mean hu 1 h0 h1 j).2
    simp only [flips_eq] at h
    unfold flipsOf at h
    simpa [hb] using h
  have hvar : ∀ j, variance (b j) P = p * (1 - p) := by
    intro j
    rw [variance_eq_sub (hL j)]
    have e2 : (b j) ^ 2 = b j := by
      funext ω
      simp only [hb, Pi.pow_apply]
      split <;> simp
    rw [e2, hmean]
    ring
  have hib : iIndepFun b P := hind.comp (fun _ x => if x ≤ p then (1 : ℝ) else 0) fun _ => hg
  rw [he]
  refine ⟨memLp_finset_sum' _ fun k _ => hL _, ?_⟩
  rw [IndepFun.variance_sum (fun k _ => hL _) (fun k _ k' _ hkk => hib.indepFun (fun h => hkk (Fin.ext (by omega)))), sum_congr rfl fun k _ => hvar _, sum_const, card_univ,
    Fintype.card_fin, nsmul_eq_mul]

/-- C124 over `bsc`, early stopping: the mean of the ratio reported is never below the crossover probability. -/
theorem C124_bsc_bias {bits : ρ → Nat → List Int × ρ} (hb : ∀ g n, (bits g n).1.length = n ∧ ∀ x ∈ (bits g n).1, x = 0 ∨ x = 1) (bufLen : ℚ → Nat → Nat)
    (junk : ρ × (Nat → ℝ) → Nat → ℝ) (g : ρ) (snr : ℝ) (sc : Int) {p : ℝ} (h0 : 0 ≤ p) (h1 : p ≤ 1) {Ω : Type*} [MeasurableSpace Ω] {P : Measure Ω} {u : Ω → ℕ → ℝ} (hu : UniformDraws P u)
    (hm : ∀ i, Measurable fun ω => u ω i) (hind : iIndepFun (fun i ω => u ω i) P) {sendMax errMin : Int} (hs : 0 < sendMax) (he : 0 < errMin) :
    ∃ ber : Ω → ℚ, (∀ᵐ ω ∂P, ReportsBer (bscLink bits p) bufLen junk snr sendMax errMin sc 1 (g, u ω) (ber ω)) ∧
      Integrable (fun ω => (ber ω : ℝ)) P ∧ p ≤ ∫ ω, (ber ω : ℝ) ∂P := by
  classical
  have := hind.isProbabilityMeasure
  obtain ⟨d, hd, H⟩ := C124_bias (lk := bscLink bits p) (bufLen := bufLen) (junk := junk) (rate := 1) Nat.one_pos Nat.one_pos (by norm_num) sc snr
  rw [show linkDivider (bscLink bits p).bitsPerSymbol (bscLink bits p).nbTx 1 = linkDivider 1 1 1 from rfl, bsc_divider] at hd
  cases hd
  set c := linkChunk 1 sc with hc
  have hcpos : 0 < c := by rw [hc]; unfold linkChunk; omega
  obtain ⟨k1, k2⟩ := flips_iid hu hind c p
  have k3 := fun i => flips_mean hu c h0 h1 i
  have hmeas : ∀ i, Measurable fun ω => (flips c p (fun k => u ω (i * c + k)) : Int) := by
    intro i
    have e : (fun ω => (flips c p (fun k => u ω (i * c + k)) : Int)) = fun ω => ∑ k ∈ range c, if u ω (i * c + k) ≤ p then (1 : Int) else 0 := by
      funext ω
      unfold flips
      rw [card_filter, Nat.cast_sum]
      exact sum_congr rfl fun k _ => by split <;> rfl
    rw [e]
    exact Finset.measurable_fun_sum _ fun k _ => Measurable.ite (measurableSet_le (hm _) measurable_const) measurable_const measurable_const
  obtain ⟨ber, b1, b2, b3⟩ := H (P := P) (w := fun ω => (g, u ω)) (w1 := fun ω => (g, u ω)) (e := fun i ω => (flips c p (fun k => u ω (i * c + k)) : Int))
    (Eventually.of_forall fun ω => ⟨rfl, bscLink_run hb p (bufLen 1) junk c g (u ω)⟩) (fun i ω => Int.natCast_nonneg _) hmeas (fun i => (k3 i).1)
    (fun i => by rw [(k3 i).2, (k3 0).2]) k1 sendMax errMin hs he
  refine ⟨ber, b1, b2, ?_⟩
  rw [(k3 0).2] at b3
  have : (c : ℝ) * p / c = p := by
    have : (c : ℝ) ≠ 0 := by positivity
    field_simp
  rwa [this] at b3

/-- C124 over `bsc`, no early stopping (`err_min ≥ send_max`): the mean of the ratio reported is the crossover probability, its variance is `p (1 - p)` divided by the number
`n ≥ send_max` of bits sent, and a deviation of at least `ε` has at most the probability Chebyshev's inequality gives. -/
theorem C124_bsc_precision {bits : ρ → Nat → List Int × ρ} (hb : ∀ g n, (bits g n).1.length = n ∧ ∀ x ∈ (bits g n).1, x = 0 ∨ x = 1) (bufLen : ℚ → Nat → Nat)
    (junk : ρ × (Nat → ℝ) → Nat → ℝ) (g : ρ) (snr : ℝ) (sc : Int) {p : ℝ} (h0 : 0 ≤ p) (h1 : p ≤ 1) {Ω : Type*} [MeasurableSpace Ω] {P : Measure Ω} {u : Ω → ℕ → ℝ} (hu : UniformDraws P u)
    (hind : iIndepFun (fun i ω => u ω i) P) {sendMax errMin : Int} (hs : 0 < sendMax) (he : sendMax ≤ errMin) :
    ∃ (n : Nat) (ber : Ω → ℚ), sendMax ≤ n ∧ (∀ᵐ ω ∂P, ReportsBer (bscLink bits p) bufLen junk snr sendMax errMin sc 1 (g, u ω) (ber ω)) ∧
      ∫ ω, (ber ω : ℝ) ∂P = p ∧ variance (fun ω => (ber ω : ℝ)) P = p * (1 - p) / n ∧
      ∀ ε > 0, P {ω | ε ≤ |(ber ω : ℝ) - p|} ≤ ENNReal.ofReal (p * (1 - p) / n / ε ^ 2) := by
  classical
  have := hind.isProbabilityMeasure
  obtain ⟨d, hd, H⟩ := C124_unbiased (lk := bscLink bits p) (bufLen := bufLen) (junk := junk) (rate := 1) Nat.one_pos Nat.one_pos (by norm_num) sc snr
  rw [show linkDivider (bscLink bits p).bitsPerSymbol (bscLink bits p).nbTx 1 = linkDivider 1 1 1 from rfl, bsc_divider] at hd
  cases hd
  set c := linkChunk 1 sc with hc
  have hcpos : 0 < c := by rw [hc]; unfold linkChunk; omega
  obtain ⟨k1, k2⟩ := flips_iid hu hind c p
  have k3 := flips_mean hu c h0 h1 0
  have k4 := fun i => flips_variance hu hind c h0 h1 i
  obtain ⟨T, ber, -, b1, b2, b5, b3, b4⟩ := H (P := P) (w := fun ω => (g, u ω)) (w1 := fun ω => (g, u ω)) (e := fun i ω => (flips c p (fun k => u ω (i * c + k)) : Int))
    (Eventually.of_forall fun ω => ⟨rfl, bscLink_run hb p (bufLen 1) junk c g (u ω)⟩) (fun i ω => by
      unfold flips
      exact_mod_cast (card_filter_le _ _).trans (card_range c).le) (fun i => (k4 i).1) k2 sendMax errMin hs he
  have hc0 : (c : ℝ) ≠ 0 := by positivity
  have hT : T ≠ 0 := by rintro rfl; simp at b1; omega
  have hT0 : (T : ℝ) ≠ 0 := by positivity
  have hmean : ∫ ω, (ber ω : ℝ) ∂P = p := by rw [b3, k3.2]; field_simp
  have hvar : variance (fun ω => (ber ω : ℝ)) P = p * (1 - p) / ((T * c : Nat) : ℝ) := by
    rw [b4 fun i j hij => k1.indepFun hij, (k4 0).2]
    push_cast
    field_simp
  refine ⟨T * c, ber, by exact_mod_cast b1, b2, hmean, hvar, fun ε hε => ?_⟩
  have := meas_ge_le_variance_div_sq b5 hε
  rwa [hmean, hvar] at this

/-- The hypotheses are met: independent uniform draws exist, and message bits can be all zero. -/
example : ∃ (Ω : Type) (_ : MeasurableSpace Ω) (P : Measure Ω) (u : Ω → ℕ → ℝ), UniformDraws P u ∧ iIndepFun (fun i ω => u ω i) P ∧
    ∃ ber : Ω → ℚ, (∀ ω, ReportsBer (bscLink (ρ := Unit) (fun _ n => (List.replicate n 0, ())) (1 / 2)) (fun _ n => n) (fun _ _ => 0) 3 2 1 1 1 ((), u ω) (ber ω)) ∧
      ∫ ω, (ber ω : ℝ) ∂P = 5 / 8 := by
  have : IsProbabilityMeasure (volume.restrict (Set.Ico (0 : ℝ) 1)) := ⟨by simp⟩
  have hu : UniformDraws (Measure.infinitePi fun _ : ℕ => volume.restrict (Set.Ico (0 : ℝ) 1)) (fun ω i => ω i) := by
    intro i
    have := measurePreserving_eval_infinitePi (fun _ : ℕ => volume.restrict (Set.Ico (0 : ℝ) 1)) i
    exact ⟨this.measurable.aemeasurable, this.map_eq⟩
  have hi : iIndepFun (fun i (ω : ℕ → ℝ) => ω i) (Measure.infinitePi fun _ : ℕ => volume.restrict (Set.Ico (0 : ℝ) 1)) :=
    iIndepFun_infinitePi (X := fun _ x => x) (fun _ => measurable_id)
  refine ⟨ℕ → ℝ, inferInstance, _, fun ω i => ω i, hu, hi, ?_⟩
  obtain ⟨ber, b1, b2⟩ := C124_unbiased_refuted (ρ := Unit) (bits := fun _ n => (List.replicate n 0, ())) (fun _ n => ⟨by simp, fun x hx => Or.inl (List.eq_of_mem_replicate hx)⟩)
    (fun _ n => n) (fun _ _ => 0) () 3 (p := 1 / 2) (by norm_num) (by norm_num) hu hi
  exact ⟨ber, b1, by rw [b2]; norm_num⟩

end Verif
