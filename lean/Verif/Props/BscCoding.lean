import Verif.Props.Channels
import Verif.Props.CodedModulation
import Mathlib.Probability.Independence.InfinitePi
/-
C119: error probability of a convolutional code over the binary symmetric channel.
-/
namespace Verif
open MeasureTheory ProbabilityTheory Finset

/-- The bits that leave `bsc`, called on a new array holding the bits `c`. -/
noncomputable def bscBits (c : List Nat) (p : ℝ) (u : Nat → ℝ) : List Nat :=
  let r := bsc [c.map Int.ofNat] 0 p u
  (r.1.getD r.2 []).map Int.toNat

/-- Number of draws below or at `p` among the first `n`. -/
noncomputable def flips (n : Nat) (p : ℝ) (u : Nat → ℝ) : Nat :=
  open Classical in ((range n).filter fun i => u i ≤ p).card

theorem diffCount_card (a b : List Nat) (h : a.length = b.length) :
    diffCount a b = ((range b.length).filter fun i => a.getD i 0 ≠ b.getD i 0).card := by
  induction a generalizing b with
  | nil => cases b with
    | nil => simp [diffCount]
    | cons y b => simp at h
  | cons x a ih => cases b with
    | nil => simp at h
    | cons y b =>
      rw [diffCount, ih b (by simpa using h), card_filter, card_filter, List.length_cons, sum_range_succ', Nat.add_comm]
      congr 1
      by_cases e : x = y <;> simp [e]

theorem bsc_bits {c : List Nat} (hc : ∀ x ∈ c, x < 2) (p : ℝ) (u : Nat → ℝ) :
    (bscBits c p u).length = c.length ∧ (∀ x ∈ bscBits c p u, x < 2) ∧ diffCount (bscBits c p u) c = flips c.length p u := by
  classical
  have hbits : ∀ x ∈ ([c.map Int.ofNat] : IntHeap).getD 0 [], x = 0 ∨ x = 1 := by
    intro x hx
    obtain ⟨y, hy, rfl⟩ := List.mem_map.1 (show x ∈ c.map Int.ofNat from hx)
    have := hc y hy
    have : y = 0 ∨ y = 1 := by omega
    rcases this with rfl | rfl
    · left; rfl
    · right; rfl
  obtain ⟨h1, h2, h3, -⟩ := C74_bsc [c.map Int.ofNat] 0 (by simp) hbits p u
  have e0 : ([c.map Int.ofNat] : IntHeap).getD 0 [] = c.map Int.ofNat := rfl
  rw [e0] at h2 h3
  rw [List.length_map] at h2 h3
  have hlen : (bscBits c p u).length = c.length := by
    unfold bscBits; dsimp only; rw [List.length_map, h1]; exact h2
  have hget : ∀ i < c.length, (bscBits c p u).getD i 0 = if u i ≤ p then 1 - c.getD i 0 else c.getD i 0 := by
    intro i hi
    have h4 := h3 i hi
    have h5 : (c.map Int.ofNat).getD i 0 = (c.getD i 0 : ℤ) := by
      rw [List.getD_eq_getElem _ _ (by simpa using hi), List.getElem_map, List.getD_eq_getElem _ _ hi]; rfl
    rw [h5] at h4
    have h6 : (bscBits c p u).getD i 0 = (((bsc [c.map Int.ofNat] 0 p u).1.getD ([c.map Int.ofNat] : IntHeap).length []).getD i 0).toNat := by
      have e7 : ∀ l : List ℤ, (l.map Int.toNat).getD i 0 = (l.getD i 0).toNat := by
        intro l
        rw [List.getD_eq_getElem?_getD, List.getD_eq_getElem?_getD, List.getElem?_map]
        cases l[i]? <;> rfl
      unfold bscBits
      dsimp only
      rw [h1, e7]
    rw [h6, h4]
    have := hc (c.getD i 0) (by rw [List.getD_eq_getElem _ _ hi]; exact List.getElem_mem _)
    split <;> omega
  have hlt : ∀ i < c.length, c.getD i 0 < 2 := fun i hi => hc _ (by rw [List.getD_eq_getElem _ _ hi]; exact List.getElem_mem _)
  refine ⟨hlen, ?_, ?_⟩
  · intro x hx
    obtain ⟨i, hi, rfl⟩ := List.mem_iff_getElem.1 hx
    rw [hlen] at hi
    have := hget i hi
    rw [List.getD_eq_getElem _ _ (by rw [hlen]; exact hi)] at this
    rw [this]
    have := hlt i hi
    split <;> omega
  · rw [diffCount_card _ _ hlen]
    unfold flips
    congr 1
    apply filter_congr
    intro i hi
    rw [mem_range] at hi
    rw [hget i hi]
    have := hlt i hi
    by_cases hu : u i ≤ p
    · rw [if_pos hu]; simp only [hu, iff_true]; omega
    · rw [if_neg hu]; simp [hu]

/-- More than `e` of `n` independent events of probability `p` occur with probability at most `C(n, e+1) p^(e+1)`. -/
theorem flips_tail {Ω : Type*} [MeasurableSpace Ω] {P : Measure Ω} {u : Ω → ℕ → ℝ} (hu : UniformDraws P u)
    (hind : iIndepFun (fun i ω => u ω i) P) {p : ℝ} (h0 : 0 ≤ p) (h1 : p ≤ 1) (n e : Nat) :
    P {ω | e < flips n p (u ω)} ≤ ENNReal.ofReal ((n.choose (e + 1) : ℝ) * p ^ (e + 1)) := by
  classical
  have hsub : {ω | e < flips n p (u ω)} ⊆ ⋃ S ∈ (range n).powersetCard (e + 1), ⋂ i ∈ S, {ω | u ω i ≤ p} := by
    intro ω hω
    have hω : e + 1 ≤ ((range n).filter fun i => u ω i ≤ p).card := hω
    obtain ⟨S, hS, hc⟩ := exists_subset_card_eq hω
    simp only [Set.mem_iUnion, Set.mem_iInter]
    refine ⟨S, mem_powersetCard.2 ⟨hS.trans (filter_subset _ _), hc⟩, ?_⟩
    intro i hi
    exact (mem_filter.1 (hS hi)).2
  refine le_trans (measure_mono hsub) (le_trans (measure_biUnion_finset_le _ _) ?_)
  have heach : ∀ S ∈ (range n).powersetCard (e + 1), P (⋂ i ∈ S, {ω | u ω i ≤ p}) = ENNReal.ofReal (p ^ (e + 1)) := by
    intro S hS
    rw [mem_powersetCard] at hS
    have := hind.measure_inter_preimage_eq_mul S (sets := fun _ => Set.Iic p) (fun i _ => measurableSet_Iic)
    have e1 : (⋂ i ∈ S, {ω | u ω i ≤ p}) = ⋂ i ∈ S, (fun ω => u ω i) ⁻¹' Set.Iic p := rfl
    rw [e1, this]
    have e2 : ∀ i ∈ S, P ((fun ω => u ω i) ⁻¹' Set.Iic p) = ENNReal.ofReal p := fun i _ => uniform_le hu p h0 h1 i
    rw [prod_congr rfl e2, prod_const, hS.2, ENNReal.ofReal_pow h0]
  rw [sum_congr rfl heach, sum_const, card_powersetCard, card_range, ENNReal.ofReal_mul (Nat.cast_nonneg _), ENNReal.ofReal_natCast,
    nsmul_eq_mul]

/-- C119: a feedforward code of rate `1/n` and memory `M` whose distances are checked for `e` errors: over the binary symmetric
channel with crossover probability `p` and independent uniform draws, the probability that the first `K` message bits are not all
returned is at most `C(L, e+1) p^(e+1)`, `L` being the number of coded bits. -/
theorem C119_bsc {M n : Nat} {g : List Nat} {fmt : String} (h : TrellisArgs [M] [g] n none fmt) (hM : 0 < M) (hn : 0 < n)
    {D D' d d' e : Nat} (hD : columnCheck (trellisOf (fun _ _ => 0) [M] [g] n none false fmt) D d = true)
    (hD' : columnCheck (trellisOf (fun _ _ => 0) [M] [g] n none false fmt) D' d' = true) (hDD : D' ≤ D) (he : 2 * e < d) (he' : 2 * e ≤ d')
    (junk : Nat → Nat → Nat) :
    ∃ t, mkTrellis junk [M] [g] n none false fmt = .ok t ∧
      ∀ (outLen : Nat → Nat) (msg : List Nat), (∀ b ∈ msg, b < 2) → outLen (msg.length + M) = (msg.length + M) * n →
        ∃ c, convEncode outLen t msg "term" none = .ok c ∧
          ∀ {Ω : Type*} [MeasurableSpace Ω] {P : Measure Ω} {u : Ω → ℕ → ℝ}, UniformDraws P u → iIndepFun (fun i ω => u ω i) P →
            ∀ (p : ℝ), 0 ≤ p → p ≤ 1 → ∀ (jk : VitJunk Nat) (tb K : Nat), D + 2 ≤ tb → tb ≤ msg.length + 2 * M → K ≤ msg.length →
              K + D' + 1 ≤ msg.length + 2 * M →
              P {ω | ¬ ∃ dec coded', viterbiHard t jk (msg.length + M) tb (bscBits c p (u ω)) = .ok (dec, coded') ∧
                dec.length = msg.length + M ∧ dec.take K = msg.take K} ≤
                ENNReal.ofReal ((((msg.length + M) * n).choose (e + 1) : ℝ) * p ^ (e + 1)) := by
  obtain ⟨t, ht, H⟩ := C110_feedforward h hM hn hD hD' hDD he he' junk
  refine ⟨t, ht, ?_⟩
  intro outLen msg hb ho
  obtain ⟨c, h1, h2, -, h4⟩ := H outLen msg hb ho
  have hcb : ∀ x ∈ c, x < 2 := ff_encode_bits h hn ht hb ho h1
  refine ⟨c, h1, ?_⟩
  intro Ω _ P u hu hind p h0 hp1 jk tb K htb htb2 hK hK'
  refine le_trans (measure_mono ?_) (flips_tail hu hind h0 hp1 _ e)
  intro ω hω
  by_contra hcon
  apply hω
  have hle : flips ((msg.length + M) * n) p (u ω) ≤ e := not_lt.1 hcon
  obtain ⟨b1, b2, b3⟩ := bsc_bits hcb p (u ω)
  rw [h2] at b3
  obtain ⟨dec, coded', d1, d2, d3⟩ := h4 _ jk tb b1 b2 (by rw [b3]; exact hle) htb htb2
  exact ⟨dec, coded', d1, d2, d3 K hK hK'⟩

/-- C119: the (5,7) code of the documentation with the default traceback depth: the probability of a wrong message of `m ≥ 5` bits is
at most `C(2m+4, 3) p³`, while uncoded it is `1 - (1-p)^m`. -/
theorem C119_57 (junk : Nat → Nat → Nat) :
    ∃ t, mkTrellis junk [2] [[5, 7]] 2 none false "MSB" = .ok t ∧
      ∀ (outLen : Nat → Nat) (msg : List Nat), (∀ b ∈ msg, b < 2) → 5 ≤ msg.length → outLen (msg.length + 2) = (msg.length + 2) * 2 →
        ∃ c, convEncode outLen t msg "term" none = .ok c ∧
          ∀ {Ω : Type*} [MeasurableSpace Ω] {P : Measure Ω} {u : Ω → ℕ → ℝ}, UniformDraws P u → iIndepFun (fun i ω => u ω i) P →
            ∀ (p : ℝ), 0 ≤ p → p ≤ 1 → ∀ (jk : VitJunk Nat),
              P {ω | ¬ ∃ dec coded', viterbiHard t jk (msg.length + 2) (defaultDepth t (msg.length + 2)) (bscBits c p (u ω)) = .ok (dec, coded') ∧
                dec.length = msg.length + 2 ∧ dec.take msg.length = msg} ≤
                ENNReal.ofReal ((((msg.length + 2) * 2).choose 3 : ℝ) * p ^ 3) := by
  obtain ⟨t, ht, H⟩ := C119_bsc args57 (by decide) (by decide) (D := 5) (D' := 3) (d := 5) (d' := 4) (e := 2)
    (by decide +kernel) (by decide +kernel) (by decide) (by decide) (by decide) junk
  have hM : t.M = 2 := by rw [mkTrellis_ok args57] at ht; rw [← Except.ok.inj ht]; rfl
  refine ⟨t, ht, ?_⟩
  intro outLen msg hb hlen ho
  obtain ⟨c, h1, h2⟩ := H outLen msg hb ho
  refine ⟨c, h1, ?_⟩
  intro Ω _ P u hu hind p h0 hp1 jk
  have := h2 hu hind p h0 hp1 jk (defaultDepth t (msg.length + 2)) msg.length (by unfold defaultDepth; rw [hM]; omega)
    (by unfold defaultDepth; rw [hM]; omega) (le_refl _) (by omega)
  rw [List.take_length] at this
  exact this

/-- The hypotheses are met: independent uniform draws exist, and for the message `1,0,1,1,0` at `p = 1/100` the (5,7) code has
frame error probability at most `C(14,3)/10^6 < 0.0004`. -/
example : ∃ (Ω : Type) (_ : MeasurableSpace Ω) (P : Measure Ω) (u : Ω → ℕ → ℝ), UniformDraws P u ∧ iIndepFun (fun i ω => u ω i) P ∧
    ∃ t c, mkTrellis (fun _ _ => 0) [2] [[5, 7]] 2 none false "MSB" = .ok t ∧ convEncode (· * 2) t [1, 0, 1, 1, 0] "term" none = .ok c ∧
      P {ω | ¬ ∃ dec coded', viterbiHard t ⟨fun _ _ => 0, fun _ => 0, fun _ _ => 0, fun _ _ => (0, 0)⟩ 7 (defaultDepth t 7)
        (bscBits c (1 / 100) (u ω)) = .ok (dec, coded') ∧ dec.length = 7 ∧ dec.take 5 = [1, 0, 1, 1, 0]} ≤ ENNReal.ofReal (4 / 10000) := by
  have : IsProbabilityMeasure (volume.restrict (Set.Ico (0 : ℝ) 1)) := ⟨by simp⟩
  have hu : UniformDraws (Measure.infinitePi fun _ : ℕ => volume.restrict (Set.Ico (0 : ℝ) 1)) (fun ω i => ω i) := by
    intro i
    have := measurePreserving_eval_infinitePi (fun _ : ℕ => volume.restrict (Set.Ico (0 : ℝ) 1)) i
    exact ⟨this.measurable.aemeasurable, this.map_eq⟩
  have hi : iIndepFun (fun i (ω : ℕ → ℝ) => ω i) (Measure.infinitePi fun _ : ℕ => volume.restrict (Set.Ico (0 : ℝ) 1)) :=
    iIndepFun_infinitePi (X := fun _ x => x) (fun _ => measurable_id)
  obtain ⟨t, ht, H⟩ := C119_57 (fun _ _ => 0)
  obtain ⟨c, hc, H2⟩ := H (· * 2) [1, 0, 1, 1, 0] (by decide) (by decide) rfl
  refine ⟨ℕ → ℝ, inferInstance, _, fun ω i => ω i, hu, hi, t, c, ht, hc, ?_⟩
  refine le_trans (H2 hu hi (1 / 100) (by norm_num) (by norm_num) _) (ENNReal.ofReal_le_ofReal ?_)
  have : ((([1, 0, 1, 1, 0] : List Nat).length + 2) * 2).choose 3 = 364 := by decide
  rw [this]
  norm_num

end Verif
