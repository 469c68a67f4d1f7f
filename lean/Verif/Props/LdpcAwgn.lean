import Verif.Props.LdpcBec
import Verif.Props.ViterbiBpsk
import Verif.Lemmas.GaussLinear
/-
C136: LDPC codes over BPSK and Gaussian noise, min-sum decoding of the outputs of the soft demodulator.
-/
namespace Verif
open MeasureTheory ProbabilityTheory Finset

variable (nanSign : NanSigns) (oneLeft : Py (List (List Bool × List (Option ℝ))))

/-- More than `e` of `n` independent events of probability at most `p` occur with probability at most `C(n, e+1) p^(e+1)`. -/
theorem count_tail {Ω : Type*} [MeasurableSpace Ω] {P : Measure Ω} {X : ℕ → Ω → ℝ} (hind : iIndepFun X P) {B : ℕ → Set ℝ} (hB : ∀ i, MeasurableSet (B i))
    {p : ENNReal} (n e : Nat) (hp : ∀ i < n, P (X i ⁻¹' B i) ≤ p) [∀ ω, DecidablePred fun i => X i ω ∈ B i] :
    P {ω | e < ((range n).filter fun i => X i ω ∈ B i).card} ≤ n.choose (e + 1) * p ^ (e + 1) := by
  have hsub : {ω | e < ((range n).filter fun i => X i ω ∈ B i).card} ⊆ ⋃ S ∈ (range n).powersetCard (e + 1), ⋂ i ∈ S, X i ⁻¹' B i := by
    intro ω hω
    have hω : e + 1 ≤ ((range n).filter fun i => X i ω ∈ B i).card := hω
    obtain ⟨S, hS, hc⟩ := exists_subset_card_eq hω
    simp only [Set.mem_iUnion, Set.mem_iInter]
    exact ⟨S, mem_powersetCard.2 ⟨hS.trans (filter_subset _ _), hc⟩, fun i hi => (mem_filter.1 (hS hi)).2⟩
  refine le_trans (measure_mono hsub) (le_trans (measure_biUnion_finset_le _ _) ?_)
  have heach : ∀ S ∈ (range n).powersetCard (e + 1), P (⋂ i ∈ S, X i ⁻¹' B i) ≤ p ^ (e + 1) := by
    intro S hS
    rw [mem_powersetCard] at hS
    rw [hind.measure_inter_preimage_eq_mul S (sets := B) (fun i _ => hB i), ← hS.2, ← prod_const]
    exact prod_le_prod' fun i hi => hp i (mem_range.1 (hS.1 hi))
  refine (sum_le_sum heach).trans ?_
  rw [sum_const, card_powersetCard, card_range, nsmul_eq_mul]

/-- The sign of a BPSK symbol. -/
noncomputable def bpskSign (c : List Int) (i : Nat) : ℝ := if c.getD i 0 = 1 then -1 else 1

/-- The soft values handed to the decoder: `lam (s_i + σ z_i)`, `s_i = 1` for a 0 and `-1` for a 1. -/
noncomputable def bpskLlrs (c : List Int) (lam σ : ℝ) (z : Nat → ℝ) : List ℝ :=
  (List.range c.length).map fun i => lam * (bpskSign c i + σ * z i)

theorem gauss_left {Ω : Type*} [MeasurableSpace Ω] {P : Measure Ω} {X : Ω → ℝ} (h : HasLaw X (gaussianReal 0 1) P) {s : ℝ} (hs : s = 1 ∨ s = -1) (t : ℝ) :
    P (X ⁻¹' {x | s * x < -t}) = ENNReal.ofReal (qFunction t) := by
  have hset : MeasurableSet {x : ℝ | s * x < -t} := measurableSet_lt (by fun_prop) measurable_const
  rw [← Measure.map_apply_of_aemeasurable h.aemeasurable hset, h.map_eq, qFunction, ofReal_measureReal]
  rcases hs with rfl | rfl
  · have : {x : ℝ | 1 * x < -t} = (fun x => -x) ⁻¹' Set.Ioi t := by
      ext x; simp only [Set.mem_ofPred_eq, Set.mem_preimage, Set.mem_Ioi]; constructor <;> intro h <;> linarith
    rw [this]
    have hl : HasLaw (fun x : ℝ => -x) (gaussianReal 0 1) (gaussianReal 0 1) := by
      refine ⟨measurable_neg.aemeasurable, ?_⟩
      have := gaussianReal_map_neg (μ := 0) (v := 1)
      rwa [neg_zero] at this
    rw [← Measure.map_apply_of_aemeasurable hl.aemeasurable measurableSet_Ioi, hl.map_eq]
  · congr 1
    ext x; simp only [Set.mem_ofPred_eq, Set.mem_Ioi]; constructor <;> intro h <;> linarith

/-- One word: the noise values for which min-sum decoding is sure to return the word. -/
theorem bpsk_returns (H : Checks) (nv n d e : Nat) (hnv : 0 < nv) (hH : GoodChecks H nv) (hdeg : ∀ ns ∈ H, ns.length ≠ 1) (hg : NoFourCycle H)
    (hcol : ∀ v < nv, d ≤ (checksOf H v).length) (c : List Int) (hl : c.length = nv) (hw : ChecksHold H (fun v => c.getD v 0 = 1)) (hc : ∀ x ∈ c, x = 0 ∨ x = 1)
    (hn : 1 ≤ n) {lam σ α β : ℝ} (hlam : 0 < lam) (hα : 0 < α) (hαβ : α ≤ β) (he : e * β < (d + 1 - e) * α) (z : Nat → ℝ)
    (hlow : ∀ v < nv, -β ≤ 1 + σ * (bpskSign c v * z v)) (E : Finset Nat) (hE : ∀ v < nv, v ∉ E → α ≤ 1 + σ * (bpskSign c v * z v)) 
    (hE2 : ∀ v ∈ E, v < nv ∧ 1 + σ * (bpskSign c v * z v) < α) (hEe : E.card ≤ e) :
    Returns (bpDecode nanSign oneLeft .msa H nv n (bpskLlrs c lam σ z)) c := by
  have hval : ∀ v < nv, (bpskLlrs c lam σ z).getD v 0 = lam * (bpskSign c v + σ * z v) := by
    intro v hv
    unfold bpskLlrs
    rw [List.getD_eq_getElem _ _ (by simp; omega), List.getElem_map, List.getElem_range]
  have h01 : ∀ v < nv, c.getD v 0 = 0 ∨ c.getD v 0 = 1 := by
    intro v hv
    rw [List.getD_eq_getElem _ _ (by omega)]
    exact hc _ (List.getElem_mem _)
  suffices hmain : ∃ out arr, bpDecode nanSign oneLeft .msa H nv n (bpskLlrs c lam σ z) = .ok ([((List.range nv).map (fun v => decide (c.getD v 0 = 1)), out)], arr) by
    obtain ⟨out, arr, h⟩ := hmain
    refine ⟨_, out, arr, h, ?_⟩
    refine List.ext_getElem (by simp [hl]) fun v hv1 hv2 => ?_
    simp only [List.getElem_map, List.getElem_range]
    rw [List.getD_eq_getElem _ _ hv2]
    rcases hc _ (List.getElem_mem hv2) with h | h <;> simp [h]
  refine C112_girth nanSign oneLeft H nv n (bpskLlrs c lam σ z) hnv (by simp [bpskLlrs, hl]) hH hdeg hg (fun v => decide (c.getD v 0 = 1)) hw hn
    (min 500 (lam * α)) (min 500 (lam * β)) (lt_min (by norm_num) (by positivity)) (min_le_left _ _) (le_min (by norm_num) (by nlinarith)) E ?_ ?_ ?_
  · intro v hv hvE
    have := hE v hv hvE
    rw [hval v hv]
    unfold bpskSign at this ⊢
    have hle := mul_le_mul_of_nonneg_left this hlam.le
    rcases h01 v hv with h0 | h0
    · simp only [h0] at hle ⊢
      norm_num at hle ⊢
      exact Or.inr hle
    · simp only [h0] at hle ⊢
      norm_num at hle ⊢
      have := min_le_right 500 (lam * α)
      linarith
  · intro v hvE
    obtain ⟨hv, hlt⟩ := hE2 v hvE
    have h1 := hlow v hv
    rw [hval v hv]
    apply min_le_min le_rfl
    rw [abs_mul, abs_of_pos hlam]
    apply mul_le_mul_of_nonneg_left _ hlam.le
    have : |bpskSign c v + σ * z v| = |1 + σ * (bpskSign c v * z v)| := by
      unfold bpskSign
      by_cases h0 : c.getD v 0 = 1
      · rw [if_pos h0, ← abs_neg]; congr 1; ring
      · rw [if_neg h0]; congr 1; ring
    rw [this, abs_le]
    exact ⟨h1, by linarith⟩
  · intro v hv
    have hd : (d : ℝ) ≤ (checksOf H v).length := by exact_mod_cast hcol v hv
    have hce : (E.card : ℝ) ≤ e := by exact_mod_cast hEe
    have hc0 : (0 : ℝ) ≤ E.card := Nat.cast_nonneg _
    have ha : 0 < min 500 (lam * α) := lt_min (by norm_num) (by positivity)
    have hb : 0 ≤ min 500 (lam * β) := le_min (by norm_num) (by nlinarith)
    have key : (e : ℝ) * min 500 (lam * β) < (d + 1 - e) * min 500 (lam * α) := by
      rcases le_total 500 (lam * α) with h5 | h5
      · rw [min_eq_left h5]
        have h6 : (e : ℝ) * α ≤ e * β := mul_le_mul_of_nonneg_left hαβ (Nat.cast_nonneg _)
        have h7 : (e : ℝ) < d + 1 - e := by
          by_contra hcon
          push Not at hcon
          have := mul_le_mul_of_nonneg_right hcon hα.le
          linarith
        have h8 : (e : ℝ) * min 500 (lam * β) ≤ e * 500 := mul_le_mul_of_nonneg_left (min_le_left _ _) (Nat.cast_nonneg _)
        linarith
      · rw [min_eq_right h5]
        calc (e : ℝ) * min 500 (lam * β) ≤ e * (lam * β) := mul_le_mul_of_nonneg_left (min_le_right _ _) (Nat.cast_nonneg _)
          _ = lam * (e * β) := by ring
          _ < lam * ((d + 1 - e) * α) := mul_lt_mul_of_pos_left he hlam
          _ = _ := by ring
    have k1 : (E.card : ℝ) * min 500 (lam * β) ≤ e * min 500 (lam * β) := mul_le_mul_of_nonneg_right hce hb
    have k2 : ((d : ℝ) + 1 - e) * min 500 (lam * α) ≤ (((checksOf H v).length : ℝ) + 1 - E.card) * min 500 (lam * α) :=
      mul_le_mul_of_nonneg_right (by linarith) ha.le
    linarith

theorem bpskSign_cases (c : List Int) (i : Nat) : bpskSign c i = 1 ∨ bpskSign c i = -1 := by
  unfold bpskSign; by_cases h : c.getD i 0 = 1
  · right; rw [if_pos h]
  · left; rw [if_neg h]

/-- The noise that may defeat the decoder: one value beyond `(1 + β) / σ`, or more than `e` values beyond `(1 - α) / σ`, towards the other symbol. -/
def badNoise (c : List Int) (nv e : Nat) (σ α β : ℝ) (z : Nat → ℝ) : Prop :=
  (∃ i < nv, bpskSign c i * z i < -((1 + β) / σ)) ∨ ∃ S ⊆ range nv, S.card = e + 1 ∧ ∀ i ∈ S, bpskSign c i * z i < -((1 - α) / σ)

theorem bpsk_good (H : Checks) (nv n d e : Nat) (hnv : 0 < nv) (hH : GoodChecks H nv) (hdeg : ∀ ns ∈ H, ns.length ≠ 1) (hg : NoFourCycle H)
    (hcol : ∀ v < nv, d ≤ (checksOf H v).length) (c : List Int) (hl : c.length = nv) (hw : ChecksHold H (fun v => c.getD v 0 = 1)) (hc : ∀ x ∈ c, x = 0 ∨ x = 1)
    (hn : 1 ≤ n) {lam σ α β : ℝ} (hlam : 0 < lam) (hσ : 0 < σ) (hα : 0 < α) (hαβ : α ≤ β) (he : e * β < (d + 1 - e) * α) (z : Nat → ℝ)
    (hz : ¬ badNoise c nv e σ α β z) : Returns (bpDecode nanSign oneLeft .msa H nv n (bpskLlrs c lam σ z)) c := by
  classical
  unfold badNoise at hz
  rw [not_or] at hz
  obtain ⟨n1, n2⟩ := hz
  have hmul : ∀ {x t : ℝ}, x < -(t / σ) ↔ t + σ * x < 0 := by
    intro x t
    rw [← neg_div, lt_div_iff₀ hσ]
    constructor <;> intro h <;> linarith
  refine bpsk_returns nanSign oneLeft H nv n d e hnv hH hdeg hg hcol c hl hw hc hn hlam hα hαβ he z ?_
    ((range nv).filter fun i => bpskSign c i * z i < -((1 - α) / σ)) ?_ ?_ ?_
  · intro v hv
    by_contra hlt
    push Not at hlt
    exact n1 ⟨v, hv, by rw [hmul]; linarith⟩
  · intro v hv hvE
    by_contra hlt
    push Not at hlt
    refine hvE (mem_filter.2 ⟨mem_range.2 hv, ?_⟩)
    rw [hmul]; linarith
  · intro v hvE
    rw [mem_filter, mem_range] at hvE
    refine ⟨hvE.1, ?_⟩
    have h2 := hvE.2
    rw [hmul] at h2; linarith
  · by_contra hgt
    push Not at hgt
    obtain ⟨S, hS, hcard⟩ := exists_subset_card_eq (show e + 1 ≤ _ from hgt)
    exact n2 ⟨S, hS.trans (filter_subset _ _), hcard, fun i hi => (mem_filter.1 (hS hi)).2⟩

theorem bad_prob (c : List Int) (nv e : Nat) (σ α β : ℝ) 
    {Ω : Type*} [MeasurableSpace Ω] {P : Measure Ω} {z : Ω → ℕ → ℝ} (hz : NormalDraws P z) (hind : iIndepFun (fun i ω => z ω i) P) :
    P {ω | badNoise c nv e σ α β (z ω)} ≤ ENNReal.ofReal (nv * qFunction ((1 + β) / σ) + nv.choose (e + 1) * qFunction ((1 - α) / σ) ^ (e + 1)) := by
  classical
  have hq0 : ∀ t, 0 ≤ qFunction t := fun t => measureReal_nonneg
  set B : ℕ → Set ℝ := fun i => {x | bpskSign c i * x < -((1 - α) / σ)} with hB
  have hsub : {ω | badNoise c nv e σ α β (z ω)} ⊆
      (⋃ i ∈ range nv, (fun ω => z ω i) ⁻¹' {x | bpskSign c i * x < -((1 + β) / σ)}) ∪ {ω | e < ((range nv).filter fun i => z ω i ∈ B i).card} := by
    rintro ω (⟨i, hi, h⟩ | ⟨S, hS, hcard, h⟩)
    · exact Or.inl (Set.mem_biUnion (mem_range.2 hi) h)
    · right
      show e < _
      have : S ⊆ (range nv).filter fun i => z ω i ∈ B i := fun i hi => mem_filter.2 ⟨hS hi, h i hi⟩
      have := card_le_card this
      omega
  have hBm : ∀ i, MeasurableSet (B i) := fun i => measurableSet_lt (by fun_prop) measurable_const
  refine (measure_mono hsub).trans ((measure_union_le _ _).trans ?_)
  rw [ENNReal.ofReal_add (mul_nonneg (Nat.cast_nonneg _) (hq0 _)) (mul_nonneg (Nat.cast_nonneg _) (pow_nonneg (hq0 _) _))]
  apply add_le_add
  · refine (measure_biUnion_finset_le _ _).trans ?_
    rw [sum_congr rfl fun i _ => gauss_left (hz i) (bpskSign_cases c i) ((1 + β) / σ), sum_const, card_range, nsmul_eq_mul,
      ENNReal.ofReal_mul (Nat.cast_nonneg _), ENNReal.ofReal_natCast]
  · have h := count_tail hind hBm (p := ENNReal.ofReal (qFunction ((1 - α) / σ))) nv e fun i _ => (gauss_left (hz i) (bpskSign_cases c i) _).le
    refine h.trans (le_of_eq ?_)
    rw [ENNReal.ofReal_mul (Nat.cast_nonneg _), ENNReal.ofReal_natCast, ENNReal.ofReal_pow (hq0 _)]

theorem bpskLlrs_block {nv : Nat} {cs : List (List Int)} (h : ∀ c ∈ cs, c.length = nv) {b : Nat} (hb : b < cs.length) (lam σ : ℝ) (z : Nat → ℝ) :
    ((bpskLlrs cs.flatten lam σ z).drop (b * nv)).take nv = bpskLlrs (cs.getD b []) lam σ (fun i => z (b * nv + i)) := by
  have hl : (cs.getD b []).length = nv := by rw [List.getD_eq_getElem _ _ hb]; exact h _ (List.getElem_mem hb)
  have h2 : (b + 1) * nv ≤ cs.length * nv := Nat.mul_le_mul_right _ hb
  rw [Nat.add_mul, one_mul] at h2
  unfold bpskLlrs bpskSign
  refine List.ext_getElem (by rw [List.length_take, List.length_drop, List.length_map, List.length_range, flatten_len h, List.length_map, List.length_range, hl]; omega)
    fun v h3 h4 => ?_
  have hv : v < nv := by rw [List.length_map, List.length_range, hl] at h4; exact h4
  simp only [List.getElem_take, List.getElem_drop, List.getElem_map, List.getElem_range]
  rw [flatten_getD 0 nv cs h b hb v hv]

/-- The soft values of several words: a code without cycles of length 4 in which every bit takes part in at least `d` checks; `e`, `α`, `β` are free, with
`α ≤ β` and `e β < (d + 1 - e) α`. -/
theorem bpsk_blocks (H : Checks) (nv n d e : Nat) (hnv : 0 < nv) (hH : GoodChecks H nv) (hdeg : ∀ ns ∈ H, ns.length ≠ 1) (hg : NoFourCycle H)
    (hcol : ∀ v < nv, d ≤ (checksOf H v).length) (cs : List (List Int)) (hne : cs ≠ [])
    (hcs : ∀ c ∈ cs, c.length = nv ∧ ChecksHold H (fun v => c.getD v 0 = 1) ∧ ∀ x ∈ c, x = 0 ∨ x = 1)
    (hn : 1 ≤ n) {lam σ α β : ℝ} (hlam : 0 < lam) (hσ : 0 < σ) (hα : 0 < α) (hαβ : α ≤ β) (he : e * β < (d + 1 - e) * α)
    {Ω : Type*} [MeasurableSpace Ω] {P : Measure Ω} {z : Ω → ℕ → ℝ} (hz : NormalDraws P z) (hind : iIndepFun (fun i ω => z ω i) P) :
    P {ω | ¬ ReturnsAll (bpDecode nanSign oneLeft .msa H nv n (bpskLlrs cs.flatten lam σ (z ω))) cs} ≤
      ENNReal.ofReal (cs.length * (nv * qFunction ((1 + β) / σ) + nv.choose (e + 1) * qFunction ((1 - α) / σ) ^ (e + 1))) := by
  have hlen : ∀ c ∈ cs, c.length = nv := fun c hc => (hcs c hc).1
  have hsub : {ω | ¬ ReturnsAll (bpDecode nanSign oneLeft .msa H nv n (bpskLlrs cs.flatten lam σ (z ω))) cs} ⊆
      ⋃ b ∈ range cs.length, {ω | badNoise (cs.getD b []) nv e σ α β (fun i => z ω (b * nv + i))} := by
    intro ω hω
    by_contra hno
    refine hω (returns_all nanSign oneLeft H nv n hnv hne _ (by
      unfold bpskLlrs
      rw [List.length_map, List.length_range, flatten_len hlen]) ?_)
    intro b hb ns ol
    have hm : cs.getD b [] ∈ cs := by rw [List.getD_eq_getElem _ _ hb]; exact List.getElem_mem hb
    obtain ⟨c1, c2, c3⟩ := hcs _ hm
    rw [bpskLlrs_block hlen hb]
    exact bpsk_good ns ol H nv n d e hnv hH hdeg hg hcol _ c1 c2 c3 hn hlam hσ hα hαβ he _ fun hbad => hno (Set.mem_biUnion (mem_range.2 hb) hbad)
  refine (measure_mono hsub).trans ((measure_biUnion_finset_le _ _).trans ?_)
  refine (sum_le_sum fun b _ => bad_prob (cs.getD b []) nv e σ α β (z := fun ω i => z ω (b * nv + i)) (fun i => hz _) (indep_shift hind (b * nv))).trans ?_
  rw [sum_const, card_range, nsmul_eq_mul, ENNReal.ofReal_mul (p := (cs.length : ℝ)) (Nat.cast_nonneg _), ENNReal.ofReal_natCast]

/-- A list of 0s and 1s as the list of bits given to the modulator. -/
def bitsOf (c : List Int) : List Nat := c.map Int.toNat

theorem bitsOf_lt {c : List Int} (hc : ∀ x ∈ c, x = 0 ∨ x = 1) : ∀ x ∈ bitsOf c, x < 2 := by
  intro x hx
  obtain ⟨y, hy, rfl⟩ := List.mem_map.1 hx
  rcases hc y hy with rfl | rfl <;> decide

/-- The negated outputs of the soft demodulator. -/
theorem neg_llrs {c : List Int} (hc : ∀ x ∈ c, x = 0 ∨ x = 1) (v σ : ℝ) (z : Nat → ℝ) :
    ((noisyBits (bitsOf c) (-σ) z).map (4 / v * ·)).map (- ·) = bpskLlrs c (4 / v) σ z := by
  unfold noisyBits bpskLlrs bitsOf
  rw [List.map_map, List.map_map, List.length_map]
  refine List.map_congr_left fun i hi => ?_
  rw [List.mem_range] at hi
  simp only [Function.comp]
  have h0 : (c.map Int.toNat).getD i 0 = (c.getD i 0).toNat := by
    rw [List.getD_eq_getElem _ _ (by simpa using hi), List.getElem_map, List.getD_eq_getElem _ _ hi]
  rw [h0]
  unfold bpskSign
  rcases (show c.getD i 0 = 0 ∨ c.getD i 0 = 1 by rw [List.getD_eq_getElem _ _ hi]; exact hc _ (List.getElem_mem _)) with h | h <;> rw [h] <;> norm_num <;> ring

/-- Modulation, `awgn`, soft demodulation and `decode` (given the LLRs with the sign it expects: positive for a 0): the words come back. -/
def DecodedBpsk (decode : List ℝ → Py (List (List Bool × List (Option ℝ)) × List ℝ)) (m : Modem) (x : List ℂ) (snrDb rate v : ℝ) (z : Nat → ℝ) (cs : List (List Int)) : Prop :=
  ∃ ys L, awgn (.cplx x) snrDb rate z = .ok ys ∧ demodulate m ys "soft" v = .ok (.llrs L) ∧ ReturnsAll (decode (L.map (- ·))) cs

/-- C136: words of a code without cycles of length 4, every bit in at least `d` checks, over BPSK and `awgn`, soft demodulation, min-sum decoding with one
iteration or more: not all of them come back with probability at most `B (nv Q((1+β)/σ) + C(nv, e+1) Q((1-α)/σ)^(e+1))` for every `e` and `0 < α ≤ β` with
`e β < (d + 1 - e) α`. -/
theorem C136_chain (H : Checks) (nv n d e : Nat) (hnv : 0 < nv) (hH : GoodChecks H nv) (hdeg : ∀ ns ∈ H, ns.length ≠ 1) (hg : NoFourCycle H)
    (hcol : ∀ v < nv, d ≤ (checksOf H v).length) (cs : List (List Int)) (hne : cs ≠ [])
    (hcs : ∀ c ∈ cs, c.length = nv ∧ ChecksHold H (fun v => c.getD v 0 = 1) ∧ ∀ x ∈ c, x = 0 ∨ x = 1)
    (hn : 1 ≤ n) {α β : ℝ} (hα : 0 < α) (hαβ : α ≤ β) (he : e * β < (d + 1 - e) * α) (snrDb : ℝ) {rate v : ℝ} (hr : 0 < rate) (hv : 0 < v) :
    ∃ m x, pskModem 2 = .ok m ∧ modulate m (bitsOf cs.flatten) = .ok x ∧
      ∀ {Ω : Type*} [MeasurableSpace Ω] {P : Measure Ω} {z : Ω → ℕ → ℝ}, NormalDraws P z → iIndepFun (fun i ω => z ω i) P →
        P {ω | ¬ DecodedBpsk (bpDecode nanSign oneLeft .msa H nv n) m x snrDb rate v (z ω) cs} ≤
          ENNReal.ofReal (cs.length * (nv * qFunction ((1 + β) * Real.sqrt (2 * rate * (10 : ℝ) ^ (snrDb / 10))) +
            nv.choose (e + 1) * qFunction ((1 - α) * Real.sqrt (2 * rate * (10 : ℝ) ^ (snrDb / 10))) ^ (e + 1))) := by
  have hbit : ∀ x ∈ cs.flatten, x = 0 ∨ x = 1 := fun x hx => by obtain ⟨c, hc, hxc⟩ := List.mem_flatten.1 hx; exact (hcs c hc).2.2 x hxc
  have hlen : ∀ c ∈ cs, c.length = nv := fun c hc => (hcs c hc).1
  have hne2 : bitsOf cs.flatten ≠ [] := by
    intro h0
    have h1 : (bitsOf cs.flatten).length = cs.length * nv := by rw [bitsOf, List.length_map, flatten_len hlen]
    rw [h0] at h1
    have := Nat.mul_pos (List.length_pos_iff.2 hne) hnv
    rw [← h1] at this
    exact absurd this (by simp)
  have hb2 := bitsOf_lt hbit
  refine ⟨_, _, bpsk_modem, bpsk_modulate hb2 hne2, ?_⟩
  intro Ω _ P z hz hind
  have hs : (0 : ℝ) < (10 : ℝ) ^ (snrDb / 10) := Real.rpow_pos_of_pos (by norm_num) _
  have hpos : 0 < 2 * rate * (10 : ℝ) ^ (snrDb / 10) := by positivity
  set σ := Real.sqrt (1 / (2 * rate * (10 : ℝ) ^ (snrDb / 10))) with hσ
  have hσ0 : 0 < σ := Real.sqrt_pos.2 (by positivity)
  have hdiv : ∀ t, t * Real.sqrt (2 * rate * (10 : ℝ) ^ (snrDb / 10)) = t / σ := by
    intro t
    rw [hσ, one_div, Real.sqrt_inv, div_inv_eq_mul]
  rw [hdiv, hdiv]
  refine (measure_mono ?_).trans (bpsk_blocks nanSign oneLeft H nv n d e hnv hH hdeg hg hcol cs hne hcs hn (lam := 4 / v) (by positivity) hσ0 hα hαβ he hz hind)
  intro ω hω
  refine fun hok => hω ?_
  obtain ⟨ys, h1, h2⟩ := awgn_bpsk hb2 hne2 snrDb hr (z ω) hv
  refine ⟨ys, _, h1, h2, ?_⟩
  rw [neg_llrs hbit]
  exact hok

/-- A Gaussian tail at `t` standard deviations of the BPSK noise. -/
theorem q_snr {t S : ℝ} (ht : 0 ≤ t) (hS : 0 ≤ S) : qFunction (t * Real.sqrt (2 * S)) ≤ Real.exp (-(t ^ 2 * S)) / 2 := by
  have h := q_half (x := t * Real.sqrt (2 * S)) (by positivity)
  rw [mul_pow, Real.sq_sqrt (by positivity)] at h
  convert h using 4
  ring

theorem exp_bound {N K S a b c : ℝ} (hN : 0 ≤ N) (hK : 0 ≤ K) (hS : 0 ≤ S) (hab : c ≤ a) (hbc : c ≤ 2 * b) {q1 q2 : ℝ} (h1 : q1 ≤ Real.exp (-(a * S)) / 2)
    (h2 : q2 ≤ Real.exp (-(b * S)) / 2) (h0 : 0 ≤ q2) : N * q1 + K * q2 ^ 2 ≤ (N / 2 + K / 4) * Real.exp (-(c * S)) := by
  have e1 : Real.exp (-(a * S)) ≤ Real.exp (-(c * S)) := Real.exp_le_exp.2 (by nlinarith)
  have e2 : Real.exp (-(b * S)) ^ 2 ≤ Real.exp (-(c * S)) := by
    rw [← Real.exp_nat_mul]
    refine Real.exp_le_exp.2 ?_
    push_cast
    nlinarith
  have e3 : q2 ^ 2 ≤ Real.exp (-(c * S)) / 4 := by
    have := pow_le_pow_left₀ h0 h2 2
    rw [div_pow] at this
    linarith
  nlinarith [mul_le_mul_of_nonneg_left (h1.trans (by linarith : _ ≤ Real.exp (-(c * S)) / 2)) hN, mul_le_mul_of_nonneg_left e3 hK]

/-- C136, designs/ldpc/gallager/96.33.964.txt: the words of this code over BPSK and `awgn`. -/
theorem C136_gallager964 : ∃ q, getLdpc gallager964Text = .ok q ∧ buildParity q = .ok (rowsOf 96 gallager964Checks) ∧
    ∀ (words : List (List Int)), words ≠ [] → (∀ c ∈ words, c.length = 96 ∧ (∀ x ∈ c, x = 0 ∨ x = 1) ∧ Syndrome0 (rowsOf 96 gallager964Checks) c) →
      ∀ (snrDb rate v : ℝ) (n : Nat), 0 < rate → 0 < v → 1 ≤ n →
        ∃ m x, pskModem 2 = .ok m ∧ modulate m (bitsOf words.flatten) = .ok x ∧
          ∀ {Ω : Type*} [MeasurableSpace Ω] {P : Measure Ω} {z : Ω → ℕ → ℝ}, NormalDraws P z → iIndepFun (fun i ω => z ω i) P →
            P {ω | ¬ DecodedBpsk (ldpcBpDecode nanSign oneLeft q .msa n) m x snrDb rate v (z ω) words} ≤
              ENNReal.ofReal (words.length * (1188 * Real.exp (-(1.62 * (rate * (10 : ℝ) ^ (snrDb / 10)))))) := by
  obtain ⟨q, h1, h2, h3, h4⟩ := gallager964_params
  refine ⟨q, h1, h4, ?_⟩
  intro words hne hw snrDb rate v n hr hv hn
  have hcs : ∀ c ∈ words, c.length = 96 ∧ ChecksHold gallager964Checks (fun v => c.getD v 0 = 1) ∧ ∀ x ∈ c, x = 0 ∨ x = 1 :=
    fun c hc => ⟨(hw c hc).1, word_checks gallager964_sorted (hw c hc).1 (hw c hc).2.1 (hw c hc).2.2, (hw c hc).2.1⟩
  have hdec : ldpcBpDecode nanSign oneLeft q .msa n = bpDecode nanSign oneLeft .msa gallager964Checks 96 n := funext fun llrs =>
    ldpcBpDecode_checks nanSign oneLeft q (nv := 96) (m := 48) (by exact_mod_cast h2) (by exact_mod_cast h3) (by norm_num) (by norm_num) h4
      gallager964_sorted gallager964_det .msa n llrs
  have hdeg : ∀ ns ∈ gallager964Checks, ns.length ≠ 1 := fun ns hns h => by have := gallager964_rows ns hns; omega
  have c2 : (Nat.choose 96 (1 + 1)) = 4560 := by decide +kernel
  obtain ⟨m, x, g1, g2, g3⟩ := C136_chain nanSign oneLeft gallager964Checks 96 n 3 1 (by norm_num) (sorted_good gallager964_sorted) hdeg gallager964_girth gallager964_deg
    words hne hcs hn (α := 0.1) (β := 0.28) (by norm_num) (by norm_num) (by norm_num) snrDb hr hv
  refine ⟨m, x, g1, g2, ?_⟩
  intro Ω _ P z hz hind
  rw [hdec]
  refine (g3 hz hind).trans (ENNReal.ofReal_le_ofReal ?_)
  refine mul_le_mul_of_nonneg_left ?_ (Nat.cast_nonneg _)
  have hS : 0 ≤ rate * (10 : ℝ) ^ (snrDb / 10) := by positivity
  rw [c2, mul_assoc 2 rate]
  have := exp_bound (N := (96 : ℕ)) (K := (4560 : ℕ)) (c := 1.62) (a := (1 + 0.28) ^ 2) (b := (1 - 0.1) ^ 2) (by positivity) (by positivity) hS (by norm_num) (by norm_num)
    (q_snr (t := 1 + 0.28) (by norm_num) hS) (q_snr (t := 1 - 0.1) (by norm_num) hS) measureReal_nonneg
  refine this.trans (le_of_eq ?_)
  norm_num

/-- C136, designs/ldpc/wimax/1440.720.txt, with its encoder: every message over BPSK and `awgn`. -/
theorem C136_wimax1440 : ∃ txt q, writeLdpc 1440 (rowsNat 1440 wimax1440Checks) = .ok txt ∧ getLdpc txt = .ok q ∧
    ∀ (msg : List Int), (∀ x ∈ msg, x = 0 ∨ x = 1) → msg ≠ [] → ∀ pad : Bool, (pad = true ∨ 720 ∣ msg.length) →
      ∃ words z, ldpcEncode q msg pad = .ok words ∧ z < 720 ∧ (words.map (List.take 720)).flatten = msg ++ List.replicate z 0 ∧ (∀ c ∈ words, c.length = 1440) ∧
      ∀ (snrDb rate v : ℝ) (n : Nat), 0 < rate → 0 < v → 1 ≤ n →
        ∃ m x, pskModem 2 = .ok m ∧ modulate m (bitsOf words.flatten) = .ok x ∧
          ∀ {Ω : Type*} [MeasurableSpace Ω] {P : Measure Ω} {z : Ω → ℕ → ℝ}, NormalDraws P z → iIndepFun (fun i ω => z ω i) P →
            P {ω | ¬ DecodedBpsk (ldpcBpDecode nanSign oneLeft q .msa n) m x snrDb rate v (z ω) words} ≤
              ENNReal.ofReal (words.length * (259740 * Real.exp (-(1.54 * (rate * (10 : ℝ) ^ (snrDb / 10)))))) := by
  have hl := wimax1440_length
  obtain ⟨txt, q, h1, h2, h3, h4, h5⟩ := params_of_checks wimax1440_sorted (by intro h0; rw [h0] at hl; cases hl)
    (fun ns hns h0 => by have := wimax1440_rows ns hns; rw [h0] at this; simp at this) (fun v hv => (by norm_num : 1 ≤ 2).trans (wimax1440_deg v hv))
  refine ⟨txt, q, h1, h2, ?_⟩
  intro msg hmsg hne pad hpad
  have e1 : q.nv.toNat = 1440 := by rw [h3]; rfl
  have e2 : q.nc.toNat = 720 := by rw [h4, hl]; rfl
  obtain ⟨ms, z, words, he, hmz, hz, hF⟩ := C56_unimodular q _ h5 (by omega) (by omega) (by rw [e1, e2]; exact wimax1440_det) msg hmsg pad
    (by rw [e1, e2]; exact hpad)
  rw [e1, e2] at hz hF
  have hword : ∀ c ∈ words, ∃ m, m.length = 720 ∧ SystematicCodeword (rowsOf 1440 wimax1440Checks) 1440 m c := by
    intro c hc
    obtain ⟨i, hi, rfl⟩ := List.getElem_of_mem hc
    obtain ⟨e, h⟩ := List.forall₂_iff_get.1 hF
    exact ⟨_, h i (by omega) hi⟩
  have hcs : ∀ c ∈ words, c.length = 1440 ∧ ChecksHold wimax1440Checks (fun v => c.getD v 0 = 1) ∧ ∀ x ∈ c, x = 0 ∨ x = 1 := by
    intro c hc
    obtain ⟨m, -, w1, w2, -, w4⟩ := hword c hc
    exact ⟨w1, word_checks wimax1440_sorted w1 w2 w4, w2⟩
  have hne' : words ≠ [] := by
    rintro rfl
    cases hF
    simp at hmz
    exact hne hmz.1
  refine ⟨words, z, he, hz, ?_, fun c hc => (hcs c hc).1, ?_⟩
  · rw [← hmz, takes_eq hF]
  intro snrDb rate v n hr hv hn
  have hdet0 : (tailMatrix (rowsOf 1440 wimax1440Checks) 720 1440).det ≠ 0 := by
    rcases wimax1440_det with h | h <;> rw [h] <;> norm_num
  have hdec : ldpcBpDecode nanSign oneLeft q .msa n = bpDecode nanSign oneLeft .msa wimax1440Checks 1440 n := funext fun llrs =>
    ldpcBpDecode_checks nanSign oneLeft q (nv := 1440) (m := 720) (by exact_mod_cast h3) (by rw [h4, hl]) (by norm_num) (by norm_num) h5
      wimax1440_sorted hdet0 .msa n llrs
  have hdeg : ∀ ns ∈ wimax1440Checks, ns.length ≠ 1 := fun ns hns h => by have := wimax1440_rows ns hns; omega
  have c2 : (Nat.choose 1440 (1 + 1)) = 1036080 := by rw [Nat.choose_eq_descFactorial_div_factorial]; decide +kernel
  obtain ⟨m, x, g1, g2, g3⟩ := C136_chain nanSign oneLeft wimax1440Checks 1440 n 2 1 (by norm_num) (sorted_good wimax1440_sorted) hdeg wimax1440_girth wimax1440_deg
    words hne' hcs hn (α := 0.122) (β := 0.243) (by norm_num) (by norm_num) (by norm_num) snrDb hr hv
  refine ⟨m, x, g1, g2, ?_⟩
  intro Ω _ P z hz hind
  rw [hdec]
  refine (g3 hz hind).trans (ENNReal.ofReal_le_ofReal ?_)
  refine mul_le_mul_of_nonneg_left ?_ (Nat.cast_nonneg _)
  have hS : 0 ≤ rate * (10 : ℝ) ^ (snrDb / 10) := by positivity
  rw [c2, mul_assoc 2 rate]
  have := exp_bound (N := (1440 : ℕ)) (K := (1036080 : ℕ)) (c := 1.54) (a := (1 + 0.243) ^ 2) (b := (1 - 0.122) ^ 2) (by positivity) (by positivity) hS (by norm_num) (by norm_num)
    (q_snr (t := 1 + 0.243) (by norm_num) hS) (q_snr (t := 1 - 0.122) (by norm_num) hS) measureReal_nonneg
  refine this.trans (le_of_eq ?_)
  norm_num

end Verif
