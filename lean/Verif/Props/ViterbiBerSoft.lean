import Verif.Props.ViterbiBer
/-
C127: soft decisions.  The padding of the soft decoder is an erasure, so that the error events end with the received sequence at the latest.
-/
namespace Verif
open MeasureTheory ProbabilityTheory Finset

theorem leaves_take {t : Trellis} {ℓ m : Nat} {v : List Nat} (h : Leaves t ℓ v) (hm0 : 0 < m) (hm : m ≤ ℓ) : Leaves t m (v.take m) := by
  obtain ⟨⟨h1, h2⟩, h3, h4⟩ := h
  refine ⟨⟨by rw [List.length_take]; omega, fun u hu => h2 u (List.mem_of_mem_take hu)⟩, ?_, ?_⟩
  · cases v with
    | nil => simp at h3
    | cons u v =>
      obtain ⟨j, rfl⟩ : ∃ j, m = j + 1 := ⟨m - 1, by omega⟩
      simpa using h3
  · intro j hj0 hj
    rw [List.take_take, min_eq_left (by omega)]
    exact h4 j hj0 (by omega)

theorem runOut_take_event (t : Trellis) (v : List Nat) (m : Nat) (hm : m ≤ v.length) : t.runOut 0 (v.take m) = (t.runOut 0 v).take (m * t.n) := by
  have e : t.runOut 0 v = t.runOut 0 (v.take m) ++ t.runOut (t.runState 0 (v.take m)) (v.drop m) := by
    rw [← Trellis.runOut_append, List.take_append_drop]
  have hl : (t.runOut 0 (v.take m)).length = m * t.n := by rw [Trellis.runOut_length, List.length_take, min_eq_left hm]
  conv_rhs => rw [e]
  rw [List.take_append_of_le_length (by rw [hl]), List.take_of_length_le (l := t.runOut 0 (v.take m)) (by rw [hl])]

theorem eventPlaces_take (t : Trellis) (a : Nat) (v : List Nat) (m : Nat) (hm : m ≤ v.length) :
    eventPlaces t a (v.take m) = (eventPlaces t a v).filter (fun p => p < (a + m) * t.n) := by
  unfold eventPlaces
  rw [runOut_take_event t v m hm]
  ext p
  simp only [mem_image, mem_filter, mem_range, List.length_take]
  have hl : (t.runOut 0 v).length = v.length * t.n := Trellis.runOut_length _ _ _
  have hmn : m * t.n ≤ v.length * t.n := Nat.mul_le_mul_right _ hm
  constructor
  · rintro ⟨j, ⟨h1, h2⟩, rfl⟩
    rw [hl, min_eq_left hmn] at h1
    rw [List.getD_eq_getElem?_getD, List.getElem?_take_of_lt h1, ← List.getD_eq_getElem?_getD] at h2
    exact ⟨⟨j, ⟨by omega, h2⟩, rfl⟩, by rw [Nat.add_mul]; omega⟩
  · rintro ⟨⟨j, ⟨h1, h2⟩, rfl⟩, h3⟩
    rw [Nat.add_mul] at h3
    have hj : j < m * t.n := by omega
    refine ⟨j, ⟨by omega, ?_⟩, rfl⟩
    rw [List.getD_eq_getElem?_getD, List.getElem?_take_of_lt hj, ← List.getD_eq_getElem?_getD]
    exact h2

/-- If the losses beyond the first `N` steps vanish, the events can be cut there. -/
theorem ShowsEvents.cut {t : Trellis} {T tb N : Nat} {w : List Nat} {dg : Nat → Nat} {L : Nat → ℝ} {c : ℝ} (h : ShowsEvents t T tb N w dg L c) (hNT : N ≤ T) (hL : ∀ p, N * t.n ≤ p → L p = 0) :
    ShowsEvents t N tb N w dg L c := by
  intro i hi hne
  obtain ⟨a, b, v, h1, h2, h3, h4, h5, h6, h7, h8⟩ := h i hi hne
  by_cases hb : b ≤ N
  · refine ⟨a, b, v, h1, h2, hb, h4, h5, ?_, h7, h8⟩
    rcases h6 with h | h | h
    · exact Or.inl h
    · exact Or.inr (Or.inl h)
    · right; right; omega
  · have hlen := h4.input.1
    have hm : N - a ≤ v.length := by omega
    have hpl := eventPlaces_take t a v (N - a) hm
    have e : a + (N - a) = N := by omega
    rw [e] at hpl
    refine ⟨a, N, v.take (N - a), h1, hi, le_refl _, leaves_take h4 (by omega) (by omega), ?_, Or.inr (Or.inr rfl), ?_, ?_⟩
    · rw [List.getD_eq_getElem?_getD, List.getElem?_take_of_lt (by omega), ← List.getD_eq_getElem?_getD]
      exact h5
    · intro p hp
      rw [hpl, mem_filter] at hp
      exact hp.2
    · rw [hpl, sum_filter]
      refine h8.trans (le_of_eq (sum_congr rfl fun p _ => ?_))
      split
      · rfl
      · rename_i hp
        exact hL p (by omega)

variable {Ω : Type*} [MeasurableSpace Ω] {μ : Measure Ω}

theorem softValues_length (c : List Nat) (keep : Nat → Bool) (lam σ : ℝ) (y : ℕ → ℝ) : (softValues c keep lam σ y).length = c.length := by simp [softValues]

theorem soft_loss {t : Trellis} {c : List Nat} (hc : ∀ x ∈ c, x < 2) {d : List Nat} (hd : ∀ x ∈ d, x < 2) {l : List ℝ} (hl : l.length = c.length) (p : Nat) :
    metricLoss softCost 0 (paddedRx t 0 (l.map clip500)) (c ++ d) p =
      if p < c.length then -((2 * (c.getD p 0 : ℝ) - 1) * clip500 (l.getD p 0)) else 0 := by
  unfold metricLoss paddedRx
  rw [getD_pad]
  have z1 : negLL1 0 = negLL0 0 := by simp [negLL1]
  by_cases hp : p < c.length
  · rw [if_pos hp, List.getD_append _ _ _ _ hp]
    have e : (l.map clip500).getD p 0 = clip500 (l.getD p 0) := by
      rw [List.getD_eq_getElem _ _ (by simpa [hl] using hp), List.getElem_map, List.getD_eq_getElem _ _ (by omega)]
    rw [e]
    have hb : c.getD p 0 < 2 := hc _ (by rw [List.getD_eq_getElem _ _ hp]; exact List.getElem_mem _)
    have : c.getD p 0 = 0 ∨ c.getD p 0 = 1 := by omega
    rcases this with h | h <;> rw [h] <;> simp [softCost, negLL1] <;> ring
  · rw [if_neg hp]
    have e : (l.map clip500).getD p 0 = 0 := by
      rw [List.getD_eq_getElem?_getD, List.getElem?_eq_none (by rw [List.length_map]; omega)]; rfl
    have hb : (c ++ d).getD p 0 < 2 := by
      by_cases hp2 : p < (c ++ d).length
      · rw [List.getD_eq_getElem _ _ hp2]
        rcases List.mem_append.1 (List.getElem_mem hp2) with h | h
        · exact hc _ h
        · exact hd _ h
      · rw [List.getD_eq_getElem?_getD, List.getElem?_eq_none (by omega)]; norm_num
    have : (c ++ d).getD p 0 = 0 ∨ (c ++ d).getD p 0 = 1 := by omega
    rw [e]
    rcases this with h | h <;> rw [h] <;> simp [softCost, z1]

theorem pairwise_chernoff_slack (c : ℝ) {loss : Ω → Nat → ℝ} (keep : Nat → Bool) (h0 : ∀ ω p, keep p = false → loss ω p = 0) {B : Nat}
    (hind : iIndepFun (fun (p : {p // p < B ∧ keep p = true}) ω => loss ω p) μ) (hm : ∀ p < B, keep p = true → AEMeasurable (fun ω => loss ω p) μ) {s x : ℝ} (hs : 0 ≤ s)
    (hpos : ∀ p < B, keep p = true → 0 < mgf (fun ω => loss ω p) μ s) (hle : ∀ p < B, keep p = true → mgf (fun ω => loss ω p) μ s ≤ x) :
    PairwiseSetBound μ loss (fun D => Real.exp (-s * c) * x ^ (D.filter fun p => keep p = true).card) B c := by
  intro D _ hD
  have := hind.isProbabilityMeasure
  set D' : Finset {p // p < B ∧ keep p = true} := D.subtype (fun p => p < B ∧ keep p = true) with hD'
  have hmem : ∀ i ∈ D', (i : ℕ) < B := fun i hi => hD _ (mem_subtype.1 hi)
  have hfilt : (D.filter fun p => p < B ∧ keep p = true) = D.filter fun p => keep p = true := filter_congr fun p hp => ⟨fun h => h.2, fun h => ⟨hD p hp, h⟩⟩
  have hsum := hind.mgf_sum₀ (t := s) (fun i => hm i i.2.1 i.2.2) D'
  have hp : 0 < mgf (∑ i ∈ D', fun ω => loss ω i) μ s := by rw [hsum]; exact prod_pos fun i hi => hpos i (hmem i hi) i.2.2
  have h1 := measure_ge_le_exp_mul_mgf (μ := μ) (X := ∑ i ∈ D', fun ω => loss ω i) c hs (mgf_pos_iff.1 hp)
  rw [hsum] at h1
  have h2 : ∏ i ∈ D', mgf (fun ω => loss ω i) μ s ≤ ∏ _i ∈ D', x := prod_le_prod (fun i hi => (hpos i (hmem i hi) i.2.2).le) (fun i hi => hle i (hmem i hi) i.2.2)
  rw [prod_const, hD', card_subtype, hfilt] at h2
  refine le_trans (le_of_eq ?_) (h1.trans (mul_le_mul_of_nonneg_left h2 (Real.exp_pos _).le))
  congr 1
  ext ω
  have e : ∑ p ∈ D, loss ω p = ∑ i ∈ D', loss ω i := by
    rw [hD', sum_subtype_eq_sum_filter, hfilt, sum_filter]
    refine sum_congr rfl fun p _ => ?_
    by_cases hk : keep p = true
    · rw [if_pos hk]
    · rw [if_neg hk, h0 ω p (by simpa using hk)]
  simp only [Set.mem_setOf_eq, Finset.sum_apply, e]

theorem clip500_odd (x : ℝ) : clip500 (-x) = -clip500 x := by
  unfold clip500
  rcases le_total x (-500) with h | h
  · rw [max_eq_right h, max_eq_left (by linarith), min_eq_right (by linarith), min_eq_left (by norm_num)]; norm_num
  · rw [max_eq_left h]
    rcases le_total x 500 with h' | h'
    · rw [min_eq_left h', max_eq_left (by linarith), min_eq_left (by linarith)]
    · rw [min_eq_right h', max_eq_right (by linarith), min_eq_left (by norm_num)]

theorem exp_clip_le {s : ℝ} (hs : 0 ≤ s) (x : ℝ) : Real.exp (-(s * clip500 x)) ≤ Real.exp (-(s * x)) + Real.exp (-(s * 500)) := by
  unfold clip500
  rcases le_total x 500 with h | h
  · have : x ≤ min (max x (-500)) 500 := le_min (le_max_left _ _) h
    have := mul_le_mul_of_nonneg_left this hs
    have : Real.exp (-(s * min (max x (-500)) 500)) ≤ Real.exp (-(s * x)) := Real.exp_le_exp.2 (by linarith)
    have := Real.exp_pos (-(s * 500))
    linarith
  · have : min (max x (-500)) 500 = 500 := min_eq_right (le_trans h (le_max_left _ _))
    rw [this]
    have := Real.exp_pos (-(s * x))
    linarith

theorem clip500_measurable : Measurable clip500 := (measurable_id.max measurable_const).min measurable_const

/-- Soft decisions: scaled samples of Gaussian noise, cut at 500 by the decoder; probability that the losses add up to `c₀` at least. -/
theorem pairwise_soft_slack (c₀ : ℝ) {t : Trellis} {keep : Nat → Bool} {y : Ω → ℕ → ℝ} {c : List Nat} (hy : ∀ p < c.length, keep p = true → HasLaw (fun ω => y ω p) (gaussianReal 0 1) μ)
    (hind : iIndepFun (fun (p : {p // p < c.length ∧ keep p = true}) ω => y ω p) μ) {σ lam : ℝ} (hσ : σ ≠ 0) (hlam : 0 < lam)
    (hc : ∀ x ∈ c, x < 2) {d : List Nat} (hd : ∀ x ∈ d, x < 2) :
    PairwiseSetBound μ (fun ω => metricLoss softCost 0 (paddedRx t 0 ((softValues c keep lam σ (y ω)).map clip500)) (c ++ d))
      (fun D => Real.exp (-(1 / (lam * σ ^ 2)) * c₀) * (Real.exp (-1 / (2 * σ ^ 2)) + Real.exp (-500 / (lam * σ ^ 2))) ^ (D.filter fun p => keep p = true).card) c.length c₀ := by
  have := hind.isProbabilityMeasure
  set s := 1 / (lam * σ ^ 2) with hs
  have hσ2 : 0 < σ ^ 2 := by positivity
  have hs0 : 0 < s := by positivity
  set f : ℕ → ℝ → ℝ := fun p x => if p < c.length then -clip500 (lam * (1 + (2 * (c.getD p 0 : ℝ) - 1) * σ * x)) else 0 with hf
  have hfm : ∀ p, Measurable (f p) := by
    intro p
    by_cases hp : p < c.length
    · simp only [hf, hp, if_true]
      exact (clip500_measurable.comp (by fun_prop)).neg
    · simp only [hf, hp, if_false]
      exact measurable_const
  have hclip0 : clip500 0 = 0 := by unfold clip500; norm_num
  have hloss : ∀ ω p, metricLoss softCost 0 (paddedRx t 0 ((softValues c keep lam σ (y ω)).map clip500)) (c ++ d) p = if keep p = true then f p (y ω p) else 0 := by
    intro ω p
    rw [soft_loss hc hd (softValues_length _ _ _ _ _)]
    by_cases hp : p < c.length
    · have e : (softValues c keep lam σ (y ω)).getD p 0 = if keep p then lam * (2 * (c.getD p 0 : ℝ) - 1 + σ * y ω p) else 0 := by
        rw [List.getD_eq_getElem _ _ (by simpa [softValues] using hp)]
        unfold softValues
        rw [List.getElem_map, List.getElem_range]
      rw [e, if_pos hp]
      by_cases hk : keep p = true
      · rw [if_pos hk, if_pos hk]
        simp only [hf, hp, if_true]
        have hb : c.getD p 0 < 2 := hc _ (by rw [List.getD_eq_getElem _ _ hp]; exact List.getElem_mem _)
        have : c.getD p 0 = 0 ∨ c.getD p 0 = 1 := by omega
        rcases this with h | h
        · rw [h]
          push_cast
          have e2 : lam * (2 * 0 - 1 + σ * y ω p) = -(lam * (1 + (2 * 0 - 1) * σ * y ω p)) := by ring
          rw [e2, clip500_odd]; ring
        · rw [h]
          push_cast
          have e2 : lam * (2 * 1 - 1 + σ * y ω p) = (lam * (1 + (2 * 1 - 1) * σ * y ω p)) := by ring
          rw [e2]; ring
      · rw [if_neg hk, if_neg hk, hclip0, mul_zero, neg_zero]
    · rw [if_neg hp]
      simp only [hf, hp, if_false, ite_self]
  have hint : ∀ p < c.length, keep p = true → Integrable (fun ω => Real.exp (s * f p (y ω p))) μ := by
    intro p hp hk
    refine Integrable.mono' (integrable_const (Real.exp (s * 500))) ?_ (Filter.Eventually.of_forall fun ω => ?_)
    · exact (Real.measurable_exp.comp ((hfm p).const_mul s)).comp_aemeasurable (hy p hp hk).aemeasurable |>.aestronglyMeasurable
    · rw [Real.norm_eq_abs, abs_of_pos (Real.exp_pos _), Real.exp_le_exp]
      refine mul_le_mul_of_nonneg_left ?_ hs0.le
      simp only [hf]
      split
      · unfold clip500
        have : -500 ≤ min (max (lam * (1 + (2 * (c.getD p 0 : ℝ) - 1) * σ * y ω p)) (-500)) 500 := le_min (le_max_right _ _) (by norm_num)
        linarith
      · contradiction
  have hgauss : ∀ a : ℝ, ∀ p < c.length, keep p = true → mgf (fun ω => y ω p) μ a = Real.exp (a ^ 2 / 2) := by
    intro a p hp hk
    have := (hy p hp hk)
    rw [mgf_gaussianReal this.map_eq]; simp
  have key : ∀ p < c.length, keep p = true → mgf (fun ω => f p (y ω p)) μ s ≤ Real.exp (-1 / (2 * σ ^ 2)) + Real.exp (-500 / (lam * σ ^ 2)) := by
    intro p hp hk
    set g := (2 * (c.getD p 0 : ℝ) - 1) with hg
    have hg2 : g ^ 2 = 1 := by
      have hb : c.getD p 0 < 2 := hc _ (by rw [List.getD_eq_getElem _ _ hp]; exact List.getElem_mem _)
      have : c.getD p 0 = 0 ∨ c.getD p 0 = 1 := by omega
      rcases this with h | h <;> rw [hg, h] <;> norm_num
    have hi1 : Integrable (fun ω => Real.exp (-(s * lam * g * σ) * y ω p)) μ := by
      rw [← mgf_pos_iff, hgauss _ _ hp hk]; exact Real.exp_pos _
    have e1 : ∀ ω, Real.exp (-(s * (lam * (1 + g * σ * y ω p)))) = Real.exp (-(s * lam)) * Real.exp (-(s * lam * g * σ) * y ω p) := by
      intro ω; rw [← Real.exp_add]; congr 1; ring
    unfold mgf
    calc ∫ ω, Real.exp (s * f p (y ω p)) ∂μ ≤ ∫ ω, (Real.exp (-(s * lam)) * Real.exp (-(s * lam * g * σ) * y ω p) + Real.exp (-(s * 500))) ∂μ := by
          refine integral_mono (hint p hp hk) ((hi1.const_mul _).add (integrable_const _)) fun ω => ?_
          dsimp only
          rw [← e1]
          have := exp_clip_le hs0.le (lam * (1 + g * σ * y ω p))
          refine le_trans (le_of_eq ?_) this
          congr 1
          simp only [hf, hp, if_true]
          ring
      _ = Real.exp (-(s * lam)) * Real.exp ((-(s * lam * g * σ)) ^ 2 / 2) + Real.exp (-(s * 500)) := by
          rw [integral_add (hi1.const_mul _) (integrable_const _), integral_const_mul, integral_const]
          have := hgauss (-(s * lam * g * σ)) p hp hk
          unfold mgf at this
          rw [this]; simp
      _ = _ := by
          rw [← Real.exp_add]
          have e2 : -(s * lam) + (-(s * lam * g * σ)) ^ 2 / 2 = -1 / (2 * σ ^ 2) := by
            have : (-(s * lam * g * σ)) ^ 2 = (s * lam) ^ 2 * σ ^ 2 * g ^ 2 := by ring
            rw [this, hg2, hs]
            field_simp
            ring
          have e3 : -(s * 500) = -500 / (lam * σ ^ 2) := by rw [hs]; ring
          rw [e2, e3]
  have hk' : ∀ p, keep p = true → (fun ω => metricLoss softCost 0 (paddedRx t 0 ((softValues c keep lam σ (y ω)).map clip500)) (c ++ d) p) = fun ω => f p (y ω p) := by
    intro p hk
    funext ω
    rw [hloss, if_pos hk]
  refine pairwise_chernoff_slack c₀ keep (fun ω p hk => by rw [hloss, if_neg (by simp [hk])]) ?_ ?_ hs0.le ?_ ?_
  · have e : (fun (p : {p // p < c.length ∧ keep p = true}) ω => metricLoss softCost 0 (paddedRx t 0 ((softValues c keep lam σ (y ω)).map clip500)) (c ++ d) p) =
        fun (p : {p // p < c.length ∧ keep p = true}) ω => f p (y ω p) := by
      funext p; exact hk' p p.2.2
    rw [e]
    exact hind.comp (fun p => f p) (fun p => hfm p)
  · intro p hp hk
    rw [hk' p hk]
    exact (hfm p).comp_aemeasurable (hy p hp hk).aemeasurable
  · intro p hp hk
    rw [hk' p hk]
    exact mgf_pos_iff.2 (hint p hp hk)
  · intro p hp hk
    rw [hk' p hk]
    exact key p hp hk

/-- Soft decisions: scaled samples of Gaussian noise, cut at 500 by the decoder. -/
theorem pairwise_soft {t : Trellis} {keep : Nat → Bool} {y : Ω → ℕ → ℝ} {c : List Nat} (hy : ∀ p < c.length, keep p = true → HasLaw (fun ω => y ω p) (gaussianReal 0 1) μ)
    (hind : iIndepFun (fun (p : {p // p < c.length ∧ keep p = true}) ω => y ω p) μ) {σ lam : ℝ} (hσ : σ ≠ 0) (hlam : 0 < lam)
    (hc : ∀ x ∈ c, x < 2) {d : List Nat} (hd : ∀ x ∈ d, x < 2) :
    PairwiseSetBound μ (fun ω => metricLoss softCost 0 (paddedRx t 0 ((softValues c keep lam σ (y ω)).map clip500)) (c ++ d))
      (fun D => (Real.exp (-1 / (2 * σ ^ 2)) + Real.exp (-500 / (lam * σ ^ 2))) ^ (D.filter fun p => keep p = true).card) c.length := by
  have := pairwise_soft_slack (t := t) 0 hy hind hσ hlam hc hd
  simpa using this

theorem eventPlaces_kept (t : Trellis) (keep : Nat → Bool) (a : Nat) (v : List Nat) :
    ((eventPlaces t a v).filter fun p => keep p = true).card = keptWeight t keep a v := by
  unfold eventPlaces keptWeight
  rw [filter_image, card_image_of_injective _ (add_right_injective _), filter_filter]

/-- C127, general.  Soft values of any code sequence (terminated or not), some places of which may not have been transmitted, decoded with any traceback depth: union bounds with
`x = exp(-1/(2σ²)) + exp(-500/(lam σ²))` in place of the pairwise error probability of one place (the second term is the price of the cut at 500), over the error events within the received
sequence. -/
theorem C127_general {t : Trellis} (h : t.Balanced) (hl : t.Linear) (hne : ∀ u < 2 ^ t.k, u ≠ 0 → t.out 0 u ≠ 0) {N : Nat} {w : List Nat} (hw : IsInput t N w)
    {tb : Nat} (htb : 2 ≤ tb) (htb2 : tb ≤ N + t.M / t.k) (hB : t.k = 1 ∨ (t.M / t.k - 1) * t.k ≤ tb)
    {keep : Nat → Bool} {y : Ω → ℕ → ℝ} (hy : ∀ p < N * t.n, keep p = true → HasLaw (fun ω => y ω p) (gaussianReal 0 1) μ)
    (hind : iIndepFun (fun (p : {p // p < N * t.n ∧ keep p = true}) ω => y ω p) μ) {σ lam : ℝ} (hσ : σ ≠ 0) (hlam : 0 < lam) (jk : VitJunk ℝ) :
    (∀ K, K ≤ N →
      μ.real {ω | ¬ ∃ dec coded', viterbiDecode "soft" t jk (N * t.k) tb (softValues (t.runOut 0 w) keep lam σ (y ω)) = .ok (dec, coded') ∧ dec.length = N * t.k ∧
        dec.take (K * t.k) = (w.take K).flatMap (toBits t.k)} ≤
          puncturedUnionBound t keep (fun d => (Real.exp (-1 / (2 * σ ^ 2)) + Real.exp (-500 / (lam * σ ^ 2))) ^ d) N tb K) ∧
    (∀ j < N * t.k,
      μ.real {ω | ¬ ∃ dec coded', viterbiDecode "soft" t jk (N * t.k) tb (softValues (t.runOut 0 w) keep lam σ (y ω)) = .ok (dec, coded') ∧ dec.length = N * t.k ∧
        dec.getD j 0 = (w.flatMap (toBits t.k)).getD j 0} ≤
          puncturedBitBound t keep (fun d => (Real.exp (-1 / (2 * σ ^ 2)) + Real.exp (-500 / (lam * σ ^ 2))) ^ d) N tb (j / t.k) (j % t.k)) := by
  have := hind.isProbabilityMeasure
  have hkp := h.wf.k_pos
  have hq1 := h.one_le
  have hcl : (t.runOut 0 w).length = N * t.n := by rw [Trellis.runOut_length, hw.1]
  have hcb : ∀ x ∈ t.runOut 0 w, x < 2 := t.runOut_lt_two 0 w
  set llr : Ω → List ℝ := fun ω => softValues (t.runOut 0 w) keep lam σ (y ω) with hllr
  have hllen : ∀ ω, (llr ω).length = (t.runOut 0 w).length := fun ω => softValues_length _ _ _ _ _
  set d := t.runOut (t.runState 0 w) (List.replicate (t.M / t.k - 1) 0) with hd
  have hdb : ∀ x ∈ d, x < 2 := t.runOut_lt_two _ _
  have happ : t.runOut 0 (w ++ List.replicate (t.M / t.k - 1) 0) = t.runOut 0 w ++ d := Trellis.runOut_append _ _ _ _
  set L : Ω → ℕ → ℝ := fun ω => metricLoss softCost 0 (paddedRx t 0 ((llr ω).map clip500)) (t.runOut 0 w ++ d) with hL
  have hres : ∀ ω, ∃ (dg : Nat → Nat) (coded' : List ℝ), viterbiDecode "soft" t jk (N * t.k) tb (llr ω) = .ok ((List.range N).flatMap fun i => toBits t.k (dg i), coded') ∧
      ShowsEvents t N tb N w dg (L ω) := by
    intro ω
    obtain ⟨dg, coded', hv, H⟩ := viterbi_error_loss h hl soft_sample (AddMonoidHom.id ℝ) monotone_id (pad := (0 : ℝ)) trivial false jk (coded := (llr ω).map clip500)
      (by rw [List.length_map, hllen, hcl]) (fun _ _ => trivial) htb htb2 hB hw
    rw [happ] at H
    refine ⟨dg, llr ω, ?_, ?_⟩
    · unfold viterbiDecode
      have e : branchMetric "soft" = softMetric := by funext r c; simp [branchMetric]
      have e2 : padValue "soft" = some 0 := by simp [padValue]
      rw [if_pos (by decide), e, e2, hv]
      rfl
    · refine ShowsEvents.cut (T := N + t.M / t.k - 1) H (by omega) ?_
      intro p hp
      have := soft_loss (t := t) hcb hdb (hllen ω) p
      rw [if_neg (by rw [hcl]; omega)] at this
      exact this
  have hpair : PairwiseSetBound μ L (fun D => (Real.exp (-1 / (2 * σ ^ 2)) + Real.exp (-500 / (lam * σ ^ 2))) ^ (D.filter fun p => keep p = true).card) (N * t.n) := by
    have := pairwise_soft (t := t) (c := t.runOut 0 w) (d := d) (by rw [hcl]; exact hy) (by rw [hcl]; exact hind) hσ hlam hcb hdb
    rw [hcl] at this
    exact this
  refine ⟨?_, ?_⟩
  · intro K hK
    have := groups_of_sets h hne (le_refl N) hw hres hpair hK
    simp only [eventPlaces_kept] at this
    exact this
  · intro j hj
    have hjm : j / t.k < N := by rwa [Nat.div_lt_iff_lt_mul hkp]
    have hjd : j / t.k * t.k + j % t.k = j := by rw [Nat.mul_comm]; exact Nat.div_add_mod j t.k
    have := bit_of_sets h hne (le_refl N) hw hres hpair (i := j / t.k) (β := j % t.k) hjm (Nat.mod_lt _ hkp)
    simp only [eventPlaces_kept] at this
    rwa [hjd] at this

theorem keptWeight_all (t : Trellis) (a : Nat) (v : List Nat) : keptWeight t (fun _ => true) a v = codeWeight t v := by
  rw [← eventPlaces_kept, filter_true_of_mem (fun _ _ => rfl), eventPlaces_card]

theorem puncturedUnionBound_all (t : Trellis) (q : Nat → ℝ) (T tb K : Nat) : puncturedUnionBound t (fun _ => true) q T tb K = unionBound t q T tb K := by
  unfold puncturedUnionBound unionBound
  simp only [keptWeight_all]

theorem puncturedBitBound_all (t : Trellis) (q : Nat → ℝ) (T tb i β : Nat) : puncturedBitBound t (fun _ => true) q T tb i β = bitBound t q T tb i β := by
  unfold puncturedBitBound bitBound
  simp only [keptWeight_all]

theorem softValues_all (c : List Nat) (lam σ : ℝ) (z : ℕ → ℝ) : softValues c (fun _ => true) lam σ z = (noisyBits c σ z).map (lam * ·) := by
  unfold softValues noisyBits
  rw [List.map_map]
  rfl

/-- C127, soft decisions.  The soft values `lam * (±1 + σ z)` of a message encoded with termination, decoded with any traceback depth: union bounds with
`x = exp(-1/(2σ²)) + exp(-500/(lam σ²))` in place of the pairwise error probability of one place (the second term is the price of the cut at 500), over the error events within the received
sequence. -/
theorem C127_soft {t : Trellis} (h : t.Balanced) (hl : t.Linear) (hne : ∀ u < 2 ^ t.k, u ≠ 0 → t.out 0 u ≠ 0)
    {outLen : Nat → Nat} {msg c : List Nat} (hb : ∀ b ∈ msg, b < 2) (hk : t.k ∣ msg.length) {N : Nat}
    (hN : codedInputLen t msg.length "term" = N * t.k) (hout : outLen (N * t.k) = N * t.n) (henc : convEncodeRun outLen t msg "term" = .ok (0, c))
    {tb : Nat} (htb : 2 ≤ tb) (htb2 : tb ≤ N + t.M / t.k) (hB : t.k = 1 ∨ (t.M / t.k - 1) * t.k ≤ tb)
    {z : Ω → ℕ → ℝ} (hz : NormalDraws μ z) (hind : iIndepFun (fun i ω => z ω i) μ) {σ lam : ℝ} (hσ : σ ≠ 0) (hlam : 0 < lam) (jk : VitJunk ℝ) :
    (∀ K, K * t.k ≤ msg.length →
      μ.real {ω | ¬ ∃ dec coded', viterbiDecode "soft" t jk (N * t.k) tb ((noisyBits c σ (z ω)).map (lam * ·)) = .ok (dec, coded') ∧ dec.length = N * t.k ∧
        dec.take (K * t.k) = msg.take (K * t.k)} ≤ unionBound t (fun d => (Real.exp (-1 / (2 * σ ^ 2)) + Real.exp (-500 / (lam * σ ^ 2))) ^ d) N tb K) ∧
    (∀ j < msg.length,
      μ.real {ω | ¬ ∃ dec coded', viterbiDecode "soft" t jk (N * t.k) tb ((noisyBits c σ (z ω)).map (lam * ·)) = .ok (dec, coded') ∧ dec.length = N * t.k ∧
        dec.getD j 0 = msg.getD j 0} ≤ bitBound t (fun d => (Real.exp (-1 / (2 * σ ^ 2)) + Real.exp (-500 / (lam * σ ^ 2))) ^ d) N tb (j / t.k) (j % t.k)) := by
  have := hind.isProbabilityMeasure
  have hkp := h.wf.k_pos
  have hq1 := h.one_le
  obtain ⟨m, hm⟩ := hk
  obtain ⟨w, hw, hw0, rfl, hwq, hqN⟩ := encoded_path h hb hm hN hout henc
  have hall : iIndepFun (fun (p : {p : ℕ // p < N * t.n ∧ (fun _ => true) p = true}) ω => z ω p) μ := hind.precomp Subtype.val_injective
  obtain ⟨A1, A2⟩ := C127_general h hl hne hw htb htb2 hB (keep := fun _ => true) (fun p _ _ => hz p) hall hσ hlam jk
  simp only [softValues_all, puncturedUnionBound_all, puncturedBitBound_all] at A1 A2
  refine ⟨?_, ?_⟩
  · intro K hK
    have hKq : K ≤ m := by rw [hm, Nat.mul_comm] at hK; exact Nat.le_of_mul_le_mul_left hK hkp
    rw [← take_message hkp hb hm hw.1 hwq hqN hKq]
    exact A1 K (by omega)
  · intro j hj
    have e : msg.getD j 0 = (w.flatMap (toBits t.k)).getD j 0 := by
      have e1 := take_message hkp hb hm hw.1 hwq hqN (le_refl m)
      rw [List.take_of_length_le (l := msg) (by rw [hm, Nat.mul_comm])] at e1
      conv_rhs => rw [← List.take_append_drop m w, List.flatMap_append, e1]
      rw [List.getD_append _ _ _ _ hj]
    rw [e]
    refine A2 j (lt_of_lt_of_le hj ?_)
    rw [hm, Nat.mul_comm]
    exact Nat.mul_le_mul_right _ hqN

end Verif
