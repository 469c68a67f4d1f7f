import Verif.Props.LdpcBec
/-
Concrete cases of the theorems C113_exact and C129.
-/
namespace Verif
open MeasureTheory ProbabilityTheory Finset

variable (nanSign : NanSigns) (oneLeft : Py (List (List Bool × List (Option ℝ))))

instance (H : Checks) (S : Finset Nat) : Decidable (StoppingSet H S) := by unfold StoppingSet; infer_instance
instance (H : Checks) (E : Finset Nat) (v : Nat) : Decidable (Trapped H E v) := by unfold Trapped; infer_instance
instance (H : Checks) (c : List Int) (E : Finset Nat) : Decidable (Fatal H c E) := by unfold Fatal; infer_instance

/-- Four erased positions, three of which are a stopping set: the word of the triangle 0, 1, 3 is decoded as zeros; the erased position 2 is recovered. -/
example : ∃ out arr, bpDecode nanSign oneLeft .msa k4Checks 6 4 [0, 0, 0, 0, 4, 1] = .ok ([([false, false, false, false, false, false], out)], arr) := by
  obtain ⟨out, arr, h⟩ := C113_exact nanSign oneLeft k4Checks 6 4 [0, 0, 0, 0, 4, 1] (by norm_num) rfl k4_good (by decide)
    (fun v => decide (v = 0 ∨ v = 1 ∨ v = 3)) k4_word {0, 1, 2, 3} (by decide) (by
      intro v hv hE
      interval_cases v <;> simp_all) (by
      intro v hv
      fin_cases hv <;> simp)
  refine ⟨out, arr, ?_⟩
  rw [h]
  have e : ∀ v ∈ List.range 6, (decide (v = 0 ∨ v = 1 ∨ v = 3) && decide (¬ Trapped k4Checks {0, 1, 2, 3} v)) = false := by decide +kernel
  congr 4
  refine (List.map_congr_left (g := fun _ => false) fun v hv => ?_).trans (by decide)
  simpa using e v hv

theorem k4_fatal : (range 6).powerset.filter (Fatal k4Checks [1, 1, 0, 1, 0, 0]) =
    ({{0, 1, 3}, {0, 2, 4}, {1, 2, 5}, {3, 4, 5}} : Finset (Finset Nat)) ∪ (powersetCard 4 (range 6) ∪ (powersetCard 5 (range 6) ∪ powersetCard 6 (range 6))) := by
  decide +kernel

/-- The exact block error probability of the word 110100 of this code. -/
example {Ω : Type*} [MeasurableSpace Ω] {P : Measure Ω} [IsProbabilityMeasure P] {u : Ω → ℕ → ℝ} (hu : UniformDraws P u)
    (hind : iIndepFun (fun i ω => u ω i) P) {p : ℝ} (h0 : 0 ≤ p) (h1 : p ≤ 1) :
    P {ω | ¬ Returns (bpDecode nanSign oneLeft .msa k4Checks 6 6 (becLlrs [1, 1, 0, 1, 0, 0] p 1 (u ω))) [1, 1, 0, 1, 0, 0]} =
      ENNReal.ofReal (4 * (p ^ 3 * (1 - p) ^ 3) + (15 * (p ^ 4 * (1 - p) ^ 2) + (6 * (p ^ 5 * (1 - p)) + p ^ 6))) := by
  rw [C129_bec_exact nanSign oneLeft k4Checks 6 6 (by norm_num) k4_good (by decide) [1, 1, 0, 1, 0, 0] rfl (by unfold ChecksHold; decide) (by decide) 1 one_pos le_rfl hu hind h0 h1]
  congr 1
  have e := k4_fatal
  have e' : @filter (Finset Nat) (Fatal k4Checks [1, 1, 0, 1, 0, 0]) (fun a => Classical.propDecidable _) (range 6).powerset =
      (range 6).powerset.filter (Fatal k4Checks [1, 1, 0, 1, 0, 0]) := by
    ext E; simp only [mem_filter]
  rw [e', e, sum_union (by decide +kernel), sum_union (by decide +kernel), sum_union (by decide +kernel)]
  have hk : ∀ k, ∑ E ∈ powersetCard k (range 6), p ^ E.card * (1 - p) ^ (6 - E.card) = (Nat.choose 6 k : ℝ) * (p ^ k * (1 - p) ^ (6 - k)) := by
    intro k
    rw [sum_congr rfl (g := fun _ => p ^ k * (1 - p) ^ (6 - k)) (fun E hE => by rw [(mem_powersetCard.1 hE).2]), sum_const, card_powersetCard, card_range, nsmul_eq_mul]
  have ht : ∑ E ∈ ({{0, 1, 3}, {0, 2, 4}, {1, 2, 5}, {3, 4, 5}} : Finset (Finset Nat)), p ^ E.card * (1 - p) ^ (6 - E.card) = 4 * (p ^ 3 * (1 - p) ^ 3) := by
    have hc : ∀ E ∈ ({{0, 1, 3}, {0, 2, 4}, {1, 2, 5}, {3, 4, 5}} : Finset (Finset Nat)), E.card = 3 := by decide +kernel
    have h4 : ({{0, 1, 3}, {0, 2, 4}, {1, 2, 5}, {3, 4, 5}} : Finset (Finset Nat)).card = 4 := by decide +kernel
    rw [sum_congr rfl (g := fun _ => p ^ 3 * (1 - p) ^ (6 - 3)) (fun E hE => by rw [hc E hE]), sum_const, h4, nsmul_eq_mul]
    norm_num
  rw [ht, hk 4, hk 5, hk 6]
  have c4 : Nat.choose 6 4 = 15 := rfl
  have c5 : Nat.choose 6 5 = 6 := rfl
  have c6 : Nat.choose 6 6 = 1 := rfl
  rw [c4, c5, c6]
  norm_num

/-- The hypotheses are met: independent uniform draws exist, and a message of 720 bits sent with the 802.16 code of length 1440 over an erasure channel
with erasure probability 1/10000 is returned except with probability 1/2000. -/
example : ∃ (Ω : Type) (_ : MeasurableSpace Ω) (P : Measure Ω) (u : Ω → ℕ → ℝ), UniformDraws P u ∧ iIndepFun (fun i ω => u ω i) P ∧
    ∃ txt q, writeLdpc 1440 (rowsNat 1440 wimax1440Checks) = .ok txt ∧ getLdpc txt = .ok q ∧
      ∃ words, ldpcEncode q (1 :: List.replicate 719 0) false = .ok words ∧
        P {ω | ¬ ReturnsAll (ldpcBpDecode nanSign oneLeft q .msa 1440 (becLlrs words.flatten (1 / 10000) 4 (u ω))) words} ≤ ENNReal.ofReal (1 / 2000) := by
  have : IsProbabilityMeasure (volume.restrict (Set.Ico (0 : ℝ) 1)) := ⟨by simp⟩
  have hu : UniformDraws (Measure.infinitePi fun _ : ℕ => volume.restrict (Set.Ico (0 : ℝ) 1)) (fun ω i => ω i) := by
    intro i
    have := measurePreserving_eval_infinitePi (fun _ : ℕ => volume.restrict (Set.Ico (0 : ℝ) 1)) i
    exact ⟨this.measurable.aemeasurable, this.map_eq⟩
  have hi : iIndepFun (fun i (ω : ℕ → ℝ) => ω i) (Measure.infinitePi fun _ : ℕ => volume.restrict (Set.Ico (0 : ℝ) 1)) :=
    iIndepFun_infinitePi (X := fun _ x => x) (fun _ => measurable_id)
  obtain ⟨txt, q, h1, h2, H⟩ := C129_wimax1440 nanSign oneLeft
  obtain ⟨words, z, w1, w2, w3, w4, H2⟩ := H (1 :: List.replicate 719 0) (by
    intro x hx
    rcases List.mem_cons.1 hx with h | h
    · exact Or.inr h
    · exact Or.inl (List.eq_of_mem_replicate h)) (List.cons_ne_nil _ _) false (Or.inr (by rw [List.length_cons, List.length_replicate]))
  refine ⟨ℕ → ℝ, inferInstance, _, fun ω i => ω i, hu, hi, txt, q, h1, h2, words, w1, ?_⟩
  refine ((H2 hu hi (1 / 10000) 4 1440 (by norm_num) (by norm_num) (by norm_num)).1 le_rfl).trans (ENNReal.ofReal_le_ofReal ?_)
  have hlen : words.length ≤ 1 := by
    have hle := congrArg List.length w3
    rw [List.length_append, List.length_replicate, List.length_cons, List.length_replicate, flatten_len (nv := 720) (by
      intro c hc
      obtain ⟨c', hc', rfl⟩ := List.mem_map.1 hc
      rw [List.length_take, w4 c' hc']; rfl), List.length_map] at hle
    omega
  have hl : (words.length : ℝ) ≤ 1 := by exact_mod_cast hlen
  nlinarith

end Verif
