import Verif.Props.Modulation
import Mathlib.Algebra.BigOperators.Group.Finset.Basic
/-
C67: soft demodulation.
-/
namespace Verif

/-- Specification: total likelihood of the labels whose bit number `j` (MSB first) is `v`. -/
noncomputable def likelihood (s : Modem) (y : ℂ) (noiseVar : ℝ) (j v : Nat) : ℝ :=
  ∑ l ∈ (Finset.range s.m).filter (fun l => (toBits s.nbits l).getD j 0 = v),
    Real.exp (-‖y - s.constellation.getD l 0‖ ^ 2 / noiseVar)

theorem toBits_getD {w l j : Nat} (hj : j < w) : (toBits w l).getD j 0 = l / 2 ^ (w - 1 - j) % 2 := by
  rw [List.getD_eq_getElem _ _ (by simpa using hj)]
  simp [toBits]

theorem llrSums_gen (y : ℂ) (v : ℝ) (b : Nat) (f : ℂ → Nat → ℝ) (hf : ∀ z l, f z l = Real.exp ((-‖y - z‖ ^ 2) / v)) :
    ∀ (c : List ℂ) (k : Nat) (acc : ℝ × ℝ),
    (c.zipIdx k).foldl (fun (acc : ℝ × ℝ) (p : ℂ × Nat) =>
      if (p.2 >>> b) &&& 1 ≠ 0 then (acc.1 + Real.exp ((-‖y - p.1‖ ^ 2) / v), acc.2)
      else (acc.1, acc.2 + Real.exp ((-‖y - p.1‖ ^ 2) / v))) acc =
    (acc.1 + ∑ i ∈ Finset.range c.length, (if (k + i) / 2 ^ b % 2 = 1 then Real.exp ((-‖y - c.getD i 0‖ ^ 2) / v) else 0),
     acc.2 + ∑ i ∈ Finset.range c.length, (if (k + i) / 2 ^ b % 2 = 0 then Real.exp ((-‖y - c.getD i 0‖ ^ 2) / v) else 0)) := by
  intro c
  induction c with
  | nil => intro k acc; simp
  | cons z c ih =>
    intro k acc
    rw [List.zipIdx_cons, List.foldl_cons, ih, List.length_cons, Finset.sum_range_succ', Finset.sum_range_succ']
    have hb : ((k >>> b) &&& 1 ≠ 0) ↔ k / 2 ^ b % 2 = 1 := by
      rw [Nat.and_one_is_mod, Nat.shiftRight_eq_div_pow]; omega
    have hk : ∀ i, k + 1 + i = k + (i + 1) := fun i => by omega
    simp only [hk, List.getD_cons_succ, List.getD_cons_zero, Nat.add_zero]
    by_cases h : k / 2 ^ b % 2 = 1
    · rw [if_pos (hb.2 h), if_pos h, if_neg (by omega)]
      ext <;> simp only <;> ring
    · rw [if_neg (fun e => h (hb.1 e)), if_neg h, if_pos (by omega)]
      ext <;> simp only <;> ring

theorem llrSums_eq {s : Modem} (hs : s.Consistent) (y : ℂ) (v : ℝ) {j : Nat} (hj : j < s.nbits) :
    llrSums s y v (s.nbits - 1 - j) = (likelihood s y v j 1, likelihood s y v j 0) := by
  unfold llrSums
  have := llrSums_gen y v (s.nbits - 1 - j) (fun z _ => Real.exp ((-‖y - z‖ ^ 2) / v)) (fun _ _ => rfl) s.constellation 0 (0, 0)
  rw [this]
  unfold likelihood
  rw [Finset.sum_filter, Finset.sum_filter, ← hs.size]
  simp only [zero_add, toBits_getD hj]

theorem demodSoft_spec (s : Modem) (ys : List ℂ) (v : ℝ) :
    (demodSoft s ys v).length = ys.length * s.nbits ∧
    ∀ i (hi : i < ys.length), ∀ b < s.nbits, (demodSoft s ys v)[i * s.nbits + s.nbits - 1 - b]? =
      some (Real.log ((llrSums s ys[i] v b).1 / (llrSums s ys[i] v b).2)) := by
  set ps : List (Nat × ℝ) := ys.zipIdx.flatMap fun p => (List.range s.nbits).map fun b =>
    (p.2 * s.nbits + s.nbits - 1 - b, Real.log ((llrSums s p.1 v b).1 / (llrSums s p.1 v b).2)) with hps
  have e : demodSoft s ys v = ps.foldl (fun y p => y.set p.1 p.2) (List.replicate (ys.length * s.nbits) 0) := by
    unfold demodSoft
    rw [hps, List.foldl_flatMap]
    simp only [List.foldl_map]
  constructor
  · rw [e, foldl_set_length, List.length_replicate]
  · intro i hi b hb
    rw [e]
    apply foldl_set_mem
    · rw [hps, List.map_flatMap]
      simp only [List.map_map, Function.comp_def]
      rw [List.nodup_flatMap]
      constructor
      · intro p _
        refine List.Nodup.map_on ?_ List.nodup_range
        intro x hx y hy hxy
        rw [List.mem_range] at hx hy
        have : s.nbits ≤ p.2 * s.nbits + s.nbits := Nat.le_add_left _ _
        omega
      · have hpw : (ys.zipIdx).Pairwise fun a b => a.2 < b.2 := by
          have h1 : (ys.zipIdx.map Prod.snd) = List.range' 0 ys.length := List.zipIdx_map_snd _ _
          have h2 : (ys.zipIdx.map Prod.snd).Pairwise (· < ·) := by rw [h1]; exact List.pairwise_lt_range'
          rwa [List.pairwise_map] at h2
        refine hpw.imp ?_
        intro p q hpq
        intro x hx hx'
        obtain ⟨b1, h1, rfl⟩ := List.mem_map.1 hx
        obtain ⟨b2, h2, h3⟩ := List.mem_map.1 hx'
        rw [List.mem_range] at h1 h2
        have : p.2 * s.nbits + s.nbits ≤ q.2 * s.nbits := by rw [← Nat.succ_mul]; exact Nat.mul_le_mul_right _ hpq
        omega
    · rw [hps, List.mem_flatMap]
      refine ⟨(ys[i], i), ?_, List.mem_map.2 ⟨b, by simpa using hb, rfl⟩⟩
      rw [List.mem_iff_getElem]
      exact ⟨i, by simpa using hi, by simp⟩
    · rw [List.length_replicate]
      have : i * s.nbits + s.nbits ≤ ys.length * s.nbits := by rw [← Nat.succ_mul]; exact Nat.mul_le_mul_right _ hi
      omega

/-- C67. Soft outputs are in the bit order of `modulate`: entry `i * num_bits_symbol + j` is the log ratio of the total
likelihood of the labels with bit `j` equal to 1 over that of the labels with bit `j` equal to 0. -/
theorem C67_llr {s : Modem} (hs : s.Consistent) (ys : List ℂ) {v : ℝ} (_hv : 0 < v) :
    ∃ L, demodulate s ys "soft" v = .ok (.llrs L) ∧ L.length = ys.length * s.nbits ∧
      ∀ i (hi : i < ys.length), ∀ j < s.nbits, L[i * s.nbits + j]? =
        some (Real.log (likelihood s ys[i] v j 1 / likelihood s ys[i] v j 0)) := by
  obtain ⟨h1, h2⟩ := demodSoft_spec s ys v
  refine ⟨demodSoft s ys v, by unfold demodulate; rw [if_neg (by decide), if_pos rfl], h1, ?_⟩
  intro i hi j hj
  have := h2 i hi (s.nbits - 1 - j) (by omega)
  rw [llrSums_eq hs _ _ hj] at this
  rw [← this]
  congr 1
  have : s.nbits ≤ i * s.nbits + s.nbits := Nat.le_add_left _ _
  omega

theorem likelihood_pos {s : Modem} (hs : s.Consistent) (y : ℂ) (v : ℝ) {j : Nat} (hj : j < s.nbits) {b : Nat} (hb : b < 2) :
    0 < likelihood s y v j b := by
  unfold likelihood
  apply Finset.sum_pos (fun _ _ => Real.exp_pos _)
  refine ⟨b * 2 ^ (s.nbits - 1 - j), ?_⟩
  rw [Finset.mem_filter, Finset.mem_range, toBits_getD hj, Nat.mul_div_cancel _ (Nat.two_pow_pos _), Nat.mod_eq_of_lt hb]
  refine ⟨?_, rfl⟩
  rw [hs.pow]
  have h1 : 2 ^ (s.nbits - 1 - j) ≤ 2 ^ (s.nbits - 1) := Nat.pow_le_pow_right (by decide) (by omega)
  have h2 : 2 ^ s.nbits = 2 * 2 ^ (s.nbits - 1) := by rw [← pow_succ']; congr 1; omega
  have h3 := Nat.two_pow_pos (s.nbits - 1)
  have h4 : b * 2 ^ (s.nbits - 1 - j) ≤ 1 * 2 ^ (s.nbits - 1 - j) := Nat.mul_le_mul_right _ (by omega)
  omega

/-- A value dominates all likelihoods of the other bit value. -/
theorem likelihood_lt {s : Modem} (hs : s.Consistent) {y : ℂ} {v δ : ℝ} (hv : 0 < v) {k : Nat} (hk : k < s.m)
    (hgap : ∀ l < s.m, l ≠ k → ‖y - s.constellation.getD k 0‖ ^ 2 + δ ≤ ‖y - s.constellation.getD l 0‖ ^ 2)
    (hδ : v * Real.log s.m ≤ δ) {j : Nat} {b : Nat} (hb : (toBits s.nbits k).getD j 0 = b) {b' : Nat} (hne : b ≠ b') :
    likelihood s y v j b' < likelihood s y v j b := by
  set a := ‖y - s.constellation.getD k 0‖ ^ 2 with ha
  have hm : (0 : ℝ) < s.m := by exact_mod_cast (by omega : 0 < s.m)
  have hexp : Real.exp (-δ / v) ≤ 1 / s.m := by
    rw [one_div, ← Real.exp_log hm, ← Real.exp_neg]
    apply Real.exp_le_exp.2
    rw [neg_div, neg_le_neg_iff, le_div_iff₀ hv]
    linarith
  have hkmem : k ∈ (Finset.range s.m).filter (fun l => (toBits s.nbits l).getD j 0 = b) := by
    rw [Finset.mem_filter, Finset.mem_range]; exact ⟨hk, hb⟩
  have h1 : Real.exp (-a / v) ≤ likelihood s y v j b := by
    unfold likelihood
    exact Finset.single_le_sum (f := fun l => Real.exp (-‖y - s.constellation.getD l 0‖ ^ 2 / v))
      (fun _ _ => (Real.exp_pos _).le) hkmem
  have hcard : ((Finset.range s.m).filter (fun l => (toBits s.nbits l).getD j 0 = b')).card < s.m := by
    have : ((Finset.range s.m).filter (fun l => (toBits s.nbits l).getD j 0 = b')) ⊂ Finset.range s.m := by
      refine ⟨Finset.filter_subset _ _, fun h => ?_⟩
      have := h (Finset.mem_range.2 hk)
      rw [Finset.mem_filter] at this
      exact hne (hb.symm.trans this.2)
    simpa using Finset.card_lt_card this
  have h2 : likelihood s y v j b' ≤
      ((Finset.range s.m).filter (fun l => (toBits s.nbits l).getD j 0 = b')).card • (Real.exp (-a / v) * (1 / s.m)) := by
    unfold likelihood
    apply Finset.sum_le_card_nsmul
    intro l hl
    rw [Finset.mem_filter, Finset.mem_range] at hl
    have hlk : l ≠ k := by rintro rfl; exact hne (hb.symm.trans hl.2)
    have hg := hgap l hl.1 hlk
    calc Real.exp (-‖y - s.constellation.getD l 0‖ ^ 2 / v) ≤ Real.exp (-a / v + -δ / v) := by
          apply Real.exp_le_exp.2
          rw [← add_div]
          apply div_le_div_of_nonneg_right _ hv.le
          linarith
      _ = Real.exp (-a / v) * Real.exp (-δ / v) := Real.exp_add _ _
      _ ≤ _ := mul_le_mul_of_nonneg_left hexp (Real.exp_pos _).le
  refine lt_of_le_of_lt h2 (lt_of_lt_of_le ?_ h1)
  rw [nsmul_eq_mul]
  have hE := Real.exp_pos (-a / v)
  have hc : (((Finset.range s.m).filter (fun l => (toBits s.nbits l).getD j 0 = b')).card : ℝ) < s.m := by exact_mod_cast hcard
  calc _ = Real.exp (-a / v) * ((((Finset.range s.m).filter (fun l => (toBits s.nbits l).getD j 0 = b')).card : ℝ) / s.m) := by ring
    _ < Real.exp (-a / v) * 1 := by
        apply mul_lt_mul_of_pos_left _ hE
        rw [div_lt_one hm]; exact hc
    _ = _ := mul_one _

/-- C67. Sign convention, for noisy symbols: if one point is closer than all others by `δ` in squared distance, and the noise
variance is at most `δ / log m`, the signs of the soft outputs are the bits of the label of that point: positive for 1,
negative for 0. -/
theorem C67_sign {s : Modem} (hs : s.Consistent) {ys : List ℂ} {v : ℝ} (hv : 0 < v) {i : Nat} (hi : i < ys.length) {k : Nat}
    (hk : k < s.m) {δ : ℝ}
    (hgap : ∀ l < s.m, l ≠ k → ‖ys[i] - s.constellation.getD k 0‖ ^ 2 + δ ≤ ‖ys[i] - s.constellation.getD l 0‖ ^ 2)
    (hδ : v * Real.log s.m ≤ δ) :
    ∃ L, demodulate s ys "soft" v = .ok (.llrs L) ∧ ∀ j < s.nbits,
      ((toBits s.nbits k).getD j 0 = 1 ∧ 0 < L.getD (i * s.nbits + j) 0) ∨
      ((toBits s.nbits k).getD j 0 = 0 ∧ L.getD (i * s.nbits + j) 0 < 0) := by
  obtain ⟨L, h1, -, h3⟩ := C67_llr hs ys hv
  refine ⟨L, h1, ?_⟩
  intro j hj
  have hL : L.getD (i * s.nbits + j) 0 = Real.log (likelihood s ys[i] v j 1 / likelihood s ys[i] v j 0) := by
    rw [List.getD_eq_getElem?_getD, h3 i hi j hj]; rfl
  rw [hL]
  have hp1 := likelihood_pos hs ys[i] v hj (b := 1) (by decide)
  have hp0 := likelihood_pos hs ys[i] v hj (b := 0) (by decide)
  have hbit : (toBits s.nbits k).getD j 0 = 1 ∨ (toBits s.nbits k).getD j 0 = 0 := by
    rw [toBits_getD hj]; omega
  rcases hbit with hb | hb
  · left
    refine ⟨hb, Real.log_pos ?_⟩
    rw [one_lt_div hp0]
    exact likelihood_lt hs hv hk hgap hδ hb (by decide)
  · right
    refine ⟨hb, Real.log_neg (div_pos hp1 hp0) ?_⟩
    rw [div_lt_one hp0]
    exact likelihood_lt hs hv hk hgap hδ hb (by decide)

/-- C67. Noiseless symbols and a small enough noise variance: the signs of the soft outputs reproduce the transmitted
bits, for all transmitted messages at once. -/
theorem C67_noiseless {s : Modem} (hs : s.Consistent) (hd : s.constellation.Nodup) (hm : 2 ≤ s.m) :
    ∃ v0 > 0, ∀ v, 0 < v → v ≤ v0 → ∀ bits : List Nat, (∀ x ∈ bits, x < 2) → bits ≠ [] → s.nbits ∣ bits.length →
      ∃ syms L, modulate s bits = .ok syms ∧ demodulate s syms "soft" v = .ok (.llrs L) ∧ L.length = bits.length ∧
        ∀ i < bits.length, (bits.getD i 0 = 1 ∧ 0 < L.getD i 0) ∨ (bits.getD i 0 = 0 ∧ L.getD i 0 < 0) := by
  have hn : 0 < s.nbits := by
    have := hs.pow
    rcases Nat.eq_zero_or_pos s.nbits with h | h
    · rw [h] at this; omega
    · exact h
  -- smallest squared distance
  have hgap : ∃ δ > 0, ∀ k < s.m, ∀ l < s.m, l ≠ k → δ ≤ ‖s.constellation.getD k 0 - s.constellation.getD l 0‖ ^ 2 := by
    set S : Finset (Nat × Nat) := ((Finset.range s.m) ×ˢ (Finset.range s.m)).filter fun p => p.2 ≠ p.1 with hS
    have hSne : S.Nonempty := ⟨(0, 1), by simp [hS]; omega⟩
    obtain ⟨p, hp, hmin⟩ := Finset.exists_min_image S
      (fun p => ‖s.constellation.getD p.1 0 - s.constellation.getD p.2 0‖ ^ 2) hSne
    refine ⟨_, ?_, fun k hk l hl hne => hmin (k, l) (by simp [hS, hk, hl, hne])⟩
    simp only [hS, Finset.mem_filter, Finset.mem_product, Finset.mem_range] at hp
    have h1 : p.1 < s.constellation.length := by rw [← hs.size]; exact hp.1.1
    have h2 : p.2 < s.constellation.length := by rw [← hs.size]; exact hp.1.2
    apply pow_pos
    rw [norm_pos_iff, sub_ne_zero, List.getD_eq_getElem _ _ h1, List.getD_eq_getElem _ _ h2]
    intro e
    exact hp.2 ((List.Nodup.getElem_inj_iff hd).1 e).symm
  obtain ⟨δ, hδ, hgap⟩ := hgap
  have hlog : 0 < Real.log s.m := Real.log_pos (by exact_mod_cast (by omega : 1 < s.m))
  refine ⟨δ / Real.log s.m, div_pos hδ hlog, ?_⟩
  intro v hv hv0 bits hb hne hdvd
  obtain ⟨N, hN⟩ := hdvd
  rw [Nat.mul_comm] at hN
  have hmod := modulate_ok hs hm hb hne hN
  set syms := (inSyms s.nbits bits).map fun l => s.constellation.getD l 0 with hsyms
  obtain ⟨L, h1, h2, h3⟩ := C67_llr hs syms hv
  have hlen : syms.length = N := by rw [hsyms, List.length_map, inSyms_length, hN, Nat.mul_div_cancel _ hn]
  refine ⟨syms, L, hmod, h1, by rw [h2, hlen, hN], ?_⟩
  intro i hi
  have hq : i / s.nbits < syms.length := by rw [hlen, Nat.div_lt_iff_lt_mul hn, ← hN]; exact hi
  have hr : i % s.nbits < s.nbits := Nat.mod_lt _ hn
  have hq' : i / s.nbits < (inSyms s.nbits bits).length := by simpa [hsyms] using hq
  set k := (inSyms s.nbits bits)[i / s.nbits] with hkdef
  have hk : k < s.m := by rw [hs.pow]; exact inSyms_lt hb _ _ (List.getElem_mem _)
  have hsym : syms[i / s.nbits] = s.constellation.getD k 0 := by simp only [hsyms, List.getElem_map, hkdef]
  obtain ⟨L', h1', h4⟩ := C67_sign hs (ys := syms) hv hq hk (δ := δ) (by
      intro l hl hne'
      rw [hsym, sub_self, norm_zero]
      have := hgap k hk l hl hne'
      simpa using this) (by rwa [le_div_iff₀ hlog] at hv0)
  rw [h1] at h1'
  obtain rfl : L = L' := by
    have := Except.ok.inj h1'
    cases this; rfl
  have := h4 (i % s.nbits) hr
  rw [show i / s.nbits * s.nbits + i % s.nbits = i by rw [Nat.mul_comm]; exact Nat.div_add_mod _ _] at this
  have hbit : (toBits s.nbits k).getD (i % s.nbits) 0 = bits.getD i 0 := by
    have hf := flatMap_inSyms hn hb hN
    have hblk := flatMap_block (toBits s.nbits) s.nbits (fun a => toBits_length _ _) (inSyms s.nbits bits) _ hq'
    rw [hf] at hblk
    rw [hkdef, ← hblk, List.getD_eq_getElem?_getD, List.getElem?_take, if_pos hr, List.getElem?_drop,
      show i / s.nbits * s.nbits + i % s.nbits = i by rw [Nat.mul_comm]; exact Nat.div_add_mod _ _, ← List.getD_eq_getElem?_getD]
  rw [hbit] at this
  exact this

end Verif
