import Verif.Model.ConstellationPlot
import Verif.Props.PskQam
import Verif.Props.ModemNoise
/-
C111: `plot_constellation` shows the mapping that `modulate` uses.
-/
namespace Verif

/-- The text beside a point is the bit sequence of the first constellation point with the same value. -/
theorem plot_ok {s : Modem} (h : s.Consistent) :
    plotConstellation s = .ok ⟨s.constellation.map fun z => (z.re, z.im),
      s.constellation.map fun z => ((z.re + 0.2, z.im), toBits s.nbits (nearestIdx s z))⟩ := by
  unfold plotConstellation
  rw [mapM_ok _ (g := fun z => ((z.re + 0.2, z.im), toBits s.nbits (nearestIdx s z)))]
  · rfl
  · intro z _
    rw [demodHard_ok h]
    simp [bind, Except.bind, pure, Except.pure]

/-- A point of the constellation is its own nearest point. -/
theorem nearest_self {s : Modem} (h : s.Consistent) {z : ℂ} (hz : z ∈ s.constellation) : s.constellation.getD (nearestIdx s z) 0 = z := by
  obtain ⟨h1, h2⟩ := nearestIdx_spec h z
  have := h2 z hz
  rw [sub_self, norm_zero] at this
  have h3 := norm_le_zero_iff.1 this
  rw [List.getD_eq_getElem _ _ h1]
  exact (sub_eq_zero.1 h3).symm

/-- C111. For every modem with at least two points, however it was built and whatever was assigned to its constellation (repeated points included):
`plot_constellation` succeeds, draws every point at its place and beside it (0.2 to the right) a text of `num_bits_symbol` bits that `modulate`
maps to that point. -/
theorem C111_labels {s : Modem} (h : s.Consistent) (hm : 2 ≤ s.m) :
    ∃ p, plotConstellation s = .ok p ∧ p.points = s.constellation.map (fun z => (z.re, z.im)) ∧ p.texts.length = s.constellation.length ∧
      ∀ i (hi : i < s.constellation.length), ∃ bits, p.texts[i]? = some ((s.constellation[i].re + 0.2, s.constellation[i].im), bits) ∧
        bits.length = s.nbits ∧ modulate s bits = .ok [s.constellation[i]] := by
  refine ⟨_, plot_ok h, rfl, by simp, ?_⟩
  intro i hi
  refine ⟨toBits s.nbits (nearestIdx s s.constellation[i]), by simp [hi], by simp, ?_⟩
  have hn : 0 < s.nbits := by
    have := h.pow
    rcases Nat.eq_zero_or_pos s.nbits with h0 | h0
    · rw [h0] at this; omega
    · exact h0
  rw [modulate_ok h hm (fun x hx => toBits_lt_two hx) (by intro e; have := congrArg List.length e; simp at this; omega) (N := 1) (by simp)]
  have e : inSyms s.nbits (toBits s.nbits (nearestIdx s s.constellation[i])) = [nearestIdx s s.constellation[i]] := by
    unfold inSyms
    obtain ⟨h1, -⟩ := nearestIdx_spec h s.constellation[i]
    rw [h.len] at h1
    rw [toBits_length, Nat.div_self hn]
    have e : (toBits s.nbits (nearestIdx s s.constellation[i])).take s.nbits = toBits s.nbits (nearestIdx s s.constellation[i]) :=
      List.take_of_length_le (by simp)
    simp [e, bitarray2dec_toBits h1]
  rw [e, List.map_cons, List.map_nil, nearest_self h (List.getElem_mem hi)]

/-- C111, distinct points: the text beside point `i` is the number `i` in `num_bits_symbol` bits, so no two points have the same text. -/
theorem C111_distinct {s : Modem} (h : s.Consistent) (hd : s.constellation.Nodup) :
    ∃ p, plotConstellation s = .ok p ∧
      p.texts.map Prod.snd = (List.range s.m).map (toBits s.nbits) ∧ (p.texts.map Prod.snd).Nodup := by
  have e : (s.constellation.map fun z => toBits s.nbits (nearestIdx s z)) = (List.range s.m).map (toBits s.nbits) := by
    apply List.ext_getElem
    · rw [List.length_map, List.length_map, List.length_range, h.len, h.pow]
    · intro i h1 h2
      rw [List.length_map] at h1
      rw [List.getElem_map, List.getElem_map, List.getElem_range]
      congr 1
      obtain ⟨h3, -⟩ := nearestIdx_spec h s.constellation[i]
      have h4 := nearest_self h (List.getElem_mem h1)
      rw [List.getD_eq_getElem _ _ h3] at h4
      exact (List.Nodup.getElem_inj_iff hd).1 h4
  refine ⟨_, plot_ok h, by rw [← e]; simp, ?_⟩
  have e2 : (s.constellation.map fun z => (((z.re + 0.2, z.im) : ℝ × ℝ), toBits s.nbits (nearestIdx s z))).map Prod.snd =
      (List.range s.m).map (toBits s.nbits) := by rw [← e]; simp
  show (List.map Prod.snd _).Nodup
  rw [e2]
  apply List.Nodup.map_on _ List.nodup_range
  intro a ha b hb hab
  rw [List.mem_range, h.pow] at ha hb
  exact toBits_inj ha hb hab

/-- The texts of a modem with distinct points, by index. -/
theorem plot_texts {s : Modem} (h : s.Consistent) (hd : s.constellation.Nodup) {p : ConstellationPlot} (hp : plotConstellation s = .ok p) :
    ∀ q ∈ p.texts, ∃ i < s.m, q.1 = ((s.constellation.getD i 0).re + 0.2, (s.constellation.getD i 0).im) ∧ q.2 = toBits s.nbits i := by
  rw [plot_ok h] at hp
  obtain rfl := Except.ok.inj hp
  intro q hq
  simp only [List.mem_map] at hq
  obtain ⟨z, hz, rfl⟩ := hq
  obtain ⟨h3, -⟩ := nearestIdx_spec h z
  refine ⟨nearestIdx s z, ?_, ?_, rfl⟩
  · rw [h.pow, ← h.len]; exact h3
  · simp only [nearest_self h hz]

/-- C111, `QAMModem(4^h).plot_constellation()`: horizontally or vertically neighbouring points carry texts that differ in exactly one bit. -/
theorem C111_qam (h : Nat) (hh : 1 ≤ h) :
    ∃ s p, qamModem (4 ^ h) = .ok s ∧ plotConstellation s = .ok p ∧ p.points.length = 4 ^ h ∧ (p.texts.map Prod.snd).Nodup ∧
      ∀ q ∈ p.texts, ∀ q' ∈ p.texts, (q.1.1 - q'.1.1) ^ 2 + (q.1.2 - q'.1.2) ^ 2 = 4 → diffCount q.2 q'.2 = 1 := by
  obtain ⟨s, h1, h2, h3, h4, h5, h6, h7, h8⟩ := C65_qam h hh
  have hc : s.Consistent := by
    obtain ⟨s', g1, g2, -⟩ := C93_qam h hh
    rw [h1] at g1
    rw [Except.ok.inj g1]; exact g2
  obtain ⟨p, hp, -, hpn⟩ := C111_distinct hc h5
  refine ⟨s, p, h1, hp, ?_, hpn, ?_⟩
  · have := hp; rw [plot_ok hc] at this; rw [← Except.ok.inj this]; simp [h4]
  · intro q hq q' hq' hd
    obtain ⟨i, hi, e1, e2⟩ := plot_texts hc h5 hp q hq
    obtain ⟨j, hj, e3, e4⟩ := plot_texts hc h5 hp q' hq'
    rw [e2, e4, h3]
    rw [h2] at hi hj
    apply h8 i hi j hj
    rw [e1, e3] at hd
    simp only [add_sub_add_right_eq_sub] at hd
    have : ‖s.constellation.getD i 0 - s.constellation.getD j 0‖ ^ 2 = 4 := by
      rw [Complex.sq_norm, Complex.normSq_apply, Complex.sub_re, Complex.sub_im]; linarith [hd]
    nlinarith [norm_nonneg (s.constellation.getD i 0 - s.constellation.getD j 0)]

/-- C111, `PSKModem(2^b).plot_constellation()`: points that follow each other on the circle carry texts that differ in exactly one bit. -/
theorem C111_psk (b : Nat) (hb : 1 ≤ b) :
    ∃ s p, pskModem (2 ^ b) = .ok s ∧ plotConstellation s = .ok p ∧ p.points.length = 2 ^ b ∧ (p.texts.map Prod.snd).Nodup ∧
      ∀ q ∈ p.texts, ∀ q' ∈ p.texts,
        (⟨q'.1.1 - 0.2, q'.1.2⟩ : ℂ) = ⟨q.1.1 - 0.2, q.1.2⟩ * Complex.exp (2 * Real.pi * Complex.I / (2 ^ b : ℕ)) → diffCount q.2 q'.2 = 1 := by
  obtain ⟨s, h1, h2, h3, h4, h5, h6, h7, h8, h9⟩ := C64_psk b hb
  have hc : s.Consistent := by
    obtain ⟨s', g1, g2, -⟩ := C93_psk b hb
    rw [h1] at g1
    rw [Except.ok.inj g1]; exact g2
  obtain ⟨p, hp, -, hpn⟩ := C111_distinct hc h5
  refine ⟨s, p, h1, hp, ?_, hpn, ?_⟩
  · have := hp; rw [plot_ok hc] at this; rw [← Except.ok.inj this]; simp [h4]
  · intro q hq q' hq' hd
    obtain ⟨i, hi, e1, e2⟩ := plot_texts hc h5 hp q hq
    obtain ⟨j, hj, e3, e4⟩ := plot_texts hc h5 hp q' hq'
    rw [e2, e4, h3]
    rw [h2] at hi hj
    apply h9 i hi j hj
    rw [e1, e3] at hd
    simpa using hd

example : ∃ s p, pskModem (2 ^ 4) = .ok s ∧ plotConstellation s = .ok p ∧ p.points.length = 16 := by
  obtain ⟨s, p, h1, h2, h3, -⟩ := C111_psk 4 (by decide)
  exact ⟨s, p, h1, h2, h3⟩

end Verif
