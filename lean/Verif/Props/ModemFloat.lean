import Verif.Model.ModemFloat
import Verif.Lemmas.Rounding
import Verif.Props.ModemNoise
import Verif.Props.AwgnErrors
import Verif.Lemmas.CircleTail
/-
C134: hard demodulation in double precision.
-/
namespace Verif

/-- What is assumed of the arithmetic: a subtraction has relative error at most `u`, `hypot` has relative error at most `v`.
(IEEE doubles: `u = 2^-53`; a `hypot` that is correct to one unit in the last place: `v = 2^-52`.) -/
structure DemodAccuracy (u v : ℝ) (D : DemodFloats) : Prop where
  sub : ∀ a b, |D.sub a b - (a - b)| ≤ u * |a - b|
  hypot : ∀ a b, |D.hypot a b - Real.sqrt (a ^ 2 + b ^ 2)| ≤ v * Real.sqrt (a ^ 2 + b ^ 2)

variable {u v : ℝ} {D : DemodFloats}

theorem norm_eq_sqrt_re_im (z : ℂ) : ‖z‖ = Real.sqrt (z.re ^ 2 + z.im ^ 2) := by
  rw [Complex.norm_def, Complex.normSq_apply, ← pow_two, ← pow_two]

theorem sqrt_scaled {a b a' b' k : ℝ} (hk : 0 ≤ k) (ha : |a'| ≤ k * |a|) (hb : |b'| ≤ k * |b|) :
    Real.sqrt (a' ^ 2 + b' ^ 2) ≤ k * Real.sqrt (a ^ 2 + b ^ 2) := by
  rw [← Real.sqrt_sq hk, ← Real.sqrt_mul (sq_nonneg k)]
  apply Real.sqrt_le_sqrt
  have h1 : a' ^ 2 ≤ (k * |a|) ^ 2 := by rw [← sq_abs a']; exact pow_le_pow_left₀ (abs_nonneg _) ha 2
  have h2 : b' ^ 2 ≤ (k * |b|) ^ 2 := by rw [← sq_abs b']; exact pow_le_pow_left₀ (abs_nonneg _) hb 2
  rw [mul_pow, sq_abs] at h1 h2
  linarith

theorem sqrt_scaled_ge {a b a' b' k : ℝ} (hk : 0 ≤ k) (ha : k * |a| ≤ |a'|) (hb : k * |b| ≤ |b'|) :
    k * Real.sqrt (a ^ 2 + b ^ 2) ≤ Real.sqrt (a' ^ 2 + b' ^ 2) := by
  rw [← Real.sqrt_sq hk, ← Real.sqrt_mul (sq_nonneg k)]
  apply Real.sqrt_le_sqrt
  have h1 : (k * |a|) ^ 2 ≤ a' ^ 2 := by rw [← sq_abs a']; exact pow_le_pow_left₀ (by positivity) ha 2
  have h2 : (k * |b|) ^ 2 ≤ b' ^ 2 := by rw [← sq_abs b']; exact pow_le_pow_left₀ (by positivity) hb 2
  rw [mul_pow, sq_abs] at h1 h2
  linarith

/-- The computed distance, against the exact one. -/
theorem distF_bounds (hD : DemodAccuracy u v D) (hu0 : 0 ≤ u) (hu : u < 1) (hv0 : 0 ≤ v) (hv : v < 1) (y c : ℂ) :
    (1 - u) * (1 - v) * ‖y - c‖ ≤ distF D y c ∧ distF D y c ≤ (1 + u) * (1 + v) * ‖y - c‖ := by
  have h := fun a b => hD.sub a b
  have hup : ∀ a b, |D.sub a b| ≤ (1 + u) * |a - b| := by
    intro a b
    have h1 := h a b
    have h2 := abs_add_le (D.sub a b - (a - b)) (a - b)
    rw [sub_add_cancel] at h2
    linarith
  have hlo : ∀ a b, (1 - u) * |a - b| ≤ |D.sub a b| := by
    intro a b
    have h1 := h a b
    have h2 := abs_sub_abs_le_abs_sub (a - b) (D.sub a b)
    rw [abs_sub_comm (a - b) (D.sub a b)] at h2
    linarith
  rw [norm_eq_sqrt_re_im, Complex.sub_re, Complex.sub_im]
  have e1 := sqrt_scaled (by linarith : (0 : ℝ) ≤ 1 + u) (hup y.re c.re) (hup y.im c.im)
  have e2 := sqrt_scaled_ge (by linarith : (0 : ℝ) ≤ 1 - u) (hlo y.re c.re) (hlo y.im c.im)
  have h3 := hD.hypot (D.sub y.re c.re) (D.sub y.im c.im)
  unfold distF
  set S := Real.sqrt (D.sub y.re c.re ^ 2 + D.sub y.im c.im ^ 2)
  set T := Real.sqrt ((y.re - c.re) ^ 2 + (y.im - c.im) ^ 2)
  have h4 := abs_le.1 h3
  constructor
  · calc (1 - u) * (1 - v) * T = (1 - v) * ((1 - u) * T) := by ring
      _ ≤ (1 - v) * S := mul_le_mul_of_nonneg_left e2 (by linarith)
      _ ≤ _ := by linarith [h4.1]
  · calc _ ≤ (1 + v) * S := by linarith [h4.2]
      _ ≤ (1 + v) * ((1 + u) * T) := mul_le_mul_of_nonneg_left e1 (by linarith)
      _ = _ := by ring

theorem nearestIdxF_spec {s : Modem} (h : s.Consistent) (y : ℂ) :
    ∃ hlt : nearestIdxF D s y < s.constellation.length, ∀ z ∈ s.constellation, distF D y s.constellation[nearestIdxF D s y] ≤ distF D y z := by
  obtain ⟨h1, h2⟩ := argminFirst_spec (s.constellation.map fun c => distF D y c) (by simpa using h.ne_nil)
  have h1' : nearestIdxF D s y < s.constellation.length := by simpa [nearestIdxF] using h1
  refine ⟨h1', fun z hz => ?_⟩
  have := h2 (distF D y z) (List.mem_map.2 ⟨z, hz, rfl⟩)
  rw [List.getElem_map] at this
  exact this

theorem demodHardF_ok {s : Modem} (h : s.Consistent) (ys : List ℂ) :
    demodHardF D s ys = .ok ((ys.map (nearestIdxF D s)).flatMap (toBits s.nbits)) := by
  unfold demodHardF
  rw [if_neg h.ne_nil, dec2bitarrayArr_ok]
  intro n hn
  obtain ⟨y, -, rfl⟩ := List.mem_map.1 hn
  obtain ⟨h1, -⟩ := nearestIdxF_spec (D := D) h y
  rw [← h.pow, h.size]
  exact h1

/-- C134, what rounding can do: the bits of group `i` are the label (MSB first) of a point whose distance from symbol `i` exceeds the smallest
distance at most by the factor `(1 + u) (1 + v) / ((1 - u) (1 - v))`. -/
theorem C134_nearest {s : Modem} (hs : s.Consistent) (hD : DemodAccuracy u v D) (hu0 : 0 ≤ u) (hu : u < 1) (hv0 : 0 ≤ v) (hv : v < 1) (ys : List ℂ) :
    ∃ bits, demodHardF D s ys = .ok bits ∧ bits.length = ys.length * s.nbits ∧
      ∀ i (hi : i < ys.length), ∃ l, ∃ hl : l < s.constellation.length,
        (bits.drop (i * s.nbits)).take s.nbits = toBits s.nbits l ∧
        ∀ z ∈ s.constellation, ‖ys[i] - s.constellation[l]‖ ≤ (1 + u) * (1 + v) / ((1 - u) * (1 - v)) * ‖ys[i] - z‖ := by
  refine ⟨_, demodHardF_ok hs ys, ?_, ?_⟩
  · rw [List.length_flatMap]; simp [Function.comp_def]
  · intro i hi
    obtain ⟨h1, h2⟩ := nearestIdxF_spec (D := D) hs ys[i]
    refine ⟨nearestIdxF D s ys[i], h1, ?_, ?_⟩
    · rw [flatMap_block _ _ (fun a => toBits_length _ _) _ _ (by simpa using hi), List.getElem_map]
    · intro z hz
      have h3 := h2 z hz
      have h4 := (distF_bounds hD hu0 hu hv0 hv ys[i] s.constellation[nearestIdxF D s ys[i]]).1
      have h5 := (distF_bounds hD hu0 hu hv0 hv ys[i] z).2
      have hp : 0 < (1 - u) * (1 - v) := mul_pos (by linarith) (by linarith)
      rw [div_mul_eq_mul_div, le_div_iff₀ hp]
      linarith

/-- C134, the same decision: where the nearest point of every symbol is nearer than the others by more than that factor, rounding
changes nothing. -/
theorem C134_margin {s : Modem} (hs : s.Consistent) (hD : DemodAccuracy u v D) (hu0 : 0 ≤ u) (hu : u < 1) (hv0 : 0 ≤ v) (hv : v < 1) (ys : List ℂ)
    (hm : ∀ y ∈ ys, ∃ l < s.constellation.length, ∀ k < s.constellation.length, k ≠ l →
      (1 + u) * (1 + v) / ((1 - u) * (1 - v)) * ‖y - s.constellation.getD l 0‖ < ‖y - s.constellation.getD k 0‖) (w : ℝ) :
    ∃ bits, demodHardF D s ys = .ok bits ∧ demodulate s ys "hard" w = .ok (.bits bits) := by
  have hp : 0 < (1 - u) * (1 - v) := mul_pos (by linarith) (by linarith)
  have hρ : 1 ≤ (1 + u) * (1 + v) / ((1 - u) * (1 - v)) := by
    rw [le_div_iff₀ hp]
    nlinarith [mul_nonneg hu0 hv0]
  have key : ys.map (nearestIdxF D s) = ys.map (nearestIdx s) := by
    apply List.map_congr_left
    intro y hy
    obtain ⟨l, hl, h⟩ := hm y hy
    obtain ⟨a1, a2⟩ := nearestIdxF_spec (D := D) hs y
    obtain ⟨b1, b2⟩ := nearestIdx_spec hs y
    have hmem : s.constellation.getD l 0 ∈ s.constellation := by rw [List.getD_eq_getElem _ _ hl]; exact List.getElem_mem _
    have e1 : nearestIdxF D s y = l := by
      by_contra hne
      have h1 := h _ a1 hne
      rw [List.getD_eq_getElem _ _ a1] at h1
      have h3 := a2 _ hmem
      have h4 := (distF_bounds hD hu0 hu hv0 hv y s.constellation[nearestIdxF D s y]).1
      have h5 := (distF_bounds hD hu0 hu hv0 hv y (s.constellation.getD l 0)).2
      rw [div_mul_eq_mul_div, div_lt_iff₀ hp] at h1
      linarith
    have e2 : nearestIdx s y = l := by
      by_contra hne
      have h1 := h _ b1 hne
      rw [List.getD_eq_getElem _ _ b1] at h1
      have h3 := b2 _ hmem
      nlinarith [norm_nonneg (y - s.constellation.getD l 0)]
    rw [e1, e2]
  refine ⟨_, demodHardF_ok hs ys, ?_⟩
  unfold demodulate
  rw [if_pos rfl, demodHard_ok hs, key]
  rfl

/-- C134, noise margin: if the points are `d` apart and every symbol is received within `r` of the transmitted one, with
`r ((1 + u) (1 + v) + (1 - u) (1 - v)) < d (1 - u) (1 - v)` (for exact arithmetic: `r < d / 2`), the transmitted bits are returned. -/
theorem C134_noise {s : Modem} (hs : s.Consistent) (hm : 2 ≤ s.m) {d r : ℝ} (hd : Separated s.constellation d)
    (hD : DemodAccuracy u v D) (hu0 : 0 ≤ u) (hu : u < 1) (hv0 : 0 ≤ v) (hv : v < 1)
    (hr : r * ((1 + u) * (1 + v) + (1 - u) * (1 - v)) < d * ((1 - u) * (1 - v))) {bits : List Nat}
    (hb : ∀ x ∈ bits, x < 2) (hne : bits ≠ []) (hl : s.nbits ∣ bits.length) :
    ∃ syms, modulate s bits = .ok syms ∧ syms.length * s.nbits = bits.length ∧
      ∀ ys : List ℂ, ys.length = syms.length → (∀ i < syms.length, ‖ys.getD i 0 - syms.getD i 0‖ ≤ r) → demodHardF D s ys = .ok bits := by
  obtain ⟨N, hN⟩ := hl
  rw [Nat.mul_comm] at hN
  have hn := hs.nbits_pos hm
  have hp : 0 < (1 - u) * (1 - v) := mul_pos (by linarith) (by linarith)
  have hlt : ∀ l ∈ inSyms s.nbits bits, l < s.constellation.length := by
    intro l h; rw [hs.len]; exact inSyms_lt hb _ l h
  refine ⟨_, modulate_ok hs hm hb hne hN, ?_, ?_⟩
  · rw [List.length_map, inSyms_length, hN, Nat.mul_div_cancel _ hn]
  intro ys hlen hclose
  rw [List.length_map] at hlen hclose
  rw [demodHardF_ok hs]
  have e : ys.map (nearestIdxF D s) = inSyms s.nbits bits := by
    apply List.ext_getElem (by rw [List.length_map, hlen])
    intro i h1 h2
    rw [List.getElem_map]
    have hi : i < ys.length := by simpa using h1
    have hc := hclose i h2
    rw [List.getD_eq_getElem _ _ hi, List.getD_eq_getElem _ _ (by simpa using h2), List.getElem_map] at hc
    set k := (inSyms s.nbits bits)[i] with hk
    have hkl := hlt k (List.getElem_mem _)
    obtain ⟨h3, h4⟩ := nearestIdxF_spec (D := D) hs ys[i]
    by_contra hne'
    have h5 := hd.getD hkl h3 hne'
    have h6 := h4 (s.constellation.getD k 0) (by rw [List.getD_eq_getElem _ _ hkl]; exact List.getElem_mem _)
    rw [List.getD_eq_getElem _ _ h3] at h5
    have h7 : ‖s.constellation.getD k 0 - s.constellation[nearestIdxF D s ys[i]]‖ ≤
        ‖ys[i] - s.constellation.getD k 0‖ + ‖ys[i] - s.constellation[nearestIdxF D s ys[i]]‖ := by
      rw [norm_sub_rev ys[i] (s.constellation.getD k 0)]
      exact norm_sub_le_norm_sub_add_norm_sub _ _ _
    have h8 := (distF_bounds hD hu0 hu hv0 hv ys[i] s.constellation[nearestIdxF D s ys[i]]).1
    have h9 := (distF_bounds hD hu0 hu hv0 hv ys[i] (s.constellation.getD k 0)).2
    set A := ‖ys[i] - s.constellation.getD k 0‖
    set B := ‖ys[i] - s.constellation[nearestIdxF D s ys[i]]‖
    have hq : 0 ≤ (1 + u) * (1 + v) := mul_nonneg (by linarith) (by linarith)
    have q1 : (1 - u) * (1 - v) * B ≤ (1 + u) * (1 + v) * A := by linarith
    have q2 : (1 + u) * (1 + v) * A ≤ (1 + u) * (1 + v) * r := mul_le_mul_of_nonneg_left hc hq
    have q3 : (1 - u) * (1 - v) * (d - r) ≤ (1 - u) * (1 - v) * B := mul_le_mul_of_nonneg_left (by linarith) hp.le
    nlinarith
  rw [e, flatMap_inSyms hn hb hN]

/-- C134, noise-free: with distinct points, demodulating the modulated symbols returns the bits. -/
theorem C134_roundtrip {s : Modem} (hs : s.Consistent) (hd : s.constellation.Nodup) (hm : 2 ≤ s.m) (hD : DemodAccuracy u v D)
    (hu0 : 0 ≤ u) (hu : u < 1) (hv0 : 0 ≤ v) (hv : v < 1) {bits : List Nat}
    (hb : ∀ x ∈ bits, x < 2) (hne : bits ≠ []) (hl : s.nbits ∣ bits.length) :
    ∃ syms, modulate s bits = .ok syms ∧ demodHardF D s syms = .ok bits := by
  obtain ⟨syms, h1, h2, h3, h4⟩ := C61_roundtrip hs hd hm hb hne hl 0
  refine ⟨syms, h1, ?_⟩
  obtain ⟨bits', b1, b2⟩ := C134_margin hs hD hu0 hu hv0 hv syms (by
    intro y hy
    obtain ⟨l, hl', hyl⟩ := List.getElem_of_mem (h3 y hy)
    refine ⟨l, hl', fun k hk hne' => ?_⟩
    rw [List.getD_eq_getElem _ _ hl', List.getD_eq_getElem _ _ hk, hyl, sub_self, norm_zero, mul_zero, ← hyl, norm_pos_iff, sub_ne_zero]
    intro e
    exact hne' ((hd.getElem_inj_iff.1 e).symm)) 0
  rw [h4] at b2
  rw [b1]
  cases b2
  rfl

/-- C134, doubles: a QAM modem, noise of magnitude at most `1 - 2^-51` (half the distance between points is 1). -/
theorem C134_qam (h : Nat) (hh : 1 ≤ h) : ∃ s, qamModem (4 ^ h) = .ok s ∧
    ∀ D, DemodAccuracy ((2 : ℝ) ^ (-53 : ℤ)) ((2 : ℝ) ^ (-52 : ℤ)) D → ∀ bits : List Nat, (∀ x ∈ bits, x < 2) → bits ≠ [] → 2 * h ∣ bits.length →
      ∃ syms, modulate s bits = .ok syms ∧ syms.length * (2 * h) = bits.length ∧
        ∀ ys : List ℂ, ys.length = syms.length → (∀ i < syms.length, ‖ys.getD i 0 - syms.getD i 0‖ ≤ 1 - (2 : ℝ) ^ (-51 : ℤ)) →
          demodHardF D s ys = .ok bits := by
  obtain ⟨s, s1, s2, s3, s4⟩ := C93_qam h hh
  refine ⟨s, s1, fun D hD bits hb hne hl => ?_⟩
  have hm : 2 ≤ s.m := by
    rw [s2.pow, s3]
    calc 2 = 2 ^ 1 := rfl
      _ ≤ 2 ^ (2 * h) := Nat.pow_le_pow_right (by norm_num) (by omega)
  have := C134_noise (r := 1 - (2 : ℝ) ^ (-51 : ℤ)) s2 hm s4 hD (by positivity) (by norm_num) (by positivity) (by norm_num) (by norm_num) hb hne (by rw [s3]; exact hl)
  rwa [s3] at this

/-- Points that are stored with an error of at most `ε` each remain separated. -/
theorem Separated.stored {c c' : List ℂ} {d ε : ℝ} (h : Separated c d) (hlen : c'.length = c.length)
    (hε : ∀ i < c.length, ‖c'.getD i 0 - c.getD i 0‖ ≤ ε) : Separated c' (d - 2 * ε) := by
  apply List.pairwise_iff_getElem.2
  intro i j hi hj hij
  have hi' : i < c.length := hlen ▸ hi
  have hj' : j < c.length := hlen ▸ hj
  have h1 := List.pairwise_iff_getElem.1 h i j hi' hj' hij
  have h2 := hε i hi'
  have h3 := hε j hj'
  rw [List.getD_eq_getElem _ _ hi, List.getD_eq_getElem _ _ hi'] at h2
  rw [List.getD_eq_getElem _ _ hj, List.getD_eq_getElem _ _ hj'] at h3
  have h4 : c[i] - c[j] = (c'[i] - c'[j]) - (c'[i] - c[i]) + (c'[j] - c[j]) := by ring
  have h5 : ‖c[i] - c[j]‖ ≤ ‖c'[i] - c'[j]‖ + ‖c'[i] - c[i]‖ + ‖c'[j] - c[j]‖ := by
    rw [h4]
    exact (norm_add_le _ _).trans (by gcongr; exact norm_sub_le _ _)
  linarith

/-- C134, rounded constellations: a modem whose points are those of the PSK modem with `2^b` points, each stored with an error of at most
`ε`: noise of magnitude at most `r`, `r ((1 + u) (1 + v) + (1 - u) (1 - v)) < (2 sin (π / 2^b) - 2 ε) (1 - u) (1 - v)`, does no harm. -/
theorem C134_psk (b : Nat) (hb1 : 1 ≤ b) : ∃ s0, pskModem (2 ^ b) = .ok s0 ∧
    ∀ s : Modem, s.Consistent → s.constellation.length = 2 ^ b → ∀ ε r : ℝ, (∀ i < 2 ^ b, ‖s.constellation.getD i 0 - s0.constellation.getD i 0‖ ≤ ε) →
    ∀ (u v : ℝ) D, DemodAccuracy u v D → 0 ≤ u → u < 1 → 0 ≤ v → v < 1 →
      r * ((1 + u) * (1 + v) + (1 - u) * (1 - v)) < (2 * Real.sin (Real.pi / (2 ^ b : ℕ)) - 2 * ε) * ((1 - u) * (1 - v)) →
      ∀ bits : List Nat, (∀ x ∈ bits, x < 2) → bits ≠ [] → b ∣ bits.length →
        ∃ syms, modulate s bits = .ok syms ∧ syms.length * b = bits.length ∧
          ∀ ys : List ℂ, ys.length = syms.length → (∀ i < syms.length, ‖ys.getD i 0 - syms.getD i 0‖ ≤ r) → demodHardF D s ys = .ok bits := by
  obtain ⟨s0, s1, s2, s3, s4⟩ := C93_psk b hb1
  refine ⟨s0, s1, fun s hs hlen ε r hε u v D hD hu0 hu hv0 hv hr bits hb hne hl => ?_⟩
  have hlen0 : s0.constellation.length = 2 ^ b := by rw [s2.len, s3]
  have hsb : s.nbits = b := by
    have h1 := hs.len
    rw [hlen] at h1
    exact (Nat.pow_right_injective (le_refl 2) h1).symm
  have hm : 2 ≤ s.m := by
    rw [hs.pow, hsb]
    calc 2 = 2 ^ 1 := rfl
      _ ≤ 2 ^ b := Nat.pow_le_pow_right (by norm_num) hb1
  have := C134_noise hs hm (s4.stored (by rw [hlen, hlen0]) (by rw [hlen0]; exact hε)) hD hu0 hu hv0 hv hr hb hne (by rw [hsb]; exact hl)
  rwa [hsb] at this

open MeasureTheory ProbabilityTheory

/-- Gaussian noise of standard deviation `σ` per component leaves the disk of radius `R` around some of `n` symbols. -/
theorem disk_tail {Ω : Type*} [MeasurableSpace Ω] {P : Measure Ω} {z : Ω → ℕ → ℝ} (hz : IndepNormalDraws P z) (n : Nat) {σ R : ℝ} (hσ : 0 < σ) (hR : 0 ≤ R) :
    P {ω | ∃ i < n, R < ‖(((σ * z ω i : ℝ) : ℂ) + ((σ * z ω (n + i) : ℝ) : ℂ) * Complex.I)‖} ≤ ENNReal.ofReal (n * Real.exp (-(R ^ 2 / (2 * σ ^ 2)))) := by
  have hset : {ω | ∃ i < n, R < ‖(((σ * z ω i : ℝ) : ℂ) + ((σ * z ω (n + i) : ℝ) : ℂ) * Complex.I)‖} =
      ⋃ i ∈ Finset.range n, {ω | (R / σ) ^ 2 < z ω i ^ 2 + z ω (n + i) ^ 2} := by
    ext ω
    simp only [Set.mem_ofPred_eq, Set.mem_iUnion, Finset.mem_range, exists_prop]
    refine exists_congr fun i => and_congr_right fun _ => ?_
    rw [norm_eq_sqrt_re_im, Real.lt_sqrt hR]
    simp only [Complex.add_re, Complex.add_im, Complex.ofReal_re, Complex.ofReal_im, Complex.mul_re, Complex.mul_im, Complex.I_re, Complex.I_im]
    rw [div_pow, div_lt_iff₀ (by positivity)]
    ring_nf
  rw [hset]
  refine (measure_biUnion_finset_le _ _).trans ?_
  have h1 : ∀ i ∈ Finset.range n, P {ω | (R / σ) ^ 2 < z ω i ^ 2 + z ω (n + i) ^ 2} = ENNReal.ofReal (Real.exp (-(R ^ 2 / (2 * σ ^ 2)))) := by
    intro i hi
    have hne : i ≠ n + i := by have := Finset.mem_range.1 hi; omega
    rw [circle_tail (hz.1 i) (hz.1 (n + i)) (hz.2 i (n + i) hne) (by positivity)]
    congr 2
    rw [div_pow]
    field_simp
  rw [Finset.sum_congr rfl h1, Finset.sum_const, Finset.card_range, nsmul_eq_mul, ENNReal.ofReal_mul (by positivity), ENNReal.ofReal_natCast]

/-- C134, error rate over `awgn`: modulated bits sent through `awgn` at `snrDb` dB, and received symbols that are computed with an error of
at most `δ`, demodulated in floating point.  The probability that any bit is wrong, whatever these errors are, is at most
`N exp (-(r - δ)^2 rate 10^(snrDb/10) / E)` for `N` symbols of mean energy `E`, where `r` is the noise margin of `C134_noise`. -/
theorem C134_awgn {s : Modem} (hs : s.Consistent) (hm : 2 ≤ s.m) {d r δ : ℝ} (hd : Separated s.constellation d)
    (hD : DemodAccuracy u v D) (hu0 : 0 ≤ u) (hu : u < 1) (hv0 : 0 ≤ v) (hv : v < 1)
    (hr : r * ((1 + u) * (1 + v) + (1 - u) * (1 - v)) < d * ((1 - u) * (1 - v))) (hδ : δ ≤ r) {bits : List Nat}
    (hb : ∀ x ∈ bits, x < 2) (hne : bits ≠ []) (hl : s.nbits ∣ bits.length) :
    ∃ syms, modulate s bits = .ok syms ∧ syms.length * s.nbits = bits.length ∧
      ∀ {Ω : Type*} [MeasurableSpace Ω] {P : Measure Ω} {z : Ω → ℕ → ℝ}, IndepNormalDraws P z → ∀ snrDb rate : ℝ, 0 < rate → 0 < meanEnergy syms →
        ∃ ys : Ω → List ℂ, (∀ ω, awgn (.cplx syms) snrDb rate (z ω) = .ok (ys ω)) ∧
          P {ω | ∃ ys' : List ℂ, ys'.length = (ys ω).length ∧ (∀ i < ys'.length, ‖ys'.getD i 0 - (ys ω).getD i 0‖ ≤ δ) ∧ demodHardF D s ys' ≠ .ok bits} ≤
            ENNReal.ofReal (syms.length * Real.exp (-((r - δ) ^ 2 * (rate * (10 : ℝ) ^ (snrDb / 10) / meanEnergy syms)))) := by
  obtain ⟨syms, m1, m2, m3⟩ := C134_noise hs hm hd hD hu0 hu hv0 hv hr hb hne hl
  refine ⟨syms, m1, m2, ?_⟩
  have hsne : syms ≠ [] := by
    rintro rfl
    simp at m2
    exact hne (List.length_eq_zero_iff.1 m2.symm)
  intro Ω _ P z hz snrDb rate hr hE
  have htoC : (Signal.cplx syms).toC = syms := rfl
  set σ2 := meanEnergy syms / (2 * rate * (10 : ℝ) ^ (snrDb / 10)) with hσ2
  have hpow : (0 : ℝ) < (10 : ℝ) ^ (snrDb / 10) := Real.rpow_pos_of_pos (by norm_num) _
  have hσpos : 0 < σ2 := by positivity
  refine ⟨fun ω => List.zipWith (fun a b => a + b) syms ((List.range syms.length).map (awgnNoise true σ2 syms.length (z ω))), ?_, ?_⟩
  · intro ω
    unfold awgn
    rw [if_neg (by rw [htoC]; exact hsne)]
    simp only [htoC, Signal.isComplex]
    congr 4
    rw [hσ2, meanEnergy]
    simp only [← pow_two]
  · have hb2 := disk_tail hz syms.length (Real.sqrt_pos.2 hσpos) (R := r - δ) (by linarith)
    rw [Real.sq_sqrt hσpos.le] at hb2
    have he : (r - δ) ^ 2 / (2 * σ2) = (r - δ) ^ 2 * (rate * (10 : ℝ) ^ (snrDb / 10) / meanEnergy syms) := by
      rw [hσ2]; field_simp
    rw [he] at hb2
    refine le_trans (measure_mono ?_) hb2
    rintro ω ⟨ys', l1, l2, l3⟩
    by_contra hcon
    apply l3
    have hlen : ys'.length = syms.length := by rw [l1]; simp
    apply m3 ys' hlen
    intro i hi
    have hcon : ¬ ∃ i < syms.length, r - δ < ‖(((Real.sqrt σ2 * z ω i : ℝ) : ℂ) + ((Real.sqrt σ2 * z ω (syms.length + i) : ℝ) : ℂ) * Complex.I)‖ := hcon
    push Not at hcon
    have c1 := hcon i hi
    have c2 := l2 i (by rw [hlen]; exact hi)
    rw [getD_zipWith_add (by simp) hi, List.getD_eq_getElem (l := List.map _ _) _ (by simpa using hi), List.getElem_map,
      List.getElem_range] at c2
    have e : awgnNoise true σ2 syms.length (z ω) i = ((Real.sqrt σ2 * z ω i : ℝ) : ℂ) + ((Real.sqrt σ2 * z ω (syms.length + i) : ℝ) : ℂ) * Complex.I := by
      simp only [awgnNoise, if_true]
      push_cast
      ring
    rw [e] at c2
    have e2 : ys'.getD i 0 - syms.getD i 0 = (ys'.getD i 0 - (syms.getD i 0 + (((Real.sqrt σ2 * z ω i : ℝ) : ℂ) + ((Real.sqrt σ2 * z ω (syms.length + i) : ℝ) : ℂ) * Complex.I))) +
        (((Real.sqrt σ2 * z ω i : ℝ) : ℂ) + ((Real.sqrt σ2 * z ω (syms.length + i) : ℝ) : ℂ) * Complex.I) := by ring
    rw [e2]
    refine (norm_add_le _ _).trans ?_
    linarith

/-- The contract is met by rounding to 53 significant bits, with an exactly rounded square root and square sums. -/
theorem demodFloats_exist : DemodAccuracy ((2 : ℝ) ^ (-53 : ℤ)) ((2 : ℝ) ^ (-52 : ℤ))
    ⟨fun a b => rnd53 (a - b), fun a b => rnd53 (Real.sqrt (a ^ 2 + b ^ 2))⟩ where
  sub a b := rnd53_isRounding.err _
  hypot a b := by
    have h := rnd53_isRounding.err (Real.sqrt (a ^ 2 + b ^ 2))
    rw [abs_of_nonneg (Real.sqrt_nonneg _)] at h
    refine h.trans (mul_le_mul_of_nonneg_right ?_ (Real.sqrt_nonneg _))
    norm_num

/-- 16-QAM: the hypotheses of `C134_awgn` are met, with the margin `r = 1 - 2^-51`. -/
example : ∃ s, qamModem (4 ^ 2) = .ok s ∧ s.Consistent ∧ 2 ≤ s.m ∧ Separated s.constellation 2 ∧ s.nbits = 4 ∧
    (1 - (2 : ℝ) ^ (-51 : ℤ)) * ((1 + (2 : ℝ) ^ (-53 : ℤ)) * (1 + (2 : ℝ) ^ (-52 : ℤ)) + (1 - (2 : ℝ) ^ (-53 : ℤ)) * (1 - (2 : ℝ) ^ (-52 : ℤ))) <
      2 * ((1 - (2 : ℝ) ^ (-53 : ℤ)) * (1 - (2 : ℝ) ^ (-52 : ℤ))) := by
  obtain ⟨s, s1, s2, s3, s4⟩ := C93_qam 2 (by norm_num)
  exact ⟨s, s1, s2, by rw [s2.pow, s3]; norm_num, s4, s3, by norm_num⟩

/-- QPSK with points stored with an error of `10^-3`: a noise magnitude of 0.6 meets the condition of `C134_psk`. -/
example : (6 / 10 : ℝ) * ((1 + (2 : ℝ) ^ (-53 : ℤ)) * (1 + (2 : ℝ) ^ (-52 : ℤ)) + (1 - (2 : ℝ) ^ (-53 : ℤ)) * (1 - (2 : ℝ) ^ (-52 : ℤ))) <
    (2 * Real.sin (Real.pi / (2 ^ 2 : ℕ)) - 2 * (1 / 1000)) * ((1 - (2 : ℝ) ^ (-53 : ℤ)) * (1 - (2 : ℝ) ^ (-52 : ℤ))) := by
  have h : Real.sin (Real.pi / (2 ^ 2 : ℕ)) = Real.sqrt 2 / 2 := by
    rw [← Real.sin_pi_div_four]; norm_num
  rw [h]
  have h2 : (1.414 : ℝ) < Real.sqrt 2 := by rw [Real.lt_sqrt (by norm_num)]; norm_num
  have : (1.412 : ℝ) * ((1 - (2 : ℝ) ^ (-53 : ℤ)) * (1 - (2 : ℝ) ^ (-52 : ℤ))) ≤ (2 * (Real.sqrt 2 / 2) - 2 * (1 / 1000)) * ((1 - (2 : ℝ) ^ (-53 : ℤ)) * (1 - (2 : ℝ) ^ (-52 : ℤ))) := by
    apply mul_le_mul_of_nonneg_right _ (by norm_num)
    linarith
  refine lt_of_lt_of_le ?_ this
  norm_num

end Verif
