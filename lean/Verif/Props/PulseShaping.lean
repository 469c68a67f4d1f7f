import Verif.Props.UtilitiesReal
import Verif.Props.Filters
import Mathlib.Data.List.GetD
import Mathlib.Analysis.Real.Pi.Bounds
/-
C116: upsampling followed by a raised cosine pulse (the transmit filter of a linear modulation) has no intersymbol
interference.
-/
namespace Verif

/-- Specification of `numpy.convolve(a, b)` ('full', non-empty arrays): entry `m` is `Σ_k a[k] b[m-k]`. -/
noncomputable def fullConv (a b : List ℂ) : List ℂ :=
  (List.range (a.length + b.length - 1)).map fun m => ∑ k ∈ Finset.range (m + 1), a.getD k 0 * b.getD (m - k) 0

theorem fullConv_get {a b : List ℂ} {m : Nat} (hm : m < a.length + b.length - 1) :
    (fullConv a b)[m]? = some (∑ k ∈ Finset.range (m + 1), a.getD k 0 * b.getD (m - k) 0) := by
  unfold fullConv
  rw [List.getElem?_map, List.getElem?_range hm]
  rfl

/-- C116: for an even number `N` of taps and an integral number `L = Fs * Ts` of samples per symbol, sample `N/2 + L*i` of the
filtered signal is symbol `i`, for every list of symbols and every roll-off. -/
theorem C116_isi_free (junk : Nat → ℂ) (s : List ℂ) (N L : Nat) (alpha Ts Fs : ℝ) (hT : 0 < Ts) (hF : 0 < Fs) (hN : 2 ∣ N)
    (hN0 : 0 < N) (hL : 1 ≤ L) (hr : Fs * Ts = L) :
    ∃ time h y, rcosfilter N alpha Ts Fs = .ok (time, h) ∧ upsample junk s L = .ok y ∧
      ∀ i (hi : i < s.length), (fullConv y (h.map (fun (r : ℝ) => (r : ℂ))))[N / 2 + L * i]? = some s[i] := by
  obtain ⟨time, h, h1, h2, h3, h4, h5, h6, -⟩ := C18_rcos N alpha Ts Fs hT hF
  obtain ⟨y, y1, y2, y3, y4⟩ := C08_upsample junk s L hL
  refine ⟨time, h, y, h1, y1, ?_⟩
  intro i hi
  obtain ⟨H, rfl⟩ := hN
  rw [Nat.mul_div_cancel_left _ (by omega)] at *
  have hi' : L * i + L ≤ L * s.length := by
    calc L * i + L = L * (i + 1) := by ring
      _ ≤ L * s.length := Nat.mul_le_mul_left _ hi
  rw [fullConv_get (by rw [y2, List.length_map, h3]; omega)]
  congr 1
  have hget : ∀ p (a : ℝ), h[p]? = some a → (h.map (fun (r : ℝ) => (r : ℂ))).getD p 0 = (a : ℂ) := by
    intro p a ha
    rw [List.getD_eq_getElem?_getD, List.getElem?_map, ha]
    rfl
  have hc : h[H]? = some 1 := by
    apply h5 H (by omega)
    rw [h4 H (by omega)]
    congr 1
    push_cast
    rw [show (H : ℝ) - 2 * H / 2 = 0 by ring, zero_div]
  rw [Finset.sum_eq_single (L * i)]
  · rw [show H + L * i - L * i = H by omega, hget H 1 hc]
    rw [List.getD_eq_getElem?_getD, y3 i hi]
    simp
  · intro k hk hne
    rw [Finset.mem_range] at hk
    by_cases hd : L ∣ k
    · obtain ⟨q, rfl⟩ := hd
      have hqi : q ≠ i := fun e => hne (by rw [e])
      by_cases hout : 2 * H ≤ H + L * i - L * q
      · rw [List.getD_eq_default (h.map (fun (r : ℝ) => (r : ℂ))) _ (by rw [List.length_map, h3]; exact hout), mul_zero]
      · have hz : h[H + L * i - L * q]? = some 0 := by
          apply h6 _ (by omega) ((i : ℤ) - q) (by omega)
          rw [h4 _ (by omega)]
          congr 1
          rw [Nat.cast_sub (by omega)]
          push_cast
          rw [div_eq_iff hF.ne']
          rw [mul_assoc, mul_comm Ts Fs, hr]
          ring
        rw [hget _ 0 hz]
        simp
    · by_cases hk2 : k < L * s.length
      · rw [List.getD_eq_getElem?_getD, y4 k hk2 hd]
        simp
      · rw [List.getD_eq_default _ _ (by rw [y2]; omega), zero_mul]
  · intro hn
    exact absurd (Finset.mem_range.2 (by omega)) hn

/-- An odd number of taps: the grid misses `t = 0`, and the symbol is scaled (by `2/π` here). -/
theorem C116_odd_refuted (junk : Nat → ℂ) :
    ∃ time h y, rcosfilter 1 0 1 1 = .ok (time, h) ∧ upsample junk [1] 1 = .ok y ∧
      fullConv y (h.map (fun (r : ℝ) => (r : ℂ))) = [((2 / Real.pi : ℝ) : ℂ)] ∧ ((2 / Real.pi : ℝ) : ℂ) ≠ 1 := by
  obtain ⟨y, y1, y2, y3, -⟩ := C08_upsample junk [1] 1 (le_refl _)
  refine ⟨_, _, y, rcosfilter_ok 1 0 1 1 one_ne_zero, y1, ?_, ?_⟩
  · have hy : y = [1] := by
      have h0 := y3 0 (by simp)
      match y, y2 with
      | [a], _ => simpa using h0
    rw [hy]
    have ht : rcosTap 0 1 (filterTime 1 1 0) = 2 / Real.pi := by
      have h12 : filterTime 1 1 0 = -(1 / 2) := by unfold filterTime; norm_num
      rw [h12, rcosTap_even]
      unfold rcosTap rcosGeneral
      rw [if_neg (by norm_num), if_neg (by norm_num), if_neg (by norm_num)]
      simp only [mul_zero, zero_mul, Real.cos_zero, div_one, sub_zero, mul_one]
      rw [show Real.pi * (1 / 2) = Real.pi / 2 by ring, Real.sin_pi_div_two]
      field_simp
    simp [fullConv, ht]
  · intro h
    have h' : (2 / Real.pi : ℝ) = 1 := by exact_mod_cast h
    rw [div_eq_one_iff_eq Real.pi_ne_zero] at h'
    have := Real.pi_gt_three
    linarith

/-- Eight samples per symbol, 64 taps, roll-off 1/4. -/
example (junk : Nat → ℂ) (s : List ℂ) : ∃ time h y, rcosfilter 64 (1 / 4) 2 4 = .ok (time, h) ∧ upsample junk s 8 = .ok y ∧
    ∀ i (hi : i < s.length), (fullConv y (h.map (fun (r : ℝ) => (r : ℂ))))[64 / 2 + 8 * i]? = some s[i] :=
  C116_isi_free junk s 64 8 (1 / 4) 2 4 (by norm_num) (by norm_num) (by decide) (by decide) (by decide) (by norm_num)

end Verif
