import Verif.Model.ZcFloat
import Verif.Props.FilterFloat
import Verif.Props.Sequences
import Mathlib.Analysis.Real.Pi.Bounds
/-
C139: the Zadoff-Chu sequence in double precision.
-/
namespace Verif
open Complex ComplexConjugate

variable {F : FilterFloats}

theorem int_exact (h : FilterAccuracy F) (z : Int) (hz : |z| ≤ 2 ^ 53) : F.fl (z : ℝ) = z := fl_exact h.round (isDouble_int z hz)

/-- The phase of a sample. -/
noncomputable def zcPhase (u N q : Int) (n : Nat) : ℝ := Real.pi * u * n * (n + ((N % 2 : Int) : ℝ) + 2 * q) / N

/-- The computed phase: at most six roundings. -/
theorem zcPhase_rel (h : FilterAccuracy F) {u N q : Int} {n : Nat} (hN : 0 < N) (hn : (n : Int) < N) (hN2 : N ≤ 2 ^ 51) (hq : |q| ≤ 2 ^ 51) :
    Rel 6 (-zcPhase u N q n) (F.fl (F.fl (F.fl (F.fl (-F.pi * u) * n) * F.fl (((n : Int) + N % 2 : Int) + F.fl (2 * q))) * F.fl (1 / N))) := by
  obtain ⟨q1, q2⟩ := abs_le.1 hq
  have e1 : F.fl (2 * (q : ℝ)) = ((2 * q : Int) : ℝ) := by
    rw [← int_exact h (2 * q) (by rw [abs_le]; constructor <;> omega)]; push_cast; rfl
  have e2 : F.fl (((n : Int) + N % 2 : Int) + F.fl (2 * (q : ℝ))) = n + ((N % 2 : Int) : ℝ) + 2 * q := by
    have hm1 := Int.emod_nonneg N (show (2 : Int) ≠ 0 by norm_num)
    have hm2 := Int.emod_lt_of_pos N (show (0 : Int) < 2 by norm_num)
    have := int_exact h ((n : Int) + N % 2 + 2 * q) (by rw [abs_le]; constructor <;> omega)
    rw [e1]
    push_cast at this ⊢
    exact this
  rw [e2]
  have hpi : Rel 1 (-Real.pi) (-F.pi) := by
    rw [h.pi]; exact rel_neg (rel_fl h.round _)
  have := rel_fl' h (rel_mul (rel_fl' h (rel_mul (rel_fl' h (rel_mul (rel_fl' h (rel_mul hpi (rel_self (u : ℝ)))) (rel_self (n : ℝ))))
    (rel_self ((n : ℝ) + ((N % 2 : Int) : ℝ) + 2 * q)))) (rel_fl h.round (1 / (N : ℝ))))
  have e : -zcPhase u N q n = -Real.pi * u * n * (n + ((N % 2 : Int) : ℝ) + 2 * q) * (1 / N) := by unfold zcPhase; ring
  rw [e]
  exact rel_mono this (by norm_num)

theorem norm_exp_sub (a b : ℝ) : ‖exp (a * I) - exp (b * I)‖ ≤ |a - b| := by
  have e : exp (a * I) - exp (b * I) = exp (b * I) * (exp (I * ((a - b : ℝ) : ℂ)) - 1) := by
    rw [mul_sub, ← exp_add, mul_one]
    congr 2
    push_cast; ring
  rw [e, norm_mul, norm_exp_ofReal_mul_I, one_mul]
  have := Real.norm_exp_I_mul_ofReal_sub_one_le (x := a - b)
  rwa [Real.norm_eq_abs] at this

/-- Sine and cosine of the library: a number close to the unit circle, whatever the argument. -/
theorem cis_err (h : FilterAccuracy F) {φ : ℝ} (hφ : IsDouble φ) : ‖(⟨F.cos φ, F.sin φ⟩ : ℂ) - exp (φ * I)‖ ≤ 1 / 2 ^ 50 := by
  obtain ⟨-, hs⟩ := h.sin φ hφ
  obtain ⟨-, hc⟩ := h.cos φ hφ
  have e : (⟨F.cos φ, F.sin φ⟩ : ℂ) - exp (φ * I) = ⟨F.cos φ - Real.cos φ, F.sin φ - Real.sin φ⟩ := by
    apply Complex.ext
    · rw [sub_re, exp_ofReal_mul_I_re]
    · rw [sub_im, exp_ofReal_mul_I_im]
  rw [e, norm_def]
  refine Real.sqrt_le_iff.2 ⟨by positivity, ?_⟩
  rw [normSq_mk, ← sq, ← sq, ← sq_abs (F.cos φ - _), ← sq_abs (F.sin φ - _)]
  have h1 := pow_le_pow_left₀ (abs_nonneg _) hc 2
  have h2 := pow_le_pow_left₀ (abs_nonneg _) hs 2
  rw [mul_pow, sq_abs (Real.cos φ)] at h1
  rw [mul_pow, sq_abs (Real.sin φ)] at h2
  have h3 := Real.sin_sq_add_cos_sq φ
  nlinarith [h1, h2, h3]

/-- The error of a sample. -/
theorem zcSampleF_err (h : FilterAccuracy F) {u N q : Int} {n : Nat} (hN : 0 < N) (hn : (n : Int) < N) (hN2 : N ≤ 2 ^ 51) (hq : |q| ≤ 2 ^ 51) :
    ‖zcSampleF F u N q n - zcSample u N q n‖ ≤ 1 / 2 ^ 50 + 7 / 2 ^ 53 * |zcPhase u N q n| := by
  have hr := rel_abs (by norm_num) (zcPhase_rel (u := u) h hN hn hN2 hq)
  have hd := cis_err h (h.round.double (F.fl (F.fl (F.fl (-F.pi * u) * n) * F.fl (((n : Int) + N % 2 : Int) + F.fl (2 * q))) * F.fl (1 / N)))
  unfold zcSampleF
  dsimp only
  set φ := F.fl (F.fl (F.fl (F.fl (-F.pi * u) * n) * F.fl (((n : Int) + N % 2 : Int) + F.fl (2 * q))) * F.fl (1 / N)) with hφ
  clear_value φ
  have e : zcSample u N q n = exp (((-zcPhase u N q n : ℝ) : ℂ) * I) := by
    unfold zcSample zcPhase; push_cast; rfl
  rw [e]
  have h1 := norm_exp_sub φ (-zcPhase u N q n)
  have h2 := norm_sub_le_norm_sub_add_norm_sub (⟨F.cos φ, F.sin φ⟩ : ℂ) (exp (φ * I)) (exp (((-zcPhase u N q n : ℝ) : ℂ) * I))
  rw [abs_neg] at hr
  have h3 : 1.001 * 6 * vu * |zcPhase u N q n| ≤ 7 / 2 ^ 53 * |zcPhase u N q n| := by
    refine mul_le_mul_of_nonneg_right ?_ (abs_nonneg _)
    have := vu_le
    have h4 : 1.001 * 6 * vu ≤ 1.001 * 6 * (1.001 / 2 ^ 53) := mul_le_mul_of_nonneg_left this (by norm_num)
    refine h4.trans (by norm_num)
  linarith

theorem zcsequenceF_eq {u N q : Int} (h1 : 0 < u) (h2 : u < N) (h3 : Int.gcd u N = 1) :
    zcsequenceF F u N q = .ok ((List.range N.toNat).map (zcSampleF F u N q)) := by
  unfold zcsequenceF
  rw [if_neg (by omega), if_neg (by omega), if_neg (by omega)]

/-- **C139**, amplitude and accuracy: in double precision the sequence has amplitude one up to 2^-50, whatever the arguments; and each sample is within
`2^-50 + 7/2^53 |phase|` of the exact one, where the phase of sample `n` is `π u n (n + cf + 2 q) / N`. -/
theorem C139_samples (h : FilterAccuracy F) (u N q : Int) (h1 : 0 < u) (h2 : u < N) (h3 : Int.gcd u N = 1) :
    ∃ zF z, zcsequenceF F u N q = .ok zF ∧ zcsequence u N q = .ok z ∧ (zF.length : Int) = N ∧ (∀ x ∈ zF, |‖x‖ - 1| ≤ 1 / 2 ^ 50) ∧
      (N ≤ 2 ^ 51 → |q| ≤ 2 ^ 51 → ∀ n : Nat, (n : Int) < N →
        ‖zF.getD n 0 - z.getD n 0‖ ≤ 1 / 2 ^ 50 + 7 / 2 ^ 53 * |Real.pi * u * n * (n + ((N % 2 : Int) : ℝ) + 2 * q) / N|) := by
  refine ⟨_, _, zcsequenceF_eq h1 h2 h3, zcsequence_eq u N q h1 h2 h3, by simp; omega, ?_, ?_⟩
  · intro x hx
    obtain ⟨n, -, rfl⟩ := List.mem_map.1 hx
    have hd := cis_err h (h.round.double (F.fl (F.fl (F.fl (-F.pi * u) * n) * F.fl (((n : Int) + N % 2 : Int) + F.fl (2 * q))) * F.fl (1 / N)))
    refine le_trans ?_ hd
    have := abs_norm_sub_norm_le (zcSampleF F u N q n) (exp ((F.fl (F.fl (F.fl (F.fl (-F.pi * u) * n) * F.fl (((n : Int) + N % 2 : Int) + F.fl (2 * q))) * F.fl (1 / N)) : ℝ) * I))
    rw [norm_exp_ofReal_mul_I] at this
    exact this
  · intro hN hq n hn
    have hn' : n < N.toNat := by omega
    rw [List.getD_eq_getElem?_getD, List.getD_eq_getElem?_getD, List.getElem?_map, List.getElem?_map, List.getElem?_range hn', Option.map_some, Option.map_some,
      Option.getD_some, Option.getD_some]
    exact zcSampleF_err h (by omega) hn hN hq

/-- The error for a shift within the length: at most `N²/2^46`. -/
theorem zc_eps {u N q : Int} (h1 : 0 < u) (h2 : u < N) (hq0 : 0 ≤ q) (hqN : q < N) {n : Nat} (hn : (n : Int) < N) :
    1 / 2 ^ 50 + 7 / 2 ^ 53 * |zcPhase u N q n| ≤ (N : ℝ) ^ 2 / 2 ^ 46 := by
  have hN : (2 : ℝ) ≤ N := by exact_mod_cast (show (2 : Int) ≤ N by omega)
  have hu0 : (0 : ℝ) ≤ u := by exact_mod_cast h1.le
  have hu : (u : ℝ) ≤ N := by exact_mod_cast h2.le
  have hnn : (n : ℝ) ≤ N := by exact_mod_cast hn.le
  have hm1 := Int.emod_nonneg N (show (2 : Int) ≠ 0 by norm_num)
  have hm2 := Int.emod_lt_of_pos N (show (0 : Int) < 2 by norm_num)
  have hb0 : (0 : ℝ) ≤ n + ((N % 2 : Int) : ℝ) + 2 * q := by
    have : (0 : ℝ) ≤ ((N % 2 : Int) : ℝ) := by exact_mod_cast hm1
    have : (0 : ℝ) ≤ (q : ℝ) := by exact_mod_cast hq0
    positivity
  have hb : (n : ℝ) + ((N % 2 : Int) : ℝ) + 2 * q ≤ 3 * N := by
    have : (n : Int) + N % 2 + 2 * q ≤ 3 * N := by omega
    exact_mod_cast this
  have hpi := Real.pi_pos
  have hph : |zcPhase u N q n| ≤ Real.pi * (3 * N ^ 2) := by
    unfold zcPhase
    rw [abs_of_nonneg (by positivity), div_le_iff₀ (by linarith)]
    have a1 : (u : ℝ) * n ≤ N * N := mul_le_mul hu hnn (by positivity) (by linarith)
    have a2 : (u : ℝ) * n * (n + ((N % 2 : Int) : ℝ) + 2 * q) ≤ N * N * (3 * N) := mul_le_mul a1 hb hb0 (by positivity)
    have a3 := mul_le_mul_of_nonneg_left a2 hpi.le
    linarith
  have h314 := Real.pi_lt_d2
  have : 7 / 2 ^ 53 * |zcPhase u N q n| ≤ 7 / 2 ^ 53 * (3.15 * (3 * N ^ 2)) := by
    refine mul_le_mul_of_nonneg_left (hph.trans (mul_le_mul_of_nonneg_right h314.le (by positivity))) (by norm_num)
  have h4 : (4 : ℝ) ≤ N ^ 2 := by nlinarith
  linarith

/-- **C139**, autocorrelation: for a shift within the length and `N ≤ 2^23` the cyclic autocorrelation of the double-precision sequence is `N` at multiples of the length
and zero elsewhere, up to `3 N³/2^46`. -/
theorem C139_autocorrelation (h : FilterAccuracy F) (u N q τ : Int) (h1 : 0 < u) (h2 : u < N) (h3 : Int.gcd u N = 1) (hN : N ≤ 2 ^ 23) (hq0 : 0 ≤ q) (hqN : q < N) :
    ∃ z, zcsequenceF F u N q = .ok z ∧
      ‖∑ n ∈ Finset.range z.length, z.getD (((n : Int) + τ) % N).toNat 0 * conj (z.getD n 0) - (if N ∣ τ then (N : ℂ) else 0)‖ ≤ 3 * (N : ℝ) ^ 3 / 2 ^ 46 := by
  obtain ⟨z, hz, hc⟩ := C15_zc_autocorrelation u N q τ h1 h2 h3
  obtain ⟨zF, z', hzF, hz', hl, -, herr⟩ := C139_samples h u N q h1 h2 h3
  rw [hz] at hz'
  obtain rfl := Except.ok.inj hz'
  refine ⟨zF, hzF, ?_⟩
  have hlz : (z.length : Int) = N := by
    rw [zcsequence_eq u N q h1 h2 h3] at hz
    rw [← Except.ok.inj hz]
    simp; omega
  have hll : zF.length = z.length := by omega
  rw [← hc, hll, ← Finset.sum_sub_distrib]
  have hz1 : ∀ m : Nat, (m : Int) < N → ‖z.getD m 0‖ = 1 := by
    intro m hm
    have hm' : m < N.toNat := by omega
    rw [zcsequence_eq u N q h1 h2 h3] at hz
    rw [← Except.ok.inj hz, List.getD_eq_getElem?_getD, List.getElem?_map, List.getElem?_range hm', Option.map_some, Option.getD_some]
    unfold zcSample
    rw [norm_exp_ofReal_mul_I]
  set ε : ℝ := (N : ℝ) ^ 2 / 2 ^ 46 with hε
  have hNr : (N : ℝ) ≤ 2 ^ 23 := by exact_mod_cast hN
  have hN0 : (0 : ℝ) ≤ N := by exact_mod_cast (show (0 : Int) ≤ N by omega)
  have hε0 : 0 ≤ ε := by positivity
  have hε1 : ε ≤ 1 := by
    rw [hε, div_le_one (by positivity)]
    have := pow_le_pow_left₀ hN0 hNr 2
    norm_num at this ⊢
    exact this
  have herr' : ∀ m : Nat, (m : Int) < N → ‖zF.getD m 0 - z.getD m 0‖ ≤ ε := by
    intro m hm
    exact (herr (by omega) (by rw [abs_le]; constructor <;> omega) m hm).trans (zc_eps h1 h2 hq0 hqN hm)
  have hterm : ∀ n ∈ Finset.range z.length, ‖zF.getD (((n : Int) + τ) % N).toNat 0 * conj (zF.getD n 0) - z.getD (((n : Int) + τ) % N).toNat 0 * conj (z.getD n 0)‖ ≤ 3 * ε := by
    intro n hn
    have hn' : (n : Int) < N := by have := Finset.mem_range.1 hn; omega
    have hm1 := Int.emod_nonneg ((n : Int) + τ) (show N ≠ 0 by omega)
    have hm2 := Int.emod_lt_of_pos ((n : Int) + τ) (show 0 < N by omega)
    have hm : (((((n : Int) + τ) % N).toNat : Nat) : Int) < N := by omega
    generalize (((n : Int) + τ) % N).toNat = m at hm
    have ha := herr' m hm
    have hb := herr' n hn'
    have h1 := hz1 m hm
    have h2 := hz1 n hn'
    have e : zF.getD m 0 * conj (zF.getD n 0) - z.getD m 0 * conj (z.getD n 0) =
        (zF.getD m 0 - z.getD m 0) * conj (zF.getD n 0 - z.getD n 0) + (zF.getD m 0 - z.getD m 0) * conj (z.getD n 0) + z.getD m 0 * conj (zF.getD n 0 - z.getD n 0) := by
      rw [map_sub]; ring
    rw [e]
    refine (norm_add_le _ _).trans ((add_le_add (norm_add_le _ _) le_rfl).trans ?_)
    rw [norm_mul, norm_mul, norm_mul, RCLike.norm_conj, RCLike.norm_conj, h1, h2, mul_one, one_mul]
    have : ‖zF.getD m 0 - z.getD m 0‖ * ‖zF.getD n 0 - z.getD n 0‖ ≤ ε * 1 := mul_le_mul ha (hb.trans hε1) (norm_nonneg _) hε0
    linarith
  refine (norm_sum_le _ _).trans ((Finset.sum_le_sum hterm).trans ?_)
  rw [Finset.sum_const, Finset.card_range, nsmul_eq_mul]
  have : (z.length : ℝ) = N := by exact_mod_cast hlz
  rw [this, hε]
  apply le_of_eq
  ring

/-- np.pi. -/
theorem fl_pi (h : FilterAccuracy F) : F.pi = 884279719003555 / 281474976710656 := by
  rw [h.pi, fl_div h.round (m := 7074237752028440) (k := 51) (by norm_num) (by norm_num)
    (by rw [abs_lt]; constructor <;> nlinarith [Real.pi_gt_d20, Real.pi_lt_d20]) (Or.inl (by norm_num))]
  norm_num

/-- **C139 is false for arbitrary shifts**: `zcsequence(1, 4, 2**53 - 1)`, in exact arithmetic a cyclic shift of `zcsequence(1, 4)`, has a sample that is wrong by more
than 0.49, because the rounding error of `np.pi` is multiplied with 2^53. -/
theorem C139_refuted (h : FilterAccuracy F) : ∃ zF z, zcsequenceF F 1 4 (2 ^ 53 - 1) = .ok zF ∧ zcsequence 1 4 (2 ^ 53 - 1) = .ok z ∧ 0.49 < ‖zF.getD 2 0 - z.getD 2 0‖ := by
  refine ⟨_, _, zcsequenceF_eq (by norm_num) (by norm_num) (by decide), zcsequence_eq 1 4 (2 ^ 53 - 1) (by norm_num) (by norm_num) (by decide), ?_⟩
  rw [List.getD_eq_getElem?_getD, List.getD_eq_getElem?_getD, List.getElem?_map, List.getElem?_map, List.getElem?_range (by decide), Option.map_some, Option.map_some,
    Option.getD_some, Option.getD_some]
  have hz : zcSample 1 4 (2 ^ 53 - 1) ((2 : Nat) : Int) = 1 := by
    unfold zcSample
    rw [show (((-(Real.pi * (1 : Int) * (((2 : Nat) : Int) : ℝ) * ((((2 : Nat) : Int) : ℝ) + ((4 % 2 : Int) : ℝ) + 2 * ((2 ^ 53 - 1 : Int) : ℝ)) / (4 : Int)) : ℝ) : ℂ) * I) =
      (-(2 ^ 52 : Int) : Int) * (2 * Real.pi * I) by push_cast; norm_num; ring, exp_int_mul_two_pi_mul_I]
  rw [hz]
  have hpd : IsDouble F.pi := by rw [h.pi]; exact h.round.double _
  obtain ⟨mp, ep, hmp, hpe⟩ := hpd
  have hdbl : ∀ k : Int, F.fl (-(F.pi * 2 ^ k)) = -(F.pi * 2 ^ k) := by
    intro k
    refine fl_exact h.round (isDouble_neg ⟨mp, ep + k, hmp, ?_⟩)
    rw [hpe, zpow_add₀ (by norm_num), mul_assoc]
  have e1 : F.fl (-F.pi * ((1 : Int) : ℝ)) = -F.pi := by
    have := hdbl 0
    simpa using this
  have e2 : F.fl (-F.pi * ((2 : Nat) : ℝ)) = -(F.pi * 2 ^ (1 : Int)) := by
    rw [← hdbl 1]; congr 1; norm_num
  have e3 : F.fl (2 * ((2 ^ 53 - 1 : Int) : ℝ)) = 2 * (2 ^ 53 - 1) := by
    have := fl_exact h.round (y := 2 * (2 ^ 53 - 1)) ⟨2 ^ 53 - 1, 1, by norm_num, by norm_num⟩
    rw [← this]; congr 1; norm_num
  have e4 : F.fl (((((2 : Nat) : Int) + 4 % 2 : Int) : ℝ) + 2 * (2 ^ 53 - 1)) = 2 ^ 54 := by
    have := fl_exact h.round (y := 2 ^ 54) ⟨1, 54, by norm_num, by norm_num⟩
    rw [← this]; congr 1; norm_num
  have e5 : F.fl (-(F.pi * 2 ^ (1 : Int)) * 2 ^ 54) = -(F.pi * 2 ^ (55 : Int)) := by
    rw [← hdbl 55]; congr 1; norm_num; ring
  have e6 : F.fl (1 / ((4 : Int) : ℝ)) = 1 / 4 := by
    have := fl_exact h.round (y := 1 / 4) ⟨1, -2, by norm_num, by norm_num⟩
    rw [← this]; congr 1 <;> norm_num
  have e7 : F.fl (-(F.pi * 2 ^ (55 : Int)) * (1 / 4)) = -(F.pi * 2 ^ (53 : Int)) := by
    rw [← hdbl 53]; congr 1; norm_num; ring
  unfold zcSampleF
  dsimp only
  rw [e1, e2, e3, e4, e5, e6, e7]
  set φ := -(F.pi * 2 ^ (53 : Int)) with hφ
  have hd : IsDouble φ := by rw [hφ, ← hdbl 53]; exact h.round.double _
  obtain ⟨-, hc⟩ := h.cos φ hd
  have hcos : Real.cos φ ≤ 1 / 2 := by
    have e : Real.cos φ = Real.cos (2 ^ 53 * Real.pi - F.pi * 2 ^ (53 : Int)) := by
      have := Real.cos_add_int_mul_two_pi φ (2 ^ 52)
      rw [← this]
      congr 1
      push_cast
      rw [hφ]
      ring
    rw [e, ← Real.cos_pi_div_three, fl_pi h]
    have p1 := Real.pi_gt_d20
    have p2 := Real.pi_lt_d20
    refine Real.cos_le_cos_of_nonneg_of_le_pi (by positivity) ?_ ?_
    · norm_num; nlinarith
    · norm_num; nlinarith
  have hre : F.cos φ ≤ 0.505 := by
    obtain ⟨-, b⟩ := abs_le.1 hc
    have := mul_le_mul_of_nonneg_left (Real.abs_cos_le_one φ) (show (0 : ℝ) ≤ 1 / 2 ^ 50 by norm_num)
    have : (1 : ℝ) / 2 ^ 50 * 1 ≤ 0.005 := by norm_num
    linarith
  have := abs_re_le_norm ((⟨F.cos φ, F.sin φ⟩ : ℂ) - 1)
  rw [sub_re, one_re] at this
  have h3 := neg_abs_le (F.cos φ - 1)
  have h4 : (⟨F.cos φ, F.sin φ⟩ : ℂ).re = F.cos φ := rfl
  rw [h4] at this
  linarith

/-- C14, all kinds of numbers: the sequence exists exactly for an int root, an int length and an integer-valued shift (int or float) with the root positive, smaller than
the length and coprime to it; it is the one of C14; a float root or length raises a TypeError if it passes the comparisons, everything else a ValueError. -/
theorem C14_arguments (u N q : PyNum) :
    (∀ z, zcsequencePy u N q = .ok z ↔ ∃ a b c : Int, u = .int a ∧ N = .int b ∧ q.val = c ∧ 0 < a ∧ a < b ∧ Int.gcd a b = 1 ∧ zcsequence a b c = .ok z) ∧
    (zcsequencePy u N q = .error .typeError ↔ (u.isInt = false ∨ N.isInt = false) ∧ ∃ a b c : Int, u.val = a ∧ N.val = b ∧ q.val = c ∧ 0 < a ∧ a < b) := by
  have hden : ∀ x : ℚ, x.den = 1 ↔ ∃ z : Int, x = z := by
    intro x
    constructor
    · intro h; exact ⟨x.num, (Rat.den_eq_one_iff x).1 h |>.symm⟩
    · rintro ⟨z, rfl⟩; exact Rat.den_intCast z
  by_cases hint : u.val.den ≠ 1 ∨ N.val.den ≠ 1 ∨ q.val.den ≠ 1
  · have hv : zcsequencePy u N q = .error .valueError := by unfold zcsequencePy; rw [if_pos hint]
    rw [hv]
    refine ⟨fun z => ⟨fun h => (by cases h), ?_⟩, ⟨fun h => (by cases h), ?_⟩⟩
    · rintro ⟨a, b, c, rfl, rfl, hc, -⟩
      rw [hc] at hint
      simp [PyNum.val] at hint
    · rintro ⟨-, a, b, c, ha, hb, hc, -⟩
      rw [ha, hb, hc] at hint
      simp at hint
  · have hi := hint
    rw [not_or, not_or, not_not, not_not, not_not, hden, hden, hden] at hi
    obtain ⟨⟨a, ha⟩, ⟨b, hb⟩, ⟨c, hc⟩⟩ := hi
    have hu : zcsequencePy u N q = if a ≤ 0 then .error .valueError else if a ≥ b then .error .valueError
        else if u.isInt = false ∨ N.isInt = false then .error .typeError else zcsequence a b c := by
      unfold zcsequencePy
      rw [if_neg hint, ha, hb, hc]
      simp only [Rat.num_intCast, ge_iff_le, Int.cast_le, Int.cast_nonpos]
    rw [hu]
    by_cases h1 : a ≤ 0
    · rw [if_pos h1]
      refine ⟨fun z => ⟨fun h => (by cases h), ?_⟩, ⟨fun h => (by cases h), ?_⟩⟩
      · rintro ⟨a', b', c', rfl, rfl, hc', ha', -⟩
        have : a' = a := Int.cast_injective (α := ℚ) ha
        omega
      · rintro ⟨-, a', b', c', ha', hb', hc', h0, -⟩
        have : a' = a := by rw [ha] at ha'; exact_mod_cast ha'.symm
        omega
    by_cases h2 : a ≥ b
    · rw [if_neg h1, if_pos h2]
      refine ⟨fun z => ⟨fun h => (by cases h), ?_⟩, ⟨fun h => (by cases h), ?_⟩⟩
      · rintro ⟨a', b', c', rfl, rfl, hc', ha', hab, -⟩
        have : a' = a := Int.cast_injective (α := ℚ) ha
        have : b' = b := Int.cast_injective (α := ℚ) hb
        omega
      · rintro ⟨-, a', b', c', ha', hb', hc', h0, hab⟩
        have : a' = a := by rw [ha] at ha'; exact_mod_cast ha'.symm
        have : b' = b := by rw [hb] at hb'; exact_mod_cast hb'.symm
        omega
    rw [if_neg h1, if_neg h2]
    by_cases h3 : u.isInt = false ∨ N.isInt = false
    · rw [if_pos h3]
      refine ⟨fun z => ⟨fun h => (by cases h), ?_⟩, ⟨fun _ => ⟨h3, a, b, c, ha, hb, hc, by omega, by omega⟩, fun _ => rfl⟩⟩
      rintro ⟨a', b', c', rfl, rfl, -⟩
      simp [PyNum.isInt] at h3
    · rw [if_neg h3]
      constructor
      · intro z
        constructor
        · intro hz
          rcases u with ua | ux
          · rcases N with nb | nx
            · have ea : ua = a := Int.cast_injective (α := ℚ) ha
              have eb : nb = b := Int.cast_injective (α := ℚ) hb
              subst ea eb
              refine ⟨ua, nb, c, rfl, rfl, hc, by omega, by omega, ?_, hz⟩
              by_contra hg
              rw [((C14_zc ua nb c).1).2 (Or.inr (Or.inr hg))] at hz
              cases hz
            · simp [PyNum.isInt] at h3
          · simp [PyNum.isInt] at h3
        · rintro ⟨a', b', c', rfl, rfl, hc', -, -, -, hz⟩
          have ea : a' = a := Int.cast_injective (α := ℚ) ha
          have eb : b' = b := Int.cast_injective (α := ℚ) hb
          have ec : c' = c := by rw [hc] at hc'; exact_mod_cast hc'.symm
          subst ea eb ec
          exact hz
      · constructor
        · intro hz
          exfalso
          unfold zcsequence at hz
          split_ifs at hz
          cases hz
        · rintro ⟨h, -⟩
          exact absurd h h3

/-- The LTE root sequence of length 839, shift 100: autocorrelation sidelobes below 10^-4. -/
example : ∃ z, zcsequenceF libm 25 839 100 = .ok z ∧
    ‖∑ n ∈ Finset.range z.length, z.getD (((n : Int) + 7) % 839).toNat 0 * conj (z.getD n 0)‖ ≤ 1 / 10 ^ 4 := by
  obtain ⟨z, hz, hb⟩ := C139_autocorrelation libm_ok 25 839 100 7 (by norm_num) (by norm_num) (by decide) (by norm_num) (by norm_num) (by norm_num)
  refine ⟨z, hz, ?_⟩
  rw [if_neg (by norm_num), sub_zero] at hb
  refine hb.trans (by norm_num)

/-- `zcsequence(3, 7.0)` raises a TypeError. -/
example : zcsequencePy (.int 3) (.float 7) (.int 0) = .error .typeError :=
  (C14_arguments _ _ _).2.2 ⟨Or.inr rfl, 3, 7, 0, by simp [PyNum.val], by simp [PyNum.val], by simp [PyNum.val], by norm_num, by norm_num⟩

/-- C139, which arguments are accepted: exactly the roots `0 < u < N` coprime to the length, as in C22; every other call raises `ValueError`.  No arithmetic is involved in these tests. -/
theorem C139_errors (F : FilterFloats) (u N q : Int) :
    (0 < u ∧ u < N ∧ Int.gcd u N = 1 → ∃ seq, zcsequenceF F u N q = .ok seq ∧ seq.length = N.toNat) ∧
    (¬ (0 < u ∧ u < N ∧ Int.gcd u N = 1) → zcsequenceF F u N q = .error .valueError) := by
  simp only [zcsequenceF]
  constructor
  · rintro ⟨h1, h2, h3⟩
    rw [if_neg (by omega), if_neg (by omega), if_neg (by omega)]
    exact ⟨_, rfl, by simp⟩
  · intro h
    by_cases h1 : u ≤ 0
    · rw [if_pos h1]
    by_cases h2 : u ≥ N
    · rw [if_neg h1, if_pos h2]
    · rw [if_neg h1, if_neg h2, if_pos (fun h3 => h ⟨by omega, by omega, h3⟩)]

example (F : FilterFloats) : (∃ seq, zcsequenceF F 3 7 1 = .ok seq ∧ seq.length = 7) ∧ zcsequenceF F 0 7 0 = .error .valueError ∧ zcsequenceF F 7 7 0 = .error .valueError ∧
    zcsequenceF F 3 9 0 = .error .valueError :=
  ⟨(C139_errors F 3 7 1).1 (by decide), (C139_errors F 0 7 0).2 (by decide), (C139_errors F 7 7 0).2 (by decide), (C139_errors F 3 9 0).2 (by decide)⟩

end Verif
