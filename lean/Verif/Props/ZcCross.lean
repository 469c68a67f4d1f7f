import Verif.Props.Sequences
/-
Property theorems for `zcsequence`: C104 (flat spectrum, cross-correlation of two roots).
-/
namespace Verif

open ComplexConjugate

/-- The unit-modulus chirp `exp(-iπ (v n² + b n)/N)`. -/
noncomputable def chirp (v b N : Int) (n : Nat) : ℂ :=
  Complex.exp (((-(Real.pi * (v * (n : ℝ) ^ 2 + b * (n : ℝ)) / N) : ℝ) : ℂ) * Complex.I)

theorem chirp_period (v b : Int) (N : Nat) (hN : 0 < N) (hpar : Even (v * N + b)) (n : Nat) :
    chirp v b N (n + N) = chirp v b N n := by
  obtain ⟨k, hk⟩ := hpar
  have hk' : (v : ℝ) * N + b = 2 * k := by
    have : ((v * N + b : Int) : ℝ) = ((k + k : Int) : ℝ) := by rw [hk]
    push_cast at this; linarith
  refine exp_int_two_pi _ (-(v * n + k)) _ ?_
  have hN' : (N : ℝ) ≠ 0 := by exact_mod_cast hN.ne'
  have hb : (b : ℝ) = 2 * k - v * N := by linarith
  push_cast
  rw [hb]
  field_simp
  ring

theorem sum_shift_period {f : Nat → ℂ} {N : Nat} (hf : ∀ n, f (n + N) = f n) (m : Nat) :
    ∑ d ∈ Finset.range N, f (m + d) = ∑ d ∈ Finset.range N, f d := by
  induction m with
  | zero => simp
  | succ m ih =>
    rw [← ih]
    have h1 := Finset.sum_range_succ (fun d => f (m + d)) N
    have h2 := Finset.sum_range_succ' (fun d => f (m + d)) N
    rw [h1] at h2
    simp only [hf, Nat.add_zero] at h2
    have h3 := add_right_cancel h2
    rw [h3]
    exact Finset.sum_congr rfl (fun d _ => by congr 1; omega)

theorem chirp_corr (v b : Int) (N : Nat) (hN : 0 < N) (n d : Nat) :
    chirp v b N (n + d) * conj (chirp v b N n) = chirp v b N d *
      Complex.exp (((-(2 * Real.pi * v * d / N) : ℝ) : ℂ) * Complex.I) ^ n := by
  unfold chirp
  rw [← Complex.exp_conj, ← Complex.exp_nat_mul, ← Complex.exp_add, ← Complex.exp_add]
  congr 1
  simp only [map_mul, Complex.conj_ofReal, Complex.conj_I]
  have hN' : (N : ℂ) ≠ 0 := by exact_mod_cast hN.ne'
  push_cast
  field_simp
  ring

theorem geom_root_zero (v : Int) (N : Nat) (hN : 0 < N) (d : Int) (hcop : Int.gcd v N = 1) (hd : ¬ (N : Int) ∣ d) :
    ∑ n ∈ Finset.range N, Complex.exp (((-(2 * Real.pi * v * d / N) : ℝ) : ℂ) * Complex.I) ^ n = 0 := by
  set ω := Complex.exp (((-(2 * Real.pi * v * d / N) : ℝ) : ℂ) * Complex.I) with hω
  have hN' : (N : ℝ) ≠ 0 := by exact_mod_cast hN.ne'
  have hω1 : ω ≠ 1 := by
    intro hc1
    rw [hω, Complex.exp_eq_one_iff] at hc1
    obtain ⟨k, hk⟩ := hc1
    have h4 : (-(2 * Real.pi * v * d / N) : ℝ) = k * (2 * Real.pi) := by
      have h5 : (((-(2 * Real.pi * v * d / N) : ℝ) : ℂ)) = ((k * (2 * Real.pi) : ℝ) : ℂ) := by
        apply mul_right_cancel₀ Complex.I_ne_zero
        rw [hk]; push_cast; ring
      exact_mod_cast h5
    have h6 : (v : ℝ) * d = -(k : ℝ) * N := by
      have hp := Real.pi_pos.ne'
      field_simp at h4
      linarith
    have h7 : v * d = -k * N := by exact_mod_cast h6
    have h8 : (N : Int) ∣ v * d := ⟨-k, by rw [h7]; ring⟩
    have h9 : IsCoprime (N : Int) v := by
      rw [Int.isCoprime_iff_gcd_eq_one, Int.gcd_comm]; exact hcop
    exact hd (h9.dvd_of_dvd_mul_left h8)
  have hωN : ω ^ N = 1 := by
    rw [hω, ← Complex.exp_nat_mul, Complex.exp_eq_one_iff]
    refine ⟨-(v * d), ?_⟩
    have hN'' : (N : ℂ) ≠ 0 := by exact_mod_cast hN.ne'
    push_cast
    field_simp
  rw [geom_sum_eq hω1, hωN]
  simp

/-- A quadratic Gauss sum with coprime leading coefficient has squared modulus `N`. -/
theorem chirp_sum (v b : Int) (N : Nat) (hN : 0 < N) (hcop : Int.gcd v N = 1) (hpar : Even (v * N + b)) :
    ‖∑ n ∈ Finset.range N, chirp v b N n‖ ^ 2 = N := by
  have key : (∑ n ∈ Finset.range N, chirp v b N n) * conj (∑ n ∈ Finset.range N, chirp v b N n) = (N : ℂ) := by
    rw [map_sum, Finset.mul_sum]
    have h1 : ∀ n ∈ Finset.range N, (∑ m ∈ Finset.range N, chirp v b N m) * conj (chirp v b N n) =
        ∑ d ∈ Finset.range N, chirp v b N d *
          Complex.exp (((-(2 * Real.pi * v * d / N) : ℝ) : ℂ) * Complex.I) ^ n := by
      intro n _
      rw [← sum_shift_period (f := chirp v b N) (chirp_period v b N hN hpar) n, Finset.sum_mul]
      exact Finset.sum_congr rfl (fun d _ => chirp_corr v b N hN n d)
    rw [Finset.sum_congr rfl h1, Finset.sum_comm]
    have h2 : ∀ d ∈ Finset.range N, ∑ n ∈ Finset.range N, chirp v b N d *
          Complex.exp (((-(2 * Real.pi * v * d / N) : ℝ) : ℂ) * Complex.I) ^ n = if d = 0 then (N : ℂ) else 0 := by
      intro d hd
      rw [← Finset.mul_sum]
      by_cases h0 : d = 0
      · subst h0; simp [chirp]
      · rw [if_neg h0]
        have hd' := Finset.mem_range.1 hd
        have := geom_root_zero v N hN (d : Int) hcop (by
          intro h
          have := Int.le_of_dvd (by omega) h
          omega)
        simp only [Int.cast_natCast] at this
        rw [this, mul_zero]
    rw [Finset.sum_congr rfl h2]
    simp [hN]
  rw [Complex.mul_conj, Complex.normSq_eq_norm_sq] at key
  exact_mod_cast key

/-- C104, flat spectrum: every DFT coefficient of a Zadoff-Chu sequence of length `N` has squared modulus `N`, so the
DFT of the sequence is again a constant-amplitude sequence. -/
theorem C104_zc_spectrum (u N q k : Int) (h1 : 0 < u) (h2 : u < N) (h3 : Int.gcd u N = 1) :
    ∃ z, zcsequence u N q = .ok z ∧
      ‖∑ n ∈ Finset.range z.length, z.getD n 0 *
        Complex.exp (-(2 * Real.pi * k * n / N : ℝ) * Complex.I)‖ ^ 2 = (N : ℝ) := by
  obtain ⟨z, hz, hl, hc⟩ := zc_cyclic u N q h1 h2 h3
  refine ⟨z, hz, ?_⟩
  have hNr : ((z.length : Nat) : ℝ) = (N : ℝ) := by exact_mod_cast hl
  have hNc : ((z.length : Nat) : ℂ) = (N : ℂ) := by exact_mod_cast hl
  have hterm : ∀ n ∈ Finset.range z.length, z.getD n 0 *
        Complex.exp (-(2 * Real.pi * k * n / N : ℝ) * Complex.I) =
      chirp u (u * (N % 2 + 2 * q) + 2 * k) z.length n := by
    intro n hn
    have hn' := Finset.mem_range.1 hn
    have e : z.getD n 0 = zcSample u N q (n : Int) := by
      rw [← hc n]; congr 1
      rw [Int.emod_eq_of_lt (by omega) (by omega)]; simp
    rw [e]
    unfold zcSample chirp
    rw [← Complex.exp_add]
    congr 1
    have hN' : (N : ℂ) ≠ 0 := by exact_mod_cast (show N ≠ 0 by omega)
    push_cast
    rw [hNc]
    field_simp
    ring
  rw [Finset.sum_congr rfl hterm, chirp_sum _ _ _ (by omega) (by rw [hl]; exact h3), hNr]
  rw [hl]
  have he : Even (N + N % 2) := ⟨(N + N % 2) / 2, by omega⟩
  rw [show u * N + (u * (N % 2 + 2 * q) + 2 * k) = u * (N + N % 2) + 2 * (u * q + k) by ring]
  exact (he.mul_left u).add (even_two_mul _)

/-- C104, cross-correlation: if the difference of two roots is coprime to the length, the periodic cross-correlation
has squared modulus `N` at every lag, whatever the two cyclic shifts. -/
theorem C104_zc_cross (u1 u2 N q1 q2 τ : Int) (h1 : 0 < u1) (h2 : u1 < N) (h3 : Int.gcd u1 N = 1)
    (g1 : 0 < u2) (g2 : u2 < N) (g3 : Int.gcd u2 N = 1) (hd : Int.gcd (u1 - u2) N = 1) :
    ∃ z1 z2, zcsequence u1 N q1 = .ok z1 ∧ zcsequence u2 N q2 = .ok z2 ∧
      ‖∑ n ∈ Finset.range N.toNat, z1.getD (((n : Int) + τ) % N).toNat 0 * conj (z2.getD n 0)‖ ^ 2 = (N : ℝ) := by
  obtain ⟨z, hz, hl, hc⟩ := zc_cyclic u1 N q1 h1 h2 h3
  obtain ⟨w, hw, hlw, hcw⟩ := zc_cyclic u2 N q2 g1 g2 g3
  refine ⟨z, w, hz, hw, ?_⟩
  obtain ⟨L, rfl⟩ : ∃ L : Nat, N = (L : Int) := ⟨N.toNat, by omega⟩
  rw [Int.toNat_natCast]
  have hN' : (L : ℂ) ≠ 0 := by exact_mod_cast (show L ≠ 0 by omega)
  have hterm : ∀ n ∈ Finset.range L, z.getD (((n : Int) + τ) % L).toNat 0 * conj (w.getD n 0) =
      Complex.exp (((-(Real.pi * u1 * τ * (τ + (((L : Int) % 2 : Int) : ℝ) + 2 * q1) / L) : ℝ) : ℂ) * Complex.I) *
      chirp (u1 - u2) (u1 * (2 * τ + (L : Int) % 2 + 2 * q1) - u2 * ((L : Int) % 2 + 2 * q2)) L n := by
    intro n hn
    have hn' := Finset.mem_range.1 hn
    have e : w.getD n 0 = zcSample u2 L q2 (n : Int) := by
      rw [← hcw n]; congr 1
      rw [Int.emod_eq_of_lt (by omega) (by omega)]; simp
    rw [e, hc]
    unfold zcSample chirp
    rw [← Complex.exp_conj, ← Complex.exp_add, ← Complex.exp_add]
    congr 1
    simp only [map_mul, Complex.conj_ofReal, Complex.conj_I]
    push_cast
    field_simp
    ring
  rw [Finset.sum_congr rfl hterm, ← Finset.mul_sum, norm_mul, Complex.norm_exp_ofReal_mul_I, one_mul,
    chirp_sum _ _ _ (by omega) hd]
  · norm_cast
  · have he : Even ((L : Int) + (L : Int) % 2) := ⟨((L : Int) + (L : Int) % 2) / 2, by omega⟩
    rw [show (u1 - u2) * (L : Int) + (u1 * (2 * τ + (L : Int) % 2 + 2 * q1) - u2 * ((L : Int) % 2 + 2 * q2)) =
      (u1 - u2) * ((L : Int) + (L : Int) % 2) + 2 * (u1 * (τ + q1) - u2 * q2) by ring]
    exact (he.mul_left _).add (even_two_mul _)

/-- The hypotheses are met by the LTE roots 25, 29 (and 34) with length 63 or 139. -/
example : ((0 : Int) < 25 ∧ (25 : Int) < 139 ∧ Int.gcd 25 139 = 1) ∧ ((0 : Int) < 29 ∧ (29 : Int) < 139 ∧
    Int.gcd 29 139 = 1) ∧ Int.gcd (25 - 29) 139 = 1 := by decide

end Verif
