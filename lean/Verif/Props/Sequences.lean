import Verif.Lemmas.Sequences
import Mathlib.Analysis.Complex.Exponential
import Mathlib.RingTheory.RootsOfUnity.Complex
import Mathlib.Algebra.Field.GeomSum
import Mathlib.Tactic.Ring
import Mathlib.Tactic.FieldSimp
import Mathlib.Tactic.LinearCombination
/-
Property theorems for commpy/sequences.py: C12–C16.
-/
namespace Verif

/-- C12. `pnsequence`: ValueError exactly on a length mismatch; otherwise (order ≥ 1, bits) the output is the LFSR
sequence: the reversed seed followed by the mask-weighted parities of the preceding `order` bits.  (With order 0 the
first access `sr[-1]` raises IndexError.) -/
theorem C12_pnsequence (order : Int) (seed mask : List Nat) (N : Nat)
    (hs : ∀ x ∈ seed, x = 0 ∨ x = 1) (hmb : ∀ x ∈ mask, x = 0 ∨ x = 1) :
    (pnsequence order seed mask N = .error .valueError ↔ (seed.length : Int) ≠ order ∨ (mask.length : Int) ≠ order) ∧
    ((seed.length : Int) = order → (mask.length : Int) = order → 1 ≤ order →
      ∃ s, pnsequence order seed mask N = .ok s ∧ s.length = N ∧
        (∀ i, i < N → i < seed.length → s[i]? = seed[seed.length - 1 - i]?) ∧
        (∀ i, i + seed.length < N → s[i + seed.length]? =
          some ((∑ j ∈ Finset.range seed.length, mask.getD j 0 * s.getD (i + seed.length - 1 - j) 0) % 2))) ∧
    (pnsequence 0 [] [] (N + 1) = .error .indexError) := by
  have hbit : ∀ x ∈ seed, x < 2 := fun x hx => by rcases hs x hx with e | e <;> omega
  refine ⟨⟨?_, ?_⟩, ?_, rfl⟩
  · intro h
    by_contra hc
    rw [not_or, not_not, not_not] at hc
    obtain ⟨h1, h2⟩ := hc
    by_cases hse : seed = []
    · subst hse
      simp only [List.length_nil, Nat.cast_zero] at h1
      subst h1
      have : mask = [] := by
        apply List.length_eq_zero_iff.1; exact_mod_cast h2
      subst this
      cases N with
      | zero => simp [pnsequence, pnLoop] at h
      | succ N => exact absurd h (by rw [show pnsequence 0 [] [] (N + 1) = .error .indexError from rfl]; decide)
    · subst h1
      rw [pnsequence_eq mask seed hse (by exact_mod_cast h2)] at h
      cases h
  · intro h
    unfold pnsequence
    by_cases h1 : (seed.length : Int) ≠ order
    · simp [h1]
    · rcases h with h | h
      · exact absurd h h1
      · simp [h1, h]
  · intro h1 h2 h3
    subst h1
    have hne : seed ≠ [] := by intro hc; subst hc; simp at h3
    have hm : mask.length = seed.length := by exact_mod_cast h2
    refine ⟨_, pnsequence_eq mask seed hne hm N, by simp, ?_, ?_⟩
    · intro i hi hi2
      have : seed.length - 1 - i < seed.length := by omega
      simp [hi, pnOut_init mask hne i hi2, List.getD_eq_getElem?_getD, this]
    · intro i hi
      rw [List.getElem?_map, List.getElem?_range hi, Option.map_some, pnOut_rec mask hne hm]
      congr 2
      apply Finset.sum_congr rfl
      intro j hj
      have hj' := Finset.mem_range.1 hj
      have hlt : i + seed.length - 1 - j < N := by omega
      have h5 : pnOut mask seed (i + seed.length - 1 - j) < 2 := getD_lt_two (pnState_bits hbit _) _
      have h6 : mask.getD j 0 = 0 ∨ mask.getD j 0 = 1 := by
        rw [List.getD_eq_getElem?_getD]
        cases hh : mask[j]? with
        | none => simp
        | some x => simpa using hmb x (List.mem_of_getElem? hh)
      have h7 : ((List.range N).map (pnOut mask seed)).getD (i + seed.length - 1 - j) 0 = pnOut mask seed (i + seed.length - 1 - j) := by
        simp [List.getD_eq_getElem?_getD, hlt]
      rw [h7]
      rcases h6 with h6 | h6 <;> rw [h6]
      · simp
      · rw [Nat.and_one_is_mod]; omega

example : pnsequence 4 [1, 0, 0, 0] [0, 0, 1, 1] 8 = .ok [0, 0, 0, 1, 0, 0, 1, 1] := by decide

/-- C13, linearity over XOR of seeds, zero seed, and extension only appends. -/
theorem C13_algebra (mask a b : List Nat) (hne : a ≠ []) (hl : a.length = b.length) (hm : mask.length = a.length)
    (ha : ∀ x ∈ a, x = 0 ∨ x = 1) (hb : ∀ x ∈ b, x = 0 ∨ x = 1) (N K : Nat) :
    (∃ sa sb, pnsequence a.length a mask N = .ok sa ∧ pnsequence b.length b mask N = .ok sb ∧
      pnsequence a.length (List.zipWith (· ^^^ ·) a b) mask N = .ok (List.zipWith (· ^^^ ·) sa sb)) ∧
    pnsequence a.length (List.replicate a.length 0) mask N = .ok (List.replicate N 0) ∧
    (∃ s t, pnsequence a.length a mask N = .ok s ∧ pnsequence a.length a mask (N + K) = .ok (s ++ t)) := by
  have ha' : ∀ x ∈ a, x < 2 := fun x hx => by rcases ha x hx with e | e <;> omega
  have hb' : ∀ x ∈ b, x < 2 := fun x hx => by rcases hb x hx with e | e <;> omega
  have hne' : b ≠ [] := by intro hc; rw [hc] at hl; exact hne (List.length_eq_zero_iff.1 hl)
  have hpos := List.length_pos_iff.2 hne
  refine ⟨⟨_, _, pnsequence_eq mask a hne hm N, pnsequence_eq mask b hne' (by omega) N, ?_⟩, ?_, ?_⟩
  · have hxl : (List.zipWith (· ^^^ ·) a b).length = a.length := by simp [hl]
    have hxn : List.zipWith (· ^^^ ·) a b ≠ [] := by
      intro hc; rw [hc] at hxl; exact hne (List.length_eq_zero_iff.1 hxl.symm)
    have := pnsequence_eq mask _ hxn (by omega) N
    rw [hxl] at this
    rw [this]
    congr 1
    apply List.ext_getElem (by simp)
    intro i h1 h2
    have hA := pnState_length mask hne i
    have hB := pnState_length mask hne' i
    have e1 : a.length - 1 < (pnState mask a i).length := by omega
    have e2 : a.length - 1 < (pnState mask b i).length := by omega
    simp only [List.getElem_map, List.getElem_range, List.getElem_zipWith, pnOut, hxl, ← hl, pnState_xor mask a b hne hl ha' hb' i]
    simp [List.getD_eq_getElem?_getD, e1, e2]
  · have hz : List.replicate a.length 0 ≠ [] := by
      intro hc; have := congrArg List.length hc; simp at this; exact hne this
    have := pnsequence_eq mask _ hz (by simpa using hm) N
    rw [List.length_replicate] at this
    rw [this]
    congr 1
    have hst : ∀ i, pnState mask (List.replicate a.length 0) i = List.replicate a.length 0 := by
      intro i
      induction i with
      | zero => rfl
      | succ i ih => rw [pnState_succ, ih, pnNext_zero mask _ hpos]
    apply List.ext_getElem (by simp)
    intro i h1 h2
    simp [pnOut, hst, List.getD_eq_getElem?_getD, List.getElem?_replicate, hpos]
  · refine ⟨_, (List.range' N K).map (pnOut mask a), pnsequence_eq mask a hne hm N, ?_⟩
    rw [pnsequence_eq mask a hne hm, ← List.map_append, List.range_eq_range', List.range_eq_range']
    have := List.range'_append_1 (s := 0) (m := N) (n := K)
    rw [Nat.zero_add] at this
    rw [this]

/-- C13, periodicity: when the last mask bit is 1 the sequence is purely periodic with a period `1 ≤ p ≤ 2^order - 1`
that does not depend on the requested length. -/
theorem C13_period (mask seed : List Nat) (hne : seed ≠ []) (hm : mask.length = seed.length)
    (hs : ∀ x ∈ seed, x = 0 ∨ x = 1) (hlast : mask[mask.length - 1]? = some 1) :
    ∃ p, 1 ≤ p ∧ p ≤ 2 ^ seed.length - 1 ∧ ∀ N, ∃ s, pnsequence seed.length seed mask N = .ok s ∧
      ∀ i, i + p < N → s[i + p]? = s[i]? := by
  have hbit : ∀ x ∈ seed, x < 2 := fun x hx => by rcases hs x hx with e | e <;> omega
  obtain ⟨p, h1, h2, h3⟩ := pnState_period hne hm hbit (by simp [List.getD_eq_getElem?_getD, hlast])
  refine ⟨p, h1, h2, fun N => ⟨_, pnsequence_eq mask seed hne hm N, ?_⟩⟩
  intro i hi
  have : i < N := by omega
  simp [hi, this, pnOut_period p h3]

example : ([0, 0, 1, 1] : List Nat)[3]? = some 1 := rfl

/-- The Zadoff-Chu sample at integer index `n` (closed form, defined for every integer). -/
noncomputable def zcSample (u N q n : Int) : ℂ :=
  Complex.exp (((-(Real.pi * u * n * (n + ((N % 2 : Int) : ℝ) + 2 * q) / N) : ℝ) : ℂ) * Complex.I)

theorem zcsequence_eq (u N q : Int) (h1 : 0 < u) (h2 : u < N) (h3 : Int.gcd u N = 1) :
    zcsequence u N q = .ok ((List.range N.toNat).map (fun n : Nat => zcSample u N q (n : Int))) := by
  unfold zcsequence
  rw [if_neg (by omega), if_neg (by omega), if_neg (by omega)]
  show Except.ok _ = Except.ok _
  congr 1
  apply List.map_congr_left
  intro n _
  unfold zcSample
  congr 1
  push_cast
  ring

/-- C14. Validation and constant amplitude. -/
theorem C14_zc (u N q : Int) :
    (zcsequence u N q = .error .valueError ↔ u ≤ 0 ∨ u ≥ N ∨ Int.gcd u N ≠ 1) ∧
    (0 < u → u < N → Int.gcd u N = 1 → ∃ z, zcsequence u N q = .ok z ∧ (z.length : Int) = N ∧ ∀ x ∈ z, ‖x‖ = 1) := by
  constructor
  · constructor
    · intro h
      by_contra hc
      rw [not_or, not_or, not_not] at hc
      rw [zcsequence_eq u N q (by omega) (by omega) hc.2.2] at h
      cases h
    · intro h
      unfold zcsequence
      by_cases h1 : u ≤ 0
      · rw [if_pos h1]
      · by_cases h2 : u ≥ N
        · rw [if_neg h1, if_pos h2]
        · rw [if_neg h1, if_neg h2, if_pos (by tauto)]
  · intro h1 h2 h3
    refine ⟨_, zcsequence_eq u N q h1 h2 h3, by simp; omega, ?_⟩
    intro x hx
    obtain ⟨n, _, rfl⟩ := List.mem_map.1 hx
    exact Complex.norm_exp_ofReal_mul_I _

theorem exp_int_two_pi (x : ℝ) (k : Int) (y : ℝ) (h : x = y + 2 * Real.pi * k) :
    Complex.exp ((x : ℂ) * Complex.I) = Complex.exp ((y : ℂ) * Complex.I) := by
  rw [Complex.exp_eq_exp_iff_exists_int]
  exact ⟨k, by rw [h]; push_cast; ring⟩

theorem zcSample_period (u N q n : Int) (hN : 0 < N) : zcSample u N q (n + N) = zcSample u N q n := by
  have he : ∃ k, N + N % 2 = 2 * k := ⟨(N + N % 2) / 2, by omega⟩
  obtain ⟨k, hk⟩ := he
  refine exp_int_two_pi _ (-(u * (n + k + q))) _ ?_
  have hN' : (N : ℝ) ≠ 0 := by exact_mod_cast hN.ne'
  have hk' : (N : ℝ) + ((N % 2 : Int) : ℝ) = 2 * k := by exact_mod_cast hk
  have hc : ((N % 2 : Int) : ℝ) = 2 * k - N := by linarith
  push_cast at hc ⊢
  rw [hc]
  field_simp
  ring

theorem zcSample_mod (u N q n : Int) (hN : 0 < N) : zcSample u N q (n % N) = zcSample u N q n := by
  have key : ∀ (m : Nat) (n : Int), zcSample u N q (n + N * m) = zcSample u N q n := by
    intro m
    induction m with
    | zero => intro n; simp
    | succ m ih =>
      intro n
      rw [show n + N * ((m + 1 : Nat) : Int) = (n + N * m) + N by push_cast; ring, zcSample_period _ _ _ _ hN, ih]
  have h := Int.emod_add_mul_ediv n N
  rcases le_or_gt 0 (n / N) with hd | hd
  · obtain ⟨m, hm⟩ := Int.eq_ofNat_of_zero_le hd
    rw [hm] at h
    rw [← key m (n % N), h]
  · obtain ⟨m, hm⟩ := Int.eq_ofNat_of_zero_le (show 0 ≤ -(n / N) by omega)
    rw [← key m n, ← hm]
    congr 1
    linear_combination h

/-- The samples returned by `zcsequence`, read cyclically. -/
theorem zc_cyclic (u N q : Int) (h1 : 0 < u) (h2 : u < N) (h3 : Int.gcd u N = 1) :
    ∃ z, zcsequence u N q = .ok z ∧ (z.length : Int) = N ∧
      ∀ n : Int, z.getD (n % N).toNat 0 = zcSample u N q n := by
  refine ⟨_, zcsequence_eq u N q h1 h2 h3, by simp; omega, ?_⟩
  intro n
  have hm1 := Int.emod_nonneg n (show N ≠ 0 by omega)
  have hm2 := Int.emod_lt_of_pos n (show 0 < N by omega)
  have : (n % N).toNat < N.toNat := by omega
  rw [List.getD_eq_getElem?_getD, List.getElem?_map, List.getElem?_range this, Option.map_some, Option.getD_some,
    Int.toNat_of_nonneg hm1, zcSample_mod _ _ _ _ (by omega)]

open ComplexConjugate in
theorem zc_corr (u N q τ n : Int) (hN : 0 < N) :
    zcSample u N q (n + τ) * conj (zcSample u N q n) =
      Complex.exp (((-(Real.pi * u * τ * (τ + ((N % 2 : Int) : ℝ) + 2 * q) / N) : ℝ) : ℂ) * Complex.I) *
      Complex.exp (((-(2 * Real.pi * u * τ / N) : ℝ) : ℂ) * Complex.I) ^ n := by
  unfold zcSample
  rw [← Complex.exp_conj, ← Complex.exp_int_mul, ← Complex.exp_add, ← Complex.exp_add]
  congr 1
  simp only [map_mul, Complex.conj_ofReal, Complex.conj_I]
  have hN' : (N : ℂ) ≠ 0 := by exact_mod_cast hN.ne'
  push_cast
  field_simp
  ring

open ComplexConjugate in
/-- C15. Periodic autocorrelation: `N` at lags that are multiples of `N`, zero at all others. -/
theorem C15_zc_autocorrelation (u N q τ : Int) (h1 : 0 < u) (h2 : u < N) (h3 : Int.gcd u N = 1) :
    ∃ z, zcsequence u N q = .ok z ∧
      ∑ n ∈ Finset.range z.length, z.getD (((n : Int) + τ) % N).toNat 0 * conj (z.getD n 0) =
        if N ∣ τ then (N : ℂ) else 0 := by
  obtain ⟨z, hz, hl, hc⟩ := zc_cyclic u N q h1 h2 h3
  refine ⟨z, hz, ?_⟩
  have hN : 0 < N := by omega
  have hN' : (N : ℝ) ≠ 0 := by exact_mod_cast hN.ne'
  have hterm : ∀ n ∈ Finset.range z.length, z.getD (((n : Int) + τ) % N).toNat 0 * conj (z.getD n 0) =
      Complex.exp (((-(Real.pi * u * τ * (τ + ((N % 2 : Int) : ℝ) + 2 * q) / N) : ℝ) : ℂ) * Complex.I) *
      Complex.exp (((-(2 * Real.pi * u * τ / N) : ℝ) : ℂ) * Complex.I) ^ n := by
    intro n hn
    have hn' := Finset.mem_range.1 hn
    have e : z.getD n 0 = zcSample u N q (n : Int) := by
      rw [← hc n]; congr 1
      rw [Int.emod_eq_of_lt (by omega) (by omega)]; simp
    have := zc_corr u N q τ (n : Int) hN
    rw [zpow_natCast] at this
    rw [hc, e, this]
  rw [Finset.sum_congr rfl hterm, ← Finset.mul_sum]
  split
  · rename_i hd
    obtain ⟨k, rfl⟩ := hd
    have e1 : Complex.exp (((-(2 * Real.pi * u * (N * k : Int) / N) : ℝ) : ℂ) * Complex.I) = 1 := by
      rw [← Complex.exp_zero]
      have := exp_int_two_pi (-(2 * Real.pi * u * ((N * k : Int) : ℝ) / N)) (-(u * k)) 0 (by push_cast; field_simp; ring)
      simpa using this
    have e2 : Complex.exp (((-(Real.pi * u * (N * k : Int) * ((N * k : Int) + ((N % 2 : Int) : ℝ) + 2 * q) / N) : ℝ) : ℂ) * Complex.I) = 1 := by
      -- u * k * (N k + N % 2 + 2 q) is even
      have hev : ∃ m, u * k * (N * k + N % 2) = 2 * m := by
        have hpar : (k * (N * k + N % 2)) % 2 = 0 := by
          rcases Int.emod_two_eq_zero_or_one k with hk | hk <;> rcases Int.emod_two_eq_zero_or_one N with hn | hn <;>
            simp [Int.mul_emod, Int.add_emod, hk, hn]
        refine ⟨u * (k * (N * k + N % 2) / 2), ?_⟩
        have : 2 * (k * (N * k + N % 2) / 2) = k * (N * k + N % 2) := by omega
        linear_combination (-u) * this
      obtain ⟨m, hm⟩ := hev
      rw [← Complex.exp_zero]
      have hm' : (u : ℝ) * k * (N * k + ((N % 2 : Int) : ℝ)) = 2 * m := by exact_mod_cast hm
      have := exp_int_two_pi (-(Real.pi * u * ((N * k : Int) : ℝ) * (((N * k : Int) : ℝ) + ((N % 2 : Int) : ℝ) + 2 * q) / N))
        (-(m + u * k * q)) 0 (by push_cast; field_simp; linear_combination (-Real.pi) * hm')
      simpa using this
    push_cast at e1 e2 ⊢
    rw [e1, e2]
    simp only [one_pow, Finset.sum_const, Finset.card_range, nsmul_eq_mul, mul_one, one_mul]
    exact_mod_cast hl
  · rename_i hd
    set ω := Complex.exp (((-(2 * Real.pi * u * τ / N) : ℝ) : ℂ) * Complex.I) with hω
    have hω1 : ω ≠ 1 := by
      intro hc1
      rw [hω, Complex.exp_eq_one_iff] at hc1
      obtain ⟨k, hk⟩ := hc1
      have h4 : (-(2 * Real.pi * u * τ / N) : ℝ) = k * (2 * Real.pi) := by
        have h5 : (((-(2 * Real.pi * u * τ / N) : ℝ) : ℂ)) = ((k * (2 * Real.pi) : ℝ) : ℂ) := by
          apply mul_right_cancel₀ Complex.I_ne_zero
          rw [hk]; push_cast; ring
        exact_mod_cast h5
      have h6 : (u : ℝ) * τ = -(k : ℝ) * N := by
        have hp := Real.pi_pos.ne'
        field_simp at h4
        linarith
      have h7 : u * τ = -k * N := by exact_mod_cast h6
      have h8 : N ∣ u * τ := ⟨-k, by rw [h7]; ring⟩
      have h9 : IsCoprime N u := by
        rw [Int.isCoprime_iff_gcd_eq_one, Int.gcd_comm]; exact h3
      exact hd (h9.dvd_of_dvd_mul_left h8)
    have hωN : ω ^ z.length = 1 := by
      rw [hω, ← Complex.exp_nat_mul, Complex.exp_eq_one_iff]
      refine ⟨-(u * τ), ?_⟩
      have hl' : ((z.length : ℕ) : ℂ) = (N : ℂ) := by exact_mod_cast hl
      have hN'' : (N : ℂ) ≠ 0 := by exact_mod_cast hN.ne'
      rw [hl']
      push_cast
      field_simp
    rw [geom_sum_eq hω1, hωN]
    simp

/-- C16. The parameter `q` is a cyclic shift by `q` samples, up to one unit-modulus constant. -/
theorem C16_zc_shift (u N q : Int) (h1 : 0 < u) (h2 : u < N) (h3 : Int.gcd u N = 1) :
    ∃ z z0 c, zcsequence u N q = .ok z ∧ zcsequence u N 0 = .ok z0 ∧ ‖c‖ = 1 ∧
      ∀ n : Nat, (n : Int) < N → z.getD n 0 = c * z0.getD (((n : Int) + q) % N).toNat 0 := by
  obtain ⟨z, hz, hl, hc⟩ := zc_cyclic u N q h1 h2 h3
  obtain ⟨z0, hz0, hl0, hc0⟩ := zc_cyclic u N 0 h1 h2 h3
  refine ⟨z, z0, Complex.exp (((Real.pi * u * q * (q + ((N % 2 : Int) : ℝ)) / N : ℝ) : ℂ) * Complex.I), hz, hz0,
    Complex.norm_exp_ofReal_mul_I _, ?_⟩
  intro n hn
  have e : z.getD n 0 = zcSample u N q (n : Int) := by
    rw [← hc n]; congr 1
    rw [Int.emod_eq_of_lt (by omega) hn]; simp
  rw [e, hc0]
  unfold zcSample
  rw [← Complex.exp_add]
  congr 1
  have hN' : (N : ℂ) ≠ 0 := by exact_mod_cast (show N ≠ 0 by omega)
  push_cast
  field_simp
  ring

example : (0 : Int) < 5 ∧ (5 : Int) < 139 ∧ Int.gcd 5 139 = 1 := by decide

end Verif
