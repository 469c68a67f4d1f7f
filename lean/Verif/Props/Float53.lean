import Verif.Props.Viterbi
import Verif.Lemmas.Float53
/-
C33 (and the lengths used by C39): the block lengths `int(N / rate)` and `int(len * rate)` in double arithmetic.
-/
namespace Verif

/-- Decidable criterion: with `m` the integer nearest to `k * 2^s / n`, the double nearest to `k/n` is `m * 2^-s` and its
relative error is at most `2^-54`. -/
def rateCheck (k n s : ℕ) : Bool :=
  let m := (2 * (k * 2 ^ s) + n) / (2 * n)
  let d := (k * 2 ^ s - m * n) + (m * n - k * 2 ^ s)
  (m < 2 ^ 53 ∧ k * 2 ^ s = m * n) ∨ (2 ^ 52 < m ∧ m < 2 ^ 53 ∧ 2 * d < n ∧ d * 2 ^ 54 ≤ k * 2 ^ s)

/-- The rate `k/n` is represented with a relative error of at most `2^-54`. -/
def RateOK (k n : ℕ) : Prop :=
  ∀ r, Rounds ((k : ℚ) / n) r → (k : ℚ) / n * (1 - 1 / 2 ^ 54) ≤ r ∧ r ≤ (k : ℚ) / n * (1 + 1 / 2 ^ 54)

theorem rateOK_of_check {k n s : ℕ} (hn : 0 < n) (h : rateCheck k n s = true) : RateOK k n := by
  have hnq : (0 : ℚ) < n := by exact_mod_cast hn
  have hs : (0 : ℚ) < 2 ^ s := by positivity
  have hk0 : (0 : ℚ) ≤ (k : ℚ) / n := by positivity
  intro r hr
  simp only [rateCheck, Bool.decide_or, Bool.or_eq_true, decide_eq_true_eq] at h
  generalize (2 * (k * 2 ^ s) + n) / (2 * n) = m at h
  have e1 : (2 : ℚ) ^ (-(s : ℤ)) = 1 / 2 ^ s := by rw [zpow_neg, zpow_natCast, one_div]
  rcases h with ⟨hm, he⟩ | ⟨h1, h2, h3, h4⟩
  · have hx : (k : ℚ) / n = m * 2 ^ (-(s : ℤ)) := by
      have : (k : ℚ) * 2 ^ s = m * n := by exact_mod_cast he
      rw [e1]; field_simp; linarith
    have := (rounds_self (y := r) ⟨m, -(s : ℤ), hm, hx⟩).1 hr
    rw [this]
    constructor <;> nlinarith
  · have hd : ((((k * 2 ^ s - m * n) + (m * n - k * 2 ^ s) : ℕ)) : ℚ) = |(k : ℚ) * 2 ^ s - m * n| := by
      rcases le_total (m * n) (k * 2 ^ s) with hle | hle
      · rw [Nat.sub_eq_zero_of_le hle, Nat.add_zero, Nat.cast_sub hle, abs_of_nonneg]
        · push_cast; ring
        · have : ((m * n : ℕ) : ℚ) ≤ ((k * 2 ^ s : ℕ) : ℚ) := by exact_mod_cast hle
          push_cast at this; linarith
      · rw [Nat.sub_eq_zero_of_le hle, Nat.zero_add, Nat.cast_sub hle, abs_of_nonpos]
        · push_cast; ring
        · have : ((k * 2 ^ s : ℕ) : ℚ) ≤ ((m * n : ℕ) : ℚ) := by exact_mod_cast hle
          push_cast at this; linarith
    have h3' : 2 * |(k : ℚ) * 2 ^ s - m * n| < n := by rw [← hd]; exact_mod_cast h3
    have h4' : |(k : ℚ) * 2 ^ s - m * n| * 2 ^ 54 ≤ k * 2 ^ s := by rw [← hd]; exact_mod_cast h4
    have hab : |(k : ℚ) / n - m * 2 ^ (-(s : ℤ))| = |(k : ℚ) * 2 ^ s - m * n| / (n * 2 ^ s) := by
      rw [← abs_of_pos (show (0 : ℚ) < n * 2 ^ s by positivity), ← abs_div, e1]
      congr 1
      field_simp
    have hu : r = m * 2 ^ (-(s : ℤ)) := by
      refine (rounds_unique h1 h2 ?_).1 hr
      rw [hab, e1, div_lt_iff₀ (by positivity)]
      have : 1 / (2 : ℚ) ^ s / 2 * (n * 2 ^ s) = n / 2 := by field_simp
      rw [this]; linarith
    have hb : |(k : ℚ) / n - r| ≤ (k : ℚ) / n * (1 / 2 ^ 54) := by
      rw [hu, hab, div_le_iff₀ (by positivity)]
      have : (k : ℚ) / n * (1 / 2 ^ 54) * (n * 2 ^ s) = k * 2 ^ s / 2 ^ 54 := by field_simp
      rw [this, le_div_iff₀ (by positivity)]
      exact h4'
    have := abs_le.1 hb
    constructor <;> linarith [this.1, this.2]

/-- Every rate `k/n` with `n ≤ 9`, and every rate `1/n` with `n ≤ 48`, is represented well enough. -/
theorem rateOK_small {k n : ℕ} (hk : 0 < k) (hkn : k ≤ n) (h : n ≤ 9 ∨ k = 1 ∧ n ≤ 48) : RateOK k n := by
  have key : ∀ n < 49, ∀ k < 10, (0 < k ∧ k ≤ n ∧ (n ≤ 9 ∨ k = 1)) → (List.range 60).any (rateCheck k n) = true := by
    decide +kernel
  obtain ⟨s, -, hs⟩ := List.any_eq_true.1 (key n (by omega) k (by omega) ⟨hk, hkn, by omega⟩)
  exact rateOK_of_check (by omega) hs

theorem rate_pos {k n : ℕ} (hk : 0 < k) (hkn : 0 < n) (h : RateOK k n) {r : ℚ} (hr : Rounds ((k : ℚ) / n) r) : 0 < r := by
  have h1 : (0 : ℚ) < (k : ℚ) / n := by positivity
  have := (h r hr).1
  nlinarith

/-- C33, the block length in double arithmetic: for a well represented rate, `int(N/rate)` is exactly `N n / k` for every
whole number `m = N / k` of groups with fewer than `2^51` output bits. -/
theorem C33_double_outLen {k n m v : ℕ} (hk : 0 < k) (hn : 0 < n) (h : RateOK k n) (hm : m * n < 2 ^ 51) :
    IsOutLen k n (m * k) v ↔ v = m * n := by
  have hkq : (0 : ℚ) < k := by exact_mod_cast hk
  have hnq : (0 : ℚ) < n := by exact_mod_cast hn
  have hx : (0 : ℚ) < (k : ℚ) / n := by positivity
  have core : ∀ r q, Rounds ((k : ℚ) / n) r → Rounds (((m * k : ℕ) : ℚ) / r) q → ⌊q⌋₊ = m * n := by
    intro r q hr hq
    obtain ⟨l1, l2⟩ := h r hr
    have hr0 := rate_pos hk hn h hr
    have hV : ((m * n : ℕ) : ℚ) * ((k : ℚ) / n) = ((m * k : ℕ) : ℚ) := by push_cast; field_simp
    have hV0 : (0 : ℚ) ≤ ((m * n : ℕ) : ℚ) := Nat.cast_nonneg _
    have hV1 : ((m * n : ℕ) : ℚ) < 2 ^ 51 := by exact_mod_cast hm
    refine rounds_floor hm ?_ ?_ hq
    · rw [le_div_iff₀ hr0, ← hV]
      set V := ((m * n : ℕ) : ℚ)
      set x := (k : ℚ) / n
      have : V * (1 - 1 / 2 ^ 54) * r ≤ V * (1 - 1 / 2 ^ 54) * (x * (1 + 1 / 2 ^ 54)) :=
        mul_le_mul_of_nonneg_left l2 (mul_nonneg hV0 (by norm_num))
      refine this.trans ?_
      have : 0 ≤ V * x := mul_nonneg hV0 hx.le
      nlinarith
    · rw [div_lt_iff₀ hr0, ← hV]
      set V := ((m * n : ℕ) : ℚ)
      set x := (k : ℚ) / n
      have : (V + 1 / 2) * (x * (1 - 1 / 2 ^ 54)) ≤ (V + 1 / 2) * r := mul_le_mul_of_nonneg_left l1 (by linarith)
      refine lt_of_lt_of_le ?_ this
      have : V < (V + 1 / 2) * (1 - 1 / 2 ^ 54) := by nlinarith
      nlinarith
  constructor
  · rintro ⟨r, q, hr, hq, rfl⟩
    exact core r q hr hq
  · rintro rfl
    obtain ⟨r, hr⟩ := exists_rounds hx
    have hr0 := rate_pos hk hn h hr
    have : ∃ q, Rounds (((m * k : ℕ) : ℚ) / r) q := by
      rcases Nat.eq_zero_or_pos m with h0 | h0
      · exact ⟨_, (rounds_self ⟨0, 0, by norm_num, by simp [h0]⟩).2 rfl⟩
      · have : (0 : ℚ) < ((m * k : ℕ) : ℚ) := by exact_mod_cast Nat.mul_pos h0 hk
        exact exists_rounds (div_pos this hr0)
    obtain ⟨q, hq⟩ := this
    exact ⟨r, q, hr, hq, (core r q hr hq).symm⟩

/-- C39, the message length computed by the decoder: `int(len*rate)` of `m` whole code groups is exactly `m k`. -/
theorem C39_double_decLen {k n m v : ℕ} (hk : 0 < k) (hn : 0 < n) (h : RateOK k n) (hm : m * k < 2 ^ 51) :
    IsDecLen k n (m * n) v ↔ v = m * k := by
  have hkq : (0 : ℚ) < k := by exact_mod_cast hk
  have hnq : (0 : ℚ) < n := by exact_mod_cast hn
  have hx : (0 : ℚ) < (k : ℚ) / n := by positivity
  have core : ∀ r q, Rounds ((k : ℚ) / n) r → Rounds (((m * n : ℕ) : ℚ) * r) q → ⌊q⌋₊ = m * k := by
    intro r q hr hq
    obtain ⟨l1, l2⟩ := h r hr
    have hV : ((m * k : ℕ) : ℚ) = ((m * n : ℕ) : ℚ) * ((k : ℚ) / n) := by push_cast; field_simp
    have hV0 : (0 : ℚ) ≤ ((m * n : ℕ) : ℚ) := Nat.cast_nonneg _
    have hV1 : ((m * k : ℕ) : ℚ) < 2 ^ 51 := by exact_mod_cast hm
    refine rounds_floor hm ?_ ?_ hq
    · rw [hV, mul_assoc]
      exact mul_le_mul_of_nonneg_left l1 hV0
    · have : ((m * n : ℕ) : ℚ) * r ≤ ((m * n : ℕ) : ℚ) * ((k : ℚ) / n * (1 + 1 / 2 ^ 54)) :=
        mul_le_mul_of_nonneg_left l2 hV0
      refine lt_of_le_of_lt this ?_
      rw [← mul_assoc, ← hV]
      linarith
  constructor
  · rintro ⟨r, q, hr, hq, rfl⟩
    exact core r q hr hq
  · rintro rfl
    obtain ⟨r, hr⟩ := exists_rounds hx
    have hr0 := rate_pos hk hn h hr
    have : ∃ q, Rounds (((m * n : ℕ) : ℚ) * r) q := by
      rcases Nat.eq_zero_or_pos m with h0 | h0
      · exact ⟨_, (rounds_self ⟨0, 0, by norm_num, by simp [h0]⟩).2 rfl⟩
      · have : (0 : ℚ) < ((m * n : ℕ) : ℚ) := by exact_mod_cast Nat.mul_pos h0 hn
        exact exists_rounds (mul_pos this hr0)
    obtain ⟨q, hq⟩ := this
    exact ⟨r, q, hr, hq, (core r q hr hq).symm⟩

/-- C33 in double arithmetic, with no assumption left on the length computation: every well-formed trellis of rate
`k/n` with `n ≤ 9` (or `k = 1`, `n ≤ 48`), every message of whole groups. -/
theorem C33_length_double {t : Trellis} (h : t.WF) (hn : 0 < t.n) (hkn : t.k ≤ t.n) (hs : t.n ≤ 9 ∨ t.k = 1 ∧ t.n ≤ 48)
    (outLen : Nat → Nat) (hout : ∀ N, 0 < N → IsOutLen t.k t.n N (outLen N)) (h0 : outLen 0 = 0)
    (msg : List Nat) (hb : ∀ b ∈ msg, b < 2) (term : String)
    (m : ℕ) (hm : codedInputLen t msg.length term = m * t.k) (hsz : m * t.n < 2 ^ 51) :
    ∃ c, convEncode outLen t msg term none = .ok c ∧ c.length = m * t.n ∧ ∀ b ∈ c, b < 2 := by
  have hk := h.k_pos
  have ho : outLen (m * t.k) = m * t.n := by
    rcases Nat.eq_zero_or_pos m with hm0 | hm0
    · simp [hm0, h0]
    · exact (C33_double_outLen hk hn (rateOK_small hk hkn hs) hsz).1 (hout _ (Nat.mul_pos hm0 hk))
  have hdiv : m * t.k * t.n / t.k = m * t.n := by
    rw [Nat.mul_right_comm, Nat.mul_div_cancel _ hk]
  have := C33_length h hn outLen msg hb term (by rw [hm, ho, hdiv])
  rw [hm, hdiv] at this
  exact this

/-- The computed length of one group of a rate 9/14 code is 13, not 14. -/
theorem outLen_9_14 {v : ℕ} : IsOutLen 9 14 9 v ↔ v = 13 := by
  have hr : ∀ r, Rounds (((9 : ℕ) : ℚ) / (14 : ℕ)) r ↔ r = ((5790342378047781 : ℕ) : ℚ) * 2 ^ (-53 : ℤ) := by
    intro r
    refine rounds_unique (by norm_num) (by norm_num) ?_
    rw [zpow_neg, abs_lt]; norm_num
  have hq : ∀ q, Rounds (((9 : ℕ) : ℚ) / (((5790342378047781 : ℕ) : ℚ) * 2 ^ (-53 : ℤ))) q ↔
      q = ((7881299347898367 : ℕ) : ℚ) * 2 ^ (-49 : ℤ) := by
    intro q
    refine rounds_unique (by norm_num) (by norm_num) ?_
    rw [zpow_neg, zpow_neg, abs_lt]; norm_num
  have hf : ⌊((7881299347898367 : ℕ) : ℚ) * 2 ^ (-49 : ℤ)⌋₊ = 13 := by
    rw [Nat.floor_eq_iff (by positivity), zpow_neg]; norm_num
  constructor
  · rintro ⟨r, q, h1, h2, rfl⟩
    rw [(hr r).1 h1] at h2
    rw [(hq q).1 h2, hf]
  · rintro rfl
    exact ⟨_, _, (hr _).2 rfl, (hq _).2 rfl, hf.symm⟩

/-- C33 is false for rates whose double representation is too coarse: every encoder with 9 inputs and 14 outputs raises
ValueError on every message of one group, because the output array is one element too short. -/
theorem C33_double_refuted {t : Trellis} (h : t.WF) (hk : t.k = 9) (hn : t.n = 14) (outLen : Nat → Nat)
    (hout : IsOutLen t.k t.n 9 (outLen 9)) (msg : List Nat) (hb : ∀ b ∈ msg, b < 2) (hl : msg.length = 9) :
    convEncode outLen t msg "cont" none = .error .valueError := by
  rw [hk, hn] at hout
  have ho := outLen_9_14.1 hout
  have hu : bitarray2dec ((msg.drop (0 * t.k)).take t.k) < 2 ^ t.k := by
    have := bitarray2dec_lt (b := msg) hb
    rw [hk, Nat.zero_mul, List.drop_zero, List.take_of_length_le (by omega)]
    rwa [hl] at this
  have hs : (0 : ℕ) < 2 ^ t.M := Nat.two_pow_pos _
  have e1 := tableGet_ok (tbl := t.outTable) h.out_len (fun r hr => (h.out_row r hr).1) hs hu
  have e3 := dec2bitarray_ok (h.out_lt hs hu)
  have hstep : encStep t msg (0, 0, List.replicate 13 0) 0 = .error .valueError := by
    simp only [encStep, bind, Except.bind]
    rw [e1]
    simp only []
    have e3' : dec2bitarray ((t.outTable.getD 0 []).getD (bitarray2dec ((msg.drop (0 * t.k)).take t.k)) 0) t.n = _ := e3
    rw [e3']
    simp only [npSliceWrite]
    simp [hn]
  rw [convEncode_none h.k_pos (by omega)]
  unfold convEncodeRun encInput
  simp only [if_true, hl, ho, hk, show 9 / 9 = 1 from rfl, show (9 : ℕ) ≠ 0 by decide, if_false]
  simp only [List.range_succ, List.range_zero, List.nil_append, List.foldlM_cons, hstep]
  rfl

/-- Such encoders exist: nine uncoded inputs and five constant-zero outputs. -/
example : ∃ t, mkTrellis (fun _ _ => 0) (List.replicate 9 0)
      ((List.range 9).map fun i => (List.range 14).map fun j => if i = j then 1 else 0) 14 none false "MSB" = .ok t ∧
    t.WF ∧ t.k = 9 ∧ t.n = 14 := by
  have ha : TrellisArgs (List.replicate 9 0) ((List.range 9).map fun i => (List.range 14).map fun j => if i = j then 1 else 0)
      14 none "MSB" := by
    refine ⟨by simp, by decide, by decide, ⟨by decide, by decide⟩, by decide, by simp, by simp⟩
  obtain ⟨t, h1, h2, h3, h4, -⟩ := C33_trellis_WF ha (fun _ _ => 0) false
  exact ⟨t, h1, h2, h3, h4⟩

example : RateOK 1 2 ∧ RateOK 1 3 ∧ RateOK 2 3 ∧ RateOK 3 4 ∧ RateOK 5 6 ∧ IsOutLen 2 3 1000 1500 ∧ IsDecLen 1 3 3000 1000 := by
  refine ⟨rateOK_small ?_ ?_ ?_, rateOK_small ?_ ?_ ?_, rateOK_small ?_ ?_ ?_, rateOK_small ?_ ?_ ?_, rateOK_small ?_ ?_ ?_,
    (C33_double_outLen (k := 2) (n := 3) (m := 500) ?_ ?_ (rateOK_small ?_ ?_ ?_) ?_).2 ?_,
    (C39_double_decLen (k := 1) (n := 3) (m := 1000) ?_ ?_ (rateOK_small ?_ ?_ ?_) ?_).2 ?_⟩ <;> norm_num

end Verif
