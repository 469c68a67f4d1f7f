import Verif.Model.LimitDen
import Verif.Lemmas.Float53
import Mathlib.Tactic.FieldSimp
import Mathlib.Tactic.Ring
import Mathlib.Tactic.Linarith
import Mathlib.Tactic.LinearCombination
/-
Property C97: float code rates.
-/
namespace Verif

/-- The state at the exit of the loop. -/
structure LimInv (N : Int) (x : ℚ) (p0 q0 p1 q1 n d : Int) : Prop where
  det : p1 * q0 - p0 * q1 = 1 ∨ p1 * q0 - p0 * q1 = -1
  num : p1 * n + p0 * d = x.num
  den : q1 * n + q0 * d = x.den
  q0_nonneg : 0 ≤ q0
  q0_le : q0 ≤ N
  q1_pos : 1 ≤ q1
  q1_le : q1 ≤ N
  d_pos : 0 < d
  lt : d < n

theorem LimInv.step {N : Int} {x : ℚ} (hN : N < x.den) {p0 q0 p1 q1 n d : Int}
    (det : p1 * q0 - p0 * q1 = 1 ∨ p1 * q0 - p0 * q1 = -1) (num : p1 * n + p0 * d = x.num) (den : q1 * n + q0 * d = x.den)
    (hq1 : 0 ≤ q1) (hq1N : q1 ≤ N) (hd : 0 < d)
    (hpos : 1 ≤ q0 + n.fdiv d * q1) (hle : q0 + n.fdiv d * q1 ≤ N) :
    LimInv N x p1 q1 (p0 + n.fdiv d * p1) (q0 + n.fdiv d * q1) d (n - n.fdiv d * d) := by
  have hmod : n - n.fdiv d * d = n % d := by
    rw [Int.fdiv_eq_ediv_of_nonneg _ hd.le, Int.emod_def]; ring
  have h0 : 0 ≤ n % d := Int.emod_nonneg _ hd.ne'
  have h1 : n % d < d := Int.emod_lt_of_pos _ hd
  have hnum' : (p0 + n.fdiv d * p1) * d + p1 * (n - n.fdiv d * d) = x.num := by rw [← num]; ring
  have hden' : (q0 + n.fdiv d * q1) * d + q1 * (n - n.fdiv d * d) = x.den := by rw [← den]; ring
  refine ⟨?_, hnum', hden', hq1, hq1N, hpos, hle, ?_, by rw [hmod]; exact h1⟩
  · rcases det with h | h
    · right; linear_combination -h
    · left; linear_combination -h
  · rw [hmod]
    rcases h0.lt_or_eq with h | h
    · exact h
    · exfalso
      rw [hmod, ← h, mul_zero, add_zero] at hnum' hden'
      have hc := x.reduced
      have e1 : d ∣ x.num := hnum' ▸ Dvd.intro_left _ rfl
      have e2 : d ∣ (x.den : Int) := hden' ▸ Dvd.intro_left _ rfl
      have e3 : d.natAbs ∣ Nat.gcd x.num.natAbs x.den :=
        Nat.dvd_gcd (Int.natAbs_dvd_natAbs.2 e1) (by have := Int.natAbs_dvd_natAbs.2 e2; simpa using this)
      rw [hc.gcd_eq_one] at e3
      have e4 : d.natAbs = 1 := Nat.dvd_one.1 e3
      have e5 : d = 1 := by omega
      have e6 : (q0 + n.fdiv d * q1) * d = q0 + n.fdiv d * q1 := by rw [show (q0 + n.fdiv d * q1) * d = (q0 + n.fdiv d * q1) * 1 from congrArg _ e5, mul_one]
      omega

theorem limitDenLoop_spec {N : Int} {x : ℚ} (hN : N < x.den) : ∀ (fuel : Nat) {p0 q0 p1 q1 n d : Int},
    LimInv N x p0 q0 p1 q1 n d → d < fuel →
    ∃ p0' q0' p1' q1' n' d', LimInv N x p0' q0' p1' q1' n' d' ∧ N < q0' + n'.fdiv d' * q1' ∧
      limitDenLoop N fuel p0 q0 p1 q1 n d = .ok (p0', q0', p1', q1') := by
  intro fuel
  induction fuel with
  | zero => intro p0 q0 p1 q1 n d h hf; have := h.d_pos; exfalso; simp at hf; omega
  | succ fuel ih =>
    intro p0 q0 p1 q1 n d h hf
    have hd := h.d_pos
    have ha : 1 ≤ n.fdiv d := by
      rw [Int.fdiv_eq_ediv_of_nonneg _ hd.le]
      exact (Int.le_ediv_iff_mul_le hd).2 (by have := h.lt; omega)
    by_cases hb : q0 + n.fdiv d * q1 > N
    · refine ⟨p0, q0, p1, q1, n, d, h, hb, ?_⟩
      rw [limitDenLoop, if_neg hd.ne']
      simp only
      rw [if_pos hb]
    · have hq := h.q1_pos
      have h1 : 1 ≤ n.fdiv d * q1 := by nlinarith
      have hstep := LimInv.step hN h.det h.num h.den (by omega) h.q1_le hd (by have := h.q0_nonneg; omega) (by omega)
      obtain ⟨p0', q0', p1', q1', n', d', h2, h3, h4⟩ := ih hstep (by have := hstep.lt; push_cast at hf; omega)
      refine ⟨p0', q0', p1', q1', n', d', h2, h3, ?_⟩
      rw [limitDenLoop, if_neg hd.ne']
      simp only
      rw [if_neg hb]
      exact h4

/-- No fraction with a denominator below `Q1 + Q2` lies strictly between two neighbours. -/
theorem not_between {P1 Q1 P2 Q2 a b : Int} (hdet : P1 * Q2 - P2 * Q1 = 1) (hQ1 : 0 < Q1) (hQ2 : 0 < Q2)
    (hlt : b < Q1 + Q2) : P1 * b ≤ a * Q1 ∨ a * Q2 ≤ P2 * b := by
  by_contra hc
  push Not at hc
  obtain ⟨h1, h2⟩ := hc
  have h3 : b = Q2 * (P1 * b - a * Q1) + Q1 * (a * Q2 - P2 * b) := by linear_combination (-b) * hdet
  have h4 : Q2 * 1 ≤ Q2 * (P1 * b - a * Q1) := mul_le_mul_of_nonneg_left (by omega) hQ2.le
  have h5 : Q1 * 1 ≤ Q1 * (a * Q2 - P2 * b) := mul_le_mul_of_nonneg_left (by omega) hQ1.le
  omega

theorem min_dist {lo hi x z : ℚ} (h1 : lo ≤ x) (h2 : x ≤ hi) (hz : hi ≤ z ∨ z ≤ lo) : |hi - x| ≤ |z - x| ∨ |lo - x| ≤ |z - x| := by
  rcases hz with h | h
  · left; rw [abs_of_nonneg (by linarith), abs_of_nonneg (by linarith)]; linarith
  · right; rw [abs_of_nonpos (by linarith), abs_of_nonpos (by linarith)]; linarith

/-- C97. `Fraction.limit_denominator`: the result has a denominator of at most `maxDen`, no fraction with such a denominator is closer to
`x`, and `x` itself is returned when its denominator is small enough. -/
theorem C97_limit_denominator (x : ℚ) {N : Int} (hN1 : 1 ≤ N) {fuel : Nat} (hf : x.den + 1 ≤ fuel) :
    ∃ y : ℚ, limitDenominator fuel N x = .ok y ∧ (y.den : Int) ≤ N ∧ (∀ z : ℚ, (z.den : Int) ≤ N → |y - x| ≤ |z - x|) ∧
      ((x.den : Int) ≤ N → y = x) := by
  unfold limitDenominator
  rw [if_neg (by omega)]
  by_cases hsmall : (x.den : Int) ≤ N
  · rw [if_pos hsmall]
    exact ⟨x, rfl, hsmall, fun z _ => by simp, fun _ => rfl⟩
  rw [if_neg hsmall]
  push Not at hsmall
  have hden0 : (0 : Int) < x.den := by exact_mod_cast x.den_pos
  -- first iteration
  have hfirst : LimInv N x 1 0 (0 + x.num.fdiv x.den * 1) (1 + x.num.fdiv x.den * 0) x.den (x.num - x.num.fdiv x.den * x.den) :=
    LimInv.step hsmall (Or.inl (by ring)) (by ring) (by ring) le_rfl (by omega) hden0 (by simp) (by simpa using hN1)
  obtain ⟨fuel, rfl⟩ : ∃ f, fuel = f + 1 := ⟨fuel - 1, by omega⟩
  obtain ⟨p0, q0, p1, q1, n, d, hI, hbr, hrun⟩ := limitDenLoop_spec hsmall fuel hfirst (by have := hfirst.lt; omega)
  have hloop : limitDenLoop N (fuel + 1) 0 1 1 0 x.num x.den = .ok (p0, q0, p1, q1) := by
    rw [limitDenLoop, if_neg hden0.ne']
    simp only
    rw [if_neg (by simp; omega)]
    exact hrun
  have hq1 := hI.q1_pos
  rw [hloop]
  simp only [bind, Except.bind]
  rw [if_neg (by omega)]
  set k := (N - q0).fdiv q1 with hk
  have hq1' : 0 < q1 := by omega
  have hd := hI.d_pos
  have hk0 : 0 ≤ k := by
    rw [hk, Int.fdiv_eq_ediv_of_nonneg _ hq1'.le]; exact Int.ediv_nonneg (by have := hI.q0_le; omega) hq1'.le
  have hk1 : q0 + k * q1 ≤ N := by
    have := Int.ediv_mul_le (N - q0) hq1'.ne'
    rw [← Int.fdiv_eq_ediv_of_nonneg _ hq1'.le, ← hk] at this; omega
  have hk2 : N < q0 + k * q1 + q1 := by
    have := Int.lt_ediv_add_one_mul_self (N - q0) hq1'
    rw [← Int.fdiv_eq_ediv_of_nonneg _ hq1'.le, ← hk] at this
    linarith [this]
  set Q2 := q0 + k * q1 with hQ2
  set P2 := p0 + k * p1 with hP2
  have hQ2pos : 0 < Q2 := by have := hI.q1_le; omega
  have hka : k * d < n := by
    have h1 : k < n.fdiv d := by
      by_contra hc
      push Not at hc
      have := mul_le_mul_of_nonneg_right hc hq1'.le
      omega
    have h2 : n.fdiv d * d ≤ n := by rw [Int.fdiv_eq_ediv_of_nonneg _ hd.le]; exact Int.ediv_mul_le _ hd.ne'
    have h3 := mul_lt_mul_of_pos_right h1 hd
    omega
  have hxq : x = (x.num : ℚ) / ((x.den : Int) : ℚ) := by
    conv_lhs => rw [← Rat.num_div_den x]
    simp
  have hdq : (0 : ℚ) < ((x.den : Int) : ℚ) := by exact_mod_cast hden0
  have hq1q : (0 : ℚ) < (q1 : ℚ) := by exact_mod_cast hq1'
  have hQ2q : (0 : ℚ) < (Q2 : ℚ) := by exact_mod_cast hQ2pos
  have hdenle : ∀ (P Q : Int), 0 < Q → Q ≤ N → ((((P : ℚ) / (Q : ℚ)).den : Nat) : Int) ≤ N := by
    intro P Q h1 h2
    have h3 : (((P : ℚ) / (Q : ℚ)).den : Int) ∣ Q := by rw [← Rat.divInt_eq_div]; exact Rat.den_dvd P Q
    exact le_trans (Int.le_of_dvd h1 h3) h2
  -- the two bounds enclose x, every other candidate is outside
  have hbest : ∀ z : ℚ, (z.den : Int) ≤ N → |(p1 : ℚ) / q1 - x| ≤ |z - x| ∨ |(P2 : ℚ) / Q2 - x| ≤ |z - x| := by
    intro z hz
    have hzd : (0 : ℚ) < ((z.den : Int) : ℚ) := by exact_mod_cast z.den_pos
    have hzq : z = (z.num : ℚ) / ((z.den : Int) : ℚ) := by
      conv_lhs => rw [← Rat.num_div_den z]
      simp
    have hnum := hI.num
    have hden := hI.den
    rcases hI.det with hdet | hdet
    · have hdet' : p1 * Q2 - P2 * q1 = 1 := by rw [hQ2, hP2]; linear_combination hdet
      apply min_dist
      · rw [hxq, div_le_div_iff₀ hQ2q hdq]
        have : P2 * (x.den : Int) ≤ x.num * Q2 := by
          have e : x.num * Q2 - P2 * (x.den : Int) = n - k * d := by
            rw [← hnum, ← hden, hQ2, hP2]; linear_combination (n - k * d) * hdet
          omega
        exact_mod_cast this
      · rw [hxq, div_le_div_iff₀ hdq hq1q]
        have : x.num * q1 ≤ p1 * (x.den : Int) := by
          have e : p1 * (x.den : Int) - x.num * q1 = d := by
            rw [← hnum, ← hden]; linear_combination d * hdet
          omega
        exact_mod_cast this
      · rcases not_between (a := z.num) (b := z.den) hdet' hq1' hQ2pos (by omega) with h | h
        · left; rw [hzq, div_le_div_iff₀ hq1q hzd]; exact_mod_cast h
        · right; rw [hzq, div_le_div_iff₀ hzd hQ2q]; exact_mod_cast h
    · have hdet' : P2 * q1 - p1 * Q2 = 1 := by rw [hQ2, hP2]; linear_combination -hdet
      apply Or.symm
      apply min_dist
      · rw [hxq, div_le_div_iff₀ hq1q hdq]
        have : p1 * (x.den : Int) ≤ x.num * q1 := by
          have e : x.num * q1 - p1 * (x.den : Int) = d := by
            rw [← hnum, ← hden]; linear_combination (-d) * hdet
          omega
        exact_mod_cast this
      · rw [hxq, div_le_div_iff₀ hdq hQ2q]
        have : x.num * Q2 ≤ P2 * (x.den : Int) := by
          have e : P2 * (x.den : Int) - x.num * Q2 = n - k * d := by
            rw [← hnum, ← hden, hQ2, hP2]; linear_combination (-(n - k * d)) * hdet
          omega
        exact_mod_cast this
      · rcases not_between (a := z.num) (b := z.den) hdet' hQ2pos hq1' (by omega) with h | h
        · left; rw [hzq, div_le_div_iff₀ hQ2q hzd]; exact_mod_cast h
        · right; rw [hzq, div_le_div_iff₀ hzd hq1q]; exact_mod_cast h
  by_cases hcmp : |(p1 : ℚ) / q1 - x| ≤ |(P2 : ℚ) / Q2 - x|
  · rw [if_pos hcmp]
    refine ⟨_, rfl, hdenle _ _ hq1' hI.q1_le, ?_, fun h => absurd h (by omega)⟩
    intro z hz
    rcases hbest z hz with h | h
    · exact h
    · exact hcmp.trans h
  · rw [if_neg hcmp]
    refine ⟨_, rfl, hdenle _ _ hQ2pos hk1, ?_, fun h => absurd h (by omega)⟩
    intro z hz
    rcases hbest z hz with h | h
    · exact (not_le.1 hcmp).le.trans h
    · exact h

/-- Two fractions whose denominators are at most `N` and which are both close to `x` are equal. -/
theorem close_fractions {a b : ℚ} {N : Nat} (ha : a.den ≤ N) (hb : b.den ≤ N) (h : |a - b| * (N * N) < 1) : a = b := by
  by_contra hne
  have h1 : a - b = ((a.num * b.den - b.num * a.den : Int) : ℚ) / ((a.den : ℚ) * b.den) := by
    have e1 : (a.den : ℚ) ≠ 0 := by exact_mod_cast a.den_pos.ne'
    have e2 : (b.den : ℚ) ≠ 0 := by exact_mod_cast b.den_pos.ne'
    rw [eq_div_iff (mul_ne_zero e1 e2)]
    have e3 : a * a.den = a.num := Rat.mul_den_eq_num a
    have e4 : b * b.den = b.num := Rat.mul_den_eq_num b
    push_cast
    rw [← e3, ← e4]
    ring
  have hpos : (0 : ℚ) < (a.den : ℚ) * b.den := by
    have := a.den_pos; have := b.den_pos; positivity
  have h2 : a.num * b.den - b.num * a.den ≠ 0 := by
    intro hc
    apply hne
    rw [hc] at h1
    simp at h1
    linarith
  have h3 : (1 : ℚ) ≤ |((a.num * b.den - b.num * a.den : Int) : ℚ)| := by
    rw [← Int.cast_abs]
    exact_mod_cast Int.one_le_abs h2
  rw [h1, abs_div, abs_of_pos hpos, div_mul_eq_mul_div, div_lt_one hpos] at h
  have h4 : (a.den : ℚ) * b.den ≤ N * N := by
    have e1 : (a.den : ℚ) ≤ N := by exact_mod_cast ha
    have e2 : (b.den : ℚ) ≤ N := by exact_mod_cast hb
    exact mul_le_mul e1 e2 (by positivity) (by positivity)
  have h5 : (0 : ℚ) ≤ (N : ℚ) * N := by positivity
  nlinarith

/-- rounding to double: relative error at most `2^-52` -/
theorem rounds_error {x y : ℚ} (hx : 0 < x) (h : Rounds x y) : |x - y| ≤ x / 2 ^ 52 := by
  set e : ℤ := Int.log 2 x - 52 with he'
  have he : (0 : ℚ) < 2 ^ e := zpow_pos (by norm_num) _
  have b1 : (2 : ℚ) ^ 52 * 2 ^ e ≤ x := by
    have := Int.zpow_log_le_self (b := 2) (by norm_num) hx
    have e2 : ((2 : ℕ) : ℚ) ^ Int.log 2 x = 2 ^ 52 * 2 ^ e := by
      rw [he', show (2 : ℚ) ^ 52 = 2 ^ (52 : ℤ) by norm_num, ← zpow_add₀ (by norm_num)]; norm_num
    rwa [e2] at this
  have b2 : x < (2 : ℚ) ^ 53 * 2 ^ e := by
    have := Int.lt_zpow_succ_log_self (b := 2) (by norm_num) x
    have e2 : ((2 : ℕ) : ℚ) ^ (Int.log 2 x + 1) = 2 ^ 53 * 2 ^ e := by
      rw [he', show (2 : ℚ) ^ 53 = 2 ^ (53 : ℤ) by norm_num, ← zpow_add₀ (by norm_num)]; congr 1; ring
    rwa [e2] at this
  set m := ⌊x / 2 ^ e⌋₊ with hm
  have hxe : 0 ≤ x / 2 ^ e := by positivity
  have m1 : (m : ℚ) ≤ x / 2 ^ e := Nat.floor_le hxe
  have m2 : x / 2 ^ e < m + 1 := Nat.lt_floor_add_one _
  have m3 : m < 2 ^ 53 := by
    have : (m : ℚ) < 2 ^ 53 := lt_of_le_of_lt m1 (by rwa [div_lt_iff₀ he])
    exact_mod_cast this
  have hz : IsFloat 53 ((m : ℚ) * 2 ^ e) := ⟨m, e, m3, rfl⟩
  rw [le_div_iff₀ he] at m1
  rw [div_lt_iff₀ he] at m2
  have hclose : |x - m * 2 ^ e| ≤ x / 2 ^ 52 := by
    rw [abs_of_nonneg (by linarith), le_div_iff₀ (by norm_num)]
    nlinarith
  rcases h.2 _ hz with h1 | h1 | ⟨h1, -⟩
  · rwa [← h1]
  · exact h1.le.trans hclose
  · rw [h1]; exact hclose

/-- C97. The double nearest to a rate `q` with denominator at most 100 is converted back to `q`. -/
theorem C97_float_rate {q r : ℚ} (hq : 0 < q) (hq1 : q ≤ 2 ^ 30) (hden : q.den ≤ 100) (hr : Rounds q r) {fuel : Nat} (hf : r.den + 1 ≤ fuel) :
    (RateArg.float r).rate fuel = .ok q := by
  obtain ⟨y, h1, h2, h3, -⟩ := C97_limit_denominator r (N := 100) (by norm_num) hf
  show limitDenominator fuel 100 r = _
  rw [h1]
  congr 1
  have herr := rounds_error hq hr
  have h4 := h3 q (by exact_mod_cast hden)
  apply close_fractions (N := 100) (by exact_mod_cast h2) hden
  have h5 : |y - q| ≤ |y - r| + |r - q| := abs_sub_le _ _ _
  rw [abs_sub_comm q r] at herr h4
  have h6 : |y - q| ≤ 2 * (q / 2 ^ 52) := by linarith
  have h7 : q / 2 ^ 52 ≤ 2 ^ 30 / 2 ^ 52 := div_le_div_of_nonneg_right hq1 (by norm_num)
  have h8 : (2 : ℚ) ^ 30 / 2 ^ 52 = 1 / 4194304 := by norm_num
  rw [h8] at h7
  push_cast
  nlinarith

variable {σ Sym V G C : Type}

/-- C97. Passing a rate as a Python float or as the exact fraction gives the same simulation results, for both simulation methods. -/
theorem C97_links (lk : Link σ Sym V G C) {q r : ℚ} (hq : 0 < q) (hq1 : q ≤ 1) (hden : q.den ≤ 100) (hr : Rounds q r)
    {fuelRate : Nat} (hf : r.den + 1 ≤ fuelRate) (bufLen : ℚ → Nat → Nat) (junk : σ → Nat → ℝ) (snrs : List ℝ) (errMin : Int)
    (sendChunk : Option Int) (w : σ) :
    (∀ (fuel : Nat) (sendMax : Int), lk.performanceArg bufLen junk fuel fuelRate snrs sendMax errMin sendChunk (.float r) w =
      lk.performanceArg bufLen junk fuel fuelRate snrs sendMax errMin sendChunk (.frac q) w) ∧
    ∀ (txMax k : Nat) (stop : Bool), lk.fullMetricsArg bufLen junk fuelRate snrs txMax errMin sendChunk (.float r) k stop w =
      lk.fullMetricsArg bufLen junk fuelRate snrs txMax errMin sendChunk (.frac q) k stop w := by
  have h := C97_float_rate hq (hq1.trans (by norm_num)) hden hr hf
  constructor
  · intro fuel sendMax
    simp only [Link.performanceArg, h]
    rfl
  · intro txMax k stop
    simp only [Link.fullMetricsArg, h]
    rfl

/-- The hypotheses are met: rate 5/6 (Wi-Fi) as a double. -/
example : Rounds (5 / 6) ((7505999378950827 : ℚ) * 2 ^ (-53 : ℤ)) := by
  have := (rounds_unique (m := 7505999378950827) (e := -53) (by norm_num) (by norm_num) (x := 5 / 6)
    (y := ((7505999378950827 : ℕ) : ℚ) * 2 ^ (-53 : ℤ)) (by rw [zpow_neg, abs_lt]; norm_num)).2 rfl
  simpa using this

end Verif
