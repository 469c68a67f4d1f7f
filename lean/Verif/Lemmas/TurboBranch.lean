import Verif.Lemmas.TurboFloat
import Verif.Spec.Turbo
/-
Rounding in `_compute_branch_prob` (C122).
-/
namespace Verif

variable {D : MapFloats} (hD : DoubleLike D)

theorem eps_small {x : ℝ} (hx : 1 / 2 ^ 1000 ≤ x) : (1 : ℝ) / 2 ^ 1074 ≤ x / 10 ^ 9 ∧ (0 : ℝ) < 1 / 2 ^ 1074 := by
  refine ⟨?_, by positivity⟩
  have e : (1 : ℝ) / 2 ^ 1074 = 1 / 2 ^ 1000 / 2 ^ 74 := by rw [div_div, ← pow_add]
  rw [e]
  have h0 : (0 : ℝ) < 1 / 2 ^ 1000 := by positivity
  have : (1 : ℝ) / 2 ^ 1000 / 2 ^ 74 ≤ 1 / 2 ^ 1000 / 10 ^ 9 := by
    refine div_le_div_of_nonneg_left h0.le (by positivity) (by norm_num)
  refine this.trans ?_
  exact div_le_div_of_nonneg_right hx (by positivity)

theorem one_le_big : (10 : ℝ) ^ 9 ≤ 2 ^ 1000 := by
  calc (10 : ℝ) ^ 9 ≤ 2 ^ 100 := by norm_num
    _ ≤ 2 ^ 1000 := pow_le_pow_right₀ (by norm_num) (by norm_num)

theorem small_le : (1 : ℝ) / 2 ^ 1000 ≤ 1 / 10 ^ 9 := by
  refine div_le_div_of_nonneg_left zero_le_one (by positivity) one_le_big

include hD in
theorem rnd_crude {x : ℝ} (hx : |x| ≤ 10 ^ 9) : ∃ y, D.rnd x = .fin y ∧ |y - x| ≤ |x| / 10 ^ 9 + 1 / 10 ^ 9 := by
  obtain ⟨y, h1, h2⟩ := hD.rnd_err x (hx.trans one_le_big)
  refine ⟨y, h1, h2.trans ?_⟩
  have := (eps_small small_le).1
  have h3 : |x| / 2 ^ 53 ≤ |x| / 10 ^ 9 := div_le_div_of_nonneg_left (abs_nonneg _) (by norm_num) (by norm_num)
  have h4 : (1 : ℝ) / 10 ^ 9 / 10 ^ 9 ≤ 1 / 10 ^ 9 := by norm_num
  linarith

include hD in
theorem rnd_pos {x : ℝ} (h1 : 1 / 2 ^ 1000 ≤ x) (h2 : x ≤ 2 ^ 1000) : ∃ y, D.rnd x = .fin y ∧ x / 2 ≤ y ∧ y ≤ 2 * x := by
  have h0 : 0 < x := lt_of_lt_of_le (by positivity) h1
  obtain ⟨y, e, he⟩ := hD.rnd_err x (by rwa [abs_of_pos h0])
  rw [abs_of_pos h0] at he
  have h3 := (eps_small h1).1
  have h4 : x / 2 ^ 53 ≤ x / 10 ^ 9 := div_le_div_of_nonneg_left h0.le (by norm_num) (by norm_num)
  have h5 := abs_le.1 he
  refine ⟨y, e, ?_, ?_⟩ <;> linarith [h5.1, h5.2]

include hD in
theorem sq_term {r a : ℝ} (hx : |r - a| ≤ 5 / 2) :
    ∃ A, flMul D (flSub D (.fin r) (.fin a)) (flSub D (.fin r) (.fin a)) = .fin A ∧ |A - (r - a) ^ 2| ≤ (r - a) ^ 2 / 500 + 9 * (1 / 2 ^ 1074) := by
  set ε : ℝ := 1 / 2 ^ 1074 with hε
  have hε0 : 0 < ε := (eps_small small_le).2
  have hε1 : ε ≤ 1 / 10 ^ 9 := (eps_small small_le).1.trans (by norm_num)
  set x := r - a with hxd
  have hb : (5 / 2 : ℝ) ≤ 2 ^ 1000 := le_trans (by norm_num) one_le_big
  obtain ⟨X, e1, h1⟩ := hD.rnd_err x (hx.trans hb)
  obtain ⟨d, rfl⟩ : ∃ d, X = x + d := ⟨X - x, by ring⟩
  rw [add_sub_cancel_left] at h1
  have hx0 := abs_nonneg x
  have hxx : |x| ^ 2 = x ^ 2 := sq_abs x
  have h53 : |x| / 2 ^ 53 ≤ |x| / 10 ^ 9 := div_le_div_of_nonneg_left hx0 (by norm_num) (by norm_num)
  have hd : |d| ≤ |x| / 10 ^ 9 + ε := by linarith
  have hd0 := abs_nonneg d
  have hd1 : |d| ≤ 1 := by linarith
  have hxd2 : |x * d| ≤ x ^ 2 / 10 ^ 9 + 5 / 2 * ε := by
    rw [abs_mul, ← hxx]
    calc |x| * |d| ≤ |x| * (|x| / 10 ^ 9 + ε) := mul_le_mul_of_nonneg_left hd hx0
      _ = |x| ^ 2 / 10 ^ 9 + |x| * ε := by ring
      _ ≤ |x| ^ 2 / 10 ^ 9 + 5 / 2 * ε := by
        have := mul_le_mul_of_nonneg_right hx hε0.le
        linarith
  have hdd : d ^ 2 ≤ x ^ 2 / 10 ^ 9 + 2 * ε := by
    have e : d ^ 2 = |d| * |d| := by rw [← sq, sq_abs]
    have s1 : |d| * |d| ≤ (|x| / 10 ^ 9 + ε) * (|x| / 10 ^ 9 + ε) := mul_self_le_mul_self hd0 hd
    have s2 : (|x| / 10 ^ 9 + ε) * (|x| / 10 ^ 9 + ε) = |x| ^ 2 / 10 ^ 18 + 2 * (|x| / 10 ^ 9) * ε + ε * ε := by ring
    have s3 : 2 * (|x| / 10 ^ 9) * ε ≤ 1 * ε := mul_le_mul_of_nonneg_right (by linarith) hε0.le
    have s4 : ε * ε ≤ 1 * ε := mul_le_mul_of_nonneg_right (by linarith) hε0.le
    have s5 : |x| ^ 2 / 10 ^ 18 ≤ |x| ^ 2 / 10 ^ 9 := div_le_div_of_nonneg_left (sq_nonneg _) (by norm_num) (by norm_num)
    rw [hxx] at s2 s5
    linarith
  have hX2 : |(x + d) ^ 2 - x ^ 2| ≤ x ^ 2 / 1000 + 7 * ε := by
    have e : (x + d) ^ 2 - x ^ 2 = 2 * (x * d) + d ^ 2 := by ring
    rw [e]
    have s1 : |2 * (x * d) + d ^ 2| ≤ 2 * |x * d| + d ^ 2 := by
      refine (abs_add_le _ _).trans ?_
      rw [abs_mul, abs_of_pos (by norm_num : (0 : ℝ) < 2), abs_of_nonneg (sq_nonneg d)]
    have s2 : 3 * (x ^ 2 / 10 ^ 9) ≤ x ^ 2 / 1000 := by nlinarith [sq_nonneg x]
    linarith
  have hX2b : (x + d) ^ 2 ≤ 10 := by
    have s : x ^ 2 ≤ (5 / 2) ^ 2 := by rw [← hxx]; exact pow_le_pow_left₀ hx0 hx 2
    have := (abs_le.1 hX2).2
    linarith
  obtain ⟨A, e2, h2⟩ := hD.rnd_err ((x + d) * (x + d)) (by
    rw [← sq, abs_of_nonneg (sq_nonneg _)]
    exact (hX2b.trans (by norm_num)).trans one_le_big)
  refine ⟨A, ?_, ?_⟩
  · have e1' : D.rnd (r + -a) = .fin (x + d) := by rw [← sub_eq_add_neg]; exact e1
    simp only [flSub, flNeg, flAdd, e1', flMul, e2]
  · rw [← sq, abs_of_nonneg (sq_nonneg (x + d)), ← hε] at h2
    have h3 : (x + d) ^ 2 / 2 ^ 53 ≤ (x + d) ^ 2 / 10 ^ 4 := div_le_div_of_nonneg_left (sq_nonneg _) (by norm_num) (by norm_num)
    have h4 := abs_le.1 hX2
    have h5 := abs_le.1 h2
    rw [abs_le]
    constructor <;> linarith [h4.1, h4.2, h5.1, h5.2, sq_nonneg x, sq_nonneg (x + d)]

set_option maxHeartbeats 1000000 in
include hD in
/-- The argument of the exponential. -/
theorem branch_arg {c0 c1 : Nat} {r0 r1 σ2 : ℝ} (h0 : |r0 - bpskAmp c0| ≤ 5 / 2) (h1 : |r1 - bpskAmp c1| ≤ 5 / 2) (hlo : 1 / 2 ^ 900 ≤ σ2) (hhi : σ2 ≤ 1 / 800) :
    ∃ q, branchProbF D c0 c1 (.fin r0) (.fin r1) (.fin σ2) = D.exp q ∧
      -((r0 - bpskAmp c0) ^ 2 + (r1 - bpskAmp c1) ^ 2) / σ2 * (11 / 20) - 1 ≤ q ∧
      q ≤ -((r0 - bpskAmp c0) ^ 2 + (r1 - bpskAmp c1) ^ 2) / σ2 * (19 / 40) + 1 := by
  set ε : ℝ := 1 / 2 ^ 1074 with hε
  have h1000 : (1 : ℝ) / 2 ^ 1000 ≤ 1 / 2 ^ 900 := div_le_div_of_nonneg_left zero_le_one (by positivity) (pow_le_pow_right₀ (by norm_num) (by norm_num))
  have hσ0 : 0 < σ2 := lt_of_lt_of_le (by positivity) hlo
  obtain ⟨hεσ, hε0⟩ := eps_small (h1000.trans hlo)
  rw [← hε] at hεσ hε0
  obtain ⟨A, eA, hA⟩ := sq_term hD h0
  obtain ⟨B, eB, hB⟩ := sq_term hD h1
  rw [← hε] at hA hB
  set x := r0 - bpskAmp c0 with hx
  set y := r1 - bpskAmp c1 with hy
  have hx2 : x ^ 2 ≤ (5 / 2) ^ 2 := by rw [← sq_abs]; exact pow_le_pow_left₀ (abs_nonneg _) h0 2
  have hy2 : y ^ 2 ≤ (5 / 2) ^ 2 := by rw [← sq_abs]; exact pow_le_pow_left₀ (abs_nonneg _) h1 2
  have hx0 := sq_nonneg x
  have hy0 := sq_nonneg y
  obtain ⟨a1, a2⟩ := abs_le.1 hA
  obtain ⟨b1, b2⟩ := abs_le.1 hB
  have hε1 : ε ≤ 1 / 10 ^ 9 := by linarith
  have hAB : |A + B| ≤ 20 := by rw [abs_le]; constructor <;> linarith
  obtain ⟨Sg, eS, hS⟩ := hD.rnd_err (A + B) ((hAB.trans (by norm_num)).trans one_le_big)
  rw [← hε] at hS
  have hAB2 : |A + B| ≤ 2 * (x ^ 2 + y ^ 2) + 18 * ε := by rw [abs_le]; constructor <;> linarith
  have h53 : |A + B| / 2 ^ 53 ≤ |A + B| / 10 ^ 4 := div_le_div_of_nonneg_left (abs_nonneg _) (by norm_num) (by norm_num)
  obtain ⟨s1, s2⟩ := abs_le.1 hS
  have S1 : (x ^ 2 + y ^ 2) * (99 / 100) - 20 * ε ≤ Sg := by linarith
  have S2 : Sg ≤ (x ^ 2 + y ^ 2) * (101 / 100) + 20 * ε := by linarith
  obtain ⟨T, eT, hT⟩ := hD.rnd_err (2 * σ2) (by
    rw [abs_of_pos (by positivity)]
    exact (show 2 * σ2 ≤ 10 ^ 9 by linarith).trans one_le_big)
  rw [abs_of_pos (show 0 < 2 * σ2 by positivity), ← hε] at hT
  have h53' : 2 * σ2 / 2 ^ 53 ≤ 2 * σ2 / 10 ^ 4 := div_le_div_of_nonneg_left (by positivity) (by norm_num) (by norm_num)
  obtain ⟨t1, t2⟩ := abs_le.1 hT
  have T1 : σ2 * (199 / 100) ≤ T := by linarith
  have T2 : T ≤ σ2 * (201 / 100) := by linarith
  have hT0 : 0 < T := lt_of_lt_of_le (by positivity) T1
  set N := (x ^ 2 + y ^ 2) / σ2 with hN
  have hNe : x ^ 2 + y ^ 2 = N * σ2 := by rw [hN]; field_simp
  have hN0 : 0 ≤ N := by rw [hN]; positivity
  have Q1 : -(N * (52 / 100)) - 1 / 10 ^ 6 ≤ -Sg / T := by
    rw [le_div_iff₀ hT0]
    rw [hNe] at S2
    nlinarith [mul_nonneg hN0 hσ0.le, mul_le_mul_of_nonneg_left T1 hN0]
  have Q2 : -Sg / T ≤ -(N * (48 / 100)) + 1 / 10 ^ 6 := by
    rw [div_le_iff₀ hT0]
    rw [hNe] at S1
    nlinarith [mul_nonneg hN0 hσ0.le, mul_le_mul_of_nonneg_left T2 hN0]
  have hNbig : N ≤ 13 * 2 ^ 900 := by
    rw [hN, div_le_iff₀ hσ0]
    have : 1 ≤ σ2 * 2 ^ 900 := by
      have := mul_le_mul_of_nonneg_right hlo (show (0 : ℝ) ≤ 2 ^ 900 by positivity)
      rwa [one_div, inv_mul_cancel₀ (by positivity)] at this
    calc x ^ 2 + y ^ 2 ≤ 13 * 1 := by linarith
      _ ≤ 13 * (σ2 * 2 ^ 900) := mul_le_mul_of_nonneg_left this (by norm_num)
      _ = 13 * 2 ^ 900 * σ2 := by ring
  have h900 : (14 : ℝ) * 2 ^ 900 ≤ 2 ^ 1000 := by
    rw [show (1000 : Nat) = 100 + 900 from rfl, pow_add]
    exact mul_le_mul_of_nonneg_right (by norm_num) (by positivity)
  have h900' : (1 : ℝ) ≤ 2 ^ 900 := one_le_pow₀ (by norm_num)
  have hq : |-Sg / T| ≤ N * (52 / 100) + 1 / 10 ^ 6 := by rw [abs_le]; constructor <;> linarith
  have aux : ∀ K : ℝ, N ≤ 13 * K → 1 ≤ K → N * (52 / 100) + 1 / 10 ^ 6 ≤ 14 * K := fun K a b => by linarith
  obtain ⟨q, eq, hq2⟩ := hD.rnd_err (-Sg / T) ((hq.trans (aux _ hNbig h900')).trans h900)
  rw [← hε] at hq2
  have h53q : |-Sg / T| / 2 ^ 53 ≤ |-Sg / T| / 10 ^ 4 := div_le_div_of_nonneg_left (abs_nonneg _) (by norm_num) (by norm_num)
  obtain ⟨q1, q2⟩ := abs_le.1 hq2
  refine ⟨q, ?_, ?_, ?_⟩
  · have eA' := eA
    have eB' := eB
    simp only [bpskAmp] at eA' eB'
    dsimp only [branchProbF]
    rw [eA', eB']
    simp only [flAdd, eS, flNeg, flMul, eT, flDiv, if_neg hT0.ne', eq, flExp]
  · rw [neg_div, ← hN]; linarith
  · rw [neg_div, ← hN]; linarith

end Verif
