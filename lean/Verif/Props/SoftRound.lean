import Verif.Model.SoftRound
import Verif.Props.ModemFloat
import Verif.Props.ModemSoft
import Mathlib.Analysis.SpecialFunctions.Log.Deriv
import Mathlib.Analysis.Complex.ExponentialBounds
/-
C135: soft demodulation in double precision.
-/
namespace Verif

/-- What is assumed of the arithmetic of doubles (no overflow; gradual underflow allowed: the absolute terms): a subtraction, a division or an
addition is correctly rounded, `hypot` and the square are correct to one unit in the last place, `exp` and `log` to four. -/
structure SoftAccuracy (S : SoftFloats) : Prop where
  sub : ∀ a b, |S.sub a b - (a - b)| ≤ 2⁻¹ ^ 53 * |a - b|
  hypot : ∀ a b, |S.hypot a b - Real.sqrt (a ^ 2 + b ^ 2)| ≤ 2⁻¹ ^ 52 * Real.sqrt (a ^ 2 + b ^ 2) + 2⁻¹ ^ 1074
  sq : ∀ x, |S.sq x - x ^ 2| ≤ 2⁻¹ ^ 52 * x ^ 2 + 2⁻¹ ^ 1074
  fl : ∀ x, |S.fl x - x| ≤ 2⁻¹ ^ 53 * |x| + 2⁻¹ ^ 1074
  exp : ∀ x ≤ 1, |S.exp x - Real.exp x| ≤ 2⁻¹ ^ 50 * Real.exp x + 2⁻¹ ^ 1072
  log : ∀ x > 0, |S.log x - Real.log x| ≤ 2⁻¹ ^ 50 * |Real.log x|

variable {S : SoftFloats}

/-- The tiny absolute error of one rounding. -/
local notation "η" => ((2⁻¹ : ℝ) ^ 1074)

theorem distR_bounds (hS : SoftAccuracy S) (y c : ℂ) :
    |distF S.toDemodFloats y c - ‖y - c‖| ≤ 2⁻¹ ^ 51 * ‖y - c‖ + η := by
  have hup : ∀ a b, |S.sub a b| ≤ (1 + 2⁻¹ ^ 53) * |a - b| := by
    intro a b
    have h1 := hS.sub a b
    have h2 := abs_add_le (S.sub a b - (a - b)) (a - b)
    rw [sub_add_cancel] at h2
    linarith
  have hlo : ∀ a b, (1 - 2⁻¹ ^ 53) * |a - b| ≤ |S.sub a b| := by
    intro a b
    have h1 := hS.sub a b
    have h2 := abs_sub_abs_le_abs_sub (a - b) (S.sub a b)
    rw [abs_sub_comm (a - b) (S.sub a b)] at h2
    linarith
  rw [norm_eq_sqrt_re_im, Complex.sub_re, Complex.sub_im]
  have e1 := sqrt_scaled (by norm_num : (0 : ℝ) ≤ 1 + 2⁻¹ ^ 53) (hup y.re c.re) (hup y.im c.im)
  have e2 := sqrt_scaled_ge (by norm_num : (0 : ℝ) ≤ 1 - 2⁻¹ ^ 53) (hlo y.re c.re) (hlo y.im c.im)
  have h3 := hS.hypot (S.sub y.re c.re) (S.sub y.im c.im)
  unfold distF
  have hT := Real.sqrt_nonneg ((y.re - c.re) ^ 2 + (y.im - c.im) ^ 2)
  have hR := Real.sqrt_nonneg (S.sub y.re c.re ^ 2 + S.sub y.im c.im ^ 2)
  generalize Real.sqrt (S.sub y.re c.re ^ 2 + S.sub y.im c.im ^ 2) = R at *
  generalize Real.sqrt ((y.re - c.re) ^ 2 + (y.im - c.im) ^ 2) = T at *
  generalize η = e at *
  rw [abs_le] at h3 ⊢
  norm_num at *
  constructor <;> linarith

/-- The computed exponent, against the exact one. -/
theorem exponent_bound (hS : SoftAccuracy S) (y c : ℂ) {v : ℝ} (hv : 2⁻¹ ^ 500 ≤ v) :
    |S.fl ((-S.sq (distF S.toDemodFloats y c)) / v) - -‖y - c‖ ^ 2 / v| ≤ 2⁻¹ ^ 48 * (‖y - c‖ ^ 2 / v) + 2⁻¹ ^ 570 := by
  have hv0 : 0 < v := lt_of_lt_of_le (by positivity) hv
  have hd := distR_bounds hS y c
  have hsq := hS.sq (distF S.toDemodFloats y c)
  have hfl := hS.fl ((-S.sq (distF S.toDemodFloats y c)) / v)
  have hn := norm_nonneg (y - c)
  generalize ‖y - c‖ = d at *
  generalize distF S.toDemodFloats y c = d' at *
  generalize S.sq d' = q at *
  generalize S.fl (-q / v) = x at *
  have hη : (0 : ℝ) < η := by positivity
  have hη1 : η ≤ 2⁻¹ ^ 60 := pow_le_pow_of_le_one (by norm_num) (by norm_num) (by norm_num)
  have hηv : η / v ≤ 2⁻¹ ^ 574 := by
    rw [div_le_iff₀ hv0]
    calc η = 2⁻¹ ^ 574 * 2⁻¹ ^ 500 := by rw [← pow_add]
      _ ≤ _ := mul_le_mul_of_nonneg_left hv (by positivity)
  have hx0 : (2⁻¹ : ℝ) ^ 570 = 16 * 2⁻¹ ^ 574 := by
    rw [show 574 = 570 + 4 by rfl, pow_add]; generalize (2⁻¹ : ℝ) ^ 570 = w; ring
  have hη2 : η ≤ 2⁻¹ ^ 574 := pow_le_pow_of_le_one (by norm_num) (by norm_num) (by norm_num)
  rw [hx0]
  generalize (2⁻¹ : ℝ) ^ 574 = z at *
  generalize η = e at *
  -- the square of the computed distance
  have h1 : |d' ^ 2 - d ^ 2| ≤ 2⁻¹ ^ 49 * d ^ 2 + 3 * e := by
    have hs : |d' ^ 2 - d ^ 2| = |d' - d| * |d' + d| := by rw [← abs_mul]; congr 1; ring
    have h2 : |d' + d| ≤ (2 + 2⁻¹ ^ 51) * d + e := by
      calc |d' + d| = |(d' - d) + 2 * d| := by congr 1; ring
        _ ≤ |d' - d| + |2 * d| := abs_add_le _ _
        _ = |d' - d| + 2 * d := by rw [abs_of_nonneg (by positivity : 0 ≤ 2 * d)]
        _ ≤ _ := by linarith
    rw [hs]
    calc _ ≤ (2⁻¹ ^ 51 * d + e) * ((2 + 2⁻¹ ^ 51) * d + e) :=
          mul_le_mul hd h2 (abs_nonneg _) (add_nonneg (mul_nonneg (pow_nonneg (by norm_num) _) hn) hη.le)
      _ = 2⁻¹ ^ 51 * (2 + 2⁻¹ ^ 51) * d ^ 2 + (2 + 2 * 2⁻¹ ^ 51) * (d * e) + e * e := by
        generalize (2⁻¹ : ℝ) ^ 51 = w; ring
      _ ≤ _ := by
        have a1 : d * e ≤ (d ^ 2 + 1) / 2 * e := by
          apply mul_le_mul_of_nonneg_right _ hη.le
          nlinarith [sq_nonneg (d - 1)]
        have a2 : d ^ 2 * e ≤ d ^ 2 * 2⁻¹ ^ 60 := mul_le_mul_of_nonneg_left hη1 (sq_nonneg d)
        have a3 : e * e ≤ 2⁻¹ ^ 60 * e := mul_le_mul_of_nonneg_right hη1 hη.le
        have a4 := sq_nonneg d
        norm_num at *
        nlinarith
  have h2 : |q - d ^ 2| ≤ 3 * 2⁻¹ ^ 50 * d ^ 2 + 5 * e := by
    rw [abs_le] at *
    have a4 := sq_nonneg d
    norm_num at *
    constructor <;> nlinarith
  have h3 : |-q / v - -d ^ 2 / v| ≤ 3 * 2⁻¹ ^ 50 * (d ^ 2 / v) + 5 * z := by
    have : -q / v - -d ^ 2 / v = -((q - d ^ 2) / v) := by ring
    rw [this, abs_neg, abs_div, abs_of_pos hv0]
    calc _ ≤ (3 * 2⁻¹ ^ 50 * d ^ 2 + 5 * e) / v := by gcongr
      _ = 3 * 2⁻¹ ^ 50 * (d ^ 2 / v) + 5 * (e / v) := by ring
      _ ≤ _ := by linarith
  have hA : 0 ≤ d ^ 2 / v := by positivity
  have h4 : |-q / v| ≤ (1 + 3 * 2⁻¹ ^ 50) * (d ^ 2 / v) + 5 * z := by
    have : |-q / v| ≤ |-q / v - -d ^ 2 / v| + |-d ^ 2 / v| := by
      have := abs_add_le (-q / v - -d ^ 2 / v) (-d ^ 2 / v)
      rwa [sub_add_cancel] at this
    have h5 : |-d ^ 2 / v| = d ^ 2 / v := by rw [neg_div, abs_neg, abs_of_nonneg hA]
    rw [h5] at this
    linarith
  have h6 : |x - -d ^ 2 / v| ≤ |x - -q / v| + |-q / v - -d ^ 2 / v| := abs_sub_le _ _ _
  have hz : 0 < z := lt_of_lt_of_le hη hη2
  generalize d ^ 2 / v = A at *
  generalize |-q / v| = B at *
  generalize |x - -d ^ 2 / v| = C at *
  norm_num at *
  linarith

theorem exp_sub_one_le {x : ℝ} (h : |x| ≤ 1) : |Real.exp x - 1| ≤ 2 * |x| := Real.abs_exp_sub_one_le h

theorem two_inv_le_exp {k : Nat} {t : ℝ} (h : t ≤ k * 0.6931) : (2⁻¹ : ℝ) ^ k ≤ Real.exp (-t) := by
  rw [← Real.exp_log (by positivity : (0 : ℝ) < 2⁻¹ ^ k), Real.log_pow, Real.log_inv]
  apply Real.exp_le_exp.2
  have := Real.log_two_gt_d9
  have hk : (0 : ℝ) ≤ k := Nat.cast_nonneg k
  nlinarith

theorem exp_le_two_inv {k : Nat} {t : ℝ} (h : k * 0.6932 ≤ t) : Real.exp (-t) ≤ (2⁻¹ : ℝ) ^ k := by
  rw [← Real.exp_log (by positivity : (0 : ℝ) < 2⁻¹ ^ k), Real.log_pow, Real.log_inv]
  apply Real.exp_le_exp.2
  have := Real.log_two_lt_d9
  have hk : (0 : ℝ) ≤ k := Nat.cast_nonneg k
  nlinarith

/-- One computed likelihood term, against the exact one. -/
theorem term_bound (hS : SoftAccuracy S) (y c : ℂ) {v : ℝ} (hv : 2⁻¹ ^ 500 ≤ v) :
    |softTermR S y c v - Real.exp (-‖y - c‖ ^ 2 / v)| ≤ 2⁻¹ ^ 36 * Real.exp (-‖y - c‖ ^ 2 / v) + Real.exp (-690) := by
  have hv0 : 0 < v := lt_of_lt_of_le (by positivity) hv
  have h1 := exponent_bound hS y c hv
  have hA : 0 ≤ ‖y - c‖ ^ 2 / v := by positivity
  unfold softTermR
  rw [neg_div v (‖y - c‖ ^ 2)] at h1 ⊢
  generalize ‖y - c‖ ^ 2 / v = A at *
  generalize S.fl ((-S.sq (distF S.toDemodFloats y c)) / v) = x at *
  have hz : (2⁻¹ : ℝ) ^ 570 ≤ 2⁻¹ ^ 60 := pow_le_pow_of_le_one (by norm_num) (by norm_num) (by norm_num)
  have h1' : |x - -A| ≤ 2⁻¹ ^ 48 * A + 2⁻¹ ^ 60 := le_trans h1 (by linarith)
  clear h1 hz
  have hx1 : x ≤ 1 := by
    have := (abs_le.1 h1').2
    norm_num at this
    linarith
  have hE := hS.exp x hx1
  have hη : (2⁻¹ : ℝ) ^ 1072 ≤ Real.exp (-698) := two_inv_le_exp (by norm_num)
  have hη' : Real.exp (-698) ≤ Real.exp (-690) * 2⁻¹ ^ 3 := by
    rw [show (-698 : ℝ) = -690 + -8 by norm_num, Real.exp_add]
    exact mul_le_mul_of_nonneg_left (exp_le_two_inv (by norm_num)) (Real.exp_pos _).le
  have hpos := Real.exp_pos (-A)
  have hposx := Real.exp_pos x
  have hp690 := Real.exp_pos (-690)
  generalize (2⁻¹ : ℝ) ^ 1072 = e at *
  by_cases hnear : A ≤ 700
  · have h2 : |x - -A| ≤ 2⁻¹ ^ 38 := by
      refine le_trans h1' ?_
      norm_num at *
      linarith
    have h3 : |Real.exp x - Real.exp (-A)| ≤ 2⁻¹ ^ 37 * Real.exp (-A) := by
      have e1 : Real.exp x - Real.exp (-A) = Real.exp (-A) * (Real.exp (x - -A) - 1) := by
        rw [mul_sub, ← Real.exp_add, mul_one]; congr 2; ring
      rw [e1, abs_mul, abs_of_pos hpos, mul_comm]
      apply mul_le_mul_of_nonneg_right _ hpos.le
      refine le_trans (exp_sub_one_le (le_trans h2 (by norm_num))) ?_
      norm_num at *
      linarith
    have h4 := abs_sub_le (S.exp x) (Real.exp x) (Real.exp (-A))
    have h5 : Real.exp x ≤ 2 * Real.exp (-A) := by
      have := (abs_le.1 h3).2
      norm_num at this
      linarith
    norm_num at *
    linarith
  · have hlow : -x ≥ 699 := by
      have := (abs_le.1 h1').2
      norm_num at *
      linarith
    have h3 : Real.exp x ≤ Real.exp (-698) * 2⁻¹ := by
      calc Real.exp x ≤ Real.exp (-698 + -1) := Real.exp_le_exp.2 (by linarith)
        _ = Real.exp (-698) * Real.exp (-1) := Real.exp_add _ _
        _ ≤ Real.exp (-698) * 2⁻¹ ^ 1 := mul_le_mul_of_nonneg_left (exp_le_two_inv (by norm_num)) (Real.exp_pos _).le
        _ = _ := by rw [pow_one]
    have h4 : Real.exp (-A) ≤ Real.exp (-698) := Real.exp_le_exp.2 (by linarith)
    generalize Real.exp (-698) = g at *
    generalize Real.exp (-690) = G at *
    rw [abs_le] at *
    norm_num at *
    constructor <;> linarith

/-- Invariant of the accumulation: computed sum against exact sum after `k` additions. -/
theorem acc_step (hS : SoftAccuracy S) {a a' t t' : ℝ} {k : Nat} (hk : k < 2 ^ 12) (ha0 : 0 ≤ a) (ht0 : 0 ≤ t)
    (ha : |a' - a| ≤ (2⁻¹ ^ 36 + k * 2⁻¹ ^ 52) * a + 4 * k * Real.exp (-690))
    (ht : |t' - t| ≤ 2⁻¹ ^ 36 * t + Real.exp (-690)) :
    |S.fl (a' + t') - (a + t)| ≤ (2⁻¹ ^ 36 + (k + 1 : Nat) * 2⁻¹ ^ 52) * (a + t) + 4 * (k + 1 : Nat) * Real.exp (-690) := by
  have h1 := hS.fl (a' + t')
  have hη : (2⁻¹ : ℝ) ^ 1074 ≤ Real.exp (-690) := two_inv_le_exp (by norm_num)
  have hp := Real.exp_pos (-690)
  generalize (2⁻¹ : ℝ) ^ 1074 = e at *
  generalize Real.exp (-690) = G at *
  have hkr : (k : ℝ) ≤ 4096 := by
    have : (k : ℝ) < 2 ^ 12 := by exact_mod_cast hk
    norm_num only at this ⊢; exact this.le
  have hk0 : (0 : ℝ) ≤ k := Nat.cast_nonneg k
  push_cast
  generalize (k : ℝ) = K at *
  have h2 : |(a' + t') - (a + t)| ≤ (2⁻¹ ^ 36 + K * 2⁻¹ ^ 52) * (a + t) + (4 * K + 1) * G := by
    have e1 : (a' + t') - (a + t) = (a' - a) + (t' - t) := by ring
    rw [e1]
    refine le_trans (abs_add_le _ _) ?_
    have : 0 ≤ K * 2⁻¹ ^ 52 * t := by positivity
    nlinarith
  have h5 : (2⁻¹ ^ 36 + K * 2⁻¹ ^ 52) ≤ 1 := by
    norm_num
    linarith
  have h3 : |a' + t'| ≤ 2 * (a + t) + (4 * K + 1) * G := by
    have h4 := abs_add_le ((a' + t') - (a + t)) (a + t)
    rw [sub_add_cancel, abs_of_nonneg (by linarith : 0 ≤ a + t)] at h4
    have h6 := mul_le_mul_of_nonneg_right h5 (by linarith : 0 ≤ a + t)
    linarith
  have h7 := abs_sub_le (S.fl (a' + t')) (a' + t') (a + t)
  have h8 : (4 * K + 1) * G ≤ 16385 * G := mul_le_mul_of_nonneg_right (by linarith) hp.le
  have e2 : (2⁻¹ ^ 36 + (K + 1) * 2⁻¹ ^ 52) * (a + t) + 4 * (K + 1) * G =
    (2⁻¹ ^ 36 + K * 2⁻¹ ^ 52) * (a + t) + 2⁻¹ ^ 52 * (a + t) + ((4 * K + 1) * G + 3 * G) := by ring
  rw [e2]
  generalize (2⁻¹ ^ 36 + K * 2⁻¹ ^ 52) * (a + t) = P at *
  generalize (4 * K + 1) * G = H at *
  generalize hX : a + t = X at *
  generalize |a' + t'| = Y at *
  generalize |S.fl (a' + t') - (a' + t')| = W at *
  generalize |S.fl (a' + t') - X| = V at *
  norm_num at h1 h3 ⊢
  linarith

theorem llrSumsR_gen (hS : SoftAccuracy S) (y : ℂ) {v : ℝ} (hv : 2⁻¹ ^ 500 ≤ v) (b : Nat) :
    ∀ (c : List ℂ) (k n : Nat) (acc acc' : ℝ × ℝ), n + c.length ≤ 2 ^ 12 → 0 ≤ acc.1 → 0 ≤ acc.2 →
    |acc'.1 - acc.1| ≤ (2⁻¹ ^ 36 + n * 2⁻¹ ^ 52) * acc.1 + 4 * n * Real.exp (-690) →
    |acc'.2 - acc.2| ≤ (2⁻¹ ^ 36 + n * 2⁻¹ ^ 52) * acc.2 + 4 * n * Real.exp (-690) →
    let X := (c.zipIdx k).foldl (fun (acc : ℝ × ℝ) (p : ℂ × Nat) =>
      if (p.2 >>> b) &&& 1 ≠ 0 then (acc.1 + Real.exp ((-‖y - p.1‖ ^ 2) / v), acc.2)
      else (acc.1, acc.2 + Real.exp ((-‖y - p.1‖ ^ 2) / v))) acc
    let X' := (c.zipIdx k).foldl (fun (acc : ℝ × ℝ) (p : ℂ × Nat) =>
      if (p.2 >>> b) &&& 1 ≠ 0 then (S.fl (acc.1 + softTermR S y p.1 v), acc.2)
      else (acc.1, S.fl (acc.2 + softTermR S y p.1 v))) acc'
    |X'.1 - X.1| ≤ (2⁻¹ ^ 36 + (n + c.length : Nat) * 2⁻¹ ^ 52) * X.1 + 4 * (n + c.length : Nat) * Real.exp (-690) ∧
    |X'.2 - X.2| ≤ (2⁻¹ ^ 36 + (n + c.length : Nat) * 2⁻¹ ^ 52) * X.2 + 4 * (n + c.length : Nat) * Real.exp (-690) := by
  intro c
  induction c with
  | nil => intro k n acc acc' _ _ _ h1 h2; exact ⟨h1, h2⟩
  | cons z c ih =>
    intro k n acc acc' hn p1 p2 h1 h2
    rw [List.length_cons] at hn
    have hE := (Real.exp_pos ((-‖y - z‖ ^ 2) / v)).le
    have hweak : ∀ {x x' : ℝ}, 0 ≤ x → |x' - x| ≤ (2⁻¹ ^ 36 + n * 2⁻¹ ^ 52) * x + 4 * n * Real.exp (-690) →
        |x' - x| ≤ (2⁻¹ ^ 36 + (n + 1 : Nat) * 2⁻¹ ^ 52) * x + 4 * (n + 1 : Nat) * Real.exp (-690) := by
      intro x x' hx h
      refine le_trans h ?_
      have := (Real.exp_pos (-690)).le
      have h3 : (n : ℝ) ≤ (n + 1 : Nat) := by exact_mod_cast Nat.le_succ n
      gcongr
    have key : n + 1 + c.length = n + (z :: c).length := by rw [List.length_cons]; omega
    rw [← key]
    simp only [List.zipIdx_cons, List.foldl_cons]
    by_cases h : (k >>> b) &&& 1 ≠ 0
    · simp only [if_pos h]
      exact ih (k + 1) (n + 1) _ _ (by omega) (add_nonneg p1 hE) p2 (acc_step hS (by omega) p1 hE h1 (term_bound hS y z hv)) (hweak p2 h2)
    · simp only [if_neg h]
      exact ih (k + 1) (n + 1) _ _ (by omega) p1 (add_nonneg p2 hE) (hweak p1 h1) (acc_step hS (by omega) p2 hE h2 (term_bound hS y z hv))

/-- The computed sums, against the exact likelihoods. -/
theorem llrSumsR_bound (hS : SoftAccuracy S) {s : Modem} (hs : s.Consistent) (hm : s.m ≤ 2 ^ 12) (y : ℂ) {v : ℝ} (hv : 2⁻¹ ^ 500 ≤ v)
    {j : Nat} (hj : j < s.nbits) :
    |(llrSumsR S s y v (s.nbits - 1 - j)).1 - likelihood s y v j 1| ≤ 2⁻¹ ^ 35 * likelihood s y v j 1 + 2 ^ 14 * Real.exp (-690) ∧
    |(llrSumsR S s y v (s.nbits - 1 - j)).2 - likelihood s y v j 0| ≤ 2⁻¹ ^ 35 * likelihood s y v j 0 + 2 ^ 14 * Real.exp (-690) := by
  have hlen : s.constellation.length ≤ 2 ^ 12 := by rw [← hs.size]; exact hm
  have h := llrSumsR_gen hS y hv (s.nbits - 1 - j) s.constellation 0 0 (0, 0) (0, 0) (by omega) le_rfl le_rfl (by simp) (by simp)
  have e := llrSums_eq hs y v hj
  unfold llrSums at e
  simp only [e, Nat.zero_add] at h
  have hl : (s.constellation.length : ℝ) ≤ 2 ^ 12 := by exact_mod_cast hlen
  have hw : ∀ {x : ℝ}, 0 ≤ x → (2⁻¹ ^ 36 + (s.constellation.length : ℝ) * 2⁻¹ ^ 52) * x + 4 * (s.constellation.length : ℝ) * Real.exp (-690) ≤
      2⁻¹ ^ 35 * x + 2 ^ 14 * Real.exp (-690) := by
    intro x hx
    have := (Real.exp_pos (-690)).le
    generalize (s.constellation.length : ℝ) = K at *
    apply add_le_add
    · apply mul_le_mul_of_nonneg_right _ hx
      norm_num at *
      linarith
    · apply mul_le_mul_of_nonneg_right _ this
      norm_num at *
      linarith
  exact ⟨le_trans h.1 (hw (likelihood_pos hs y v hj (by decide)).le), le_trans h.2 (hw (likelihood_pos hs y v hj (by decide)).le)⟩

theorem abs_log_sub {a a' ε : ℝ} (ha : 0 < a) (hε : ε ≤ 1 / 2) (h : |a' - a| ≤ ε * a) :
    0 < a' ∧ |Real.log a' - Real.log a| ≤ 2 * ε := by
  have hε0 : 0 ≤ ε := by
    by_contra hc
    have := abs_nonneg (a' - a)
    nlinarith
  have h1 := abs_le.1 h
  have hpos : 0 < a' := by nlinarith
  refine ⟨hpos, ?_⟩
  have u1 := Real.log_le_sub_one_of_pos (div_pos hpos ha)
  have u2 := Real.log_le_sub_one_of_pos (div_pos ha hpos)
  rw [Real.log_div hpos.ne' ha.ne'] at u1
  rw [Real.log_div ha.ne' hpos.ne'] at u2
  have h2 : a' / a ≤ 1 + ε := by rw [div_le_iff₀ ha]; linarith
  have h3 : a / a' ≤ 1 + 2 * ε := by
    rw [div_le_iff₀ hpos]
    nlinarith [mul_nonneg (mul_nonneg hε0 ha.le) (by linarith : 0 ≤ 1 - 2 * ε)]
  rw [abs_le]
  constructor <;> linarith

theorem likelihood_le {s : Modem} (y : ℂ) {v : ℝ} (hv : 0 < v) (j b : Nat) : likelihood s y v j b ≤ s.m := by
  unfold likelihood
  have h := Finset.sum_le_card_nsmul ((Finset.range s.m).filter (fun l => (toBits s.nbits l).getD j 0 = b))
    (fun l => Real.exp (-‖y - s.constellation.getD l 0‖ ^ 2 / v)) 1 (fun l _ => by
      rw [Real.exp_le_one_iff, neg_div]
      have : 0 ≤ ‖y - s.constellation.getD l 0‖ ^ 2 / v := by positivity
      linarith)
  refine le_trans h ?_
  rw [nsmul_eq_mul, mul_one]
  have := Finset.card_filter_le (Finset.range s.m) (fun l => (toBits s.nbits l).getD j 0 = b)
  rw [Finset.card_range] at this
  exact_mod_cast this

theorem likelihood_ge {s : Modem} (y : ℂ) {v : ℝ} (hv : 0 < v) {j b l : Nat} (hl : l < s.m) (hb : (toBits s.nbits l).getD j 0 = b)
    (hd : ‖y - s.constellation.getD l 0‖ ^ 2 ≤ 650 * v) : Real.exp (-650) ≤ likelihood s y v j b := by
  unfold likelihood
  have h := Finset.single_le_sum (f := fun l => Real.exp (-‖y - s.constellation.getD l 0‖ ^ 2 / v))
    (s := (Finset.range s.m).filter (fun l => (toBits s.nbits l).getD j 0 = b)) (fun _ _ => (Real.exp_pos _).le)
    (Finset.mem_filter.2 ⟨Finset.mem_range.2 hl, hb⟩)
  refine le_trans (Real.exp_le_exp.2 ?_) h
  rw [le_div_iff₀ hv]
  linarith

/-- The accuracy of one output, from the accuracy of the two sums. -/
theorem llr_close (hS : SoftAccuracy S) {N D N' D' : ℝ} (hN : Real.exp (-650) ≤ N) (hD : Real.exp (-650) ≤ D)
    (hN2 : N ≤ 2 ^ 12) (hD2 : D ≤ 2 ^ 12)
    (h1 : |N' - N| ≤ 2⁻¹ ^ 35 * N + 2 ^ 14 * Real.exp (-690)) (h2 : |D' - D| ≤ 2⁻¹ ^ 35 * D + 2 ^ 14 * Real.exp (-690)) :
    |S.log (S.fl (N' / D')) - Real.log (N / D)| ≤ 2⁻¹ ^ 31 := by
  have hE := Real.exp_pos (-650)
  have hN0 := lt_of_lt_of_le hE hN
  have hD0 := lt_of_lt_of_le hE hD
  have hg : Real.exp (-690) ≤ 2⁻¹ ^ 57 * Real.exp (-650) := by
    rw [show (-690 : ℝ) = -40 + -650 by norm_num, Real.exp_add]
    exact mul_le_mul_of_nonneg_right (exp_le_two_inv (by norm_num)) hE.le
  have hrel : ∀ {x x' : ℝ}, Real.exp (-650) ≤ x → |x' - x| ≤ 2⁻¹ ^ 35 * x + 2 ^ 14 * Real.exp (-690) → |x' - x| ≤ 2⁻¹ ^ 34 * x := by
    intro x x' hx h
    refine le_trans h ?_
    norm_num at *
    linarith
  obtain ⟨pN, lN⟩ := abs_log_sub hN0 (by norm_num) (hrel hN h1)
  obtain ⟨pD, lD⟩ := abs_log_sub hD0 (by norm_num) (hrel hD h2)
  have hlog : ∀ {x : ℝ}, Real.exp (-650) ≤ x → x ≤ 2 ^ 12 → -650 ≤ Real.log x ∧ Real.log x ≤ 9 := by
    intro x hx hx2
    have hx0 := lt_of_lt_of_le hE hx
    refine ⟨(Real.le_log_iff_exp_le hx0).2 hx, ?_⟩
    have := Real.log_le_log hx0 hx2
    rw [Real.log_pow] at this
    have h3 := Real.log_two_lt_d9
    norm_num at *
    linarith
  have qN := hlog hN hN2
  have qD := hlog hD hD2
  have hr := div_pos pN pD
  have er : Real.log (N' / D') = Real.log N' - Real.log D' := Real.log_div pN.ne' pD.ne'
  have eR : Real.log (N / D) = Real.log N - Real.log D := Real.log_div hN0.ne' hD0.ne'
  have hlow : -660 ≤ Real.log (N' / D') := by
    rw [er]
    rw [abs_le] at lN lD
    norm_num at *
    linarith
  have hr2 : Real.exp (-660) ≤ N' / D' := (Real.le_log_iff_exp_le hr).1 hlow
  have hfl := hS.fl (N' / D')
  rw [abs_of_pos hr] at hfl
  have hη : (2⁻¹ : ℝ) ^ 1074 ≤ 2⁻¹ ^ 53 * (N' / D') := by
    rw [show 1074 = 53 + 1021 by rfl, pow_add]
    exact mul_le_mul_of_nonneg_left (le_trans (two_inv_le_exp (by norm_num)) hr2) (by positivity)
  have hfl2 : |S.fl (N' / D') - N' / D'| ≤ 2⁻¹ ^ 52 * (N' / D') := by
    generalize (2⁻¹ : ℝ) ^ 1074 = e at *
    generalize N' / D' = r at *
    norm_num at *
    linarith
  obtain ⟨pf, lf⟩ := abs_log_sub hr (by norm_num) hfl2
  have hl := hS.log _ pf
  generalize S.fl (N' / D') = f at *
  rw [er] at lf
  rw [eR]
  have hb : |Real.log f| ≤ 661 := by
    rw [abs_le] at lN lD lf ⊢
    norm_num at *
    constructor <;> linarith
  rw [abs_le] at hl lN lD lf ⊢
  generalize |Real.log f| = B at *
  norm_num at *
  constructor <;> linarith

theorem demodSoftR_spec (S : SoftFloats) (s : Modem) (ys : List ℂ) (v : ℝ) :
    (demodSoftR S s ys v).length = ys.length * s.nbits ∧
    ∀ i (hi : i < ys.length), ∀ b < s.nbits, (demodSoftR S s ys v)[i * s.nbits + s.nbits - 1 - b]? =
      some (S.log (S.fl ((llrSumsR S s ys[i] v b).1 / (llrSumsR S s ys[i] v b).2))) := by
  set ps : List (Nat × ℝ) := ys.zipIdx.flatMap fun p => (List.range s.nbits).map fun b =>
    (p.2 * s.nbits + s.nbits - 1 - b, S.log (S.fl ((llrSumsR S s p.1 v b).1 / (llrSumsR S s p.1 v b).2))) with hps
  have e : demodSoftR S s ys v = ps.foldl (fun y p => y.set p.1 p.2) (List.replicate (ys.length * s.nbits) 0) := by
    unfold demodSoftR
    rw [hps, List.foldl_flatMap]
    simp only [List.foldl_map]
  constructor
  · rw [e, foldl_set_length, List.length_replicate]
  · intro i hi b hb
    rw [e]
    apply foldl_set_mem
    · rw [hps, List.map_flatMap]
      simp only [List.map_map, Function.comp_def]
      rw [List.nodup_flatMap]
      constructor
      · intro p _
        refine List.Nodup.map_on ?_ List.nodup_range
        intro x hx y hy hxy
        rw [List.mem_range] at hx hy
        have : s.nbits ≤ p.2 * s.nbits + s.nbits := Nat.le_add_left _ _
        omega
      · have hpw : (ys.zipIdx).Pairwise fun a b => a.2 < b.2 := by
          have h1 : (ys.zipIdx.map Prod.snd) = List.range' 0 ys.length := List.zipIdx_map_snd _ _
          have h2 : (ys.zipIdx.map Prod.snd).Pairwise (· < ·) := by rw [h1]; exact List.pairwise_lt_range'
          rwa [List.pairwise_map] at h2
        refine hpw.imp ?_
        intro p q hpq
        intro x hx hx'
        obtain ⟨b1, h1, rfl⟩ := List.mem_map.1 hx
        obtain ⟨b2, h2, h3⟩ := List.mem_map.1 hx'
        rw [List.mem_range] at h1 h2
        have : p.2 * s.nbits + s.nbits ≤ q.2 * s.nbits := by rw [← Nat.succ_mul]; exact Nat.mul_le_mul_right _ hpq
        omega
    · rw [hps, List.mem_flatMap]
      refine ⟨(ys[i], i), ?_, List.mem_map.2 ⟨b, by simpa using hb, rfl⟩⟩
      rw [List.mem_iff_getElem]
      exact ⟨i, by simpa using hi, by simp⟩
    · rw [List.length_replicate]
      have : i * s.nbits + s.nbits ≤ ys.length * s.nbits := by rw [← Nat.succ_mul]; exact Nat.mul_le_mul_right _ hi
      omega

/-- C135. In double precision every soft output of every modem with at most 4096 points is within `2^-31` of the exact log-likelihood ratio,
as long as for every received symbol and every bit there are points with either value of that bit at a squared distance of at most 650 noise
variances (farther away the terms underflow: C109). -/
theorem C135_llr (hS : SoftAccuracy S) {s : Modem} (hs : s.Consistent) (hm : s.m ≤ 2 ^ 12) {v : ℝ} (hv : 2⁻¹ ^ 500 ≤ v) (ys : List ℂ)
    (hreach : ∀ y ∈ ys, ∀ j < s.nbits, ∀ b < 2, ∃ l < s.m, (toBits s.nbits l).getD j 0 = b ∧ ‖y - s.constellation.getD l 0‖ ^ 2 ≤ 650 * v) :
    ∃ L, demodulate s ys "soft" v = .ok (.llrs L) ∧ L.length = ys.length * s.nbits ∧ (demodSoftR S s ys v).length = L.length ∧
      ∀ k < L.length, |(demodSoftR S s ys v).getD k 0 - L.getD k 0| ≤ 2⁻¹ ^ 31 := by
  have hv0 : 0 < v := lt_of_lt_of_le (by positivity) hv
  obtain ⟨L, h1, h2, h3⟩ := C67_llr hs ys hv0
  obtain ⟨r1, r2⟩ := demodSoftR_spec S s ys v
  refine ⟨L, h1, h2, by rw [r1, h2], ?_⟩
  intro k hk
  rw [h2] at hk
  have hnb : 0 < s.nbits := by
    rcases Nat.eq_zero_or_pos s.nbits with h | h
    · rw [h, Nat.mul_zero] at hk; omega
    · exact h
  have hi : k / s.nbits < ys.length := (Nat.div_lt_iff_lt_mul hnb).2 hk
  have hj : k % s.nbits < s.nbits := Nat.mod_lt _ hnb
  have hkk : k / s.nbits * s.nbits + k % s.nbits = k := Nat.div_add_mod' k s.nbits
  generalize k / s.nbits = i at *
  generalize k % s.nbits = j at *
  subst hkk
  have e1 := h3 i hi j hj
  have e2 := r2 i hi (s.nbits - 1 - j) (by omega)
  rw [show i * s.nbits + s.nbits - 1 - (s.nbits - 1 - j) = i * s.nbits + j by omega] at e2
  rw [List.getD_eq_getElem?_getD, List.getD_eq_getElem?_getD, e1, e2]
  simp only [Option.getD_some]
  obtain ⟨b1, b2⟩ := llrSumsR_bound hS hs hm ys[i] hv hj
  obtain ⟨l1, m1, c1, d1⟩ := hreach ys[i] (List.getElem_mem hi) j hj 1 (by decide)
  obtain ⟨l0, m0, c0, d0⟩ := hreach ys[i] (List.getElem_mem hi) j hj 0 (by decide)
  have hmr : (s.m : ℝ) ≤ 2 ^ 12 := by exact_mod_cast hm
  exact llr_close hS (likelihood_ge _ hv0 m1 c1 d1) (likelihood_ge _ hv0 m0 c0 d0) (le_trans (likelihood_le _ hv0 _ _) hmr)
    (le_trans (likelihood_le _ hv0 _ _) hmr) b1 b2

/-- All the labels are in reach when no point is farther than `sqrt (650 v)` from the received symbol. -/
theorem reach_of_all {s : Modem} (hs : s.Consistent) {v : ℝ} {y : ℂ} (h : ∀ c ∈ s.constellation, ‖y - c‖ ^ 2 ≤ 650 * v) :
    ∀ j < s.nbits, ∀ b < 2, ∃ l < s.m, (toBits s.nbits l).getD j 0 = b ∧ ‖y - s.constellation.getD l 0‖ ^ 2 ≤ 650 * v := by
  intro j hj b hb
  have hl : b * 2 ^ (s.nbits - 1 - j) < s.m := by
    rw [hs.pow]
    have h1 : 2 ^ (s.nbits - 1 - j) ≤ 2 ^ (s.nbits - 1) := Nat.pow_le_pow_right (by decide) (by omega)
    have h2 : 2 ^ s.nbits = 2 * 2 ^ (s.nbits - 1) := by rw [← pow_succ']; congr 1; omega
    have h3 := Nat.two_pow_pos (s.nbits - 1)
    have h4 : b * 2 ^ (s.nbits - 1 - j) ≤ 1 * 2 ^ (s.nbits - 1 - j) := Nat.mul_le_mul_right _ (by omega)
    omega
  refine ⟨b * 2 ^ (s.nbits - 1 - j), hl, ?_, ?_⟩
  · rw [toBits_getD hj, Nat.mul_div_cancel _ (Nat.two_pow_pos _), Nat.mod_eq_of_lt hb]
  · have hl' : b * 2 ^ (s.nbits - 1 - j) < s.constellation.length := by rw [← hs.size]; exact hl
    rw [List.getD_eq_getElem _ _ hl']
    exact h _ (List.getElem_mem hl')

/-- C135. The same for received symbols no farther than `R` from the origin, when the points are no farther than `ρ` from it and
`(R + ρ)^2` is at most 650 noise variances. -/
theorem C135_bounded (hS : SoftAccuracy S) {s : Modem} (hs : s.Consistent) (hm : s.m ≤ 2 ^ 12) {v : ℝ} (hv : 2⁻¹ ^ 500 ≤ v) (ys : List ℂ)
    {R ρ : ℝ} (hR : ∀ y ∈ ys, ‖y‖ ≤ R) (hρ : ∀ c ∈ s.constellation, ‖c‖ ≤ ρ) (h : (R + ρ) ^ 2 ≤ 650 * v) :
    ∃ L, demodulate s ys "soft" v = .ok (.llrs L) ∧ L.length = ys.length * s.nbits ∧ (demodSoftR S s ys v).length = L.length ∧
      ∀ k < L.length, |(demodSoftR S s ys v).getD k 0 - L.getD k 0| ≤ 2⁻¹ ^ 31 := by
  refine C135_llr hS hs hm hv ys fun y hy => reach_of_all hs fun c hc => ?_
  refine le_trans ?_ h
  apply pow_le_pow_left₀ (norm_nonneg _)
  exact le_trans (norm_sub_le _ _) (add_le_add (hR y hy) (hρ c hc))

/-- A value dominates all likelihoods of the other bit value, by a factor `e`. -/
theorem likelihood_exp_le {s : Modem} {y : ℂ} {v δ : ℝ} (hv : 0 < v) {k : Nat} (hk : k < s.m)
    (hgap : ∀ l < s.m, l ≠ k → ‖y - s.constellation.getD k 0‖ ^ 2 + δ ≤ ‖y - s.constellation.getD l 0‖ ^ 2)
    (hδ : v * (Real.log s.m + 1) ≤ δ) {j : Nat} {b : Nat} (hb : (toBits s.nbits k).getD j 0 = b) {b' : Nat} (hne : b ≠ b') :
    Real.exp 1 * likelihood s y v j b' ≤ likelihood s y v j b := by
  set a := ‖y - s.constellation.getD k 0‖ ^ 2 with ha
  have hm : (0 : ℝ) < s.m := by exact_mod_cast (by omega : 0 < s.m)
  have hexp : Real.exp (-δ / v) ≤ 1 / s.m * Real.exp (-1) := by
    rw [one_div, ← Real.exp_log hm, ← Real.exp_neg, ← Real.exp_add]
    apply Real.exp_le_exp.2
    rw [div_le_iff₀ hv]
    linarith
  have h1 : Real.exp (-a / v) ≤ likelihood s y v j b := by
    unfold likelihood
    exact Finset.single_le_sum (f := fun l => Real.exp (-‖y - s.constellation.getD l 0‖ ^ 2 / v)) (fun _ _ => (Real.exp_pos _).le)
      (Finset.mem_filter.2 ⟨Finset.mem_range.2 hk, hb⟩)
  have hcard : (((Finset.range s.m).filter (fun l => (toBits s.nbits l).getD j 0 = b')).card : ℝ) ≤ s.m := by
    have := Finset.card_filter_le (Finset.range s.m) (fun l => (toBits s.nbits l).getD j 0 = b')
    rw [Finset.card_range] at this
    exact_mod_cast this
  have h2 : likelihood s y v j b' ≤
      ((Finset.range s.m).filter (fun l => (toBits s.nbits l).getD j 0 = b')).card • (Real.exp (-a / v) * (1 / s.m * Real.exp (-1))) := by
    unfold likelihood
    apply Finset.sum_le_card_nsmul
    intro l hl
    rw [Finset.mem_filter, Finset.mem_range] at hl
    have hlk : l ≠ k := by rintro rfl; exact hne (hb.symm.trans hl.2)
    have hg := hgap l hl.1 hlk
    calc Real.exp (-‖y - s.constellation.getD l 0‖ ^ 2 / v) ≤ Real.exp (-a / v + -δ / v) := by
          apply Real.exp_le_exp.2
          rw [← add_div]
          apply div_le_div_of_nonneg_right _ hv.le
          linarith
      _ = Real.exp (-a / v) * Real.exp (-δ / v) := Real.exp_add _ _
      _ ≤ _ := mul_le_mul_of_nonneg_left hexp (Real.exp_pos _).le
  rw [nsmul_eq_mul] at h2
  have hE := Real.exp_pos (-a / v)
  have h3 : likelihood s y v j b' ≤ Real.exp (-a / v) * Real.exp (-1) := by
    refine le_trans h2 ?_
    calc _ ≤ (s.m : ℝ) * (Real.exp (-a / v) * (1 / s.m * Real.exp (-1))) := mul_le_mul_of_nonneg_right hcard (by positivity)
      _ = _ := by field_simp
  calc Real.exp 1 * likelihood s y v j b' ≤ Real.exp 1 * (Real.exp (-a / v) * Real.exp (-1)) := mul_le_mul_of_nonneg_left h3 (Real.exp_pos _).le
    _ = Real.exp (-a / v) * (Real.exp 1 * Real.exp (-1)) := by ring
    _ = Real.exp (-a / v) := by rw [← Real.exp_add, add_neg_cancel, Real.exp_zero, mul_one]
    _ ≤ _ := h1

/-- C135. Signs: if one point is closer than all others by `v (log m + 1)` in squared distance, the signs of the computed soft outputs are the
bits of the label of that point: positive for 1, negative for 0. -/
theorem C135_sign (hS : SoftAccuracy S) {s : Modem} (hs : s.Consistent) (hm : s.m ≤ 2 ^ 12) {v : ℝ} (hv : 2⁻¹ ^ 500 ≤ v) (ys : List ℂ)
    (hreach : ∀ y ∈ ys, ∀ j < s.nbits, ∀ b < 2, ∃ l < s.m, (toBits s.nbits l).getD j 0 = b ∧ ‖y - s.constellation.getD l 0‖ ^ 2 ≤ 650 * v)
    {i : Nat} (hi : i < ys.length) {k : Nat} (hk : k < s.m)
    (hgap : ∀ l < s.m, l ≠ k → ‖ys[i] - s.constellation.getD k 0‖ ^ 2 + v * (Real.log s.m + 1) ≤ ‖ys[i] - s.constellation.getD l 0‖ ^ 2) :
    ∀ j < s.nbits,
      ((toBits s.nbits k).getD j 0 = 1 ∧ 0 < (demodSoftR S s ys v).getD (i * s.nbits + j) 0) ∨
      ((toBits s.nbits k).getD j 0 = 0 ∧ (demodSoftR S s ys v).getD (i * s.nbits + j) 0 < 0) := by
  intro j hj
  have hv0 : 0 < v := lt_of_lt_of_le (by positivity) hv
  obtain ⟨L, h1, h2, h3⟩ := C67_llr hs ys hv0
  obtain ⟨L', g1, g2, -, g4⟩ := C135_llr hS hs hm hv ys hreach
  have hLL : L' = L := by rw [h1] at g1; injection g1 with g1; injection g1 with g1; exact g1.symm
  subst hLL
  have hidx : i * s.nbits + j < L'.length := by
    rw [h2]
    have : i * s.nbits + s.nbits ≤ ys.length * s.nbits := by rw [← Nat.succ_mul]; exact Nat.mul_le_mul_right _ hi
    omega
  have hc := g4 _ hidx
  have hL : L'.getD (i * s.nbits + j) 0 = Real.log (likelihood s ys[i] v j 1 / likelihood s ys[i] v j 0) := by
    rw [List.getD_eq_getElem?_getD, h3 i hi j hj]; rfl
  rw [hL] at hc
  have hp1 := likelihood_pos hs ys[i] v hj (b := 1) (by decide)
  have hp0 := likelihood_pos hs ys[i] v hj (b := 0) (by decide)
  have hbit : (toBits s.nbits k).getD j 0 = 1 ∨ (toBits s.nbits k).getD j 0 = 0 := by
    rw [toBits_getD hj]; omega
  have hsmall : (2⁻¹ : ℝ) ^ 31 < 1 := by norm_num
  rcases hbit with hb | hb
  · left
    refine ⟨hb, ?_⟩
    have h4 := likelihood_exp_le hv0 hk hgap le_rfl hb (b' := 0) (by decide)
    have h5 : 1 ≤ Real.log (likelihood s ys[i] v j 1 / likelihood s ys[i] v j 0) := by
      rw [Real.le_log_iff_exp_le (div_pos hp1 hp0), le_div_iff₀ hp0]; exact h4
    have := (abs_le.1 hc).1
    linarith
  · right
    refine ⟨hb, ?_⟩
    have h4 := likelihood_exp_le hv0 hk hgap le_rfl hb (b' := 1) (by decide)
    have h5 : Real.log (likelihood s ys[i] v j 1 / likelihood s ys[i] v j 0) ≤ -1 := by
      rw [Real.log_le_iff_le_exp (div_pos hp1 hp0), div_le_iff₀ hp0, Real.exp_neg]
      rw [← div_eq_inv_mul, le_div_iff₀ (Real.exp_pos 1), mul_comm]; exact h4
    have := (abs_le.1 hc).2
    linarith

/-- The assumptions are met by correctly rounded operations. -/
theorem softFloats_exist : SoftAccuracy ⟨⟨fun a b => rnd53 (a - b), fun a b => rnd53 (Real.sqrt (a ^ 2 + b ^ 2))⟩, fun x => rnd53 (x ^ 2), rnd53,
    fun x => rnd53 (Real.exp x), fun x => rnd53 (Real.log x)⟩ := by
  have h := rnd53_isRounding.err
  have e : (2 : ℝ) ^ (-53 : ℤ) = 2⁻¹ ^ 53 := by rw [zpow_neg, inv_pow]; norm_cast
  rw [e] at h
  have hη : ∀ n : Nat, (0 : ℝ) ≤ 2⁻¹ ^ n := fun n => by positivity
  have hm : ∀ n ≤ 53, (2⁻¹ : ℝ) ^ 53 ≤ 2⁻¹ ^ n := fun n hn => pow_le_pow_of_le_one (by norm_num) (by norm_num) hn
  have hw : ∀ n ≤ 53, ∀ x : ℝ, |rnd53 x - x| ≤ 2⁻¹ ^ n * |x| := fun n hn x =>
    (h x).trans (mul_le_mul_of_nonneg_right (hm n hn) (abs_nonneg _))
  refine ⟨fun a b => h _, fun a b => ?_, fun x => ?_, fun x => ?_, fun x _ => ?_, fun x _ => ?_⟩
  · have := hw 52 (by norm_num) (Real.sqrt (a ^ 2 + b ^ 2))
    rw [abs_of_nonneg (Real.sqrt_nonneg _)] at this
    exact this.trans (le_add_of_nonneg_right (hη _))
  · have := hw 52 (by norm_num) (x ^ 2)
    rw [abs_of_nonneg (sq_nonneg x)] at this
    exact this.trans (le_add_of_nonneg_right (hη _))
  · exact (h x).trans (le_add_of_nonneg_right (hη _))
  · have := hw 50 (by norm_num) (Real.exp x)
    rw [abs_of_pos (Real.exp_pos x)] at this
    exact this.trans (le_add_of_nonneg_right (hη _))
  · exact hw 50 (by norm_num) _

/-- A consistent two-point modem (BPSK) and a noise variance of 1/100: `C135_bounded` applies to every sequence of symbols within 1.5 of the origin. -/
example (ys : List ℂ) (hy : ∀ y ∈ ys, ‖y‖ ≤ 1.5) : ∃ L, demodulate ⟨[1, -1], 1, 2, 1⟩ ys "soft" 0.01 = .ok (.llrs L) ∧ L.length = ys.length * 1 ∧
    (demodSoftR ⟨⟨fun a b => rnd53 (a - b), fun a b => rnd53 (Real.sqrt (a ^ 2 + b ^ 2))⟩, fun x => rnd53 (x ^ 2), rnd53,
      fun x => rnd53 (Real.exp x), fun x => rnd53 (Real.log x)⟩ ⟨[1, -1], 1, 2, 1⟩ ys 0.01).length = L.length ∧
    ∀ k < L.length, |(demodSoftR ⟨⟨fun a b => rnd53 (a - b), fun a b => rnd53 (Real.sqrt (a ^ 2 + b ^ 2))⟩, fun x => rnd53 (x ^ 2), rnd53,
      fun x => rnd53 (Real.exp x), fun x => rnd53 (Real.log x)⟩ ⟨[1, -1], 1, 2, 1⟩ ys 0.01).getD k 0 - L.getD k 0| ≤ 2⁻¹ ^ 31 :=
  C135_bounded softFloats_exist (s := ⟨[1, -1], 1, 2, 1⟩) ⟨rfl, rfl, by simp⟩ (by norm_num)
    (le_trans (pow_le_pow_of_le_one (by norm_num) (by norm_num) (by norm_num : 7 ≤ 500)) (by norm_num)) ys (R := 1.5) (ρ := 1) hy
    (by intro c hc; simp only [List.mem_cons, List.not_mem_nil, or_false] at hc; rcases hc with rfl | rfl <;> simp) (by norm_num)

/-- ... and `C135_sign` to the symbol 0.9: it is closer to the point of label 0 by more than `0.01 (log 2 + 1)`. -/
example : ∀ l < 2, l ≠ 0 → ‖(0.9 : ℂ) - ([1, -1] : List ℂ).getD 0 0‖ ^ 2 + 0.01 * (Real.log (2 : ℕ) + 1) ≤ ‖(0.9 : ℂ) - ([1, -1] : List ℂ).getD l 0‖ ^ 2 := by
  intro l hl hne
  have : l = 1 := by omega
  subst this
  have h2 := Real.log_two_lt_d9
  have e1 : ‖(0.9 : ℂ) - 1‖ = 0.1 := by
    rw [show (0.9 : ℂ) - 1 = ((-0.1 : ℝ) : ℂ) by push_cast; norm_num, Complex.norm_real]; norm_num
  have e2 : ‖(0.9 : ℂ) - -1‖ = 1.9 := by
    rw [show (0.9 : ℂ) - -1 = ((1.9 : ℝ) : ℂ) by push_cast; norm_num, Complex.norm_real]; norm_num
  simp only [List.getD_cons_zero, List.getD_cons_succ, e1, e2]
  norm_num at *
  linarith

end Verif
