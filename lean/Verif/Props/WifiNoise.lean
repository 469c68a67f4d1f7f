import Verif.Props.ViterbiBpsk
import Verif.Props.WifiLink
import Mathlib.Probability.Distributions.Gaussian.HasGaussianLaw.Independence
/-
C128: the error probability of a Wi-Fi transmission with the BPSK and QPSK schemes.
-/
namespace Verif
open MeasureTheory ProbabilityTheory Finset

variable {Ω : Type*} [MeasurableSpace Ω] {μ : Measure Ω}

/-- Sums and differences of the draws `i` and `n + i`, scaled to variance 1. -/
noncomputable def rotDraw (n : Nat) (z : ℕ → ℝ) (m : Nat) : ℝ :=
  (z (m / 2) + (1 - 2 * ((m % 2 : ℕ) : ℝ)) * z (n + m / 2)) / Real.sqrt 2

theorem rotDraw_indep {z : Ω → ℕ → ℝ} (hz : NormalDraws μ z) (hind : iIndepFun (fun i ω => z ω i) μ) (n : Nat) :
    (∀ m < 2 * n, HasLaw (fun ω => rotDraw n (z ω) m) (gaussianReal 0 1) μ) ∧ iIndepFun (fun (m : Fin (2 * n)) ω => rotDraw n (z ω) m) μ := by
  have := hind.isProbabilityMeasure
  have hG : ∀ i, HasGaussianLaw (fun ω => z ω i) μ := fun i => (hz i).hasGaussianLaw
  have hvar : ∀ i, cov[fun ω => z ω i, fun ω => z ω i; μ] = 1 := by
    intro i
    rw [covariance_self (hz i).aemeasurable, (hz i).variance_eq, variance_id_gaussianReal]
    simp
  have hcov : ∀ i j, i ≠ j → cov[fun ω => z ω i, fun ω => z ω j; μ] = 0 := fun i j hij =>
    (hind.indepFun hij).covariance_eq_zero (hG i).memLp_two (hG j).memLp_two
  have hjoint : HasGaussianLaw (fun ω (i : Fin (2 * n)) => z ω i) μ :=
    iIndepFun.hasGaussianLaw (X := fun (i : Fin (2 * n)) ω => z ω i) (fun i => hG i) (hind.precomp Fin.val_injective)
  have hm2 : ∀ m : Fin (2 * n), (m : ℕ) / 2 < 2 * n ∧ n + (m : ℕ) / 2 < 2 * n := fun m => by have := m.2; omega
  let L : (Fin (2 * n) → ℝ) →L[ℝ] (Fin (2 * n) → ℝ) := ContinuousLinearMap.pi fun m =>
    (Real.sqrt 2)⁻¹ • (ContinuousLinearMap.proj (R := ℝ) (φ := fun _ : Fin (2 * n) => ℝ) ⟨(m : ℕ) / 2, (hm2 m).1⟩ +
      (1 - 2 * (((m : ℕ) % 2 : ℕ) : ℝ)) • ContinuousLinearMap.proj (R := ℝ) (φ := fun _ : Fin (2 * n) => ℝ) ⟨n + (m : ℕ) / 2, (hm2 m).2⟩)
  have hrot : HasGaussianLaw (fun ω (m : Fin (2 * n)) => rotDraw n (z ω) m) μ := by
    have := hjoint.map_fun L
    refine this.congr (Filter.Eventually.of_forall fun ω => ?_)
    funext m
    simp only [L, rotDraw, ContinuousLinearMap.coe_pi', ContinuousLinearMap.smul_apply, ContinuousLinearMap.add_apply, ContinuousLinearMap.proj_apply, smul_eq_mul]
    rw [div_eq_inv_mul]
  have hc : ∀ m m' : Fin (2 * n), cov[fun ω => rotDraw n (z ω) m, fun ω => rotDraw n (z ω) m'; μ] = if m = m' then 1 else 0 := by
    intro m m'
    have hL : ∀ i, MemLp (fun ω => z ω i) 2 μ := fun i => (hG i).memLp_two
    have hLc : ∀ (a : ℝ) i, MemLp (fun ω => a * z ω i) 2 μ := fun a i => (hL i).const_mul a
    have e : ∀ m : Fin (2 * n), (fun ω => rotDraw n (z ω) m) =
        fun ω => ((fun ω => z ω ((m : ℕ) / 2)) + fun ω => (1 - 2 * (((m : ℕ) % 2 : ℕ) : ℝ)) * z ω (n + (m : ℕ) / 2)) ω / Real.sqrt 2 := fun m => rfl
    rw [e, e, covariance_fun_div_left, covariance_fun_div_right,
      covariance_add_left (hL _) (hLc _ _) ((hL _).add (hLc _ _)), covariance_add_right (hL _) (hL _) (hLc _ _), covariance_add_right (hLc _ _) (hL _) (hLc _ _),
      covariance_const_mul_left, covariance_const_mul_left, covariance_const_mul_right, covariance_const_mul_right,
      hcov _ _ (show (m : ℕ) / 2 ≠ n + (m' : ℕ) / 2 by have := m.2; omega), hcov _ _ (show n + (m : ℕ) / 2 ≠ (m' : ℕ) / 2 by have := m'.2; omega)]
    have h2 : Real.sqrt 2 * Real.sqrt 2 = 2 := Real.mul_self_sqrt (by norm_num)
    by_cases hi : (m : ℕ) / 2 = (m' : ℕ) / 2
    · rw [hi, hvar, hvar, div_div, h2]
      rcases Nat.mod_two_eq_zero_or_one (m : ℕ) with r | r <;> rcases Nat.mod_two_eq_zero_or_one (m' : ℕ) with r' | r' <;> rw [r, r']
      · rw [if_pos (Fin.ext (by omega))]; norm_num
      · rw [if_neg (fun h => by rw [h] at r; omega)]; norm_num
      · rw [if_neg (fun h => by rw [h] at r; omega)]; norm_num
      · rw [if_pos (Fin.ext (by omega))]; norm_num
    · rw [hcov _ _ hi, hcov _ _ (by omega), if_neg (fun h => hi (by rw [h]))]
      norm_num
  refine ⟨?_, ?_⟩
  · intro m hm
    have h1 := hrot.eval ⟨m, hm⟩
    refine ⟨h1.aemeasurable, ?_⟩
    have e0 : ∀ i, ∫ ω, z ω i ∂μ = 0 := fun i => by
      have := (hz i).integral_eq
      rw [this]; simp
    have e1 : ∫ ω, rotDraw n (z ω) m ∂μ = 0 := by
      unfold rotDraw
      rw [integral_div, integral_add (hG _).integrable ((hG _).integrable.const_mul _), integral_const_mul, e0, e0]
      simp
    have e2 : Var[fun ω => rotDraw n (z ω) m; μ] = 1 := by
      rw [← covariance_self h1.aemeasurable]
      have := hc ⟨m, hm⟩ ⟨m, hm⟩
      rwa [if_pos rfl] at this
    have := h1.map_eq_gaussianReal
    dsimp only at this
    rw [e1, e2] at this
    rw [this]; simp
  · exact hrot.iIndepFun_of_covariance_eq_zero fun i j hij => by rw [hc, if_neg hij]

/-! ### The soft values of the QPSK modem -/

/-- The modem `PSKModem(4)`. -/
theorem qpsk_modem : pskModem 4 = .ok ⟨[1, Complex.I, -Complex.I, -1], 1, 4, 2⟩ := by
  obtain ⟨c', h1, h2, h3⟩ := newModem_gray (b := 2) (by norm_num) (c := [1, Complex.I, -1, -Complex.I]) rfl
  have hc : c' = [1, Complex.I, -Complex.I, -1] := by
    have a0 := h3 0 (by norm_num)
    have a1 := h3 1 (by norm_num)
    have a2 := h3 2 (by norm_num)
    have a3 := h3 3 (by norm_num)
    rw [show grayCode 0 = 0 by decide] at a0
    rw [show grayCode 1 = 1 by decide] at a1
    rw [show grayCode 2 = 3 by decide] at a2
    rw [show grayCode 3 = 2 by decide] at a3
    apply List.ext_getElem?
    intro i
    rcases i with _ | _ | _ | _ | i
    · exact a0
    · exact a1
    · exact a3
    · exact a2
    · rw [List.getElem?_eq_none (by rw [h2]; norm_num), List.getElem?_eq_none (by simp)]
  unfold pskModem checkPow2
  rw [if_neg (by norm_num), show (4 : ℕ) = 2 ^ 2 from rfl, exactLog2_pow]
  simp only [bind, Except.bind]
  rw [psk_points _ (by norm_num)]
  have e : ((List.range (2 ^ 2)).map fun i => Complex.exp (2 * Real.pi * Complex.I / (2 ^ 2 : ℕ)) ^ i) = [1, Complex.I, -1, -Complex.I] := by
    have : Complex.exp (2 * Real.pi * Complex.I / (2 ^ 2 : ℕ)) = Complex.I := by
      have e : (2 * Real.pi * Complex.I / (2 ^ 2 : ℕ) : ℂ) = Real.pi / 2 * Complex.I := by push_cast; ring
      rw [e, Complex.exp_pi_div_two_mul_I]
    rw [this]
    simp [List.range_succ, pow_succ]
  rw [e, h1, hc]
  norm_num

/-- The soft values of one QPSK symbol. -/
theorem qpsk_llr (ys : List ℂ) (v : ℝ) (hv : 0 < v) :
    demodulate ⟨[1, Complex.I, -Complex.I, -1], 1, 4, 2⟩ ys "soft" v =
      .ok (.llrs ((List.range (ys.length * 2)).map fun m => -2 * ((ys.getD (m / 2) 0).re + (1 - 2 * ((m % 2 : ℕ) : ℝ)) * (ys.getD (m / 2) 0).im) / v)) := by
  have hs : Modem.Consistent ⟨[1, Complex.I, -Complex.I, -1], 1, 4, 2⟩ := ⟨rfl, rfl, by norm_num⟩
  obtain ⟨L, h1, h2, h3⟩ := C67_llr hs ys hv
  rw [h1]
  congr 2
  simp only at h2 h3
  apply List.ext_getElem
  · rw [h2, List.length_map, List.length_range]
  · intro i hi hi'
    have hiy : i / 2 < ys.length := by rw [h2] at hi; omega
    have := h3 (i / 2) hiy (i % 2) (Nat.mod_lt _ (by norm_num))
    rw [show i / 2 * 2 + i % 2 = i by omega, List.getElem?_eq_getElem hi] at this
    rw [Option.some.inj this, List.getElem_map, List.getElem_range, List.getD_eq_getElem _ _ hiy]
    generalize ys[i / 2] = y
    have n1 : ‖y - 1‖ ^ 2 = ‖y‖ ^ 2 + 1 - 2 * y.re := by
      rw [← Complex.normSq_eq_norm_sq, ← Complex.normSq_eq_norm_sq, Complex.normSq_apply, Complex.normSq_apply]; simp; ring
    have n2 : ‖y - Complex.I‖ ^ 2 = ‖y‖ ^ 2 + 1 - 2 * y.im := by
      rw [← Complex.normSq_eq_norm_sq, ← Complex.normSq_eq_norm_sq, Complex.normSq_apply, Complex.normSq_apply]; simp; ring
    have n3 : ‖y - -Complex.I‖ ^ 2 = ‖y‖ ^ 2 + 1 + 2 * y.im := by
      rw [← Complex.normSq_eq_norm_sq, ← Complex.normSq_eq_norm_sq, Complex.normSq_apply, Complex.normSq_apply]; simp; ring
    have n4 : ‖y - -1‖ ^ 2 = ‖y‖ ^ 2 + 1 + 2 * y.re := by
      rw [← Complex.normSq_eq_norm_sq, ← Complex.normSq_eq_norm_sq, Complex.normSq_apply, Complex.normSq_apply]; simp; ring
    have hlog : ∀ {a b c : ℝ}, 0 < b → a = Real.exp c * b → Real.log (a / b) = c := by
      intro a b c hb h
      rw [h, mul_div_assoc, div_self hb.ne', mul_one, Real.log_exp]
    rcases Nat.mod_two_eq_zero_or_one i with r | r
    · rw [r]
      apply hlog
      · unfold likelihood
        rw [show (range 4).filter (fun l => (toBits 2 l).getD 0 0 = 0) = {0, 1} by decide, sum_pair (by norm_num)]
        positivity
      · unfold likelihood
        rw [show (range 4).filter (fun l => (toBits 2 l).getD 0 0 = 0) = {0, 1} by decide, sum_pair (by norm_num),
          show (range 4).filter (fun l => (toBits 2 l).getD 0 0 = 1) = {2, 3} by decide, sum_pair (by norm_num)]
        simp only [List.getD_cons_zero, List.getD_cons_succ]
        rw [n1, n2, n3, n4, mul_add, ← Real.exp_add, ← Real.exp_add]
        congr 2 <;> (field_simp; push_cast; ring)
    · rw [r]
      apply hlog
      · unfold likelihood
        rw [show (range 4).filter (fun l => (toBits 2 l).getD 1 0 = 0) = {0, 2} by decide, sum_pair (by norm_num)]
        positivity
      · unfold likelihood
        rw [show (range 4).filter (fun l => (toBits 2 l).getD 1 0 = 0) = {0, 2} by decide, sum_pair (by norm_num),
          show (range 4).filter (fun l => (toBits 2 l).getD 1 0 = 1) = {1, 3} by decide, sum_pair (by norm_num)]
        simp only [List.getD_cons_zero, List.getD_cons_succ]
        rw [n1, n2, n3, n4, mul_add, ← Real.exp_add, ← Real.exp_add]
        congr 2 <;> (field_simp; push_cast; ring)

/-- The output of an unfaded complex channel. -/
theorem unfaded_out {ch : Siso} {std : ℝ} (h : ch.Unfaded std) {syms : List ℂ} (hne : syms ≠ []) (z : ℕ → ℝ) :
    (ch.propagate (.cplx syms) z).2 = .ok ((List.range syms.length).map fun i =>
      syms.getD i 0 + ((z i : ℂ) + Complex.I * (z (syms.length + i) : ℂ)) * (std : ℂ) * ((1 / 2 : ℝ) : ℂ)) := by
  obtain ⟨h1, h2, h3⟩ := h
  unfold Siso.propagate
  rw [if_neg (by simpa [Signal.toC] using hne), if_neg (by simp [h2])]
  simp only [h3]
  congr 1
  apply List.ext_getElem
  · simp [Signal.toC]
  · intro i hi hi'
    have his : i < syms.length := by simpa using hi'
    simp only [List.getElem_zipWith, List.getElem_map, List.getElem_range, Signal.toC]
    have hg : ch.gainSample syms.length (fun i => z (drawCount ch.isComplex syms.length + i)) i = 1 := by
      unfold Siso.gainSample
      rw [if_pos h2, h1]
      simp [Num.toC]
    rw [hg, one_mul, List.getD_eq_getElem _ _ his]
    unfold noiseSample
    rw [if_pos h2]

/-- The soft values that a BPSK receiver computes, over an unfaded complex channel. -/
theorem bpsk_channel {ch : Siso} {std : ℝ} (h : ch.Unfaded std) (h0 : 0 < std) {p : List Nat} (hb : ∀ x ∈ p, x < 2) (hne : p ≠ []) :
    ∃ syms, modulate ⟨[1, -1], 1, 2, 1⟩ p = .ok syms ∧ ∀ z : ℕ → ℝ, ∃ ys, (ch.propagate (.cplx syms) z).2 = .ok ys ∧
      demodulate ⟨[1, -1], 1, 2, 1⟩ ys "soft" (std ^ 2) = .ok (.llrs (softValues p (fun _ => true) (4 / std ^ 2) (-(std / 2)) z)) := by
  refine ⟨_, bpsk_modulate hb hne, ?_⟩
  intro z
  refine ⟨_, unfaded_out h (by simpa using hne) z, ?_⟩
  rw [bpsk_llr _ _ (by positivity)]
  congr 2
  unfold softValues
  rw [List.length_map, List.map_map]
  apply List.map_congr_left
  intro i hi
  have hi : i < p.length := List.mem_range.1 hi
  simp only [Function.comp, if_true]
  rw [List.getD_eq_getElem _ _ (by simpa using hi), List.getElem_map, List.getD_eq_getElem _ _ hi]
  simp
  field_simp
  ring

theorem qpsk_point {a b : Nat} (ha : a < 2) (hb : b < 2) :
    (([1, Complex.I, -Complex.I, -1] : List ℂ).getD (bitarray2dec [a, b]) 0).re + (([1, Complex.I, -Complex.I, -1] : List ℂ).getD (bitarray2dec [a, b]) 0).im = 1 - 2 * (a : ℝ) ∧
    (([1, Complex.I, -Complex.I, -1] : List ℂ).getD (bitarray2dec [a, b]) 0).re - (([1, Complex.I, -Complex.I, -1] : List ℂ).getD (bitarray2dec [a, b]) 0).im = 1 - 2 * (b : ℝ) := by
  have ha : a = 0 ∨ a = 1 := by omega
  have hb : b = 0 ∨ b = 1 := by omega
  rcases ha with rfl | rfl <;> rcases hb with rfl | rfl
  · rw [show bitarray2dec [0, 0] = 0 by decide]; norm_num
  · rw [show bitarray2dec [0, 1] = 1 by decide]; norm_num
  · rw [show bitarray2dec [1, 0] = 2 by decide]; norm_num
  · rw [show bitarray2dec [1, 1] = 3 by decide]; norm_num

/-- The soft values that a QPSK receiver computes, over an unfaded complex channel. -/
theorem qpsk_channel {ch : Siso} {std : ℝ} (h : ch.Unfaded std) (h0 : 0 < std) {p : List Nat} (hb : ∀ x ∈ p, x < 2) (hne : p ≠ []) {n : Nat} (hn : p.length = n * 2) :
    ∃ syms, modulate ⟨[1, Complex.I, -Complex.I, -1], 1, 4, 2⟩ p = .ok syms ∧ ∀ z : ℕ → ℝ, ∃ ys, (ch.propagate (.cplx syms) z).2 = .ok ys ∧
      demodulate ⟨[1, Complex.I, -Complex.I, -1], 1, 4, 2⟩ ys "soft" (std ^ 2) =
        .ok (.llrs (softValues p (fun _ => true) (2 / std ^ 2) (-(std / 2 * Real.sqrt 2)) (rotDraw n z))) := by
  have hs : Modem.Consistent ⟨[1, Complex.I, -Complex.I, -1], 1, 4, 2⟩ := ⟨rfl, rfl, by norm_num⟩
  refine ⟨_, modulate_ok hs (by norm_num) hb hne hn, ?_⟩
  have hn0 : 0 < n := by
    have := List.length_pos_of_ne_nil hne
    omega
  set syms := (inSyms 2 p).map fun l => ([1, Complex.I, -Complex.I, -1] : List ℂ).getD l 0 with hsy
  have hsl : syms.length = n := by rw [hsy, List.length_map, inSyms_length, hn, Nat.mul_div_cancel _ (by norm_num)]
  have hsg : ∀ i < n, syms.getD i 0 = ([1, Complex.I, -Complex.I, -1] : List ℂ).getD (bitarray2dec [p.getD (2 * i) 0, p.getD (2 * i + 1) 0]) 0 := by
    intro i hi
    rw [hsy, List.getD_eq_getElem _ _ (by rw [← hsy, hsl]; exact hi), List.getElem_map]
    congr 1
    simp only [inSyms, List.getElem_map, List.getElem_range]
    congr 1
    have h1 : i * 2 < p.length := by omega
    have h2 : i * 2 + 1 < p.length := by omega
    rw [List.drop_eq_getElem_cons h1, List.take_succ_cons, List.drop_eq_getElem_cons h2, List.take_succ_cons, List.take_zero,
      List.getD_eq_getElem _ _ (by omega), List.getD_eq_getElem _ _ (by omega)]
    simp only [Nat.mul_comm i 2]
  clear_value syms
  intro z
  refine ⟨_, unfaded_out h (by intro e; rw [e] at hsl; simp at hsl; omega) z, ?_⟩
  rw [qpsk_llr _ _ (by positivity)]
  congr 2
  unfold softValues
  rw [List.length_map, List.length_range, hsl, ← hn]
  apply List.map_congr_left
  intro m hm
  have hm : m < p.length := List.mem_range.1 hm
  have hi : m / 2 < n := by omega
  simp only [if_true]
  rw [List.getD_eq_getElem _ _ (by simpa using hi), List.getElem_map, List.getElem_range, hsg _ hi]
  have hpb : ∀ j, p.getD j 0 < 2 := by
    intro j
    by_cases hj : j < p.length
    · rw [List.getD_eq_getElem _ _ hj]; exact hb _ (List.getElem_mem hj)
    · rw [List.getD_eq_getElem?_getD, List.getElem?_eq_none (by omega)]; simp
  obtain ⟨q1, q2⟩ := qpsk_point (hpb (2 * (m / 2))) (hpb (2 * (m / 2) + 1))
  set pt := ([1, Complex.I, -Complex.I, -1] : List ℂ).getD (bitarray2dec [p.getD (2 * (m / 2)) 0, p.getD (2 * (m / 2) + 1) 0]) 0 with hpt
  have e1 : (pt + ((z (m / 2) : ℂ) + Complex.I * (z (n + m / 2) : ℂ)) * (std : ℂ) * ((1 / 2 : ℝ) : ℂ)).re = pt.re + z (m / 2) * std * (1 / 2) := by simp
  have e2 : (pt + ((z (m / 2) : ℂ) + Complex.I * (z (n + m / 2) : ℂ)) * (std : ℂ) * ((1 / 2 : ℝ) : ℂ)).im = pt.im + z (n + m / 2) * std * (1 / 2) := by simp
  rw [e1, e2]
  have hs2 : Real.sqrt 2 ≠ 0 := by positivity
  unfold rotDraw
  rcases Nat.mod_two_eq_zero_or_one m with r | r
  · rw [r]
    have : 2 * (m / 2) = m := by omega
    rw [this] at q1
    push_cast
    field_simp
    linear_combination (-2) * q1
  · rw [r]
    have : 2 * (m / 2) + 1 = m := by omega
    rw [this] at q2
    push_cast
    field_simp
    linear_combination (-2) * q2

/-! ### The receiver -/

/-- Code bit `i` is transmitted according to the 802.11 standard. -/
def wifiSent (num den i : Nat) : Bool := (standardKeep (num, den)).contains (i / 2 % num, i % 2)

theorem wifiSent_half (i : Nat) : wifiSent 1 2 i = true := by
  unfold wifiSent standardKeep
  rw [Nat.mod_one]
  rcases Nat.mod_two_eq_zero_or_one i with r | r <;> rw [r] <;> decide

theorem wifiSent_kept {num den : Nat} {v : List Nat} (h : wifiPuncture num den = some v) (i : Nat) : wifiSent num den i = kept v i := by
  have key : ∀ m, 0 < m → v.length = 2 * m → num = m → (∀ j < 2 * m, wifiSent num den j = kept v j) → wifiSent num den i = kept v i := by
    intro m hm hv hnum H
    have := H (i % (2 * m)) (Nat.mod_lt _ (by omega))
    unfold wifiSent kept at *
    rw [hv] at *
    rw [Nat.mod_mod] at this
    rw [← this, hnum]
    congr 2
    · have : i % (2 * m) / 2 = i / 2 % m := by rw [Nat.mod_mul_right_div_self]
      rw [this, Nat.mod_mod]
    · exact (Nat.mod_mod_of_dvd i (Dvd.intro m rfl)).symm
  unfold wifiPuncture at h
  split_ifs at h with h1 h2 h3 h4
  · obtain ⟨rfl, rfl⟩ := h2
    obtain rfl := Option.some.inj h
    exact key 2 (by decide) rfl rfl (by decide)
  · obtain ⟨rfl, rfl⟩ := h3
    obtain rfl := Option.some.inj h
    exact key 3 (by decide) rfl rfl (by decide)
  · obtain ⟨rfl, rfl⟩ := h4
    obtain rfl := Option.some.inj h
    exact key 5 (by decide) rfl rfl (by decide)

theorem rank_lt {k : Nat → Bool} {i j : Nat} (hij : i < j) (hi : k i = true) :
    ((List.range i).filter k).length < ((List.range j).filter k).length := by
  obtain ⟨d, rfl⟩ : ∃ d, j = i + 1 + d := ⟨j - (i + 1), by omega⟩
  rw [List.range_add, List.filter_append, List.length_append, List.range_succ, List.filter_append, List.length_append]
  simp [hi]
  omega

/-- What the receiver hands to the Viterbi decoder. -/
theorem wifi_depunct (junk : Nat → Nat → Nat) {mcs : Int} {num den : Nat} (hc : wifiGetCoding mcs = .ok (num, den)) {q : Nat}
    {msg : List Nat} (hb : ∀ b ∈ msg, b < 2) (hl : msg.length = q * num) {outLen : Nat → Nat} (ho : outLen msg.length = msg.length * 2) :
    ∃ (p : List Nat) (rank : Nat → Nat), wifiTransmit junk outLen mcs msg = .ok p ∧ p.length = q * den ∧ (∀ b ∈ p, b < 2) ∧
      (∀ i < msg.length * 2, wifiSent num den i = true → rank i < p.length) ∧
      (∀ i j, wifiSent num den i = true → wifiSent num den j = true → rank i = rank j → i = j) ∧
      ∀ (lam σ : ℝ) (z : ℕ → ℝ), wifiDepuncture (num, den) (softValues p (fun _ => true) lam σ z) =
        .ok (softValues (convSpec "MSB" [6] [[5, 43]] 2 msg) (wifiSent num den) lam σ (fun i => z (rank i))) := by
  obtain ⟨p, hp1, hp2, hp3⟩ := C46_rate junk hc q hb hl ho
  have hp1' := hp1
  rw [wifiTransmit_eq junk hc hb ho] at hp1
  have hcase : (num = 1 ∧ den = 2) ∨ ∃ v, wifiPuncture num den = some v := by
    have hmem : (num, den) ∈ [(1, 2), (1, 2), (3, 4), (1, 2), (3, 4), (2, 3), (3, 4), (5, 6), (3, 4), (5, 6)] := by
      unfold wifiGetCoding pyGet at hc
      split at hc
      · rename_i x hx
        rw [← Except.ok.inj hc]
        obtain ⟨j, -, hj⟩ := Option.bind_eq_some_iff.1 hx
        exact List.mem_of_getElem? hj
      · cases hc
    have : (num = 1 ∧ den = 2) ∨ (num = 2 ∧ den = 3) ∨ (num = 3 ∧ den = 4) ∨ (num = 5 ∧ den = 6) := by
      simp only [List.mem_cons, Prod.mk.injEq, List.not_mem_nil, or_false] at hmem
      omega
    rcases this with h | ⟨rfl, rfl⟩ | ⟨rfl, rfl⟩ | ⟨rfl, rfl⟩
    · exact Or.inl h
    · exact Or.inr ⟨_, rfl⟩
    · exact Or.inr ⟨_, rfl⟩
    · exact Or.inr ⟨_, rfl⟩
  set c := convSpec "MSB" [6] [[5, 43]] 2 msg with hcdef
  have hclen : c.length = msg.length * 2 := convSpec_wifi_length msg
  rcases hcase with ⟨rfl, rfl⟩ | ⟨v, hp⟩
  · have hnone : wifiPuncture 1 2 = none := rfl
    rw [hnone] at hp1
    have hpc : c = p := Except.ok.inj hp1
    refine ⟨p, id, hp1', hp2, hp3, ?_, fun i j _ _ h => h, ?_⟩
    · intro i hi _
      rw [← hpc, hclen]; exact hi
    · intro lam σ z
      unfold wifiDepuncture
      simp only [hnone]
      rw [hpc]
      congr 1
      unfold softValues
      simp only [wifiSent_half, id]
  · have hg := goodPattern hp
    have hv : v ≠ [] := by
      intro h0
      have := hg.len
      rw [h0] at this
      have := hg.num_pos
      simp at *
      omega
    rw [hp] at hp1
    simp only at hp1
    have hcnt : ((List.range c.length).filter (kept v)).length = p.length := (punctured_length hv c hp1).symm
    have hw : c.length = q * v.length := by rw [hclen, hl, hg.len]; ring
    have hrank : ∀ i < c.length, kept v i = true → ((List.range i).filter (kept v)).length < p.length := by
      intro i hi hk
      rw [← hcnt]
      exact rank_lt hi hk
    refine ⟨p, fun i => ((List.range i).filter (kept v)).length, hp1', hp2, hp3, ?_, ?_, ?_⟩
    · intro i hi hs
      rw [wifiSent_kept hp] at hs
      exact hrank i (by rw [hclen]; exact hi) hs
    · intro i j hi hj h
      rw [wifiSent_kept hp] at hi hj
      rcases Nat.lt_trichotomy i j with hlt | heq | hlt
      · exact absurd h (rank_lt hlt hi).ne
      · exact heq
      · exact absurd h (rank_lt hlt hj).ne'
    · intro lam σ z
      have hll : (softValues p (fun _ => true) lam σ z).length = p.length := by simp [softValues]
      obtain ⟨d0, hd0, hd0l, hd0g⟩ := (C37_depuncturing 0 p v hv c.length).2 hcnt.le
      obtain ⟨p', hp1'', hp2''⟩ := C37_roundtrip 0 c v hv
      rw [hp1] at hp1''
      obtain rfl := Except.ok.inj hp1''
      rw [hp2''] at hd0
      have hd0 := Except.ok.inj hd0
      obtain ⟨d, hd, hdl, hdg⟩ := (C37_depuncturing (0 : ℝ) (softValues p (fun _ => true) lam σ z) v hv c.length).2 (by rw [hcnt, hll])
      have hdep : wifiDepuncture (num, den) (softValues p (fun _ => true) lam σ z) = .ok d := by
        unfold wifiDepuncture
        simp only [hp]
        rw [hll, hp2, depunctLen_whole hg.den_pos, ← hg.len, ← hw, hd]
      rw [hdep]
      congr 1
      apply List.ext_getElem
      · rw [hdl]; simp [softValues]
      · intro i hi hi'
        have hic : i < c.length := by rw [← hdl]; exact hi
        have e1 := hd0g i hic
        have e2 := hdg i hic
        rw [List.getElem?_eq_getElem hi] at e2
        simp only [softValues, List.getElem_map, List.getElem_range, wifiSent_kept hp]
        cases hki : kept v i with
        | false =>
          rw [if_neg (by simp [hki])] at e2
          rw [Option.some.inj e2]; simp
        | true =>
          rw [if_pos hki] at e1 e2
          rw [← hd0, List.getElem?_map, List.getElem?_zipIdx, List.getElem?_eq_getElem hic] at e1
          simp only [Option.map_some, Nat.zero_add, hki, if_true] at e1
          have hr := hrank i hic hki
          rw [List.getElem?_eq_getElem hr] at e1
          rw [List.getElem?_eq_getElem (by rw [hll]; exact hr)] at e2
          rw [Option.some.inj e2]
          simp only [softValues, List.getElem_map, List.getElem_range, if_true]
          rw [List.getD_eq_getElem _ _ hr, List.getD_eq_getElem _ _ hic, Option.some.inj e1]

theorem wifi_runOut (junk : Nat → Nat → Nat) {msg : List Nat} (hb : ∀ b ∈ msg, b < 2) :
    (wifiT junk).runOut 0 msg = convSpec "MSB" [6] [[5, 43]] 2 msg := by
  have e1 := wifi_encode junk hb (outLen := (· * 2)) rfl
  have e2 := convEncode_cont (wifiT_balanced junk).wf (by rw [wifiT_n]; decide) (outLen := (· * 2)) hb (N := msg.length)
    (by rw [wifiT_k, Nat.mul_one]) (by rw [wifiT_k, wifiT_n, Nat.mul_one])
  rw [e1, wifiT_k, inSyms_one] at e2
  exact (Except.ok.inj e2).symm

theorem wifi_out_ne (junk : Nat → Nat → Nat) : ∀ u < 2 ^ (wifiT junk).k, u ≠ 0 → (wifiT junk).out 0 u ≠ 0 := by
  intro u hu h0 h
  rw [wifiT_k] at hu
  have hz : (wifiT junk).out 0 0 = 0 :=
    (trellisOf_linear wifiArgs (fits_one _ _ _ _) (fun F _ => fitsFb_one _ _ _) : (wifiT junk).Linear).zero.2
  have := wifi_sep junk (s := 0) (u := u) (v := 0) (p := 0) (by decide) hu (by decide) h0 (by decide)
  rw [h, hz] at this
  exact this rfl

/-- The decoder of the 802.11 chain on noisy soft values of the transmitted bits. -/
theorem wifi_noisy (junk junk' : Nat → Nat → Nat) {mcs : Int} {num den : Nat} (hc : wifiGetCoding mcs = .ok (num, den)) {q : Nat}
    {msg : List Nat} (hb : ∀ b ∈ msg, b < 2) (hl : msg.length = q * num) (h2 : 2 ≤ msg.length) {outLen : Nat → Nat}
    (ho : outLen msg.length = msg.length * 2) (jk : VitJunk ℝ) :
    ∃ p, wifiTransmit junk outLen mcs msg = .ok p ∧ p.length = q * den ∧ (∀ b ∈ p, b < 2) ∧
      ∀ {Ω : Type*} [MeasurableSpace Ω] {μ : Measure Ω} {y : Ω → ℕ → ℝ}, (∀ m < p.length, HasLaw (fun ω => y ω m) (gaussianReal 0 1) μ) →
        iIndepFun (fun (m : Fin p.length) ω => y ω m) μ → ∀ (σ lam : ℝ), σ ≠ 0 → 0 < lam →
        (∀ K ≤ msg.length, μ.real {ω | ¬ ∃ dec, wifiReceive junk' jk mcs (softValues p (fun _ => true) lam σ (y ω)) = .ok dec ∧ dec.length = msg.length ∧
            dec.take K = msg.take K} ≤
          puncturedUnionBound (wifiT junk') (wifiSent num den) (fun d => (Real.exp (-1 / (2 * σ ^ 2)) + Real.exp (-500 / (lam * σ ^ 2))) ^ d) msg.length (min 30 msg.length) K) ∧
        (∀ j < msg.length, μ.real {ω | ¬ ∃ dec, wifiReceive junk' jk mcs (softValues p (fun _ => true) lam σ (y ω)) = .ok dec ∧ dec.length = msg.length ∧
            dec.getD j 0 = msg.getD j 0} ≤
          puncturedBitBound (wifiT junk') (wifiSent num den) (fun d => (Real.exp (-1 / (2 * σ ^ 2)) + Real.exp (-500 / (lam * σ ^ 2))) ^ d) msg.length (min 30 msg.length) j 0) := by
  obtain ⟨p, rank, hp1, hp2, hp3, hr1, hr2, hdep⟩ := wifi_depunct junk hc hb hl ho
  refine ⟨p, hp1, hp2, hp3, ?_⟩
  intro Ω _ μ y hy hind σ lam hσ hlam
  have := hind.isProbabilityMeasure
  have hlin : (wifiT junk').Linear := trellisOf_linear wifiArgs (fits_one _ _ _ _) (fun F _ => fitsFb_one _ _ _)
  let g : {i // i < msg.length * (wifiT junk').n ∧ wifiSent num den i = true} → Fin p.length := fun i =>
    ⟨rank i.1, hr1 i.1 i.2.1 i.2.2⟩
  have hg : Function.Injective g := by
    intro i j hij
    exact Subtype.ext (hr2 _ _ i.2.2 j.2.2 (congrArg Fin.val hij))
  have hind' : iIndepFun (fun (i : {i // i < msg.length * (wifiT junk').n ∧ wifiSent num den i = true}) ω => y ω (rank i)) μ :=
    hind.precomp hg
  obtain ⟨A1, A2⟩ := C127_general (wifiT_balanced junk') hlin (wifi_out_ne junk') (N := msg.length) (w := msg) ⟨rfl, by rw [wifiT_k]; simpa using hb⟩
    (tb := min 30 msg.length) (by omega) ((Nat.min_le_right _ _).trans (Nat.le_add_right _ _)) (Or.inl (wifiT_k _)) (keep := wifiSent num den) (y := fun ω i => y ω (rank i))
    (fun i hi hs => hy _ (hr1 i (by rw [wifiT_n] at hi; exact hi) hs)) hind' hσ hlam jk
  have hsub : ∀ φ : List Nat → Prop, {ω | ¬ ∃ dec, wifiReceive junk' jk mcs (softValues p (fun _ => true) lam σ (y ω)) = .ok dec ∧ dec.length = msg.length ∧ φ dec} ⊆
      {ω | ¬ ∃ dec coded', viterbiDecode "soft" (wifiT junk') jk (msg.length * (wifiT junk').k) (min 30 msg.length)
        (softValues ((wifiT junk').runOut 0 msg) (wifiSent num den) lam σ (fun i => y ω (rank i))) = .ok (dec, coded') ∧ dec.length = msg.length * (wifiT junk').k ∧ φ dec} := by
    intro φ ω h
    simp only [Set.mem_setOf_eq] at h ⊢
    rintro ⟨dec, coded', hv, hdl, hφ⟩
    apply h
    rw [wifiT_k, Nat.mul_one] at hdl
    refine ⟨dec, ?_, hdl, hφ⟩
    unfold wifiReceive
    rw [wifiTrellis_ok, hc]
    simp only [Bind.bind, Except.bind]
    rw [hdep lam σ (y ω)]
    simp only []
    have hlen : (softValues (convSpec "MSB" [6] [[5, 43]] 2 msg) (wifiSent num den) lam σ (fun i => y ω (rank i))).length / 2 = msg.length := by
      simp only [softValues, List.length_map, List.length_range, convSpec_wifi_length]; omega
    have hdd : defaultDepth (wifiT junk') msg.length = min 30 msg.length := rfl
    rw [hlen, hdd]
    rw [wifiT_k, Nat.mul_one, wifi_runOut _ hb] at hv
    rw [hv]
    rfl
  refine ⟨?_, ?_⟩
  · intro K hK
    refine (measureReal_mono (hsub fun dec => dec.take K = msg.take K) (measure_ne_top _ _)).trans ?_
    have := A1 K hK
    have e : (msg.take K).flatMap (toBits (wifiT junk').k) = msg.take K := by
      have hbk : ∀ b ∈ msg.take K, b < 2 := fun b h => hb b (List.mem_of_mem_take h)
      have := flatMap_inSyms (k := 1) (by decide) hbk (N := (msg.take K).length) (by omega)
      rw [inSyms_one] at this
      rw [wifiT_k]; exact this
    rw [e] at this
    simpa only [wifiT_k, Nat.mul_one] using this
  · intro j hj
    refine (measureReal_mono (hsub fun dec => dec.getD j 0 = msg.getD j 0) (measure_ne_top _ _)).trans ?_
    have := A2 j (by rw [wifiT_k]; omega)
    have e : msg.flatMap (toBits (wifiT junk').k) = msg := by
      have := flatMap_inSyms (k := 1) (by decide) hb (N := msg.length) (by omega)
      rw [inSyms_one] at this
      rw [wifiT_k]; exact this
    rw [e] at this
    simpa only [wifiT_k, Nat.mul_one, Nat.div_one, Nat.mod_one] using this

theorem qpsk_std {rate snr : ℝ} (hr : 0 < rate) : 0 < Real.sqrt (2 * 1 / (rate * (10 : ℝ) ^ (snr / 10))) ∧
    Real.sqrt (2 * 1 / (rate * (10 : ℝ) ^ (snr / 10))) ^ 2 = 2 / (rate * (10 : ℝ) ^ (snr / 10)) := by
  have hp : 0 < rate * (10 : ℝ) ^ (snr / 10) := mul_pos hr (Real.rpow_pos_of_pos (by norm_num) _)
  refine ⟨Real.sqrt_pos.2 (by positivity), ?_⟩
  rw [Real.sq_sqrt (by positivity), mul_one]

theorem unfaded_step {ch : Siso} {snr : ℝ} {rate : ℝ} (hr : 0 < rate) (hf : ch.fading = (.cplx 1, 0)) (hc : ch.isComplex = true) :
    ∃ ch1, ch.step (.setSnrDb snr rate 1) = (ch1, none) ∧ ch1.Unfaded (Real.sqrt (2 * 1 / (rate * (10 : ℝ) ^ (snr / 10)))) := by
  have hpos : (0 : ℝ) < rate * (10 : ℝ) ^ (snr / 10) := mul_pos hr (Real.rpow_pos_of_pos (by norm_num) _)
  unfold Siso.step
  simp only
  unfold noiseStdDb
  rw [if_neg hpos.ne', hc]
  refine ⟨_, rfl, hf, rfl, ?_⟩
  norm_num

/-- C128. A transmission with the 802.11 schemes MCS 0, 1 and 2 (BPSK at rate 1/2, QPSK at rates 1/2 and 3/4), exactly as `Wifi80211.link_performance` does it: the message is
encoded, punctured and modulated, the unfaded complex SISO channel is set to the SNR and adds independent standard normal draws, the symbols are demodulated with
soft decisions for the noise variance of the channel, depunctured and decoded with the default traceback depth.  With `x = exp(-rate * SNR / bits per symbol) + exp(-500)`,
the probability that the first `K` message bits are not all returned is at most the union bound over the error events of the code as it is built, counting only
their transmitted bits; and likewise for every single message bit. -/
theorem C128_wifi (junk junk' : Nat → Nat → Nat) {mcs : Nat} (hmcs : mcs < 3) :
    ∃ s num den t, wifiModemObj mcs = .ok s ∧ wifiGetCoding mcs = .ok (num, den) ∧ wifiTrellis junk' = .ok t ∧
      ∀ (q : Nat) (outLen : Nat → Nat) (msg : List Nat), (∀ b ∈ msg, b < 2) → msg.length = q * num → 2 ≤ msg.length → outLen msg.length = msg.length * 2 → s.nbits ∣ q * den →
        ∃ p syms, wifiTransmit junk outLen mcs msg = .ok p ∧ modulate s p = .ok syms ∧
          ∀ {Ω : Type*} [MeasurableSpace Ω] {P : Measure Ω} {z : Ω → ℕ → ℝ}, NormalDraws P z → iIndepFun (fun i ω => z ω i) P →
            ∀ (ch : Siso) (snr : ℝ) (jk : VitJunk ℝ), ch.fading = (.cplx 1, 0) → ch.isComplex = true →
              ∃ ch1 std, ch.step (.setSnrDb snr ((num : ℝ) / den) s.Es) = (ch1, none) ∧ ch1.noiseStd = some std ∧
                (∀ K ≤ msg.length,
                  P.real {ω | ¬ ∃ ys llr dec, (ch1.propagate (.cplx syms) (z ω)).2 = .ok ys ∧ demodulate s ys "soft" (std ^ 2) = .ok (.llrs llr) ∧
                    wifiReceive junk' jk mcs llr = .ok dec ∧ dec.length = msg.length ∧ dec.take K = msg.take K} ≤
                  puncturedUnionBound t (wifiSent num den) (fun d => (Real.exp (-((num : ℝ) / den * (10 : ℝ) ^ (snr / 10) / s.nbits)) + Real.exp (-500)) ^ d)
                    msg.length (min 30 msg.length) K) ∧
                (∀ j < msg.length,
                  P.real {ω | ¬ ∃ ys llr dec, (ch1.propagate (.cplx syms) (z ω)).2 = .ok ys ∧ demodulate s ys "soft" (std ^ 2) = .ok (.llrs llr) ∧
                    wifiReceive junk' jk mcs llr = .ok dec ∧ dec.length = msg.length ∧ dec.getD j 0 = msg.getD j 0} ≤
                  puncturedBitBound t (wifiSent num den) (fun d => (Real.exp (-((num : ℝ) / den * (10 : ℝ) ^ (snr / 10) / s.nbits)) + Real.exp (-500)) ^ d)
                    msg.length (min 30 msg.length) j 0) := by
  -- both modems at once: the soft values are `softValues` of independent normal draws
  suffices main : ∃ (s : Modem) (num den : Nat) (lam0 σ0 : ℝ), wifiModemObj mcs = .ok s ∧ wifiGetCoding mcs = .ok (num, den) ∧ s.Es = 1 ∧ 0 < num ∧ 0 < den ∧ 0 < lam0 ∧ σ0 ≠ 0 ∧
      σ0 ^ 2 = s.nbits / 4 ∧ lam0 * σ0 ^ 2 = 1 ∧
      (∀ {p : List Nat}, (∀ x ∈ p, x < 2) → p ≠ [] → s.nbits ∣ p.length → ∃ (syms : List ℂ) (r : (ℕ → ℝ) → ℕ → ℝ), modulate s p = .ok syms ∧
        (∀ {ch : Siso} {std : ℝ}, ch.Unfaded std → 0 < std → ∀ z : ℕ → ℝ, ∃ ys, (ch.propagate (.cplx syms) z).2 = .ok ys ∧
          demodulate s ys "soft" (std ^ 2) = .ok (.llrs (softValues p (fun _ => true) (lam0 / std ^ 2) (-(std * σ0)) (r z)))) ∧
        ∀ {Ω : Type _} [MeasurableSpace Ω] {P : Measure Ω} {z : Ω → ℕ → ℝ}, NormalDraws P z → iIndepFun (fun i ω => z ω i) P →
          (∀ m < p.length, HasLaw (fun ω => r (z ω) m) (gaussianReal 0 1) P) ∧ iIndepFun (fun (m : Fin p.length) ω => r (z ω) m) P) by
    obtain ⟨s, num, den, lam0, σ0, hmod, hcod, hEs, hnum, hden, hlam0, hσ0, hσ2, hls, H⟩ := main
    refine ⟨s, num, den, wifiT junk', hmod, hcod, wifiTrellis_ok junk', ?_⟩
    intro q outLen msg hb hl h2 ho hdvd
    obtain ⟨p, hp1, hp2, hp3⟩ := C46_rate junk hcod q hb hl ho
    have hpne : p ≠ [] := by
      rintro rfl
      rcases Nat.eq_zero_or_pos q with h | h
      · rw [h] at hl; omega
      · have := Nat.mul_pos h hden
        simp at hp2; omega
    obtain ⟨syms, r, hs1, hs2, hs3⟩ := H hp3 hpne (by rw [hp2]; exact hdvd)
    refine ⟨p, syms, hp1, hs1, ?_⟩
    intro Ω _ P z hz hind ch snr jk hf hcx
    have hrate : (0 : ℝ) < (num : ℝ) / den := by positivity
    obtain ⟨ch1, hst, hun⟩ := unfaded_step (snr := snr) hrate hf hcx
    obtain ⟨q1, q2⟩ := qpsk_std (snr := snr) hrate
    set std := Real.sqrt (2 * 1 / ((num : ℝ) / den * (10 : ℝ) ^ (snr / 10))) with hstd
    refine ⟨ch1, std, by rw [hEs]; exact hst, hun.2.2, ?_⟩
    obtain ⟨l1, l2⟩ := hs3 hz hind
    obtain ⟨p', hp1', -, -, hw⟩ := wifi_noisy junk junk' hcod hb hl h2 ho jk
    obtain rfl := Except.ok.inj (hp1.symm.trans hp1')
    obtain ⟨A1, A2⟩ := hw l1 l2 (-(std * σ0)) (lam0 / std ^ 2) (neg_ne_zero.2 (mul_ne_zero q1.ne' hσ0)) (by positivity)
    have hS : 0 < (num : ℝ) / den * (10 : ℝ) ^ (snr / 10) := mul_pos hrate (Real.rpow_pos_of_pos (by norm_num) _)
    have hnb : (0 : ℝ) < s.nbits := by
      have : 0 < σ0 ^ 2 := by positivity
      rw [hσ2] at this
      linarith
    have hx : Real.exp (-1 / (2 * (-(std * σ0)) ^ 2)) + Real.exp (-500 / (lam0 / std ^ 2 * (-(std * σ0)) ^ 2)) =
        Real.exp (-((num : ℝ) / den * (10 : ℝ) ^ (snr / 10) / s.nbits)) + Real.exp (-500) := by
      have e1 : (-(std * σ0)) ^ 2 = std ^ 2 * σ0 ^ 2 := by ring
      have e2 : lam0 / std ^ 2 * (std ^ 2 * σ0 ^ 2) = 1 := by
        rw [← hls]; field_simp
      rw [e1, e2, q2, hσ2]
      congr 2
      · field_simp; ring
      · norm_num
    rw [hx] at A1 A2
    have hsub : ∀ φ : List Nat → Prop, {ω | ¬ ∃ ys llr dec, (ch1.propagate (.cplx syms) (z ω)).2 = .ok ys ∧ demodulate s ys "soft" (std ^ 2) = .ok (.llrs llr) ∧
          wifiReceive junk' jk mcs llr = .ok dec ∧ dec.length = msg.length ∧ φ dec} ⊆
        {ω | ¬ ∃ dec, wifiReceive junk' jk mcs (softValues p (fun _ => true) (lam0 / std ^ 2) (-(std * σ0)) (r (z ω))) = .ok dec ∧ dec.length = msg.length ∧ φ dec} := by
      intro φ ω h
      rintro ⟨dec, h3, h4, h5⟩
      obtain ⟨ys, h6, h7⟩ := hs2 hun q1 (z ω)
      exact h ⟨ys, _, dec, h6, h7, h3, h4, h5⟩
    have := hind.isProbabilityMeasure
    refine ⟨?_, ?_⟩
    · intro K hK
      exact (measureReal_mono (hsub fun dec => dec.take K = msg.take K) (measure_ne_top _ _)).trans (A1 K hK)
    · intro j hj
      exact (measureReal_mono (hsub fun dec => dec.getD j 0 = msg.getD j 0) (measure_ne_top _ _)).trans (A2 j hj)
  have hbpsk : ∀ {p : List Nat}, (∀ x ∈ p, x < 2) → p ≠ [] → 1 ∣ p.length → ∃ (syms : List ℂ) (r : (ℕ → ℝ) → ℕ → ℝ), modulate ⟨[1, -1], 1, 2, 1⟩ p = .ok syms ∧
        (∀ {ch : Siso} {std : ℝ}, ch.Unfaded std → 0 < std → ∀ z : ℕ → ℝ, ∃ ys, (ch.propagate (.cplx syms) z).2 = .ok ys ∧
          demodulate ⟨[1, -1], 1, 2, 1⟩ ys "soft" (std ^ 2) = .ok (.llrs (softValues p (fun _ => true) (4 / std ^ 2) (-(std * (1 / 2))) (r z)))) ∧
        ∀ {Ω : Type _} [MeasurableSpace Ω] {P : Measure Ω} {z : Ω → ℕ → ℝ}, NormalDraws P z → iIndepFun (fun i ω => z ω i) P →
          (∀ m < p.length, HasLaw (fun ω => r (z ω) m) (gaussianReal 0 1) P) ∧ iIndepFun (fun (m : Fin p.length) ω => r (z ω) m) P := by
    intro p hb hne _
    refine ⟨_, id, bpsk_modulate hb hne, ?_, ?_⟩
    · intro ch std h h0 z
      obtain ⟨syms, hm, H⟩ := bpsk_channel h h0 hb hne
      rw [bpsk_modulate hb hne] at hm
      obtain rfl := Except.ok.inj hm
      obtain ⟨ys, h1, h2⟩ := H z
      refine ⟨ys, h1, ?_⟩
      rw [h2, show std * (1 / 2) = std / 2 by ring]; rfl
    · intro Ω _ P z hz hi
      exact ⟨fun m _ => hz m, hi.precomp Fin.val_injective⟩
  have hqpsk : ∀ {p : List Nat}, (∀ x ∈ p, x < 2) → p ≠ [] → 2 ∣ p.length → ∃ (syms : List ℂ) (r : (ℕ → ℝ) → ℕ → ℝ), modulate ⟨[1, Complex.I, -Complex.I, -1], 1, 4, 2⟩ p = .ok syms ∧
        (∀ {ch : Siso} {std : ℝ}, ch.Unfaded std → 0 < std → ∀ z : ℕ → ℝ, ∃ ys, (ch.propagate (.cplx syms) z).2 = .ok ys ∧
          demodulate ⟨[1, Complex.I, -Complex.I, -1], 1, 4, 2⟩ ys "soft" (std ^ 2) = .ok (.llrs (softValues p (fun _ => true) (2 / std ^ 2) (-(std * (Real.sqrt 2 / 2))) (r z)))) ∧
        ∀ {Ω : Type _} [MeasurableSpace Ω] {P : Measure Ω} {z : Ω → ℕ → ℝ}, NormalDraws P z → iIndepFun (fun i ω => z ω i) P →
          (∀ m < p.length, HasLaw (fun ω => r (z ω) m) (gaussianReal 0 1) P) ∧ iIndepFun (fun (m : Fin p.length) ω => r (z ω) m) P := by
    intro p hb hne hd
    obtain ⟨n, hn⟩ := hd
    have hs : Modem.Consistent ⟨[1, Complex.I, -Complex.I, -1], 1, 4, 2⟩ := ⟨rfl, rfl, by norm_num⟩
    have hmo := modulate_ok hs (by norm_num) hb hne (N := n) (by rw [hn]; ring)
    refine ⟨_, rotDraw n, hmo, ?_, ?_⟩
    · intro ch std h h0 z
      obtain ⟨syms, hm, H⟩ := qpsk_channel h h0 hb hne (n := n) (by rw [hn]; ring)
      rw [hmo] at hm
      obtain rfl := Except.ok.inj hm
      obtain ⟨ys, h1, h2⟩ := H z
      refine ⟨ys, h1, ?_⟩
      rw [h2, show std * (Real.sqrt 2 / 2) = std / 2 * Real.sqrt 2 by ring]
    · intro Ω _ P z hz hi
      rw [hn]
      exact rotDraw_indep hz hi n
  have hs2 : Real.sqrt 2 ^ 2 = 2 := Real.sq_sqrt (by norm_num)
  have hs2' : Real.sqrt 2 / 2 ≠ 0 := by positivity
  interval_cases mcs
  · exact ⟨⟨[1, -1], 1, 2, 1⟩, 1, 2, 4, 1 / 2, bpsk_modem, rfl, rfl, by decide, by decide, by norm_num, by norm_num, by norm_num, by norm_num, hbpsk⟩
  · exact ⟨⟨[1, Complex.I, -Complex.I, -1], 1, 4, 2⟩, 1, 2, 2, Real.sqrt 2 / 2, qpsk_modem, rfl, rfl, by decide, by decide, by norm_num, hs2',
      by rw [div_pow, hs2]; norm_num, by rw [div_pow, hs2]; norm_num, hqpsk⟩
  · exact ⟨⟨[1, Complex.I, -Complex.I, -1], 1, 4, 2⟩, 3, 4, 2, Real.sqrt 2 / 2, qpsk_modem, rfl, rfl, by decide, by decide, by norm_num, hs2',
      by rw [div_pow, hs2]; norm_num, by rw [div_pow, hs2]; norm_num, hqpsk⟩

theorem wifiSent_pair {mcs : Nat} (hmcs : mcs < 3) {num den : Nat} (hc : wifiGetCoding mcs = .ok (num, den)) (a : Nat) :
    wifiSent num den (2 * a) = true ∨ wifiSent num den (2 * a + 1) = true := by
  have h : (num = 1 ∧ den = 2) ∨ (num = 3 ∧ den = 4) := by
    interval_cases mcs
    · have := Except.ok.inj (hc.symm.trans (show wifiGetCoding 0 = .ok (1, 2) from rfl)); simp_all
    · have := Except.ok.inj (hc.symm.trans (show wifiGetCoding 1 = .ok (1, 2) from rfl)); simp_all
    · have := Except.ok.inj (hc.symm.trans (show wifiGetCoding 2 = .ok (3, 4) from rfl)); simp_all
  rcases h with ⟨rfl, rfl⟩ | ⟨rfl, rfl⟩
  · exact Or.inl (wifiSent_half _)
  · have hp : wifiPuncture 3 4 = some [1, 1, 1, 0, 0, 1] := rfl
    rw [wifiSent_kept hp, wifiSent_kept hp]
    exact (goodPattern hp).pair a

theorem wifi_weight (junk : Nat → Nat → Nat) {keep : Nat → Bool} {a ℓ : Nat} (hk : keep (2 * a) = true ∨ keep (2 * a + 1) = true)
    {v : List Nat} (hv : Leaves (wifiT junk) ℓ v) : 1 ≤ keptWeight (wifiT junk) keep a v := by
  cases v with
  | nil => exact absurd rfl hv.first
  | cons u us =>
    have hu : u = 1 := by
      have h1 := hv.input.2 u (by simp)
      rw [wifiT_k] at h1
      have h2 := hv.first
      simp only [List.getD_cons_zero] at h2
      omega
    subst hu
    have hz : (wifiT junk).out 0 0 = 0 :=
      (trellisOf_linear wifiArgs (fits_one _ _ _ _) (fun F _ => fitsFb_one _ _ _) : (wifiT junk).Linear).zero.2
    have hlt : (wifiT junk).out 0 1 < 4 := (wifiT_balanced junk).wf.out_lt (by rw [wifiT_M]; decide) (by rw [wifiT_k]; decide)
    have h3 : (wifiT junk).out 0 1 = 3 := by
      have e0 := wifi_sep junk (s := 0) (u := 1) (v := 0) (p := 0) (by decide) (by decide) (by decide) (by decide) (by decide)
      have e1 := wifi_sep junk (s := 0) (u := 1) (v := 0) (p := 1) (by decide) (by decide) (by decide) (by decide) (by decide)
      rw [hz] at e0 e1
      have key : ∀ x < 4, (toBits 2 x).getD 0 0 ≠ (toBits 2 0).getD 0 0 → (toBits 2 x).getD 1 0 ≠ (toBits 2 0).getD 1 0 → x = 3 := by decide
      exact key _ hlt e0 e1
    have hrun : (wifiT junk).runOut 0 (1 :: us) = 1 :: 1 :: (wifiT junk).runOut ((wifiT junk).next 0 1) us := by
      simp only [Trellis.runOut, wifiT_n, h3]
      rw [show toBits 2 3 = [1, 1] by decide]; rfl
    unfold keptWeight
    rw [hrun, Nat.one_le_iff_ne_zero]
    apply (Finset.card_pos.2 _).ne'
    rw [wifiT_n, Nat.mul_comm a 2]
    rcases hk with h | h
    · exact ⟨0, by simp [h]⟩
    · exact ⟨1, by simp [h]⟩

theorem allInputs_card (t : Trellis) (ℓ : Nat) : (allInputs t ℓ).card ≤ (2 ^ t.k) ^ ℓ := by
  unfold allInputs
  refine Finset.card_image_le.trans ?_
  simp

/-- With every error event of transmitted weight at least one, the union bound is at most `2 ^ (T + 2) x`. -/
theorem wifi_crude (junk : Nat → Nat → Nat) {keep : Nat → Bool} (hk : ∀ a, keep (2 * a) = true ∨ keep (2 * a + 1) = true) {x : ℝ} (h0 : 0 ≤ x) (h1 : x ≤ 1) {T tb K : Nat} (hK : K ≤ T) :
    puncturedUnionBound (wifiT junk) keep (fun d => x ^ d) T tb K ≤ 2 ^ (T + 2) * x := by
  have geo : ∀ n : Nat, ∑ ℓ ∈ range n, (2 : ℝ) ^ ℓ * x ≤ 2 ^ n * x := by
    intro n
    induction n with
    | zero => simpa using h0
    | succ n ih => rw [sum_range_succ, pow_succ]; linarith
  have inner : ∀ a, ∑ ℓ ∈ range (T - a + 1), ∑ v ∈ open Classical in (errorEvents (wifiT junk) ℓ).filter (fun v => (wifiT junk).runState 0 v = 0 ∨ tb ≤ ℓ + 1 ∨ a + ℓ = T),
      x ^ keptWeight (wifiT junk) keep a v ≤ 2 ^ (T - a + 1) * x := by
    intro a
    refine (sum_le_sum (fun ℓ _ => ?_)).trans (geo _)
    classical
    have hc : (((errorEvents (wifiT junk) ℓ).filter (fun v => (wifiT junk).runState 0 v = 0 ∨ tb ≤ ℓ + 1 ∨ a + ℓ = T)).card : ℝ) ≤ 2 ^ ℓ := by
      have h1 : ((errorEvents (wifiT junk) ℓ).filter (fun v => (wifiT junk).runState 0 v = 0 ∨ tb ≤ ℓ + 1 ∨ a + ℓ = T)).card ≤ (2 ^ (wifiT junk).k) ^ ℓ := by
        refine (card_filter_le _ _).trans ?_
        unfold errorEvents
        exact (card_filter_le _ _).trans (allInputs_card _ _)
      rw [wifiT_k] at h1
      exact_mod_cast h1
    refine (sum_le_card_nsmul _ _ x ?_).trans ?_
    · intro v hv
      have hv := (mem_filter.1 hv).1
      rw [mem_errorEvents] at hv
      calc x ^ keptWeight (wifiT junk) keep a v ≤ x ^ 1 := pow_le_pow_of_le_one h0 h1 (wifi_weight junk (hk a) hv)
        _ = x := pow_one x
    · rw [nsmul_eq_mul]
      refine mul_le_mul_of_nonneg_right ?_ h0
      convert hc
  unfold puncturedUnionBound
  refine (sum_le_sum (fun a _ => inner a)).trans ?_
  have : ∀ K ≤ T, ∑ a ∈ range K, (2 : ℝ) ^ (T - a + 1) * x + 2 ^ (T - K + 2) * x ≤ 2 ^ (T + 2) * x := by
    intro K
    induction K with
    | zero => intro _; simp
    | succ K ih =>
      intro hK
      have := ih (by omega)
      rw [sum_range_succ]
      have e1 : T - K + 1 = (T - (K + 1) + 1) + 1 := by omega
      have e2 : T - K + 2 = (T - (K + 1) + 1) + 1 + 1 := by omega
      have e3 : T - (K + 1) + 2 = (T - (K + 1) + 1) + 1 := by omega
      rw [e2] at this
      rw [e1, e3]
      simp only [pow_succ] at this ⊢
      linarith
  have h := this K hK
  have : 0 ≤ (2 : ℝ) ^ (T - K + 2) * x := by positivity
  linarith

/-- C128, with an explicit number: whatever the message of `L` bits, the received message differs from it with probability at most `2 ^ (L + 2) (exp(-rate * SNR / bits per symbol) + exp(-500))`. -/
theorem C128_explicit (junk junk' : Nat → Nat → Nat) {mcs : Nat} (hmcs : mcs < 3) :
    ∃ s num den, wifiModemObj mcs = .ok s ∧ wifiGetCoding mcs = .ok (num, den) ∧
      ∀ (q : Nat) (outLen : Nat → Nat) (msg : List Nat), (∀ b ∈ msg, b < 2) → msg.length = q * num → 2 ≤ msg.length → outLen msg.length = msg.length * 2 → s.nbits ∣ q * den →
        ∃ p syms, wifiTransmit junk outLen mcs msg = .ok p ∧ modulate s p = .ok syms ∧
          ∀ {Ω : Type*} [MeasurableSpace Ω] {P : Measure Ω} {z : Ω → ℕ → ℝ}, NormalDraws P z → iIndepFun (fun i ω => z ω i) P →
            ∀ (ch : Siso) (snr : ℝ) (jk : VitJunk ℝ), ch.fading = (.cplx 1, 0) → ch.isComplex = true →
              ∃ ch1 std, ch.step (.setSnrDb snr ((num : ℝ) / den) s.Es) = (ch1, none) ∧ ch1.noiseStd = some std ∧
                P.real {ω | ¬ ∃ ys llr, (ch1.propagate (.cplx syms) (z ω)).2 = .ok ys ∧ demodulate s ys "soft" (std ^ 2) = .ok (.llrs llr) ∧ wifiReceive junk' jk mcs llr = .ok msg} ≤
                  2 ^ (msg.length + 2) * (Real.exp (-((num : ℝ) / den * (10 : ℝ) ^ (snr / 10) / s.nbits)) + Real.exp (-500)) := by
  obtain ⟨s, num, den, t, h1, h2, h3, H⟩ := C128_wifi junk junk' hmcs
  have ht : t = wifiT junk' := (Except.ok.inj ((wifiTrellis_ok junk').symm.trans h3)).symm
  refine ⟨s, num, den, h1, h2, ?_⟩
  intro q outLen msg hb hl hlen ho hd
  obtain ⟨p, syms, hp, hs, H2⟩ := H q outLen msg hb hl hlen ho hd
  refine ⟨p, syms, hp, hs, ?_⟩
  intro Ω _ P z hz hind ch snr jk hf hcx
  obtain ⟨ch1, std, a1, a2, a3, -⟩ := H2 hz hind ch snr jk hf hcx
  refine ⟨ch1, std, a1, a2, ?_⟩
  have := hind.isProbabilityMeasure
  set x := Real.exp (-((num : ℝ) / den * (10 : ℝ) ^ (snr / 10) / s.nbits)) + Real.exp (-500) with hx
  have hx0 : 0 ≤ x := by positivity
  by_cases hx1 : x ≤ 1
  · refine (measureReal_mono (s₂ := {ω | ¬ ∃ ys llr dec, (ch1.propagate (.cplx syms) (z ω)).2 = .ok ys ∧ demodulate s ys "soft" (std ^ 2) = .ok (.llrs llr) ∧
        wifiReceive junk' jk mcs llr = .ok dec ∧ dec.length = msg.length ∧ dec.take msg.length = msg.take msg.length}) ?_ (measure_ne_top _ _)).trans
      ((a3 msg.length le_rfl).trans ?_)
    · intro ω h
      rintro ⟨ys, llr, dec, b1, b2, b3, b4, b5⟩
      rw [List.take_length, ← b4, List.take_length] at b5
      rw [b5] at b3
      exact h ⟨ys, llr, b1, b2, b3⟩
    · rw [ht]
      exact wifi_crude junk' (wifiSent_pair hmcs h2) hx0 hx1 le_rfl
  · refine measureReal_le_one.trans ?_
    have : (1 : ℝ) ≤ 2 ^ (msg.length + 2) := one_le_pow₀ (by norm_num)
    nlinarith

/-- The hypotheses are met: with MCS 2 (QPSK, rate 3/4) at 20 dB, the message `1,0,1,1,1,0` is received correctly except with probability at most `10⁻¹³`. -/
example (jk : VitJunk ℝ) : ∃ (Ω : Type) (_ : MeasurableSpace Ω) (P : Measure Ω) (z : Ω → ℕ → ℝ), NormalDraws P z ∧ iIndepFun (fun i ω => z ω i) P ∧
    ∃ s p syms ch ch1 std, wifiModemObj 2 = .ok s ∧ wifiTransmit (fun _ _ => 0) (· * 2) 2 [1, 0, 1, 1, 1, 0] = .ok p ∧ modulate s p = .ok syms ∧
      Siso.init none (.cplx 1, 0) = .ok ch ∧ ch.step (.setSnrDb 20 (3 / 4) s.Es) = (ch1, none) ∧ ch1.noiseStd = some std ∧
      P.real {ω | ¬ ∃ ys llr, (ch1.propagate (.cplx syms) (z ω)).2 = .ok ys ∧ demodulate s ys "soft" (std ^ 2) = .ok (.llrs llr) ∧
        wifiReceive (fun _ _ => 5) jk 2 llr = .ok [1, 0, 1, 1, 1, 0]} ≤ 1 / 10 ^ 13 := by
  have hz : NormalDraws (Measure.infinitePi fun _ : ℕ => gaussianReal 0 1) (fun ω i => ω i) := by
    intro i
    have := measurePreserving_eval_infinitePi (fun _ : ℕ => gaussianReal 0 1) i
    exact ⟨this.measurable.aemeasurable, this.map_eq⟩
  have hi : iIndepFun (fun i (ω : ℕ → ℝ) => ω i) (Measure.infinitePi fun _ : ℕ => gaussianReal 0 1) :=
    iIndepFun_infinitePi (X := fun _ x => x) (fun _ => measurable_id)
  obtain ⟨s, num, den, h1, h2, H⟩ := C128_explicit (fun _ _ => 0) (fun _ _ => 5) (mcs := 2) (by norm_num)
  have hs := Except.ok.inj (h1.symm.trans (show wifiModemObj 2 = _ from qpsk_modem))
  have hnd := Except.ok.inj (h2.symm.trans (show wifiGetCoding 2 = .ok (3, 4) from rfl))
  obtain ⟨rfl, rfl⟩ := Prod.mk.inj hnd
  obtain ⟨p, syms, hp, hsy, H2⟩ := H 2 (· * 2) [1, 0, 1, 1, 1, 0] (by decide) rfl (by decide) rfl (by rw [hs]; decide)
  have hch : ∃ ch, Siso.init none (.cplx 1, 0) = .ok ch ∧ ch.fading = (.cplx 1, 0) ∧ ch.isComplex = true := by
    unfold Siso.init Siso.setFading
    rw [if_neg (by simp [Num.toC])]
    exact ⟨_, rfl, rfl, rfl⟩
  obtain ⟨ch, hc1, hc2, hc3⟩ := hch
  obtain ⟨ch1, std, a1, a2, a3⟩ := H2 hz hi ch 20 jk hc2 hc3
  refine ⟨ℕ → ℝ, inferInstance, _, fun ω i => ω i, hz, hi, s, p, syms, ch, ch1, std, h1, hp, hsy, hc1, by exact_mod_cast a1, a2, a3.trans ?_⟩
  rw [hs]
  have e20 : (10 : ℝ) ^ ((20 : ℝ) / 10) = 100 := by norm_num
  rw [e20]
  have h27 : (27 / 10 : ℝ) ≤ Real.exp 1 := by have := Real.exp_one_gt_d9; linarith
  have b1 : Real.exp (-(((3 : ℕ) : ℝ) / (4 : ℕ) * 100 / (2 : ℕ))) ≤ ((27 / 10 : ℝ) ^ 37)⁻¹ := by
    have : Real.exp (-(((3 : ℕ) : ℝ) / (4 : ℕ) * 100 / (2 : ℕ))) ≤ Real.exp (-(37 : ℕ)) := Real.exp_le_exp.2 (by norm_num)
    refine this.trans ?_
    rw [Real.exp_neg, ← Real.exp_one_pow]
    exact inv_anti₀ (by positivity) (pow_le_pow_left₀ (by norm_num) h27 37)
  have b2 : Real.exp (-500) ≤ ((27 / 10 : ℝ) ^ 37)⁻¹ := by
    have : Real.exp (-500) ≤ Real.exp (-(37 : ℕ)) := Real.exp_le_exp.2 (by norm_num)
    refine this.trans ?_
    rw [Real.exp_neg, ← Real.exp_one_pow]
    exact inv_anti₀ (by positivity) (pow_le_pow_left₀ (by norm_num) h27 37)
  refine (mul_le_mul_of_nonneg_left (add_le_add b1 b2) (by positivity)).trans ?_
  norm_num

end Verif
