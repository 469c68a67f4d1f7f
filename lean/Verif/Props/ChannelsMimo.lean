import Verif.Props.Channels
import Mathlib.LinearAlgebra.Matrix.PosDef
/-
Properties of the MIMO channel (/repo/commpy/channels.py).
-/
namespace Verif
open MeasureTheory ProbabilityTheory

variable {nr nt : Nat}

/-- Energy of the non-line-of-sight part: the product of the traces of the correlation matrices. -/
theorem nlosGain_eq (p : MimoFading nr nt) : nlosGain p = (∑ j, p.Rt j j) * ∑ i, p.Rr i i := by
  have := Matrix.trace_kronecker p.Rt.transpose p.Rr
  rw [Matrix.trace_transpose] at this
  exact this

theorem losGain_eq (m : Matrix (Fin nr) (Fin nt) ℂ) : losGain m = ∑ i, ∑ j, ‖m i j‖ ^ 2 := by
  unfold losGain
  apply Finset.sum_congr rfl; intro i _
  apply Finset.sum_congr rfl; intro j _
  ring

theorem losGain_nonneg (m : Matrix (Fin nr) (Fin nt) ℂ) : 0 ≤ losGain m := by
  rw [losGain_eq]; positivity

theorem losGain_pos {m : Matrix (Fin nr) (Fin nt) ℂ} (h : m ≠ 0) : 0 < losGain m := by
  rcases (losGain_nonneg m).lt_or_eq with h' | h'
  · exact h'
  · exfalso; apply h
    rw [losGain_eq] at h'
    have h1 := (Finset.sum_eq_zero_iff_of_nonneg (fun i _ => by positivity)).1 h'.symm
    ext i j
    have h2 := (Finset.sum_eq_zero_iff_of_nonneg (fun j _ => by positivity)).1 (h1 i (Finset.mem_univ _)) j (Finset.mem_univ _)
    have : ‖m i j‖ = 0 := by simpa using h2
    simpa using this

theorem losGain_scale (m : Matrix (Fin nr) (Fin nt) ℂ) (a : ℝ) : losGain (fun i j => m i j * (a : ℂ)) = a ^ 2 * losGain m := by
  rw [losGain_eq m, Finset.mul_sum]
  show ∑ i, ∑ j, ‖m i j * (a : ℂ)‖ * ‖m i j * (a : ℂ)‖ = _
  apply Finset.sum_congr rfl; intro i _
  rw [Finset.mul_sum]
  apply Finset.sum_congr rfl; intro j _
  rw [← sq, norm_mul, mul_pow, Complex.norm_real, Real.norm_eq_abs, sq_abs]; ring

/-- Exact normalisation of fading parameters: line-of-sight energy plus the product of the traces is `nb_tx * nb_rx`. -/
def MimoFading.Exact (p : MimoFading nr nt) : Prop :=
  ((∑ i, ∑ j, ‖p.mean.mat i j‖ ^ 2 : ℝ) : ℂ) + (∑ j, p.Rt j j) * (∑ i, p.Rr i i) = (nt : ℂ) * (nr : ℂ)

theorem setFading_exact (ch : Mimo nr nt) (p : MimoFading nr nt) (hr : 0 < nr) (ht : 0 < nt) (h : p.Exact) :
    ch.setFading p = ({ ch with
      fading := p
      isComplex := p.mean.isComplex }, .ok ()) := by
  unfold MimoFading.Exact at h
  simp only [Mimo.setFading]
  rw [if_neg, if_neg (by omega)]
  rw [nlosGain_eq, losGain_eq, add_comm, h]
  simp

/-- C87.  The setter accepts exactly the parameters whose total energy is within 1/1000 of `nb_tx * nb_rx`; otherwise ValueError,
and the channel is unchanged. -/
theorem C87_setter (ch : Mimo nr nt) (p : MimoFading nr nt) (hr : 0 < nr) (ht : 0 < nt) :
    ((ch.setFading p).2 = .ok () ↔
      ‖(∑ j, p.Rt j j) * (∑ i, p.Rr i i) + ((∑ i, ∑ j, ‖p.mean.mat i j‖ ^ 2 : ℝ) : ℂ) - (nt : ℂ) * (nr : ℂ)‖ ≤ 1 / 1000) ∧
    ((ch.setFading p).2 = .ok () → (ch.setFading p).1 = { ch with
      fading := p
      isComplex := p.mean.isComplex }) ∧
    ((ch.setFading p).2 ≠ .ok () → (ch.setFading p).2 = .error .valueError ∧ (ch.setFading p).1 = ch) := by
  have e : ‖(∑ j, p.Rt j j) * (∑ i, p.Rr i i) + ((∑ i, ∑ j, ‖p.mean.mat i j‖ ^ 2 : ℝ) : ℂ) - (nt : ℂ) * (nr : ℂ)‖ =
      ‖nlosGain p + (losGain p.mean.mat : ℂ) - (nt : ℂ) * (nr : ℂ)‖ := by rw [nlosGain_eq, losGain_eq]
  rw [e]
  simp only [Mimo.setFading]
  by_cases h : ‖nlosGain p + (losGain p.mean.mat : ℂ) - (nt : ℂ) * (nr : ℂ)‖ > 1 / 1000
  · rw [if_pos h]
    simp only [reduceCtorEq, false_iff, not_le, ne_eq, not_false_eq_true, and_self, forall_const, IsEmpty.forall_iff, and_true]
    exact h
  · rw [if_neg h, if_neg (by omega)]
    simp only [true_iff, forall_const, ne_eq, not_true_eq_false, IsEmpty.forall_iff, and_true]
    exact not_lt.1 h

/-! ### Rayleigh and Rician setters -/

theorem expoMat_diag (n : Nat) (t : ℂ) (i : Fin n) : expoMat n t i i = 1 := by simp [expoMat]

theorem kbsmMat_diag (n : Nat) (b : ℝ) (i : Fin n) : kbsmMat n b i i = 1 := by simp [kbsmMat]

theorem ricianMean_gain (mean : Matrix (Fin nr) (Fin nt) ℂ) (hm : mean ≠ 0) (k : ℝ) (hk : 0 ≤ k) :
    losGain (ricianMean mean k) = k * ricianNlos nr nt k := by
  have hp := losGain_pos hm
  have hn : 0 ≤ ricianNlos nr nt k := by unfold ricianNlos; positivity
  unfold ricianMean
  rw [losGain_scale, Real.sq_sqrt (by positivity)]
  field_simp

theorem ricianNlos_total (hr : 0 < nr) (ht : 0 < nt) (k : ℝ) (hk : 0 ≤ k) :
    k * ricianNlos nr nt k + ricianNlos nr nt k = ((nr * nt : Nat) : ℝ) ∧ 0 < ricianNlos nr nt k := by
  have h1 : (0 : ℝ) < ((nr * nt : Nat) : ℝ) := by exact_mod_cast Nat.mul_pos hr ht
  constructor
  · unfold ricianNlos; field_simp
  · unfold ricianNlos; positivity

/-- Fading parameters with the Rician mean, a transmit matrix of constant diagonal `NLOS / (nr nt)` and a receive matrix of unit
diagonal are exactly normalised and have the k-factor `k`. -/
theorem rician_exact (mean : MeanMat nr nt) (hm : mean.mat ≠ 0) (hr : 0 < nr) (ht : 0 < nt) (k : ℝ) (hk : 0 ≤ k)
    (p : MimoFading nr nt) (h0 : p.mean.mat = ricianMean mean.mat k)
    (h1 : ∀ j, p.Rt j j = (ricianNlos nr nt k : ℂ) / ((nr * nt : Nat) : ℂ)) (h2 : ∀ i, p.Rr i i = 1) :
    p.Exact ∧ nlosGain p = (ricianNlos nr nt k : ℂ) ∧ (losGain p.mean.mat : ℂ) / nlosGain p = (k : ℂ) := by
  have hnl : nlosGain p = (ricianNlos nr nt k : ℂ) := by
    rw [nlosGain_eq, Finset.sum_congr rfl (fun j _ => h1 j), Finset.sum_congr rfl (fun i _ => h2 i)]
    have hr' : (nr : ℂ) ≠ 0 := by exact_mod_cast hr.ne'
    have ht' : (nt : ℂ) ≠ 0 := by exact_mod_cast ht.ne'
    simp only [Finset.sum_const, Finset.card_univ, Fintype.card_fin, nsmul_eq_mul]
    push_cast
    field_simp
  obtain ⟨htot, hpos⟩ := ricianNlos_total hr ht k hk
  refine ⟨?_, hnl, ?_⟩
  · unfold MimoFading.Exact
    rw [← nlosGain_eq, hnl, ← losGain_eq, h0, ricianMean_gain mean.mat hm k hk]
    rw [← Complex.ofReal_add, htot]
    push_cast; ring
  · rw [hnl, h0, ricianMean_gain mean.mat hm k hk, ← Complex.ofReal_div]
    congr 1
    field_simp

/-- C77.  `uncorr_rician_fading` with a non-zero mean and `k >= 0` succeeds; the new parameters are exactly normalised, the
requested k-factor is obtained, the mean is the given one scaled by a non-negative number, and the correlation matrices are
multiples of the identity. -/
theorem C77_uncorr_rician (ch : Mimo nr nt) (mean : MeanMat nr nt) (hm : mean.mat ≠ 0) (hr : 0 < nr) (ht : 0 < nt) (k : ℝ)
    (hk : 0 ≤ k) :
    (ch.uncorrRician mean k).2 = .ok () ∧ (ch.uncorrRician mean k).1.fading.Exact ∧
      (ch.uncorrRician mean k).1.kFactor = (k : ℂ) ∧
      (∃ a : ℝ, 0 ≤ a ∧ ∀ i j, (ch.uncorrRician mean k).1.fading.mean.mat i j = mean.mat i j * (a : ℂ)) ∧
      (∃ b : ℝ, 0 ≤ b ∧ ∀ i j, (ch.uncorrRician mean k).1.fading.Rt i j = if i = j then (b : ℂ) else 0) ∧
      (ch.uncorrRician mean k).1.fading.Rr = 1 ∧ (ch.uncorrRician mean k).1.isComplex = mean.isComplex := by
  unfold Mimo.uncorrRician
  obtain ⟨hE, hn, hkf⟩ := rician_exact mean hm hr ht k hk (⟨⟨mean.isComplex, ricianMean mean.mat k⟩,
    fun i j => (1 : Matrix (Fin nt) (Fin nt) ℂ) i j * (ricianNlos nr nt k : ℂ) / ((nr * nt : Nat) : ℂ), 1⟩) rfl
    (fun j => by simp) (fun i => by simp)
  rw [setFading_exact ch _ hr ht hE]
  refine ⟨rfl, hE, ?_, ⟨_, Real.sqrt_nonneg _, fun i j => rfl⟩, ⟨ricianNlos nr nt k / ((nr * nt : Nat) : ℝ), ?_, ?_⟩, rfl, rfl⟩
  · exact hkf
  · have := (ricianNlos_total hr ht k hk).2; positivity
  · intro i j
    simp only [Matrix.one_apply]
    split <;> simp

/-- The result of `expo_corr_rician_fading` with admissible arguments. -/
theorem expoCorrRician_eq (ch : Mimo nr nt) (mean : MeanMat nr nt) (hm : mean.mat ≠ 0) (hr : 0 < nr) (ht : 0 < nt) (k : ℝ)
    (hk : 0 ≤ k) (t r : ℂ) (ht1 : ‖t‖ = 1) (hr1 : ‖r‖ = 1) (betat betar : ℝ) (hbt : 0 ≤ betat) (hbr : 0 ≤ betar) :
    ∃ p : MimoFading nr nt, ch.expoCorrRician mean k t r betat betar = ({ ch with
        fading := p
        isComplex := mean.isComplex }, .ok ()) ∧ p.Exact ∧ (losGain p.mean.mat : ℂ) / nlosGain p = (k : ℂ) ∧
      p.mean = ⟨mean.isComplex, ricianMean mean.mat k⟩ ∧
      (∀ i j, p.Rt i j = expoMat nt t i j * (ricianNlos nr nt k : ℂ) / ((nr * nt : Nat) : ℂ) * kbsmMat nt betat i j) ∧
      (∀ i j, p.Rr i j = expoMat nr r i j * kbsmMat nr betar i j) := by
  simp only [Mimo.expoCorrRician]
  rw [if_neg (by rw [ht1]; norm_num), if_neg (by rw [hr1]; norm_num)]
  obtain ⟨hE, -, -⟩ := rician_exact mean hm hr ht k hk (⟨⟨mean.isComplex, ricianMean mean.mat k⟩,
    fun i j => expoMat nt t i j * (ricianNlos nr nt k : ℂ) / ((nr * nt : Nat) : ℂ), expoMat nr r⟩) rfl
    (fun j => by simp [expoMat_diag]) (fun i => expoMat_diag nr r i)
  rw [setFading_exact ch _ hr ht hE]
  simp only [Mimo.updateKbsm]
  rw [if_neg (by push Not; exact ⟨hbr, hbt⟩)]
  obtain ⟨hE2, -, hkf⟩ := rician_exact mean hm hr ht k hk (⟨⟨mean.isComplex, ricianMean mean.mat k⟩,
    fun i j => expoMat nt t i j * (ricianNlos nr nt k : ℂ) / ((nr * nt : Nat) : ℂ) * kbsmMat nt betat i j,
    fun i j => expoMat nr r i j * kbsmMat nr betar i j⟩) rfl
    (fun j => by simp [expoMat_diag, kbsmMat_diag]) (fun i => by simp [expoMat_diag, kbsmMat_diag])
  rw [setFading_exact _ _ hr ht hE2]
  exact ⟨_, rfl, hE2, hkf, rfl, fun i j => rfl, fun i j => rfl⟩

/-- C77.  `expo_corr_rician_fading` with a non-zero mean, `k >= 0`, `|t| = |r| = 1` and non-negative betas succeeds; the new
parameters are exactly normalised and the requested k-factor is obtained, with or without betas. -/
theorem C77_expo_corr_rician (ch : Mimo nr nt) (mean : MeanMat nr nt) (hm : mean.mat ≠ 0) (hr : 0 < nr) (ht : 0 < nt) (k : ℝ)
    (hk : 0 ≤ k) (t r : ℂ) (ht1 : ‖t‖ = 1) (hr1 : ‖r‖ = 1) (betat betar : ℝ) (hbt : 0 ≤ betat) (hbr : 0 ≤ betar) :
    (ch.expoCorrRician mean k t r betat betar).2 = .ok () ∧ (ch.expoCorrRician mean k t r betat betar).1.fading.Exact ∧
      (ch.expoCorrRician mean k t r betat betar).1.kFactor = (k : ℂ) ∧
      (∃ a : ℝ, 0 ≤ a ∧ ∀ i j, (ch.expoCorrRician mean k t r betat betar).1.fading.mean.mat i j = mean.mat i j * (a : ℂ)) ∧
      (ch.expoCorrRician mean k t r betat betar).1.isComplex = mean.isComplex := by
  obtain ⟨p, h, hE, hkf, hmean, -, -⟩ := expoCorrRician_eq ch mean hm hr ht k hk t r ht1 hr1 betat betar hbt hbr
  rw [h]
  refine ⟨rfl, hE, hkf, ⟨Real.sqrt (k * ricianNlos nr nt k / losGain mean.mat), Real.sqrt_nonneg _, fun i j => ?_⟩, rfl⟩
  show p.mean.mat i j = _
  rw [hmean]; rfl

/-- C77.  The uncorrelated Rayleigh setter succeeds, the channel is exactly normalised and has no line of sight. -/
theorem C77_uncorr_rayleigh (ch : Mimo nr nt) (cplx : Bool) (hr : 0 < nr) (ht : 0 < nt) :
    (ch.uncorrRayleigh cplx).2 = .ok () ∧ (ch.uncorrRayleigh cplx).1.fading.Exact ∧ (ch.uncorrRayleigh cplx).1.kFactor = 0 ∧
      (ch.uncorrRayleigh cplx).1.isComplex = cplx ∧ (ch.uncorrRayleigh cplx).1.fading = ⟨⟨cplx, 0⟩, 1, 1⟩ := by
  have hE : (⟨⟨cplx, 0⟩, 1, 1⟩ : MimoFading nr nt).Exact := by simp [MimoFading.Exact]
  unfold Mimo.uncorrRayleigh
  rw [setFading_exact ch _ hr ht hE]
  refine ⟨rfl, hE, ?_, rfl, rfl⟩
  simp [Mimo.kFactor, losGain]

/-- The result of `expo_corr_rayleigh_fading` with admissible arguments. -/
theorem expoCorrRayleigh_eq (ch : Mimo nr nt) (hr : 0 < nr) (ht : 0 < nt) (t r : ℂ) (ht1 : ‖t‖ = 1) (hr1 : ‖r‖ = 1)
    (betat betar : ℝ) (hbt : 0 ≤ betat) (hbr : 0 ≤ betar) :
    ∃ p : MimoFading nr nt, ch.expoCorrRayleigh t r betat betar = ({ ch with
        fading := p
        isComplex := true }, .ok ()) ∧ p.Exact ∧ p.mean = ⟨true, 0⟩ ∧
      (∀ i j, p.Rt i j = expoMat nt t i j * kbsmMat nt betat i j) ∧
      (∀ i j, p.Rr i j = expoMat nr r i j * kbsmMat nr betar i j) := by
  simp only [Mimo.expoCorrRayleigh]
  rw [if_neg (by rw [ht1]; norm_num), if_neg (by rw [hr1]; norm_num)]
  have hE : (⟨⟨true, 0⟩, expoMat nt t, expoMat nr r⟩ : MimoFading nr nt).Exact := by
    simp [MimoFading.Exact, expoMat_diag]
  rw [setFading_exact ch _ hr ht hE]
  simp only [Mimo.updateKbsm]
  rw [if_neg (by push Not; exact ⟨hbr, hbt⟩)]
  have hE2 : (⟨⟨true, 0⟩, fun i j => expoMat nt t i j * kbsmMat nt betat i j,
      fun i j => expoMat nr r i j * kbsmMat nr betar i j⟩ : MimoFading nr nt).Exact := by
    simp [MimoFading.Exact, expoMat_diag, kbsmMat_diag]
  rw [setFading_exact _ _ hr ht hE2]
  exact ⟨_, rfl, hE2, rfl, fun i j => rfl, fun i j => rfl⟩

/-- C77.  `expo_corr_rayleigh_fading` succeeds on admissible arguments, exactly normalised, complex, without line of sight. -/
theorem C77_expo_corr_rayleigh (ch : Mimo nr nt) (hr : 0 < nr) (ht : 0 < nt) (t r : ℂ) (ht1 : ‖t‖ = 1) (hr1 : ‖r‖ = 1)
    (betat betar : ℝ) (hbt : 0 ≤ betat) (hbr : 0 ≤ betar) :
    (ch.expoCorrRayleigh t r betat betar).2 = .ok () ∧ (ch.expoCorrRayleigh t r betat betar).1.fading.Exact ∧
      (ch.expoCorrRayleigh t r betat betar).1.kFactor = 0 ∧ (ch.expoCorrRayleigh t r betat betar).1.isComplex = true := by
  obtain ⟨p, h, hE, hmean, -, -⟩ := expoCorrRayleigh_eq ch hr ht t r ht1 hr1 betat betar hbt hbr
  rw [h]
  refine ⟨rfl, hE, ?_, rfl⟩
  simp [Mimo.kFactor, hmean, losGain]

/-! ### C79: arguments of the exponential model -/

/-- C79.  An argument of modulus greater than 1.0001 is refused with ValueError and the channel is unchanged. -/
theorem C79_rejects_large (ch : Mimo nr nt) (mean : MeanMat nr nt) (k : ℝ) (t r : ℂ) (betat betar : ℝ)
    (h : 1 + 1 / 10000 < ‖t‖ ∨ 1 + 1 / 10000 < ‖r‖) :
    ch.expoCorrRayleigh t r betat betar = (ch, .error .valueError) ∧
    ch.expoCorrRician mean k t r betat betar = (ch, .error .valueError) := by
  simp only [Mimo.expoCorrRayleigh, Mimo.expoCorrRician]
  by_cases h1 : ‖t‖ - 1 > 1 / 10000
  · simp only [if_pos h1, and_self]
  · simp only [if_neg h1]
    have h2 : ‖r‖ - 1 > 1 / 10000 := by
      rcases h with h | h
      · exact absurd (by linarith) h1
      · linarith
    simp only [if_pos h2, and_self]

/-- C79, refuted: the documented condition `|t| = 1` is not checked from below.  `t = 1/2` is accepted, and the transmit
"correlation" matrix that results is not Hermitian. -/
theorem C79_small_refuted :
    ∃ (ch c : Mimo 2 2), ch.expoCorrRayleigh (1 / 2) 1 0 0 = (c, .ok ()) ∧ ¬ c.fading.Rt.IsHermitian := by
  have hE : (⟨⟨true, 0⟩, expoMat 2 (1 / 2), expoMat 2 1⟩ : MimoFading 2 2).Exact := by
    simp [MimoFading.Exact, expoMat_diag]
  have hE2 : (⟨⟨true, 0⟩, fun i j => expoMat 2 (1 / 2) i j * kbsmMat 2 0 i j,
      fun i j => expoMat 2 1 i j * kbsmMat 2 0 i j⟩ : MimoFading 2 2).Exact := by
    simp [MimoFading.Exact, expoMat_diag, kbsmMat_diag]
  refine ⟨⟨none, ⟨⟨false, 0⟩, 1, 1⟩, false, none, none, none⟩,
    ⟨none, ⟨⟨true, 0⟩, fun i j => expoMat 2 (1 / 2) i j * kbsmMat 2 0 i j,
      fun i j => expoMat 2 1 i j * kbsmMat 2 0 i j⟩, true, none, none, none⟩, ?_, ?_⟩
  · simp only [Mimo.expoCorrRayleigh]
    rw [if_neg (by norm_num), if_neg (by norm_num)]
    rw [setFading_exact _ _ (by norm_num) (by norm_num) hE]
    simp only [Mimo.updateKbsm]
    rw [if_neg (by norm_num)]
    rw [setFading_exact _ _ (by norm_num) (by norm_num) hE2]
  · intro h
    have h01 : star (expoMat 2 (1 / 2) 1 0 * kbsmMat 2 0 1 0) = expoMat 2 (1 / 2) 0 1 * kbsmMat 2 0 0 1 :=
      congrFun (congrFun h 0) 1
    simp [expoMat, kbsmMat] at h01
    norm_num at h01

theorem expoMat_conj (n : Nat) (t : ℂ) (ht : ‖t‖ = 1) (i j : Fin n) : (starRingEnd ℂ) (expoMat n t j i) = expoMat n t i j := by
  have h0 : t ≠ 0 := by intro h; rw [h] at ht; simp at ht
  have hc : (starRingEnd ℂ) t = t⁻¹ := by
    rw [Complex.inv_def, Complex.normSq_eq_norm_sq, ht]; simp
  simp only [expoMat, map_zpow₀, hc]
  rw [inv_zpow, ← zpow_neg]
  congr 1; ring

theorem kbsmMat_conj (n : Nat) (b : ℝ) (i j : Fin n) : (starRingEnd ℂ) (kbsmMat n b j i) = kbsmMat n b i j := by
  simp only [kbsmMat, Complex.conj_ofReal]
  rw [abs_sub_comm]

/-- C79.  For `|t| = |r| = 1` and non-negative betas the resulting correlation matrices are Hermitian with unit diagonal, entry
`(i, j)` being `t^(j-i) exp(-beta |j-i|)`. -/
theorem C79_hermitian (ch : Mimo nr nt) (hr : 0 < nr) (ht : 0 < nt) (t r : ℂ) (ht1 : ‖t‖ = 1) (hr1 : ‖r‖ = 1)
    (betat betar : ℝ) (hbt : 0 ≤ betat) (hbr : 0 ≤ betar) :
    let c := (ch.expoCorrRayleigh t r betat betar).1
    c.fading.Rt.IsHermitian ∧ c.fading.Rr.IsHermitian ∧ (∀ j, c.fading.Rt j j = 1) ∧ (∀ i, c.fading.Rr i i = 1) ∧
    (∀ i j : Fin nt, c.fading.Rt i j = t ^ ((j : Int) - (i : Int)) * (Real.exp (-betat * |((j : ℝ) - (i : ℝ))|) : ℂ)) ∧
    (∀ i j : Fin nr, c.fading.Rr i j = r ^ ((j : Int) - (i : Int)) * (Real.exp (-betar * |((j : ℝ) - (i : ℝ))|) : ℂ)) := by
  obtain ⟨p, h, -, -, h1, h2⟩ := expoCorrRayleigh_eq ch hr ht t r ht1 hr1 betat betar hbt hbr
  intro c
  have hc : c.fading = p := by show (ch.expoCorrRayleigh t r betat betar).1.fading = p; rw [h]
  rw [hc]
  refine ⟨?_, ?_, fun j => by rw [h1, expoMat_diag, kbsmMat_diag, one_mul], fun i => by rw [h2, expoMat_diag, kbsmMat_diag, one_mul],
    fun i j => h1 i j, fun i j => h2 i j⟩
  · ext i j
    rw [Matrix.conjTranspose_apply, h1, h1, star_mul']
    exact congrArg₂ _ (expoMat_conj nt t ht1 i j) (kbsmMat_conj nt betat i j)
  · ext i j
    rw [Matrix.conjTranspose_apply, h2, h2, star_mul']
    exact congrArg₂ _ (expoMat_conj nr r hr1 i j) (kbsmMat_conj nr betar i j)

open scoped ComplexOrder in
/-- C79.  In the classic model (betas 0) the correlation matrices are positive semidefinite. -/
theorem C79_posSemidef (ch : Mimo nr nt) (hr : 0 < nr) (ht : 0 < nt) (t r : ℂ) (ht1 : ‖t‖ = 1) (hr1 : ‖r‖ = 1) :
    (ch.expoCorrRayleigh t r 0 0).1.fading.Rt.PosSemidef ∧ (ch.expoCorrRayleigh t r 0 0).1.fading.Rr.PosSemidef := by
  have key : ∀ (n : Nat) (t : ℂ), ‖t‖ = 1 → (expoMat n t).PosSemidef := by
    intro n t ht1
    have h0 : t ≠ 0 := by intro h; rw [h] at ht1; simp at ht1
    have hc : (starRingEnd ℂ) t = t⁻¹ := by
      rw [Complex.inv_def, Complex.normSq_eq_norm_sq, ht1]; simp
    have e : expoMat n t = Matrix.vecMulVec (fun i : Fin n => t⁻¹ ^ (i : ℕ)) (star (fun i : Fin n => t⁻¹ ^ (i : ℕ))) := by
      ext i j
      simp only [expoMat, Matrix.vecMulVec_apply, Pi.star_apply]
      have : star (t⁻¹ ^ (j : ℕ)) = t ^ (j : ℕ) := by
        show (starRingEnd ℂ) _ = _
        rw [map_pow, map_inv₀, hc, inv_inv]
      rw [this, zpow_sub₀ h0, zpow_natCast, zpow_natCast, inv_pow]
      field_simp
    rw [e]; exact Matrix.posSemidef_vecMulVec_self_star _
  obtain ⟨p, h, -, -, h1, h2⟩ := expoCorrRayleigh_eq ch hr ht t r ht1 hr1 0 0 le_rfl le_rfl
  rw [h]
  constructor
  · have : p.Rt = expoMat nt t := by ext i j; rw [h1]; simp [kbsmMat]
    show p.Rt.PosSemidef
    rw [this]; exact key nt t ht1
  · have : p.Rr = expoMat nr r := by ext i j; rw [h2]; simp [kbsmMat]
    show p.Rr.PosSemidef
    rw [this]; exact key nr r hr1

/-- C87, refuted: a refused call can change the channel.  A negative beta makes `expo_corr_rayleigh_fading` raise ValueError, but
the exponential fading has been installed before. -/
theorem C87_atomic_refuted :
    ∃ (ch c : Mimo 2 2), Mimo.init (some 1) none = .ok ch ∧ ch.expoCorrRayleigh Complex.I 1 (-1) 0 = (c, .error .valueError) ∧
      c.fading.Rt ≠ ch.fading.Rt ∧ c.isComplex ≠ ch.isComplex := by
  have hE0 : (⟨⟨false, 0⟩, 1, 1⟩ : MimoFading 2 2).Exact := by simp [MimoFading.Exact]
  refine ⟨⟨some 1, ⟨⟨false, 0⟩, 1, 1⟩, false, none, none, none⟩,
    ⟨some 1, ⟨⟨true, 0⟩, expoMat 2 Complex.I, expoMat 2 1⟩, true, none, none, none⟩, ?_, ?_, ?_, ?_⟩
  · simp only [Mimo.init, Option.getD_none]
    rw [setFading_exact _ _ (by norm_num) (by norm_num) hE0]
  · simp only [Mimo.expoCorrRayleigh]
    rw [if_neg (by rw [Complex.norm_I]; norm_num), if_neg (by norm_num)]
    have hE : (⟨⟨true, 0⟩, expoMat 2 Complex.I, expoMat 2 1⟩ : MimoFading 2 2).Exact := by
      simp [MimoFading.Exact, expoMat_diag]
    rw [setFading_exact _ _ (by norm_num) (by norm_num) hE]
    simp only [Mimo.updateKbsm]
    rw [if_pos (by norm_num)]
  · intro h
    have h01 := congrFun (congrFun h 0) 1
    simp [expoMat] at h01
  · simp

/-! ### C87: histories -/

/-- The operations a user can perform on a MIMO channel. -/
inductive MimoOp (nr nt : Nat) where
  | setNoiseStd (s : Option ℝ)
  | setFading (p : MimoFading nr nt)
  | setSnrDb (snr rate Es : ℝ)
  | setSnrLin (snr rate Es : ℝ)
  | uncorrRayleigh (cplx : Bool)
  | expoCorrRayleigh (t r : ℂ) (betat betar : ℝ)
  | uncorrRician (mean : MeanMat nr nt) (k : ℝ)
  | expoCorrRician (mean : MeanMat nr nt) (k : ℝ) (t r : ℂ) (betat betar : ℝ)
  | propagate (msg : Signal) (z : Nat → ℝ)

/-- The state after an operation, successful or not. -/
noncomputable def Mimo.after (sqrtmT : Matrix (Fin nt) (Fin nt) ℂ → Matrix (Fin nt) (Fin nt) ℂ)
    (sqrtmR : Matrix (Fin nr) (Fin nr) ℂ → Matrix (Fin nr) (Fin nr) ℂ) (ch : Mimo nr nt) : MimoOp nr nt → Mimo nr nt
  | .setNoiseStd s => { ch with
      noiseStd := s }
  | .setFading p => (ch.setFading p).1
  | .setSnrDb snr rate Es => match noiseStdDb ch.isComplex nt snr rate Es with
    | .ok s => { ch with
        noiseStd := some s }
    | .error _ => ch
  | .setSnrLin snr rate Es => match noiseStdLin ch.isComplex nt snr rate Es with
    | .ok s => { ch with
        noiseStd := some s }
    | .error _ => ch
  | .uncorrRayleigh c => (ch.uncorrRayleigh c).1
  | .expoCorrRayleigh t r bt br => (ch.expoCorrRayleigh t r bt br).1
  | .uncorrRician m k => (ch.uncorrRician m k).1
  | .expoCorrRician m k t r bt br => (ch.expoCorrRician m k t r bt br).1
  | .propagate msg z => (ch.propagate sqrtmT sqrtmR msg z).1

/-- Normalisation within 1/1000 and consistency of the complexity flag. -/
def Mimo.Sane (ch : Mimo nr nt) : Prop :=
  ‖(∑ j, ch.fading.Rt j j) * (∑ i, ch.fading.Rr i i) + ((∑ i, ∑ j, ‖ch.fading.mean.mat i j‖ ^ 2 : ℝ) : ℂ) -
    (nt : ℂ) * (nr : ℂ)‖ ≤ 1 / 1000 ∧ ch.isComplex = ch.fading.mean.isComplex

theorem Mimo.setFading_sane (ch : Mimo nr nt) (hr : 0 < nr) (ht : 0 < nt) (h : ch.Sane) (p : MimoFading nr nt) :
    (ch.setFading p).1.Sane := by
  obtain ⟨h1, h2, h3⟩ := C87_setter ch p hr ht
  by_cases hk : (ch.setFading p).2 = .ok ()
  · rw [h2 hk]; exact ⟨h1.1 hk, rfl⟩
  · rw [(h3 hk).2]; exact h

theorem Mimo.updateKbsm_sane (ch : Mimo nr nt) (hr : 0 < nr) (ht : 0 < nt) (h : ch.Sane) (bt br : ℝ) :
    (ch.updateKbsm bt br).1.Sane := by
  simp only [Mimo.updateKbsm]
  split
  · exact h
  · exact Mimo.setFading_sane ch hr ht h _

theorem Mimo.propagate_fading (sqrtmT : Matrix (Fin nt) (Fin nt) ℂ → Matrix (Fin nt) (Fin nt) ℂ)
    (sqrtmR : Matrix (Fin nr) (Fin nr) ℂ → Matrix (Fin nr) (Fin nr) ℂ) (ch : Mimo nr nt) (msg : Signal) (z : Nat → ℝ) :
    (ch.propagate sqrtmT sqrtmR msg z).1.fading = ch.fading ∧ (ch.propagate sqrtmT sqrtmR msg z).1.isComplex = ch.isComplex ∧
      (ch.propagate sqrtmT sqrtmR msg z).1.noiseStd = ch.noiseStd := by
  simp only [Mimo.propagate]
  split
  · exact ⟨rfl, rfl, rfl⟩
  split
  · exact ⟨rfl, rfl, rfl⟩
  split
  · exact ⟨rfl, rfl, rfl⟩
  split
  · exact ⟨rfl, rfl, rfl⟩
  · refine ⟨rfl, rfl, ?_⟩
    rfl

theorem Mimo.after_sane (sqrtmT : Matrix (Fin nt) (Fin nt) ℂ → Matrix (Fin nt) (Fin nt) ℂ)
    (sqrtmR : Matrix (Fin nr) (Fin nr) ℂ → Matrix (Fin nr) (Fin nr) ℂ) (ch : Mimo nr nt) (hr : 0 < nr) (ht : 0 < nt)
    (h : ch.Sane) (op : MimoOp nr nt) : (ch.after sqrtmT sqrtmR op).Sane := by
  cases op with
  | setNoiseStd s => exact h
  | setFading p => exact Mimo.setFading_sane ch hr ht h p
  | setSnrDb snr rate Es => simp only [Mimo.after]; split <;> exact h
  | setSnrLin snr rate Es => simp only [Mimo.after]; split <;> exact h
  | uncorrRayleigh c => exact Mimo.setFading_sane ch hr ht h _
  | expoCorrRayleigh t r bt br =>
    simp only [Mimo.after, Mimo.expoCorrRayleigh]
    split
    · exact h
    split
    · exact h
    have := Mimo.setFading_sane ch hr ht h ⟨⟨true, 0⟩, expoMat nt t, expoMat nr r⟩
    rcases hh : ch.setFading ⟨⟨true, 0⟩, expoMat nt t, expoMat nr r⟩ with ⟨c, e | u⟩
    · rw [hh] at this; exact this
    · rw [hh] at this; exact Mimo.updateKbsm_sane c hr ht this bt br
  | uncorrRician m k => exact Mimo.setFading_sane ch hr ht h _
  | expoCorrRician m k t r bt br =>
    simp only [Mimo.after, Mimo.expoCorrRician]
    split
    · exact h
    split
    · exact h
    have := Mimo.setFading_sane ch hr ht h ⟨⟨m.isComplex, ricianMean m.mat k⟩,
      fun i j => expoMat nt t i j * (ricianNlos nr nt k : ℂ) / ((nr * nt : Nat) : ℂ), expoMat nr r⟩
    rcases hh : ch.setFading ⟨⟨m.isComplex, ricianMean m.mat k⟩,
      fun i j => expoMat nt t i j * (ricianNlos nr nt k : ℂ) / ((nr * nt : Nat) : ℂ), expoMat nr r⟩ with ⟨c, e | u⟩
    · rw [hh] at this; exact this
    · rw [hh] at this; exact Mimo.updateKbsm_sane c hr ht this bt br
  | propagate msg z =>
    obtain ⟨h1, h2, -⟩ := Mimo.propagate_fading sqrtmT sqrtmR ch msg z
    simp only [Mimo.after, Mimo.Sane]
    rw [h1, h2]; exact h

/-- C87.  A MIMO channel built successfully and put through any history of operations, each of which may fail, always satisfies the
energy normalisation within 1/1000, and its complexity flag is that of its mean.  (In the model without nan, which is exact for the regular operations of
`C142_regular`; for all arguments `C142_history`.) -/
theorem C87_invariant (sqrtmT : Matrix (Fin nt) (Fin nt) ℂ → Matrix (Fin nt) (Fin nt) ℂ)
    (sqrtmR : Matrix (Fin nr) (Fin nr) ℂ → Matrix (Fin nr) (Fin nr) ℂ) (hr : 0 < nr) (ht : 0 < nt) (noiseStd : Option ℝ)
    (p : Option (MimoFading nr nt)) (ch : Mimo nr nt) (h : Mimo.init noiseStd p = .ok ch) (ops : List (MimoOp nr nt)) :
    (ops.foldl (fun c op => c.after sqrtmT sqrtmR op) ch).Sane := by
  have h0 : ch.Sane := by
    have hd : (Mimo.mk noiseStd ⟨⟨false, 0⟩, 1, 1⟩ false none none none : Mimo nr nt).Sane := by
      constructor
      · simp
      · rfl
    have := Mimo.setFading_sane _ hr ht hd (p.getD ⟨⟨false, 0⟩, 1, 1⟩)
    simp only [Mimo.init] at h
    rcases hh : (Mimo.mk noiseStd ⟨⟨false, 0⟩, 1, 1⟩ false none none none : Mimo nr nt).setFading (p.getD ⟨⟨false, 0⟩, 1, 1⟩)
      with ⟨c, e | u⟩
    · rw [hh] at h; simp at h
    · rw [hh] at h this
      simp only [Except.ok.injEq] at h
      rw [← h]; exact this
  clear h
  induction ops generalizing ch with
  | nil => exact h0
  | cons op ops ih => exact ih _ (Mimo.after_sane sqrtmT sqrtmR ch hr ht h0 op)

/-- The default channel can be built. -/
theorem C87_default (hr : 0 < nr) (ht : 0 < nt) (s : Option ℝ) : ∃ ch : Mimo nr nt, Mimo.init s none = .ok ch ∧
    ch.fading = ⟨⟨false, 0⟩, 1, 1⟩ ∧ ch.isComplex = false ∧ ch.noiseStd = s := by
  have hE0 : (⟨⟨false, 0⟩, 1, 1⟩ : MimoFading nr nt).Exact := by simp [MimoFading.Exact]
  refine ⟨⟨s, ⟨⟨false, 0⟩, 1, 1⟩, false, none, none, none⟩, ?_, rfl, rfl, rfl⟩
  simp only [Mimo.init, Option.getD_none]
  rw [setFading_exact _ _ hr ht hE0]

/-- Non-vacuity of the hypotheses of C77 and C79. -/
example : (⟨true, !![1, Complex.I; 0, 2]⟩ : MeanMat 2 2).mat ≠ 0 ∧ ‖Complex.I‖ = 1 ∧ ‖(-1 : ℂ)‖ = 1 := by
  refine ⟨fun h => ?_, Complex.norm_I, by simp⟩
  have := congrFun (congrFun h 0) 0
  simp at this

/-! ### C85: specular components -/

/-- C85.  `specular_compo` refuses negative spacings with ValueError; otherwise every entry has modulus 1 (so the total energy is
`nb_rx * nb_tx`), the entry `(0,0)` is 1 and the phases add up along rows and columns. -/
theorem C85_specular (thetat dt thetar dr : ℝ) :
    (dr < 0 ∨ dt < 0 → specularCompo nr nt thetat dt thetar dr = .error .valueError) ∧
    (0 ≤ dr → 0 ≤ dt → ∃ H, specularCompo nr nt thetat dt thetar dr = .ok H ∧ (∀ n m, ‖H n m‖ = 1) ∧
      (∑ i, ∑ j, ‖H i j‖ ^ 2 = (nr : ℝ) * nt) ∧
      ∀ n m, H n m = Complex.exp (2 * Real.pi * Complex.I * (n.val * dr * Real.cos thetar)) *
        Complex.exp (2 * Real.pi * Complex.I * (m.val * dt * Real.cos thetat))) := by
  constructor
  · intro h; simp only [specularCompo]; rw [if_pos h]
  · intro h1 h2
    have hn : ∀ (n : Fin nr) (m : Fin nt), ‖Complex.exp (Complex.I * 2 * Real.pi *
        (((n.val : ℝ) * dr * Real.cos thetar + (m.val : ℝ) * dt * Real.cos thetat : ℝ) : ℂ))‖ = 1 := by
      intro n m
      rw [Complex.norm_exp]
      simp
    refine ⟨_, by simp only [specularCompo]; rw [if_neg (by push Not; exact ⟨h1, h2⟩)], hn, ?_, ?_⟩
    · simp only [hn]; simp
    · intro n m
      rw [← Complex.exp_add]
      congr 1
      push_cast; ring

end Verif
