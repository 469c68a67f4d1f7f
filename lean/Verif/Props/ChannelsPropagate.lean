import Verif.Props.ChannelsMimo
import Mathlib.Probability.HasLawExists
/-
Propagation through the MIMO channel (/repo/commpy/channels.py:329-383) and statistics of its gains and noise.
-/
namespace Verif
open MeasureTheory ProbabilityTheory

variable {nr nt : Nat}

theorem mimoPad_getD (nt : Nat) (msg : List ℂ) (i : Nat) : (mimoPad nt msg).getD i 0 = msg.getD i 0 := by
  unfold mimoPad
  split
  · by_cases hi : i < msg.length
    · rw [List.getD_append _ _ _ _ hi]
    · rw [List.getD_append_right _ _ _ _ (by omega), List.getD_eq_default msg _ (by omega)]
      by_cases h2 : i - msg.length < nt - msg.length % nt
      · rw [List.getD_eq_getElem _ _ (by simpa using h2)]; simp
      · rw [List.getD_eq_default _ _ (by simp; omega)]
  · rfl

theorem mimoVectors_eq (nt len : Nat) (h : 0 < nt) : mimoVectors nt len = (len + nt - 1) / nt := by
  unfold mimoVectors
  have hd := Nat.div_add_mod len nt
  have hm := Nat.mod_lt len h
  split
  · rw [eq_comm, Nat.div_eq_iff h, Nat.add_mul, Nat.mul_comm]
    omega
  · rw [eq_comm, Nat.div_eq_iff h, Nat.mul_comm]
    omega

/-- C78: when `propagate` fails.  Empty message: IndexError; complex message on a real channel: TypeError; no noise level:
AssertionError (in this order).  The channel is then unchanged. -/
theorem C78_errors (sqrtmT : Matrix (Fin nt) (Fin nt) ℂ → Matrix (Fin nt) (Fin nt) ℂ)
    (sqrtmR : Matrix (Fin nr) (Fin nr) ℂ → Matrix (Fin nr) (Fin nr) ℂ) (ht : 0 < nt) (ch : Mimo nr nt) (msg : Signal)
    (z : Nat → ℝ) :
    (msg.toC = [] → ch.propagate sqrtmT sqrtmR msg z = (ch, .error .indexError)) ∧
    (msg.toC ≠ [] → msg.isComplex = true → ch.isComplex = false → ch.propagate sqrtmT sqrtmR msg z = (ch, .error .typeError)) ∧
    (msg.toC ≠ [] → ¬ (msg.isComplex = true ∧ ch.isComplex = false) → ch.noiseStd = none →
      ch.propagate sqrtmT sqrtmR msg z = (ch, .error .assertionError)) ∧
    (msg.toC ≠ [] → ¬ (msg.isComplex = true ∧ ch.isComplex = false) → ch.noiseStd ≠ none →
      ∃ out, (ch.propagate sqrtmT sqrtmR msg z).2 = .ok out) := by
  simp only [Mimo.propagate]
  refine ⟨fun h => by rw [if_pos h], fun h h1 h2 => by rw [if_neg h, if_pos (by simp [h1, h2])], fun h h1 h2 => ?_, fun h h1 h2 => ?_⟩
  · rw [if_neg h, if_neg (by simpa using h1), if_neg (by omega), h2]
  · obtain ⟨s, hs⟩ := Option.ne_none_iff_exists'.1 h2
    rw [if_neg h, if_neg (by simpa using h1), if_neg (by omega), hs]
    exact ⟨_, rfl⟩

theorem Mimo.propagate_ok (sqrtmT : Matrix (Fin nt) (Fin nt) ℂ → Matrix (Fin nt) (Fin nt) ℂ)
    (sqrtmR : Matrix (Fin nr) (Fin nr) ℂ → Matrix (Fin nr) (Fin nr) ℂ) (ht : 0 < nt) (ch : Mimo nr nt) (msg : Signal)
    (z : Nat → ℝ) (std : ℝ) (h0 : msg.toC ≠ []) (h1 : ¬ (msg.isComplex = true ∧ ch.isComplex = false))
    (h2 : ch.noiseStd = some std) :
    ∃ out gains noises unnoisy, ch.propagate sqrtmT sqrtmR msg z = ({ ch with
        noises := some noises
        gains := some gains
        unnoisy := some unnoisy }, .ok out) ∧
      out.length = (msg.toC.length + nt - 1) / nt ∧ gains.length = (msg.toC.length + nt - 1) / nt ∧
      noises.length = (msg.toC.length + nt - 1) / nt ∧ unnoisy.length = (msg.toC.length + nt - 1) / nt ∧
      ∀ a < (msg.toC.length + nt - 1) / nt,
        gains.getD a 0 = corrGain (sqrtmR ch.fading.Rr) (sqrtmT ch.fading.Rt) ch.fading.mean.mat
          (rawGain ch.isComplex ((msg.toC.length + nt - 1) / nt) nr nt
            (fun i => z (drawCount ch.isComplex ((msg.toC.length + nt - 1) / nt * nr) + i)) a) ∧
        (∀ j, noises.getD a 0 j = noiseSample ch.isComplex std ((msg.toC.length + nt - 1) / nt * nr) z (a * nr + j.val)) ∧
        (∀ j, unnoisy.getD a 0 j = ∑ k : Fin nt, gains.getD a 0 j k * msg.toC.getD (a * nt + k.val) 0) ∧
        (∀ j, out.getD a 0 j = unnoisy.getD a 0 j + noises.getD a 0 j) := by
  simp only [Mimo.propagate]
  rw [if_neg h0, if_neg (by simpa using h1), if_neg (by omega), h2]
  refine ⟨_, _, _, _, rfl, ?_, ?_, ?_, ?_, ?_⟩
  · simp [mimoVectors_eq _ _ ht]
  · simp [mimoVectors_eq _ _ ht]
  · simp [mimoVectors_eq _ _ ht]
  · simp [mimoVectors_eq _ _ ht]
  · intro a ha
    rw [mimoVectors_eq _ _ ht]
    refine ⟨?_, ?_, ?_, ?_⟩
    · rw [List.getD_eq_getElem _ _ (by simpa using ha)]; simp
    · intro j
      rw [List.getD_eq_getElem _ _ (by simpa using ha)]; simp
    · intro j
      rw [List.getD_eq_getElem _ _ (by simpa using ha)]
      simp only [List.getElem_map, List.getElem_range, mimoPad_getD]
    · intro j
      rw [List.getD_eq_getElem _ _ (by simpa using ha), List.getD_eq_getElem _ _ (by simpa using ha),
        List.getD_eq_getElem _ _ (by simpa using ha)]
      simp

/-- C78.  A successful `propagate` returns `ceil(len(msg) / nb_tx)` vectors; vector `a` is the `a`-th stored gain matrix times the
`a`-th slice of the message (continued by zeros) plus the `a`-th stored noise vector; the noiseless products are stored too, and
the rest of the channel is unchanged. -/
theorem C78_propagate (sqrtmT : Matrix (Fin nt) (Fin nt) ℂ → Matrix (Fin nt) (Fin nt) ℂ)
    (sqrtmR : Matrix (Fin nr) (Fin nr) ℂ → Matrix (Fin nr) (Fin nr) ℂ) (ht : 0 < nt) (ch : Mimo nr nt) (msg : Signal)
    (z : Nat → ℝ) (out : List (Fin nr → ℂ)) (h : (ch.propagate sqrtmT sqrtmR msg z).2 = .ok out) :
    ∃ gains noises unnoisy, (ch.propagate sqrtmT sqrtmR msg z).1 = { ch with
        noises := some noises
        gains := some gains
        unnoisy := some unnoisy } ∧
      out.length = (msg.toC.length + nt - 1) / nt ∧ gains.length = (msg.toC.length + nt - 1) / nt ∧
      noises.length = (msg.toC.length + nt - 1) / nt ∧ unnoisy.length = (msg.toC.length + nt - 1) / nt ∧
      ∀ a < (msg.toC.length + nt - 1) / nt, ∀ j,
        unnoisy.getD a 0 j = ∑ k : Fin nt, gains.getD a 0 j k * msg.toC.getD (a * nt + k.val) 0 ∧
        out.getD a 0 j = (∑ k : Fin nt, gains.getD a 0 j k * msg.toC.getD (a * nt + k.val) 0) + noises.getD a 0 j := by
  obtain ⟨e1, e2, e3, e4⟩ := C78_errors sqrtmT sqrtmR ht ch msg z
  have h0 : msg.toC ≠ [] := fun hh => by rw [e1 hh] at h; simp at h
  have h1 : ¬ (msg.isComplex = true ∧ ch.isComplex = false) := fun hh => by rw [e2 h0 hh.1 hh.2] at h; simp at h
  have h2 : ch.noiseStd ≠ none := fun hh => by rw [e3 h0 h1 hh] at h; simp at h
  obtain ⟨s, hs⟩ := Option.ne_none_iff_exists'.1 h2
  obtain ⟨out', gains, noises, unnoisy, hp, l1, l2, l3, l4, hv⟩ := Mimo.propagate_ok sqrtmT sqrtmR ht ch msg z s h0 h1 hs
  rw [hp] at h ⊢
  simp only [Except.ok.injEq] at h
  subst h
  refine ⟨gains, noises, unnoisy, rfl, l1, l2, l3, l4, ?_⟩
  intro a ha j
  obtain ⟨-, -, h3, h4⟩ := hv a ha
  exact ⟨h3 j, by rw [h4 j, h3 j]⟩

/-- C75.  MIMO: after `set_SNR_lin` the mean noise power on every receive antenna of every vector is
`nb_tx * Es / (rate * snr)`, for real and complex channels alike. -/
theorem C75_mimo_noise_power {Ω : Type*} [MeasurableSpace Ω] {P : Measure Ω} {z : Ω → ℕ → ℝ} (hz : NormalDraws P z)
    (sqrtmT : Matrix (Fin nt) (Fin nt) ℂ → Matrix (Fin nt) (Fin nt) ℂ)
    (sqrtmR : Matrix (Fin nr) (Fin nr) ℂ → Matrix (Fin nr) (Fin nr) ℂ) (ht : 0 < nt) (ch ch1 : Mimo nr nt) (snr rate Es : ℝ)
    (hs : 0 < snr) (hr : 0 < rate) (hE : 0 ≤ Es) (hset : ch1 = ch.after sqrtmT sqrtmR (.setSnrLin snr rate Es)) (msg : Signal)
    (hne : msg.toC ≠ []) (hk : ¬ (msg.isComplex = true ∧ ch.isComplex = false)) (a : Nat)
    (ha : a < (msg.toC.length + nt - 1) / nt) (j : Fin nr) :
    ∃ out un : Ω → List (Fin nr → ℂ), (∀ ω, (ch1.propagate sqrtmT sqrtmR msg (z ω)).2 = .ok (out ω)) ∧
      (∀ ω, (ch1.propagate sqrtmT sqrtmR msg (z ω)).1.unnoisy = some (un ω)) ∧
      ∫ ω, ‖(out ω).getD a 0 j - (un ω).getD a 0 j‖ ^ 2 ∂P = (nt : ℝ) * Es / (rate * snr) := by
  simp only [Mimo.after] at hset
  have hne0 : rate * snr ≠ 0 := by positivity
  rcases hh : noiseStdLin ch.isComplex nt snr rate Es with e | s
  · simp only [noiseStdLin] at hh; rw [if_neg hne0] at hh; simp at hh
  rw [hh] at hset
  have hstd : ch1.noiseStd = some s := by rw [hset]
  have hcc : ch1.isComplex = ch.isComplex := by rw [hset]
  have hk1 : ¬ (msg.isComplex = true ∧ ch1.isComplex = false) := by rw [hcc]; exact hk
  have hp := fun ω => Mimo.propagate_ok sqrtmT sqrtmR ht ch1 msg (z ω) s hne hk1 hstd
  choose out gains noises un h1 h2 h3 h4 h5 h6 using hp
  refine ⟨out, un, fun ω => by rw [h1], fun ω => by rw [h1], ?_⟩
  have e : ∀ ω, (out ω).getD a 0 j - (un ω).getD a 0 j =
      noiseSample ch1.isComplex s ((msg.toC.length + nt - 1) / nt * nr) (z ω) (a * nr + j.val) := by
    intro ω
    obtain ⟨-, g2, -, g4⟩ := h6 ω a ha
    rw [g4 j, g2 j]; ring
  simp only [e]
  exact noiseSample_power hz ch1.isComplex nt snr rate Es s hs hr hE (by rw [hcc]; exact hh) _ _

/-! ### C86: statistics of the gains -/

/-- Index of the draw used for entry `(j, k)` of vector `a`; `b` selects the imaginary part. -/
def gainDraw (nv nr nt off : Nat) (s : Fin nv × Fin nr × Fin nt × Bool) : Nat :=
  off + ((if s.2.2.2 then nv * nr * nt else 0) + ((s.1.val * nr + s.2.1.val) * nt + s.2.2.1.val))

theorem mixed_radix_inj {m a b c d : Nat} (hb : b < m) (hd : d < m) (h : a * m + b = c * m + d) : a = c ∧ b = d := by
  have hm : 0 < m := by omega
  have h1 : (a * m + b) / m = a := by rw [Nat.mul_comm, Nat.mul_add_div hm, Nat.div_eq_of_lt hb]; rfl
  have h2 : (c * m + d) / m = c := by rw [Nat.mul_comm, Nat.mul_add_div hm, Nat.div_eq_of_lt hd]; rfl
  have : a = c := by rw [← h1, ← h2, h]
  subst this
  exact ⟨rfl, by omega⟩

theorem gainDraw_injective (nv nr nt off : Nat) : Function.Injective (gainDraw nv nr nt off) := by
  rintro ⟨a, j, k, b⟩ ⟨a', j', k', b'⟩ h
  simp only [gainDraw] at h
  have hlt : ∀ (a : Fin nv) (j : Fin nr) (k : Fin nt), (a.val * nr + j.val) * nt + k.val < nv * nr * nt := by
    intro a j k
    have h1 : a.val * nr + j.val + 1 ≤ nv * nr := by
      have : (a.val + 1) * nr ≤ nv * nr := Nat.mul_le_mul_right _ a.isLt
      have := j.isLt
      rw [Nat.add_mul] at *
      omega
    have h2 : (a.val * nr + j.val + 1) * nt ≤ nv * nr * nt := Nat.mul_le_mul_right _ h1
    have := k.isLt
    rw [Nat.add_mul] at h2
    omega
  have l1 := hlt a j k
  have l2 := hlt a' j' k'
  have hb : b = b' ∧ (a.val * nr + j.val) * nt + k.val = (a'.val * nr + j'.val) * nt + k'.val := by
    generalize nv * nr * nt = N at *
    cases b <;> cases b' <;> simp at h ⊢ <;> omega
  obtain ⟨rfl, h2⟩ := hb
  obtain ⟨h3, h4⟩ := mixed_radix_inj k.isLt k'.isLt h2
  obtain ⟨h5, h6⟩ := mixed_radix_inj j.isLt j'.isLt h3
  rw [Fin.ext h4, Fin.ext h5, Fin.ext h6]

/-- Coefficient of a draw in the centred gain `(i, l)` of vector `a`. -/
noncomputable def gainCoef {nv : Nat} (cplx : Bool) (Sr : Matrix (Fin nr) (Fin nr) ℂ) (St : Matrix (Fin nt) (Fin nt) ℂ) (a : Fin nv)
    (i : Fin nr) (l : Fin nt) (s : Fin nv × Fin nr × Fin nt × Bool) : ℂ :=
  if s.1 = a then Sr i s.2.1 * St l s.2.2.1 *
    (if cplx then (if s.2.2.2 then Complex.I else 1) * (Real.sqrt (1 / 2) : ℂ) else (if s.2.2.2 then 0 else 1)) else 0

theorem corrGain_linear {nv : Nat} (cplx : Bool) (Sr : Matrix (Fin nr) (Fin nr) ℂ) (St : Matrix (Fin nt) (Fin nt) ℂ)
    (mean : Matrix (Fin nr) (Fin nt) ℂ) (z : Nat → ℝ) (off : Nat) (a : Fin nv) (i : Fin nr) (l : Fin nt) :
    corrGain Sr St mean (rawGain cplx nv nr nt (fun i => z (off + i)) a.val) i l - mean i l =
      ∑ s, gainCoef cplx Sr St a i l s * (z (gainDraw nv nr nt off s) : ℂ) := by
  rw [Fintype.sum_prod_type, Finset.sum_eq_single a]
  · rw [Fintype.sum_prod_type]
    simp only [corrGain, add_sub_cancel_right]
    apply Finset.sum_congr rfl; intro j _
    rw [Fintype.sum_prod_type]
    apply Finset.sum_congr rfl; intro k _
    rw [Fintype.sum_bool]
    cases cplx
    · simp [gainCoef, gainDraw, rawGain]; ring
    · simp only [gainCoef, gainDraw, rawGain, if_true, Bool.false_eq_true, if_false, Nat.zero_add]; ring
  · intro b _ hb
    apply Finset.sum_eq_zero; intro s _
    simp [gainCoef, hb]
  · simp

theorem gainCoef_cov {nv : Nat} (cplx : Bool) (Sr : Matrix (Fin nr) (Fin nr) ℂ) (St : Matrix (Fin nt) (Fin nt) ℂ) (a a' : Fin nv)
    (i i' : Fin nr) (l l' : Fin nt) :
    ∑ s, gainCoef cplx Sr St a i l s * (starRingEnd ℂ) (gainCoef cplx Sr St a' i' l' s) =
      if a = a' then (Sr * Sr.conjTranspose) i i' * (St * St.conjTranspose) l l' else 0 := by
  by_cases h : a = a'
  · subst h
    rw [if_pos rfl, Fintype.sum_prod_type, Finset.sum_eq_single a]
    · rw [Fintype.sum_prod_type, Matrix.mul_apply, Matrix.mul_apply, Finset.sum_mul_sum]
      apply Finset.sum_congr rfl; intro j _
      rw [Fintype.sum_prod_type]
      apply Finset.sum_congr rfl; intro k _
      rw [Fintype.sum_bool]
      have hh : (Real.sqrt (1 / 2) : ℂ) * (Real.sqrt (1 / 2) : ℂ) = 1 / 2 := by
        rw [← Complex.ofReal_mul, Real.mul_self_sqrt (by norm_num)]; norm_num
      have hII : Complex.I * Complex.I = -1 := Complex.I_mul_I
      simp only [Matrix.conjTranspose_apply]
      cases cplx
      · simp [gainCoef]; ring
      · simp only [gainCoef, if_true, Bool.false_eq_true, if_false, map_mul, Complex.conj_ofReal, Complex.conj_I, map_one]
        have : star (Sr i' j) = (starRingEnd ℂ) (Sr i' j) := rfl
        have h3 : star (St l' k) = (starRingEnd ℂ) (St l' k) := rfl
        rw [this, h3]
        linear_combination ((Sr i j) * (St l k) * (starRingEnd ℂ) (Sr i' j) * (starRingEnd ℂ) (St l' k)) * 2 * hh
          - ((Sr i j) * (St l k) * (starRingEnd ℂ) (Sr i' j) * (starRingEnd ℂ) (St l' k)) *
            ((Real.sqrt (1 / 2) : ℂ) * (Real.sqrt (1 / 2) : ℂ)) * hII
    · intro b _ hb
      apply Finset.sum_eq_zero; intro s _
      simp [gainCoef, hb]
    · simp
  · rw [if_neg h]
    apply Finset.sum_eq_zero; intro s _
    simp only [gainCoef]
    by_cases h1 : s.1 = a
    · rw [if_neg (fun h2 => h (h1.symm.trans h2))]; simp
    · rw [if_neg h1]; simp

/-- C86.  Statistics of the gains produced by `propagate`, for pairwise independent standard normal draws: every gain has the
configured mean; the gains of different vectors are uncorrelated; within a vector the covariance of the gains `(i, l)` and
`(i', l')` is the receive correlation `(i, i')` times the transmit correlation `(l, l')` - the Kronecker model.  The hypotheses on
the matrix square roots hold for `sqrtm` of a Hermitian positive semidefinite matrix, whose principal square root is Hermitian. -/
theorem C86_kronecker {Ω : Type*} [MeasurableSpace Ω] {P : Measure Ω} [IsProbabilityMeasure P] {z : Ω → ℕ → ℝ}
    (hz : IndepNormalDraws P z)
    (sqrtmT : Matrix (Fin nt) (Fin nt) ℂ → Matrix (Fin nt) (Fin nt) ℂ)
    (sqrtmR : Matrix (Fin nr) (Fin nr) ℂ → Matrix (Fin nr) (Fin nr) ℂ) (ht : 0 < nt) (ch : Mimo nr nt)
    (hT : sqrtmT ch.fading.Rt * (sqrtmT ch.fading.Rt).conjTranspose = ch.fading.Rt)
    (hR : sqrtmR ch.fading.Rr * (sqrtmR ch.fading.Rr).conjTranspose = ch.fading.Rr) (msg : Signal)
    (hne : msg.toC ≠ []) (hk : ¬ (msg.isComplex = true ∧ ch.isComplex = false)) (hstd : ch.noiseStd ≠ none) :
    ∃ H : Ω → List (Matrix (Fin nr) (Fin nt) ℂ), (∀ ω, (ch.propagate sqrtmT sqrtmR msg (z ω)).1.gains = some (H ω)) ∧
      (∀ a < (msg.toC.length + nt - 1) / nt, ∀ i l, ∫ ω, (H ω).getD a 0 i l ∂P = ch.fading.mean.mat i l) ∧
      (∀ a < (msg.toC.length + nt - 1) / nt, ∀ a' < (msg.toC.length + nt - 1) / nt, ∀ i i' l l',
        ∫ ω, ((H ω).getD a 0 i l - ch.fading.mean.mat i l) *
          (starRingEnd ℂ) ((H ω).getD a' 0 i' l' - ch.fading.mean.mat i' l') ∂P =
          if a = a' then ch.fading.Rr i i' * ch.fading.Rt l l' else 0) := by
  obtain ⟨s, hs⟩ := Option.ne_none_iff_exists'.1 hstd
  have hp := fun ω => Mimo.propagate_ok sqrtmT sqrtmR ht ch msg (z ω) s hne hk hs
  choose out gains noises un h1 h2 h3 h4 h5 h6 using hp
  set nv := (msg.toC.length + nt - 1) / nt with hnv
  set off := drawCount ch.isComplex (nv * nr) with hoff
  have hlin : ∀ ω (a : Fin nv) i l, (gains ω).getD a 0 i l - ch.fading.mean.mat i l =
      ∑ s, gainCoef ch.isComplex (sqrtmR ch.fading.Rr) (sqrtmT ch.fading.Rt) a i l s *
        (z ω (gainDraw nv nr nt off s) : ℂ) := by
    intro ω a i l
    rw [(h6 ω a a.isLt).1]
    exact corrGain_linear ch.isComplex _ _ _ (z ω) off a i l
  refine ⟨gains, fun ω => by rw [h1], ?_, ?_⟩
  · intro a ha i l
    have e : ∀ ω, (gains ω).getD a 0 i l = (∑ s, gainCoef ch.isComplex (sqrtmR ch.fading.Rr) (sqrtmT ch.fading.Rt) ⟨a, ha⟩ i l s *
        (z ω (gainDraw nv nr nt off s) : ℂ)) + ch.fading.mean.mat i l := by
      intro ω
      rw [← hlin ω ⟨a, ha⟩ i l]; simp
    simp only [e]
    rw [integral_add (draws_linear_integrable hz.1 _ _) (integrable_const _), draws_linear_mean hz.1]
    simp
  · intro a ha a' ha' i i' l l'
    have e := fun ω => hlin ω ⟨a, ha⟩ i l
    have e' := fun ω => hlin ω ⟨a', ha'⟩ i' l'
    simp only at e e'
    simp only [e, e']
    rw [draws_linear_cov hz _ (gainDraw_injective nv nr nt off), gainCoef_cov, hT, hR]
    simp

/-- Non-vacuity: independent standard normal draws exist, the default channel has a noise level and satisfies the square-root
hypotheses with the identity, and a real message of three symbols on two antennas makes two vectors. -/
example : IndepNormalDraws (Measure.infinitePi fun _ : ℕ => gaussianReal 0 1) (fun ω i => ω i) := by
  refine ⟨fun i => MeasurePreserving.hasLaw (measurePreserving_eval_infinitePi _ _), fun i j hij => ?_⟩
  have := iIndepFun_infinitePi (P := fun _ : ℕ => gaussianReal 0 1) (X := fun _ x => x) (fun i => measurable_id)
  exact this.indepFun hij

example : (1 : Matrix (Fin 2) (Fin 2) ℂ) * (1 : Matrix (Fin 2) (Fin 2) ℂ).conjTranspose = 1 := by simp

example : ((Signal.real [1, -1, 1]).toC.length + 2 - 1) / 2 = 2 ∧ (Signal.real [1, -1, 1]).toC ≠ [] := by
  constructor
  · simp [Signal.toC]
  · simp [Signal.toC]

end Verif
