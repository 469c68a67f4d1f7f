import Verif.Lemmas.RayleighMrc
import Verif.Props.ChannelsPropagate
/-
C132: error probability of maximum likelihood detection over the MIMO flat fading channel
(/repo/commpy/channels.py:329-383, /repo/commpy/modulation.py:299-322).
-/
namespace Verif
open MeasureTheory ProbabilityTheory

/-- A receiver: `out = channel.propagate(msg)`, then `mimo_ml(out[a], channel.channel_gains[a], constellation)`. -/
noncomputable def detectVector {nr nt : Nat} (sqrtmT : Matrix (Fin nt) (Fin nt) ℂ → Matrix (Fin nt) (Fin nt) ℂ)
    (sqrtmR : Matrix (Fin nr) (Fin nr) ℂ → Matrix (Fin nr) (Fin nr) ℂ) (ch : Mimo nr nt) (msg c : List ℂ) (a : Nat) (z : Nat → ℝ) : Py (List ℂ) :=
  match ch.propagate sqrtmT sqrtmR (.cplx msg) z with
  | (_, .error e) => .error e
  | (ch', .ok out) => mimoMl nr nt (fun i => if h : i < nr then out.getD a 0 ⟨i, h⟩ else 0)
      (fun i j => if h : i < nr ∧ j < nt then ((ch'.gains.getD []).getD a 0) ⟨i, h.1⟩ ⟨j, h.2⟩ else 0) c

/-- The vectors of constellation points other than `x`. -/
noncomputable def wrongVectors (c : List ℂ) (n : Nat) (x : List ℂ) : Finset (List ℂ) :=
  open Classical in ((Finset.univ : Finset (Fin n → Fin c.length)).image fun f => List.ofFn fun k => c[f k]).erase x

theorem mem_wrongVectors {c : List ℂ} {n : Nat} {x x' : List ℂ} : x' ∈ wrongVectors c n x ↔ IsVector c n x' ∧ x' ≠ x := by
  classical
  unfold wrongVectors
  rw [Finset.mem_erase, Finset.mem_image, and_comm]
  refine and_congr_left fun _ => ⟨?_, ?_⟩
  · rintro ⟨f, -, rfl⟩
    refine ⟨by simp, fun z hz => ?_⟩
    obtain ⟨k, rfl⟩ := (List.mem_ofFn' _ _).1 hz
    exact List.getElem_mem _
  · rintro ⟨h1, h2⟩
    have hx : ∀ k : Fin n, ∃ i : Fin c.length, c[i] = x'[k.val]'(by rw [h1]; exact k.isLt) := by
      intro k
      obtain ⟨i, hi, he⟩ := List.getElem_of_mem (h2 _ (List.getElem_mem (by rw [h1]; exact k.isLt)))
      exact ⟨⟨i, hi⟩, he⟩
    choose f hf using hx
    refine ⟨f, Finset.mem_univ _, ?_⟩
    apply List.ext_getElem (by simp [h1])
    intro i h3 h4
    rw [List.getElem_ofFn]
    exact hf ⟨i, by simpa using h3⟩

section
variable {Ω : Type*} [MeasurableSpace Ω] {P : Measure Ω} {z : Ω → ℕ → ℝ} {nr nt : Nat}
variable (sqrtmT : Matrix (Fin nt) (Fin nt) ℂ → Matrix (Fin nt) (Fin nt) ℂ) (sqrtmR : Matrix (Fin nr) (Fin nr) ℂ → Matrix (Fin nr) (Fin nr) ℂ)

/-- What the detector computes, in terms of the draws. -/
theorem detectVector_eq (ht : 0 < nt) (ch : Mimo nr nt) (hcx : ch.isComplex = true) {std : ℝ} (hstd : ch.noiseStd = some std) {nv a : Nat} (ha : a < nv)
    {msg c x : List ℂ} (hm : msg.length = nv * nt) (hx : (msg.drop (a * nt)).take nt = x) (hc : c ≠ []) (z : Nat → ℝ) :
    ∃ y h w, detectVector sqrtmT sqrtmR ch msg c a z = .ok w ∧ IsML nr nt y h c w ∧ ∀ x', x'.length = nt →
      sqErr nr y h x' = ∑ i, ‖vecShift (sqrtmR ch.fading.Rr) (sqrtmT ch.fading.Rt) ch.fading.mean.mat nv a (fun k => x.getD k 0 - x'.getD k 0) z i +
        vecNoise std nv nr a z i‖ ^ 2 := by
  have hl : a * nt + nt ≤ nv * nt := by rw [← Nat.succ_mul]; exact Nat.mul_le_mul_right _ ha
  have hne : (Signal.cplx msg).toC ≠ [] := by
    intro h
    have : msg.length = 0 := by simpa [Signal.toC] using congrArg List.length h
    omega
  obtain ⟨out, gains, noises, unnoisy, hp, h1, h2, h3, h4, h5⟩ := Mimo.propagate_ok sqrtmT sqrtmR ht ch (.cplx msg) z std hne (by simp [hcx]) hstd
  have hnv : ((Signal.cplx msg).toC.length + nt - 1) / nt = nv := by
    show (msg.length + nt - 1) / nt = nv
    rw [hm, Nat.add_sub_assoc ht, Nat.mul_comm, Nat.mul_add_div ht, Nat.div_eq_of_lt (by omega), Nat.add_zero]
  rw [hnv] at h5
  obtain ⟨g1, g2, g3, g4⟩ := h5 a ha
  rw [hcx] at g1 g2
  unfold detectVector
  rw [hp]
  obtain ⟨w, hw, hml⟩ := C68_ml nr nt (fun i => if h : i < nr then out.getD a 0 ⟨i, h⟩ else 0)
    (fun i j => if h : i < nr ∧ j < nt then (gains.getD a 0) ⟨i, h.1⟩ ⟨j, h.2⟩ else 0) hc
  refine ⟨_, _, w, hw, hml, fun x' hx' => ?_⟩
  unfold sqErr
  rw [Finset.sum_range]
  refine Finset.sum_congr rfl fun i _ => ?_
  rw [hx', Finset.sum_range]
  congr 2
  have hg : ∀ k : Fin nt, (if h : i.val < nr ∧ k.val < nt then (gains.getD a 0) ⟨i.val, h.1⟩ ⟨k.val, h.2⟩ else 0) =
      vecGain (sqrtmR ch.fading.Rr) (sqrtmT ch.fading.Rt) ch.fading.mean.mat nv a z i k := by
    intro k
    rw [dif_pos ⟨i.isLt, k.isLt⟩, g1]
    rfl
  simp only [hg]
  rw [dif_pos i.isLt]
  rw [g4, g3, g2, g1]
  unfold vecShift vecNoise
  simp only [mul_sub, Finset.sum_sub_distrib]
  have hxk : ∀ k : Fin nt, (Signal.cplx msg).toC.getD (a * nt + k.val) 0 = x.getD k 0 := by
    intro k
    show msg.getD _ 0 = _
    rw [← hx, List.getD_eq_getElem _ _ (by have := k.isLt; omega), List.getD_eq_getElem _ _ (by have := k.isLt; simp; omega)]
    simp
  simp only [hxk]
  show (∑ k, vecGain (sqrtmR ch.fading.Rr) (sqrtmT ch.fading.Rt) ch.fading.mean.mat nv a z i k * x.getD k 0) + _ - _ = _
  ring

/-- C132: union bound.  For every complex channel (any mean and correlations), message, constellation, noise level and vector index, the probability that `mimo_ml`
with the stored gains does not return the transmitted vector is at most the sum, over the other vectors, of the mean over the gains of the pairwise error
probability `Q(|H (x - x')| / std)` (or 1 when `H (x - x') = 0`). -/
theorem C132_union (hz : NormalDraws P z) (hind : iIndepFun (fun i ω => z ω i) P) (ht : 0 < nt) (ch : Mimo nr nt) (hcx : ch.isComplex = true) {std : ℝ}
    (hstd : ch.noiseStd = some std) (hs : 0 < std) {nv a : Nat} (ha : a < nv) {msg c x : List ℂ} (hm : msg.length = nv * nt)
    (hx : (msg.drop (a * nt)).take nt = x) (hxc : IsVector c nt x) :
    P.real {ω | detectVector sqrtmT sqrtmR ch msg c a (z ω) ≠ .ok x} ≤
      ∑ x' ∈ wrongVectors c nt x, ∫ ω, pairError std (vecShift (sqrtmR ch.fading.Rr) (sqrtmT ch.fading.Rt) ch.fading.mean.mat nv a (fun k => x.getD k 0 - x'.getD k 0) (z ω)) ∂P := by
  have hP := hind.isProbabilityMeasure
  have hc : c ≠ [] := by
    rintro rfl
    have h1 := hxc.1
    have : x = [] := List.eq_nil_iff_forall_not_mem.2 fun y hy => by simpa using hxc.2 y hy
    rw [this] at h1
    simp at h1
    omega
  have hsub : {ω | detectVector sqrtmT sqrtmR ch msg c a (z ω) ≠ .ok x} ⊆ ⋃ x' ∈ wrongVectors c nt x,
      {ω | ∑ i, ‖vecShift (sqrtmR ch.fading.Rr) (sqrtmT ch.fading.Rt) ch.fading.mean.mat nv a (fun k => x.getD k 0 - x'.getD k 0) (z ω) i + vecNoise std nv nr a (z ω) i‖ ^ 2 ≤
        ∑ i, ‖vecNoise std nv nr a (z ω) i‖ ^ 2} := by
    intro ω hω
    obtain ⟨y, h, w, hw, hml, he⟩ := detectVector_eq sqrtmT sqrtmR ht ch hcx hstd ha hm hx hc (z ω)
    have hne : w ≠ x := fun h => hω (by rw [hw, h])
    refine Set.mem_biUnion (mem_wrongVectors.2 ⟨hml.1, hne⟩) ?_
    have h1 := hml.2 x hxc
    rw [he w hml.1.1, he x hxc.1] at h1
    have h0 : ∀ i, vecShift (sqrtmR ch.fading.Rr) (sqrtmT ch.fading.Rt) ch.fading.mean.mat nv a (fun k => x.getD k 0 - x.getD k 0) (z ω) i = 0 := by
      intro i; simp [vecShift]
    simp only [h0, zero_add] at h1
    exact h1
  refine (measureReal_mono hsub (measure_ne_top _ _)).trans ((measureReal_biUnion_finset_le _ _).trans (Finset.sum_le_sum fun x' _ => ?_))
  exact le_of_eq (pair_random _ _ _ nv a _ hz hind hs ha)

end

section
variable {Ω : Type*} [MeasurableSpace Ω] {P : Measure Ω} {z : Ω → ℕ → ℝ} {nr nt : Nat}

/-- Real or imaginary part. -/
def part (b : Bool) (w : ℂ) : ℝ := if b then w.im else w.re

/-- Coefficient of a draw (real or imaginary) in a part of the product of a gain and `d`. -/
def partCoef (b c : Bool) (d : ℂ) : ℝ := if b then (if c then d.re else d.im) else (if c then -d.im else d.re)

/-- Over uncorrelated Rayleigh fading the parts of `H d` are independent normal variables of variance `|d|^2 / 2`. -/
theorem rayleigh_parts (hz : NormalDraws P z) (hind : iIndepFun (fun i ω => z ω i) P) {nv a : Nat} (ha : a < nv) (d : Fin nt → ℂ) :
    iIndepFun (fun (p : Fin nr × Bool) ω => part p.2 (vecShift 1 1 0 nv a d (z ω) p.1)) P ∧
    ∀ p : Fin nr × Bool, HasLaw (fun ω => part p.2 (vecShift 1 1 0 nv a d (z ω) p.1)) (gaussianReal 0 ((∑ k, ‖d k‖ ^ 2) / 2).toNNReal) P := by
  classical
  let e : Fin nr × Fin nt × Bool → ℕ := fun s => gainDraw nv nr nt (2 * (nv * nr)) (⟨a, ha⟩, s)
  have he : Function.Injective e := fun s s' h => by
    have := gainDraw_injective nv nr nt (2 * (nv * nr)) h
    simpa using this
  let A : Fin nr × Bool → Fin nr × Fin nt × Bool → ℝ := fun p s => if p.1 = s.1 then Real.sqrt (1 / 2) * partCoef p.2 s.2.2 (d s.2.1) else 0
  have hsq : Real.sqrt (1 / 2) * Real.sqrt (1 / 2) = 1 / 2 := Real.mul_self_sqrt (by norm_num)
  have hA : ∀ p q, ∑ s, A p s * A q s = if p = q then (∑ k, ‖d k‖ ^ 2) / 2 else 0 := by
    rintro ⟨i, b⟩ ⟨j, b'⟩
    rw [Fintype.sum_prod_type, Finset.sum_eq_single i]
    · by_cases hij : i = j
      · subst hij
        rw [Fintype.sum_prod_type]
        simp only [A, if_true, Fintype.sum_bool, Prod.mk.injEq, true_and]
        by_cases hb : b = b'
        · subst hb
          rw [if_pos rfl, Finset.sum_div]
          refine Finset.sum_congr rfl fun k _ => ?_
          rw [← Complex.normSq_eq_norm_sq, Complex.normSq_apply]
          cases b
          · simp only [partCoef, Bool.false_eq_true, if_false, if_true]; linear_combination ((d k).re * (d k).re + (d k).im * (d k).im) * hsq
          · simp only [partCoef, Bool.false_eq_true, if_false, if_true]; linear_combination ((d k).re * (d k).re + (d k).im * (d k).im) * hsq
        · rw [if_neg hb]
          refine Finset.sum_eq_zero fun k _ => ?_
          cases b <;> cases b' <;> first | exact absurd rfl hb | (simp only [partCoef, Bool.false_eq_true, if_false, if_true]; ring)
      · rw [if_neg (by simp [hij])]
        refine Finset.sum_eq_zero fun s _ => ?_
        simp only [A]
        rw [if_neg (fun h : j = i => hij h.symm), mul_zero]
    · intro j' _ hj
      refine Finset.sum_eq_zero fun s _ => ?_
      simp only [A]
      rw [if_neg (fun h : i = j' => hj h.symm), zero_mul]
    · simp
  have hX : ∀ (p : Fin nr × Bool) ω, part p.2 (vecShift 1 1 0 nv a d (z ω) p.1) = ∑ s, A p s * z ω (e s) := by
    rintro ⟨i, b⟩ ω
    rw [Fintype.sum_prod_type, Finset.sum_eq_single i, Fintype.sum_prod_type]
    · have hg : ∀ k, vecGain (1 : Matrix (Fin nr) (Fin nr) ℂ) (1 : Matrix (Fin nt) (Fin nt) ℂ) 0 nv a (z ω) i k =
          rawGain true nv nr nt (fun i => z ω (2 * (nv * nr) + i)) a i k := by
        intro k
        simp only [vecGain, corrGain]
        rw [Finset.sum_eq_single i, Finset.sum_eq_single k]
        · simp
        · intro k' _ hk; simp [Matrix.one_apply, hk.symm]
        · simp
        · intro j _ hj; simp [Matrix.one_apply, hj.symm]
        · simp
      have hk : ∀ k, part b (rawGain true nv nr nt (fun i => z ω (2 * (nv * nr) + i)) a i k * d k) = ∑ c, A (i, b) (i, k, c) * z ω (e (i, k, c)) := by
        intro k
        rw [Fintype.sum_bool]
        simp only [rawGain, if_true, A, e, gainDraw, Bool.false_eq_true, if_false, Nat.zero_add]
        generalize Real.sqrt (1 / 2) = s
        cases b
        · simp [part, partCoef]; ring
        · simp [part, partCoef]; ring
      simp only [vecShift, hg]
      rw [← Finset.sum_congr rfl fun k _ => hk k]
      cases b
      · simp only [part, Bool.false_eq_true, if_false, Complex.re_sum]
      · simp only [part, if_true, Complex.im_sum]
    · intro j' _ hj
      refine Finset.sum_eq_zero fun s _ => ?_
      simp only [A]
      rw [if_neg (fun h : i = j' => hj h.symm), zero_mul]
    · simp
  have h := orthogonal_combos hz hind he A hA
  simp only [hX]
  exact h

theorem sq_parts (w : ℂ) : ‖w‖ ^ 2 = ∑ b, part b w ^ 2 := by
  rw [Fintype.sum_bool, ← Complex.normSq_eq_norm_sq, Complex.normSq_apply]
  simp only [part, if_true, Bool.false_eq_true, if_false]
  ring

/-- Pairwise error probability over uncorrelated Rayleigh fading: diversity `nr`. -/
theorem rayleigh_pair (hz : NormalDraws P z) (hind : iIndepFun (fun i ω => z ω i) P) {nv a : Nat} (ha : a < nv) (hr : 0 < nr) {d : Fin nt → ℂ} (hd : d ≠ 0) {std : ℝ} (hs : 0 < std) :
    (∀ᵐ ω ∂P, vecShift (nr := nr) 1 1 0 nv a d (z ω) ≠ 0) ∧
    ∫ ω, pairError (nr := nr) std (vecShift 1 1 0 nv a d (z ω)) ∂P ≤ 1 / 2 * ((1 + (∑ k, ‖d k‖ ^ 2) / (2 * std ^ 2)) ^ nr)⁻¹ := by
  have hP := hind.isProbabilityMeasure
  obtain ⟨hi, hl⟩ := rayleigh_parts (nr := nr) hz hind ha d
  set V := (∑ k, ‖d k‖ ^ 2) / 2 with hV
  have hV0 : 0 < V := by
    obtain ⟨k, hk⟩ := Function.ne_iff.1 hd
    have : 0 < ∑ k, ‖d k‖ ^ 2 := Finset.sum_pos' (fun _ _ => sq_nonneg _) ⟨k, Finset.mem_univ _, by have := norm_pos_iff.2 hk; positivity⟩
    positivity
  have hne : ∀ᵐ ω ∂P, vecShift (nr := nr) 1 1 0 nv a d (z ω) ≠ 0 := by
    have hv : V.toNNReal ≠ 0 := by rw [ne_eq, Real.toNNReal_eq_zero]; linarith
    have hna := nullSingletonClass_gaussianReal (μ := 0) hv
    have h0 : P {ω | part false (vecShift (nr := nr) 1 1 0 nv a d (z ω) ⟨0, hr⟩) = 0} = 0 := by
      have := hl (⟨0, hr⟩, false)
      have h1 : (P.map fun ω => part false (vecShift (nr := nr) 1 1 0 nv a d (z ω) ⟨0, hr⟩)) {0} = 0 := by
        rw [this.map_eq]
        exact measure_singleton 0
      rwa [Measure.map_apply_of_aemeasurable this.aemeasurable (measurableSet_singleton _)] at h1
    rw [ae_iff]
    refine measure_mono_null (fun ω hω => ?_) h0
    have : vecShift (nr := nr) 1 1 0 nv a d (z ω) = 0 := by simpa using hω
    show part false (vecShift 1 1 0 nv a d (z ω) ⟨0, hr⟩) = 0
    rw [this]
    simp [part]
  refine ⟨hne, ?_⟩
  have hzm := draws_aemeasurable hz
  have hW : AEMeasurable (fun ω => vecShift (nr := nr) 1 1 0 nv a d (z ω)) P := (vecShift_measurable 1 1 0 nv a d).comp_aemeasurable hzm
  have hprod : ∀ ω, Real.exp (-((Real.sqrt (∑ i, ‖vecShift (nr := nr) 1 1 0 nv a d (z ω) i‖ ^ 2) / std) ^ 2 / 2)) =
      ∏ p : Fin nr × Bool, Real.exp (-(1 / (2 * std ^ 2)) * part p.2 (vecShift 1 1 0 nv a d (z ω) p.1) ^ 2) := by
    intro ω
    rw [← Real.exp_sum, ← Finset.mul_sum, Fintype.sum_prod_type]
    simp only [← sq_parts]
    rw [div_pow, Real.sq_sqrt (Finset.sum_nonneg fun _ _ => sq_nonneg _)]
    congr 1
    field_simp
  have hle : ∀ᵐ ω ∂P, pairError std (vecShift (nr := nr) 1 1 0 nv a d (z ω)) ≤ 1 / 2 * ∏ p : Fin nr × Bool, Real.exp (-(1 / (2 * std ^ 2)) * part p.2 (vecShift 1 1 0 nv a d (z ω) p.1) ^ 2) := by
    filter_upwards [hne] with ω h0
    rw [pairError, if_neg h0, ← hprod]
    exact (q_half (by positivity)).trans (le_of_eq (by ring))
  have hint1 : Integrable (fun ω => pairError std (vecShift (nr := nr) 1 1 0 nv a d (z ω))) P :=
    Integrable.of_bound (((pairError_measurable std).comp_aemeasurable hW).aestronglyMeasurable) 1
      (Filter.Eventually.of_forall fun ω => by rw [Real.norm_eq_abs, abs_of_nonneg (pairError_unit _ _).1]; exact (pairError_unit _ _).2)
  have hmeas : AEMeasurable (fun ω => ∏ p : Fin nr × Bool, Real.exp (-(1 / (2 * std ^ 2)) * part p.2 (vecShift 1 1 0 nv a d (z ω) p.1) ^ 2)) P := by
    refine Finset.aemeasurable_fun_prod _ fun p _ => ?_
    exact (Real.measurable_exp.comp (measurable_const.mul (measurable_id.pow_const 2))).comp_aemeasurable (hl p).aemeasurable
  have hint2 : Integrable (fun ω => 1 / 2 * ∏ p : Fin nr × Bool, Real.exp (-(1 / (2 * std ^ 2)) * part p.2 (vecShift 1 1 0 nv a d (z ω) p.1) ^ 2)) P := by
    refine Integrable.const_mul (Integrable.of_bound hmeas.aestronglyMeasurable 1 (Filter.Eventually.of_forall fun ω => ?_)) _
    rw [Real.norm_eq_abs, abs_of_nonneg (Finset.prod_nonneg fun _ _ => (Real.exp_pos _).le)]
    refine Finset.prod_le_one (fun _ _ => (Real.exp_pos _).le) fun p _ => Real.exp_le_one_iff.2 ?_
    have : 0 ≤ 1 / (2 * std ^ 2) := by positivity
    nlinarith [sq_nonneg (part p.2 (vecShift (nr := nr) 1 1 0 nv a d (z ω) p.1))]
  refine (integral_mono_ae hint1 hint2 hle).trans (le_of_eq ?_)
  rw [integral_const_mul]
  congr 1
  have h2 := hi.integral_fun_prod_comp (f := fun _ x => Real.exp (-(1 / (2 * std ^ 2)) * x ^ 2)) (fun p => (hl p).aemeasurable)
    (fun p => (by fun_prop : Measurable fun x : ℝ => Real.exp (-(1 / (2 * std ^ 2)) * x ^ 2)).aestronglyMeasurable)
  rw [h2]
  have h3 : ∀ p : Fin nr × Bool, ∫ ω, Real.exp (-(1 / (2 * std ^ 2)) * part p.2 (vecShift 1 1 0 nv a d (z ω) p.1) ^ 2) ∂P =
      (Real.sqrt (1 + 2 * (1 / (2 * std ^ 2)) * V))⁻¹ := by
    intro p
    rw [← exp_sq_mean hV0 (by positivity : (0:ℝ) ≤ 1 / (2 * std ^ 2)), ← (hl p).map_eq, integral_map (hl p).aemeasurable]
    have : Measurable fun x : ℝ => Real.exp (-(1 / (2 * std ^ 2)) * x ^ 2) := by fun_prop
    exact this.aestronglyMeasurable
  simp only [h3]
  rw [Finset.prod_const, Finset.card_univ, Fintype.card_prod, Fintype.card_fin, Fintype.card_bool, inv_pow, Nat.mul_comm, pow_mul, Real.sq_sqrt (by positivity)]
  congr 3
  rw [hV]
  field_simp

end

section
variable {Ω : Type*} [MeasurableSpace Ω] {P : Measure Ω} {z : Ω → ℕ → ℝ} {nr nt : Nat}
variable (sqrtmT : Matrix (Fin nt) (Fin nt) ℂ → Matrix (Fin nt) (Fin nt) ℂ) (sqrtmR : Matrix (Fin nr) (Fin nr) ℂ → Matrix (Fin nr) (Fin nr) ℂ)

/-- The channel after `uncorr_rayleigh_fading(complex)` and `set_SNR_lin(snr, rate, Es)`. -/
theorem rayleigh_setup (ch : Mimo nr nt) (hr : 0 < nr) (ht : 0 < nt) {snr rate Es : ℝ} (hsnr : 0 < snr) (hrate : 0 < rate) (hEs : 0 < Es) :
    ∃ std, ((ch.uncorrRayleigh true).1.after sqrtmT sqrtmR (.setSnrLin snr rate Es)).noiseStd = some std ∧ 0 < std ∧ std ^ 2 = 2 * nt * Es / (rate * snr) ∧
      ((ch.uncorrRayleigh true).1.after sqrtmT sqrtmR (.setSnrLin snr rate Es)).isComplex = true ∧
      ((ch.uncorrRayleigh true).1.after sqrtmT sqrtmR (.setSnrLin snr rate Es)).fading = ⟨⟨true, 0⟩, 1, 1⟩ := by
  obtain ⟨-, -, -, h4, h5⟩ := C77_uncorr_rayleigh ch true hr ht
  have hne : rate * snr ≠ 0 := by positivity
  have hntr : (0 : ℝ) < nt := by exact_mod_cast ht
  have hh : noiseStdLin (ch.uncorrRayleigh true).1.isComplex nt snr rate Es = .ok (Real.sqrt (2 * nt * Es / (rate * snr))) := by
    simp only [noiseStdLin]
    rw [if_neg hne, h4]
    norm_num
  simp only [Mimo.after]
  rw [hh]
  have hp : 0 < 2 * nt * Es / (rate * snr) := by positivity
  exact ⟨_, rfl, Real.sqrt_pos.2 hp, Real.sq_sqrt hp.le, h4, h5⟩

/-- C132: diversity.  Over uncorrelated complex Rayleigh fading with `nr` receive antennas, after `set_SNR_lin(snr, rate, Es)`, the probability that `mimo_ml` does not
return the transmitted vector is at most the sum over the other vectors of `1/2 (1 + rate snr |x - x'|^2 / (4 nt Es))^-nr`. -/
theorem C132_rayleigh (hz : NormalDraws P z) (hind : iIndepFun (fun i ω => z ω i) P) (hr : 0 < nr) (ht : 0 < nt) (hT : sqrtmT 1 = 1) (hR : sqrtmR 1 = 1)
    (ch ch1 : Mimo nr nt) {snr rate Es : ℝ} (hsnr : 0 < snr) (hrate : 0 < rate) (hEs : 0 < Es)
    (hch : ch1 = (ch.uncorrRayleigh true).1.after sqrtmT sqrtmR (.setSnrLin snr rate Es)) {nv a : Nat} (ha : a < nv) {msg c x : List ℂ} (hm : msg.length = nv * nt)
    (hx : (msg.drop (a * nt)).take nt = x) (hxc : IsVector c nt x) :
    P.real {ω | detectVector sqrtmT sqrtmR ch1 msg c a (z ω) ≠ .ok x} ≤
      ∑ x' ∈ wrongVectors c nt x, 1 / 2 * ((1 + rate * snr * (∑ k : Fin nt, ‖x.getD k 0 - x'.getD k 0‖ ^ 2) / (4 * nt * Es)) ^ nr)⁻¹ := by
  obtain ⟨std, h1, h2, h3, h4, h5⟩ := rayleigh_setup sqrtmT sqrtmR ch hr ht hsnr hrate hEs
  rw [← hch] at h1 h4 h5
  refine (C132_union sqrtmT sqrtmR hz hind ht ch1 h4 h1 h2 ha hm hx hxc).trans (Finset.sum_le_sum fun x' hx' => ?_)
  obtain ⟨hv, hne⟩ := mem_wrongVectors.1 hx'
  rw [h5]
  dsimp only
  rw [hT, hR]
  have hd : (fun k : Fin nt => x.getD k 0 - x'.getD k 0) ≠ 0 := by
    intro h0
    refine hne (List.ext_getElem (by rw [hv.1, hxc.1]) fun i g1 g2 => ?_)
    have := congrFun h0 ⟨i, by rw [← hv.1]; exact g1⟩
    simp only [Pi.zero_apply] at this
    rw [List.getD_eq_getElem _ _ g1, List.getD_eq_getElem _ _ g2] at this
    exact (sub_eq_zero.1 this).symm
  refine (rayleigh_pair hz hind ha hr hd h2).2.trans (le_of_eq ?_)
  congr 4
  rw [h3]
  have hntr : (0 : ℝ) < nt := by exact_mod_cast ht
  field_simp
  ring

end

section
variable {Ω : Type*} [MeasurableSpace Ω] {P : Measure Ω} {z : Ω → ℕ → ℝ} {nr : Nat}
variable (sqrtmT : Matrix (Fin 1) (Fin 1) ℂ → Matrix (Fin 1) (Fin 1) ℂ) (sqrtmR : Matrix (Fin nr) (Fin nr) ℂ → Matrix (Fin nr) (Fin nr) ℂ)

theorem binary_vector {p q : ℂ} {x : List ℂ} (h : IsVector [p, q] 1 x) : x = [p] ∨ x = [q] := by
  obtain ⟨h1, h2⟩ := h
  obtain ⟨u, rfl⟩ := List.length_eq_one_iff.1 h1
  have := h2 u (by simp)
  simp only [List.mem_cons, List.not_mem_nil, or_false] at this
  rcases this with h | h <;> simp [h]

/-- C132: exact error rate.  One transmit antenna, `nr` receive antennas, two constellation points `p`, `q` at distance `D`, uncorrelated complex Rayleigh fading,
after `set_SNR_lin(snr, rate, Es)`: every symbol is wrongly detected with probability exactly
`1/2 (1 - (1 + 2 s)^(-1/2) * sum_{k < nr} C(2k, k) (s / (2 (1 + 2 s)))^k)`, `s = 2 Es / (rate snr D^2)`. -/
theorem C132_binary (hz : NormalDraws P z) (hind : iIndepFun (fun i ω => z ω i) P) (hr : 0 < nr) (hT : sqrtmT 1 = 1) (hR : sqrtmR 1 = 1)
    (ch ch1 : Mimo nr 1) {snr rate Es : ℝ} (hsnr : 0 < snr) (hrate : 0 < rate) (hEs : 0 < Es)
    (hch : ch1 = (ch.uncorrRayleigh true).1.after sqrtmT sqrtmR (.setSnrLin snr rate Es)) {p q : ℂ} (hpq : p ≠ q) {msg : List ℂ} (hm : ∀ u ∈ msg, u = p ∨ u = q)
    {a : Nat} (ha : a < msg.length) :
    P.real {ω | detectVector sqrtmT sqrtmR ch1 msg [p, q] a (z ω) ≠ .ok [msg[a]]} = 1 / 2 * (1 - (Real.sqrt (1 + 2 * (2 * Es / (rate * snr * ‖p - q‖ ^ 2))))⁻¹ *
      ∑ k ∈ Finset.range nr, (Nat.centralBinom k : ℝ) * (2 * Es / (rate * snr * ‖p - q‖ ^ 2) / (2 * (1 + 2 * (2 * Es / (rate * snr * ‖p - q‖ ^ 2))))) ^ k) := by
  have hP := hind.isProbabilityMeasure
  obtain ⟨std, h1, h2, h3, h4, h5⟩ := rayleigh_setup sqrtmT sqrtmR ch hr one_pos hsnr hrate hEs
  rw [← hch] at h1 h4 h5
  have hxe : (msg.drop (a * 1)).take 1 = [msg[a]] := by
    rw [Nat.mul_one, List.take_one_drop_eq_of_lt_length ha]; rfl
  have hxc : IsVector [p, q] 1 [msg[a]] := ⟨rfl, fun u hu => by
    rw [List.mem_singleton] at hu
    rcases hm _ (List.getElem_mem ha) with h | h <;> simp [hu, h]⟩
  obtain ⟨v, hv, hvn, hdist⟩ : ∃ v, IsVector [p, q] 1 [v] ∧ v ≠ msg[a] ∧ ‖msg[a] - v‖ = ‖p - q‖ := by
    rcases hm _ (List.getElem_mem ha) with h | h
    · exact ⟨q, ⟨rfl, by simp⟩, by rw [h]; exact hpq.symm, by rw [h]⟩
    · exact ⟨p, ⟨rfl, by simp⟩, by rw [h]; exact hpq, by rw [h, norm_sub_rev]⟩
  have honly : ∀ w, IsVector [p, q] 1 w → w ≠ [msg[a]] → w = [v] := by
    intro w hw hne
    rcases binary_vector hw with rfl | rfl <;> rcases binary_vector hv with h | h <;> rcases binary_vector hxc with h' | h' <;> simp_all
  set d : Fin 1 → ℂ := fun k => [msg[a]].getD k 0 - [v].getD k 0 with hd
  have hd0 : d = fun _ => msg[a] - v := by
    funext k
    have : k = 0 := Subsingleton.elim _ _
    subst this
    simp [hd]
  have hdne : d ≠ 0 := by
    intro h
    rw [hd0] at h
    exact hvn (sub_eq_zero.1 (congrFun h 0)).symm
  have hnorm : ∑ k, ‖d k‖ ^ 2 = ‖p - q‖ ^ 2 := by rw [hd0]; simp [hdist]
  have key : ∀ ω, ∃ w, detectVector sqrtmT sqrtmR ch1 msg [p, q] a (z ω) = .ok w ∧ IsVector [p, q] 1 w ∧
      (w ≠ [msg[a]] → ∑ i, ‖vecShift (nr := nr) 1 1 0 msg.length a d (z ω) i + vecNoise std msg.length nr a (z ω) i‖ ^ 2 ≤ ∑ i, ‖vecNoise std msg.length nr a (z ω) i‖ ^ 2) ∧
      (w = [msg[a]] → ∑ i, ‖vecNoise std msg.length nr a (z ω) i‖ ^ 2 ≤ ∑ i, ‖vecShift (nr := nr) 1 1 0 msg.length a d (z ω) i + vecNoise std msg.length nr a (z ω) i‖ ^ 2) := by
    intro ω
    obtain ⟨y, h, w, hw, hml, he⟩ := detectVector_eq sqrtmT sqrtmR one_pos ch1 h4 h1 ha (by rw [Nat.mul_one]) hxe (c := [p, q]) (by simp) (z ω)
    rw [h5] at he
    dsimp only at he
    rw [hT, hR] at he
    have hex := he [msg[a]] rfl
    have hev := he [v] rfl
    have h0 : ∀ i, vecShift (nr := nr) 1 1 0 msg.length a (fun k : Fin 1 => [msg[a]].getD k 0 - [msg[a]].getD k 0) (z ω) i = 0 := by
      intro i; simp [vecShift]
    simp only [h0, zero_add] at hex
    refine ⟨w, hw, hml.1, fun hne => ?_, fun heq => ?_⟩
    · have := hml.2 _ hxc
      rw [honly w hml.1 hne, hex, hev] at this
      exact this
    · have := hml.2 _ hv
      rw [heq, hex, hev] at this
      exact this
  obtain ⟨hne, -⟩ := rayleigh_pair (nr := nr) hz hind ha hr hdne h2
  obtain ⟨hpi, hpl⟩ := rayleigh_parts (nr := nr) hz hind ha d
  have hV : 0 < (∑ k, ‖d k‖ ^ 2) / 2 := by
    rw [hnorm]
    have := norm_pos_iff.2 (sub_ne_zero.2 hpq)
    positivity
  have hmean := mrc_mean hV hpi hpl h2
  have hsum : ∀ ω, ∑ i : Fin nr, (part false (vecShift 1 1 0 msg.length a d (z ω) i) ^ 2 + part true (vecShift 1 1 0 msg.length a d (z ω) i) ^ 2) =
      ∑ i, ‖vecShift (nr := nr) 1 1 0 msg.length a d (z ω) i‖ ^ 2 := by
    intro ω
    refine Finset.sum_congr rfl fun i _ => ?_
    rw [sq_parts, Fintype.sum_bool, add_comm]
  simp only [hsum] at hmean
  have hval : std ^ 2 / (2 * ((∑ k, ‖d k‖ ^ 2) / 2)) = 2 * Es / (rate * snr * ‖p - q‖ ^ 2) := by
    rw [hnorm, h3]
    push_cast
    field_simp
  rw [hval, Fintype.card_fin, mrcError] at hmean
  rw [← hmean]
  apply le_antisymm
  · rw [← pair_random_le 1 1 0 msg.length a d hz hind h2 ha hne]
    refine measureReal_mono (fun ω hω => ?_) (measure_ne_top _ _)
    obtain ⟨w, hw, -, h6, -⟩ := key ω
    exact h6 (fun h => hω (by rw [hw, h]))
  · rw [← pair_random_strict 1 1 0 msg.length a d hz hind h2 ha hne]
    refine measureReal_mono (fun ω hω => ?_) (measure_ne_top _ _)
    obtain ⟨w, hw, -, -, h7⟩ := key ω
    intro hok
    rw [hw] at hok
    exact absurd (h7 (by simpa using hok)) (not_le.2 hω)

/-- C132: one receive antenna: `1/2 (1 - sqrt(γ / (1 + γ)))` with the mean signal-to-noise ratio `γ = rate snr D^2 / (4 Es)` (`rate snr` for antipodal points of energy `Es`). -/
theorem C132_single (sqrtmR : Matrix (Fin 1) (Fin 1) ℂ → Matrix (Fin 1) (Fin 1) ℂ) (hz : NormalDraws P z) (hind : iIndepFun (fun i ω => z ω i) P) (hT : sqrtmT 1 = 1) (hR : sqrtmR 1 = 1)
    (ch ch1 : Mimo 1 1) {snr rate Es : ℝ} (hsnr : 0 < snr) (hrate : 0 < rate) (hEs : 0 < Es)
    (hch : ch1 = (ch.uncorrRayleigh true).1.after sqrtmT sqrtmR (.setSnrLin snr rate Es)) {p q : ℂ} (hpq : p ≠ q) {msg : List ℂ} (hm : ∀ u ∈ msg, u = p ∨ u = q)
    {a : Nat} (ha : a < msg.length) :
    P.real {ω | detectVector sqrtmT sqrtmR ch1 msg [p, q] a (z ω) ≠ .ok [msg[a]]} =
      1 / 2 * (1 - Real.sqrt (rate * snr * ‖p - q‖ ^ 2 / (4 * Es) / (1 + rate * snr * ‖p - q‖ ^ 2 / (4 * Es)))) := by
  rw [C132_binary sqrtmT sqrtmR hz hind one_pos hT hR ch ch1 hsnr hrate hEs hch hpq hm ha]
  have h := norm_pos_iff.2 (sub_ne_zero.2 hpq)
  rw [Finset.sum_range_one, pow_zero, Nat.centralBinom_zero, Nat.cast_one, mul_one, mul_one, ← Real.sqrt_inv]
  congr 3
  field_simp
  ring

/-- Non-vacuity: independent normal draws exist; BPSK, SNR 1, two receive antennas: the error rate is `1/2 (1 - 5 / (4 sqrt 2))`. -/
example : (Measure.infinitePi fun _ : ℕ => gaussianReal 0 1).real {ω | detectVector id id (((⟨none, ⟨⟨false, 0⟩, 1, 1⟩, false, none, none, none⟩ : Mimo 2 1).uncorrRayleigh true).1.after id id (.setSnrLin 1 1 1))
    [1, -1, -1] [1, -1] 1 ω ≠ .ok [-1]} = 1 / 2 * (1 - (Real.sqrt 2)⁻¹ * (5 / 4)) := by
  have h := C132_binary (nr := 2) (P := Measure.infinitePi fun _ : ℕ => gaussianReal 0 1) (z := fun ω i => ω i) id id
    (fun i => MeasurePreserving.hasLaw (measurePreserving_eval_infinitePi _ _))
    (iIndepFun_infinitePi (P := fun _ : ℕ => gaussianReal 0 1) (X := fun _ x => x) (fun i => measurable_id)) (by norm_num) rfl rfl
    ⟨none, ⟨⟨false, 0⟩, 1, 1⟩, false, none, none, none⟩ _ (snr := 1) (rate := 1) (Es := 1) one_pos one_pos one_pos rfl (p := 1) (q := -1) (by norm_num) (msg := [1, -1, -1]) (by simp) (a := 1) (by simp)
  have e : ([1, -1, -1] : List ℂ)[1]'(by simp) = -1 := rfl
  rw [e] at h
  refine h.trans ?_
  have hn : ‖(1 : ℂ) - -1‖ = 2 := by norm_num
  rw [hn]
  norm_num [Finset.sum_range_succ, Nat.centralBinom, Nat.choose]

end

/-- A wrong vector for two antennas and QPSK-like points: the hypotheses of `C132_union` and `C132_rayleigh` are met with 15 terms in the sum. -/
example : IsVector [1, Complex.I, -1, -Complex.I] 2 [1, -1] ∧ (([1, Complex.I, 1, -1] : List ℂ).drop (1 * 2)).take 2 = [1, -1] ∧ ([1, Complex.I, 1, -1] : List ℂ).length = 2 * 2 := by
  refine ⟨⟨rfl, by simp⟩, rfl, rfl⟩

end Verif
