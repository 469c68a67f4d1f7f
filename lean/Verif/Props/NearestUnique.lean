import Verif.Props.OptimalReceiver
import Verif.Props.Kbest
import Verif.Props.BestFirst
/-
C148: with noise there is almost surely one nearest vector, so that `mimo_ml`, `kbest` with enough candidates and `best_first_detector` agree, and are all optimal.
-/
namespace Verif
open MeasureTheory ProbabilityTheory Finset
open scoped ENNReal NNReal

/-- The channel tells all vectors apart: different vectors of constellation points have different noise-free images. -/
def ImagesDiffer (rows N : Nat) (h : Nat → Nat → ℂ) (c : List ℂ) : Prop :=
  ∀ x x', IsVector c N x → IsVector c N x' → (∀ i < rows, ∑ j ∈ range N, h i j * x.getD j 0 = ∑ j ∈ range N, h i j * x'.getD j 0) → x = x'

/-! ### Hyperplanes -/

theorem line_null {u v : ℝ} (h : u ≠ 0 ∨ v ≠ 0) (C : ℝ) : noise2 {n | u * n.1 + v * n.2 = C} = 0 := by
  set r := Real.sqrt (u ^ 2 + v ^ 2) with hr
  have hpos : 0 < u ^ 2 + v ^ 2 := by
    rcases h with h | h
    · have := sq_nonneg v; positivity
    · have := sq_nonneg u; positivity
  have hr0 : 0 < r := Real.sqrt_pos.2 hpos
  have hsq : r ^ 2 = u ^ 2 + v ^ 2 := Real.sq_sqrt hpos.le
  have hl := noise2_direction (u := u / r) (v := v / r) (by field_simp; rw [hsq])
  have e : {n : ℝ × ℝ | u * n.1 + v * n.2 = C} = (fun n : ℝ × ℝ => u / r * n.1 + v / r * n.2) ⁻¹' {C / r} := by
    ext n
    simp only [Set.mem_ofPred_eq, Set.mem_preimage, Set.mem_singleton_iff]
    rw [eq_div_iff hr0.ne', show (u / r * n.1 + v / r * n.2) * r = u * n.1 + v * n.2 by field_simp]
  rw [e, ← Measure.map_apply (by fun_prop) (measurableSet_singleton _), hl.map_eq]
  exact measure_singleton _

theorem hyperplane_null {rows : Nat} (u v : Fin rows → ℝ) {i₀ : Fin rows} (h : u i₀ ≠ 0 ∨ v i₀ ≠ 0) (C : ℝ) :
    (Measure.pi fun _ : Fin rows => noise2) {n | ∑ i, (u i * (n i).1 + v i * (n i).2) = C} = 0 := by
  obtain ⟨r, rfl⟩ : ∃ r, rows = r + 1 := ⟨rows - 1, by have := i₀.2; omega⟩
  set T : Set ((ℝ × ℝ) × (Fin r → ℝ × ℝ)) := {p | (u i₀ * p.1.1 + v i₀ * p.1.2) + ∑ j, (u (i₀.succAbove j) * (p.2 j).1 + v (i₀.succAbove j) * (p.2 j).2) = C} with hT
  have hTm : MeasurableSet T := by
    refine measurableSet_eq_fun ?_ measurable_const
    refine Measurable.add (by fun_prop) (Finset.measurable_sum _ fun j _ => ?_)
    have hj : Measurable fun p : (ℝ × ℝ) × (Fin r → ℝ × ℝ) => p.2 j := (measurable_pi_apply j).comp measurable_snd
    fun_prop
  have hmp := measurePreserving_piFinSuccAbove (fun _ : Fin (r + 1) => noise2) i₀
  have e : {n : Fin (r + 1) → ℝ × ℝ | ∑ i, (u i * (n i).1 + v i * (n i).2) = C} = (MeasurableEquiv.piFinSuccAbove (fun _ => ℝ × ℝ) i₀) ⁻¹' T := by
    ext n
    simp only [Set.mem_ofPred_eq, Set.mem_preimage, hT]
    rw [Fin.sum_univ_succAbove _ i₀]
    rfl
  rw [e, hmp.measure_preimage hTm.nullMeasurableSet, Measure.prod_apply_symm hTm]
  refine (lintegral_congr fun y => ?_).trans lintegral_zero
  have e2 : (fun x : ℝ × ℝ => (x, y)) ⁻¹' T = {n | u i₀ * n.1 + v i₀ * n.2 = C - ∑ j, (u (i₀.succAbove j) * (y j).1 + v (i₀.succAbove j) * (y j).2)} := by
    ext n
    simp only [hT, Set.mem_preimage, Set.mem_ofPred_eq]
    constructor <;> intro h <;> linarith
  rw [e2]
  exact line_null h _

/-! ### Ties -/

theorem tie_null {rows N : Nat} {h : Nat → Nat → ℂ} {c : List ℂ} (hd : ImagesDiffer rows N h c) {σ : ℝ} (hσ : 0 < σ) {x₀ x x' : List ℂ}
    (hx : IsVector c N x) (hx' : IsVector c N x') (hne : x ≠ x') :
    (Measure.pi fun _ : Fin rows => noise2) {n | sqErr rows (asArray (mimoRx rows h x₀ σ n)) h x = sqErr rows (asArray (mimoRx rows h x₀ σ n)) h x'} = 0 := by
  set a : Fin rows → ℂ := fun i => ∑ j ∈ range x₀.length, h i j * x₀.getD j 0 with ha
  set b : Fin rows → ℂ := fun i => ∑ j ∈ range x.length, h i j * x.getD j 0 with hb
  set b' : Fin rows → ℂ := fun i => ∑ j ∈ range x'.length, h i j * x'.getD j 0 with hb'
  obtain ⟨i₀, hi₀⟩ : ∃ i, b i ≠ b' i := by
    by_contra hall
    push Not at hall
    refine hne (hd x x' hx hx' fun i hi => ?_)
    have := hall ⟨i, hi⟩
    simp only [hb, hb', hx.1, hx'.1] at this
    exact this
  have hw : b' i₀ - b i₀ ≠ 0 := sub_ne_zero.2 (Ne.symm hi₀)
  have hor : 2 * σ * (b' i₀ - b i₀).re ≠ 0 ∨ 2 * σ * (b' i₀ - b i₀).im ≠ 0 := by
    by_contra hno
    push Not at hno
    refine hw (Complex.ext ?_ ?_)
    · simpa [hσ.ne'] using hno.1
    · simpa [hσ.ne'] using hno.2
  refine (congrArg _ ?_).trans (hyperplane_null (fun i => 2 * σ * (b' i - b i).re) (fun i => 2 * σ * (b' i - b i).im) hor
    (∑ i, (‖a i - b' i‖ ^ 2 - ‖a i - b i‖ ^ 2)))
  ext n
  simp only [Set.mem_ofPred_eq, sqErr_asArray]
  have key : ∑ i : Fin rows, ‖mimoRx rows h x₀ σ n i - b i‖ ^ 2 - ∑ i : Fin rows, ‖mimoRx rows h x₀ σ n i - b' i‖ ^ 2 =
      ∑ i, (2 * σ * (b' i - b i).re * (n i).1 + 2 * σ * (b' i - b i).im * (n i).2) - ∑ i, (‖a i - b' i‖ ^ 2 - ‖a i - b i‖ ^ 2) := by
    rw [← sum_sub_distrib, ← sum_sub_distrib]
    refine sum_congr rfl fun i _ => ?_
    have hm : mimoRx rows h x₀ σ n i = a i + σ * ((n i).1 + Complex.I * (n i).2) := rfl
    rw [hm]
    simp only [← Complex.normSq_eq_norm_sq, Complex.normSq_apply, Complex.sub_re, Complex.sub_im, Complex.add_re, Complex.add_im, Complex.mul_re, Complex.mul_im,
      Complex.ofReal_re, Complex.ofReal_im, Complex.I_re, Complex.I_im]
    ring
  rw [← sub_eq_zero, ← sub_eq_zero (a := ∑ i, (2 * σ * (b' i - b i).re * (n i).1 + 2 * σ * (b' i - b i).im * (n i).2)), ← key]

/-- C148: whatever was sent, with probability 1 there is only one vector at minimal distance from what was received. -/
theorem C148_unique {rows N : Nat} {h : Nat → Nat → ℂ} {c : List ℂ} (hd : ImagesDiffer rows N h c) {σ : ℝ} (hσ : 0 < σ) (x₀ : List ℂ) :
    ∀ᵐ n ∂(Measure.pi fun _ : Fin rows => noise2), ∀ x x', IsML rows N (asArray (mimoRx rows h x₀ σ n)) h c x → IsML rows N (asArray (mimoRx rows h x₀ σ n)) h c x' → x = x' := by
  have key : ∀ᵐ n ∂(Measure.pi fun _ : Fin rows => noise2), ∀ f g : Fin N → Fin c.length, labelVector c f ≠ labelVector c g →
      sqErr rows (asArray (mimoRx rows h x₀ σ n)) h (labelVector c f) ≠ sqErr rows (asArray (mimoRx rows h x₀ σ n)) h (labelVector c g) := by
    rw [ae_all_iff]
    intro f
    rw [ae_all_iff]
    intro g
    by_cases hne : labelVector c f = labelVector c g
    · exact Filter.Eventually.of_forall fun n h => absurd hne h
    · rw [ae_iff]
      refine measure_mono_null ?_ (tie_null hd hσ (x₀ := x₀) (labelVector_isVector c f) (labelVector_isVector c g) hne)
      intro n hn
      simp only [Set.mem_ofPred_eq] at hn ⊢
      by_contra hc
      exact hn fun _ => hc
  filter_upwards [key] with n hn x x' hx hx'
  obtain ⟨f, rfl⟩ := exists_labelVector hx.1
  obtain ⟨g, rfl⟩ := exists_labelVector hx'.1
  by_contra hne
  exact hn f g hne (le_antisymm (hx.2 _ hx'.1) (hx'.2 _ hx.1))

/-! ### The detectors -/

section
variable {argsort : List ℝ → List Nat} {qr : (Nat → Nat → ℂ) → (Nat → Nat → ℂ) × (Nat → Nat → ℂ)} {h : Nat → Nat → ℂ} {c : List ℂ} {σ : ℝ}

/-- C148, `kbest`: with `len(constellation) ** (nb_tx - 1)` candidates it returns what `mimo_ml` returns, with probability 1. -/
theorem C148_kbest {rows cols K : Nat} (hsort : ∀ l, IsArgsort l (argsort l)) (hqr : IsQR rows cols h (qr h).1 (qr h).2) (hrc : cols ≤ rows) (hc : c ≠ []) (hK : c.length ^ (cols - 1) ≤ K)
    (hd : ImagesDiffer rows cols h c) (hσ : 0 < σ) (x₀ : List ℂ) (junk : Nat → ℂ) (nv : ℝ) (demode : List ℂ → List Nat) :
    ∀ᵐ n ∂(Measure.pi fun _ : Fin rows => noise2), ∃ x,
      kbest argsort qr junk rows cols (asArray (mimoRx rows h x₀ σ n)) h c K nv "hard" demode = .ok (.inl x) ∧
      mimoMl rows cols (asArray (mimoRx rows h x₀ σ n)) h c = .ok x := by
  filter_upwards [C148_unique hd hσ x₀] with n hn
  obtain ⟨x, h1, h2⟩ := C69_ml (qr := qr) hsort hqr hrc hc hK junk (asArray (mimoRx rows h x₀ σ n)) nv demode
  obtain ⟨x', h3, h4⟩ := C68_ml rows cols (asArray (mimoRx rows h x₀ σ n)) h hc
  exact ⟨x, h1, by rw [h3, hn x x' h2 h4]⟩

/-- C148: so no receiver makes fewer errors than that `kbest`. -/
theorem C148_kbest_optimal {rows N K : Nat} (hsort : ∀ l, IsArgsort l (argsort l)) (hqr : IsQR rows N h (qr h).1 (qr h).2) (hrc : N ≤ rows) (hc : c ≠ []) (hnd : c.Nodup)
    (hK : c.length ^ (N - 1) ≤ K) (hd : ImagesDiffer rows N h c) (hσ : 0 < σ) (junk : Nat → ℂ) (nv : ℝ) (demode : List ℂ → List Nat) {g : (Fin rows → ℂ) → List ℂ}
    (hg : ∀ x, MeasurableSet {y | g y = x}) :
    (∑ f : Fin N → Fin c.length, (Measure.pi fun _ : Fin rows => noise2).real
        {n | kbest argsort qr junk rows N (asArray (mimoRx rows h (labelVector c f) σ n)) h c K nv "hard" demode ≠ .ok (.inl (labelVector c f))}) / (c.length ^ N : ℕ) ≤
      (∑ f : Fin N → Fin c.length, (Measure.pi fun _ : Fin rows => noise2).real {n | g (mimoRx rows h (labelVector c f) σ n) ≠ labelVector c f}) / (c.length ^ N : ℕ) := by
  refine le_trans (le_of_eq ?_) (C144_ml h hc hnd hσ hg)
  congr 1
  refine sum_congr rfl fun f _ => measureReal_congr ?_
  filter_upwards [C148_kbest hsort hqr hrc hc hK hd hσ (labelVector c f) junk nv demode] with n hn
  obtain ⟨x, h1, h2⟩ := hn
  refine propext ?_
  show (kbest argsort qr junk rows N (asArray (mimoRx rows h (labelVector c f) σ n)) h c K nv "hard" demode ≠ .ok (.inl (labelVector c f))) ↔
    (mimoMl rows N (asArray (mimoRx rows h (labelVector c f) σ n)) h c ≠ .ok (labelVector c f))
  rw [h1, h2]
  simp

/-- C148, `best_first_detector` with a square channel and stacks that are never trimmed: with probability 1 the signs of the values are those of the bits of the vector that
`mimo_ml` returns, and no value is 0. -/
theorem C148_best_first {n : Nat} {demode : List ℂ → List Nat} {L : ℝ} {ss : List Nat} {fuel : Nat} (hsort : ∀ l, IsArgsort l (argsort l)) (hqr : IsQR n n h (qr h).1 (qr h).2) (hn : 2 ≤ n)
    (hm : 2 ≤ c.length) (hnd : c.Nodup) (hdm : DemodeOk demode c.length.log2) (hL : 0 < L) (hss : n - 1 ≤ ss.length) (hbig : ∀ s ∈ ss, c.length ^ n ≤ s) (hf : c.length ^ n ≤ fuel)
    (hd : ImagesDiffer n n h c) (hσ : 0 < σ) (x₀ : List ℂ) :
    ∀ᵐ w ∂(Measure.pi fun _ : Fin n => noise2), ∃ (x : List ℂ) (v : ℝ), mimoMl n n (asArray (mimoRx n h x₀ σ w)) h c = .ok x ∧ 0 < v ∧ v ≤ L ∧
      bestFirst argsort qr n n (asArray (mimoRx n h x₀ σ w)) h c ss demode L fuel = .ok ((demode x).map fun b => (((if b = 0 then v else -v) : ℝ) : EReal)) := by
  have hc : c ≠ [] := by rintro rfl; simp at hm
  filter_upwards [C148_unique hd hσ x₀] with w hw
  obtain ⟨x, v, h1, h2, -, h4, h5⟩ := C70_ml_partial (qr := qr) (y := asArray (mimoRx n h x₀ σ w)) hsort hqr hn hm hdm hL.le hss hbig hf
  obtain ⟨x', h6, h7⟩ := C68_ml n n (asArray (mimoRx n h x₀ σ w)) h hc
  refine ⟨x, v, by rw [h6, hw x x' h2 h7], h5 hnd hL fun z hz hzx => ?_, h4, h1⟩
  refine lt_of_not_ge fun hle => hzx ?_
  exact hw z x ⟨hz, fun q hq => hle.trans (h2.2 q hq)⟩ h2

end

/-- C148: invertible square channels tell all vectors apart, whatever the constellation. -/
theorem C148_regular {n : Nat} {h : Nat → Nat → ℂ} (hdet : (Matrix.of fun i j : Fin n => h i j).det ≠ 0) (c : List ℂ) : ImagesDiffer n n h c := by
  intro x x' hx hx' he
  have hz := Matrix.eq_zero_of_mulVec_eq_zero hdet (v := fun j : Fin n => x.getD j 0 - x'.getD j 0) (by
    funext i
    have := he i i.2
    rw [sum_range, sum_range, ← sub_eq_zero, ← sum_sub_distrib] at this
    simp only [Matrix.mulVec, dotProduct, Matrix.of_apply, Pi.zero_apply, mul_sub]
    exact this)
  refine List.ext_getElem (by rw [hx.1, hx'.1]) fun j h1 h2 => ?_
  have h3 := congrFun hz ⟨j, by rw [← hx.1]; exact h1⟩
  simp only [Pi.zero_apply] at h3
  rw [List.getD_eq_getElem _ _ h1, List.getD_eq_getElem _ _ h2] at h3
  exact sub_eq_zero.1 h3

/-! ### Instances -/

/-- A channel with two antennas on each side. -/
noncomputable def diagTwo (i j : Nat) : ℂ := if i = j then (i : ℂ) + 1 else 0

theorem diagTwo_differ (c : List ℂ) : ImagesDiffer 2 2 diagTwo c := by
  intro x x' hx hx' h
  have h0 := h 0 (by norm_num)
  have h1 := h 1 (by norm_num)
  simp [sum_range_succ, diagTwo] at h0 h1
  have e1 : (1 : ℂ) + 1 ≠ 0 := by norm_num
  match x, x', hx.1, hx'.1 with
  | [a, b], [a', b'], _, _ => simp_all

theorem diagTwo_qr : IsQR 2 2 diagTwo (fun i j => if i = j then 1 else 0) diagTwo := by
  unfold diagTwo
  constructor
  · intro i hi j hj
    interval_cases i <;> interval_cases j <;> norm_num [sum_range_succ]
  · intro a ha b hb
    interval_cases a <;> interval_cases b <;> norm_num [sum_range_succ]
  · intro i hi j hj
    interval_cases i <;> interval_cases j <;> norm_num

/-- BPSK over that channel: all three detectors agree. -/
example : ∀ᵐ w ∂(Measure.pi fun _ : Fin 2 => noise2), ∃ (x : List ℂ) (v : ℝ),
    mimoMl 2 2 (asArray (mimoRx 2 diagTwo [1, -1] 3 w)) diagTwo [1, -1] = .ok x ∧ 0 < v ∧
    kbest someArgsort (fun h => (fun i j => if i = j then 1 else 0, h)) (fun _ => 7) 2 2 (asArray (mimoRx 2 diagTwo [1, -1] 3 w)) diagTwo [1, -1] 2 1 "hard" (fun _ => []) = .ok (.inl x) ∧
    bestFirst someArgsort (fun h => (fun i j => if i = j then 1 else 0, h)) 2 2 (asArray (mimoRx 2 diagTwo [1, -1] 3 w)) diagTwo [1, -1] [4] bpskBits 5 4 =
      .ok ((bpskBits x).map fun b => (((if b = 0 then v else -v) : ℝ) : EReal)) := by
  have k1 := C148_kbest (argsort := someArgsort) (qr := fun h => (fun i j => if i = j then 1 else 0, h)) (rows := 2) (cols := 2) (K := 2) (h := diagTwo) (c := [1, -1]) (σ := 3) someArgsort_spec
    diagTwo_qr le_rfl (by simp) (by norm_num) (diagTwo_differ _) (by norm_num) [1, -1] (fun _ => 7) 1 (fun _ => [])
  have k2 := C148_best_first (argsort := someArgsort) (qr := fun h => (fun i j => if i = j then 1 else 0, h)) (n := 2) (h := diagTwo) (c := [1, -1]) (σ := 3) (demode := bpskBits) (L := 5) (ss := [4])
    (fuel := 4) someArgsort_spec diagTwo_qr le_rfl le_rfl (by norm_num) bpskBits_ok (by norm_num) le_rfl (by simp) (by simp) (diagTwo_differ _) (by norm_num) [1, -1]
  filter_upwards [k1, k2] with w h1 h2
  obtain ⟨x, a1, a2⟩ := h1
  obtain ⟨x', v, b1, b2, -, b3⟩ := h2
  rw [a2] at b1
  cases b1
  exact ⟨x, v, a2, b2, a1, b3⟩

end Verif
