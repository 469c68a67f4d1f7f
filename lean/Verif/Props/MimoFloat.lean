import Verif.Model.MimoFloat
import Verif.Spec.Rounding
import Verif.Props.Mimo
import Verif.Lemmas.Rounding
import Mathlib.Analysis.InnerProductSpace.PiL2
/-
C147: `mimo_ml` in double precision.
-/
namespace Verif
open Finset

/-- Distance between the received vector and `h x`. -/
noncomputable def mlDist (rows : Nat) (y : Nat → ℂ) (h : Nat → Nat → ℂ) (x : List ℂ) : ℝ := Real.sqrt (sqErr rows y h x)

/-- The size of `h x` when nothing cancels: the norm of the vector with the entries `∑ |h i j| |x j|`. -/
noncomputable def absImage (rows : Nat) (h : Nat → Nat → ℂ) (x : List ℂ) : ℝ :=
  Real.sqrt (∑ i ∈ range rows, (∑ j ∈ range x.length, ‖h i j‖ * ‖x.getD j 0‖) ^ 2)

/-- Accuracy of the operations: the entries of `dot(h, x)` have an error of at most `g` times the sum of the absolute products (for doubles and `n` columns about
`(n + 2) 2^-52`, in whatever order the sum is taken), differences a relative error `u`, norms a relative error `w`. -/
structure MlAccuracy (g u w : ℝ) (D : MlFloats) (h : Nat → Nat → ℂ) (n : Nat) : Prop where
  dot : ∀ x : List ℂ, x.length = n → ∀ i, ‖D.dot h x i - ∑ j ∈ range x.length, h i j * x.getD j 0‖ ≤ g * ∑ j ∈ range x.length, ‖h i j‖ * ‖x.getD j 0‖
  sub : ∀ a b, ‖D.sub a b - (a - b)‖ ≤ u * ‖a - b‖
  norm : ∀ l : List ℂ, |D.norm l - Real.sqrt (l.map fun z => ‖z‖ ^ 2).sum| ≤ w * Real.sqrt (l.map fun z => ‖z‖ ^ 2).sum

/-! ### The norm -/

/-- Norm of the first `n` entries. -/
noncomputable def nrm (n : Nat) (v : Nat → ℂ) : ℝ := Real.sqrt (∑ i ∈ range n, ‖v i‖ ^ 2)

theorem nrm_eq (n : Nat) (v : Nat → ℂ) : nrm n v = ‖(WithLp.toLp 2 (fun i : Fin n => v i) : EuclideanSpace ℂ (Fin n))‖ := by
  rw [EuclideanSpace.norm_eq, nrm, sum_range]

theorem nrm_add_le (n : Nat) (a b : Nat → ℂ) : nrm n (fun i => a i + b i) ≤ nrm n a + nrm n b := by
  rw [nrm_eq, nrm_eq, nrm_eq]
  exact norm_add_le (WithLp.toLp 2 (fun i : Fin n => a i) : EuclideanSpace ℂ (Fin n)) (WithLp.toLp 2 fun i : Fin n => b i)

theorem nrm_le_of {n : Nat} {a : Nat → ℂ} {b : Nat → ℝ} {t : ℝ} (ht : 0 ≤ t) (h : ∀ i < n, ‖a i‖ ≤ t * b i) :
    nrm n a ≤ t * Real.sqrt (∑ i ∈ range n, b i ^ 2) := by
  unfold nrm
  rw [← Real.sqrt_sq ht, ← Real.sqrt_mul (by positivity), mul_sum]
  refine Real.sqrt_le_sqrt (sum_le_sum fun i hi => ?_)
  rw [← mul_pow]
  exact pow_le_pow_left₀ (norm_nonneg _) (h i (mem_range.1 hi)) 2

theorem mlDist_eq (rows : Nat) (y : Nat → ℂ) (h : Nat → Nat → ℂ) (x : List ℂ) : mlDist rows y h x = nrm rows fun i => y i - ∑ j ∈ range x.length, h i j * x.getD j 0 := rfl

theorem mlDist_nonneg (rows : Nat) (y : Nat → ℂ) (h : Nat → Nat → ℂ) (x : List ℂ) : 0 ≤ mlDist rows y h x := Real.sqrt_nonneg _

section
variable {g u w : ℝ} {D : MlFloats} {rows n : Nat} {y : Nat → ℂ} {h : Nat → Nat → ℂ} {c : List ℂ}

/-- The computed distance of a column. -/
theorem residualF_bounds (hD : MlAccuracy g u w D h n) (hg : 0 ≤ g) (hu : 0 ≤ u) (hw : 0 ≤ w) (hu1 : u ≤ 1) (hw1 : w ≤ 1) {x : List ℂ} (hx : x.length = n) :
    (1 - w) * (1 - u) * (mlDist rows y h x - g * absImage rows h x) ≤ residualF D rows y h x ∧
      residualF D rows y h x ≤ (1 + w) * (1 + u) * (mlDist rows y h x + g * absImage rows h x) := by
  set r := mlDist rows y h x with hr
  set e := g * absImage rows h x with he
  set s : Nat → ℂ := fun i => ∑ j ∈ range x.length, h i j * x.getD j 0 with hs
  set s' : Nat → ℂ := fun i => D.dot h x i with hs'
  set A := nrm rows (fun i => y i - s' i) with hA
  set B := nrm rows (fun i => D.sub (y i) (s' i)) with hB
  have hds : nrm rows (fun i => s' i - s i) ≤ e := nrm_le_of hg fun i _ => hD.dot x hx i
  have hds' : nrm rows (fun i => s i - s' i) ≤ e := by
    refine le_trans (le_of_eq ?_) hds
    unfold nrm
    simp only [norm_sub_rev (s _) (s' _)]
  have a1 : A ≤ r + e := by
    have h1 := nrm_add_le rows (fun i => y i - s i) (fun i => s i - s' i)
    simp only [sub_add_sub_cancel] at h1
    rw [← hA] at h1
    have h2 : nrm rows (fun i => y i - s i) = r := (mlDist_eq rows y h x).symm
    linarith
  have a2 : r - e ≤ A := by
    have h1 := nrm_add_le rows (fun i => y i - s' i) (fun i => s' i - s i)
    simp only [sub_add_sub_cancel] at h1
    have h2 : nrm rows (fun i => y i - s i) = r := (mlDist_eq rows y h x).symm
    rw [h2] at h1
    linarith
  have hA0 : 0 ≤ A := Real.sqrt_nonneg _
  have hB0 : 0 ≤ B := Real.sqrt_nonneg _
  have hdB : nrm rows (fun i => D.sub (y i) (s' i) - (y i - s' i)) ≤ u * A := nrm_le_of hu fun i _ => hD.sub (y i) (s' i)
  have hdB' : nrm rows (fun i => (y i - s' i) - D.sub (y i) (s' i)) ≤ u * A := by
    refine le_trans (le_of_eq ?_) hdB
    unfold nrm
    simp only [norm_sub_rev (y _ - s' _)]
  have b1 : B ≤ (1 + u) * A := by
    have h1 := nrm_add_le rows (fun i => D.sub (y i) (s' i) - (y i - s' i)) (fun i => y i - s' i)
    simp only [sub_add_cancel] at h1
    rw [← hB, ← hA] at h1
    linarith
  have b2 : (1 - u) * A ≤ B := by
    have h1 := nrm_add_le rows (fun i => (y i - s' i) - D.sub (y i) (s' i)) (fun i => D.sub (y i) (s' i))
    simp only [sub_add_cancel] at h1
    rw [← hB, ← hA] at h1
    linarith
  have hc : |residualF D rows y h x - B| ≤ w * B := by
    have h1 := hD.norm ((List.range rows).map fun i => D.sub (y i) (D.dot h x i))
    rw [List.map_map, list_sum_finset] at h1
    exact h1
  obtain ⟨c1, c2⟩ := abs_le.1 hc
  constructor
  · calc (1 - w) * (1 - u) * (r - e) ≤ (1 - w) * (1 - u) * A := mul_le_mul_of_nonneg_left a2 (mul_nonneg (by linarith) (by linarith))
      _ = (1 - w) * ((1 - u) * A) := by ring
      _ ≤ (1 - w) * B := mul_le_mul_of_nonneg_left b2 (by linarith)
      _ ≤ _ := by linarith
  · calc residualF D rows y h x ≤ (1 + w) * B := by linarith
      _ ≤ (1 + w) * ((1 + u) * A) := mul_le_mul_of_nonneg_left b1 (by linarith)
      _ = (1 + w) * (1 + u) * A := by ring
      _ ≤ _ := mul_le_mul_of_nonneg_left a1 (mul_nonneg (by linarith) (by linarith))

/-- What the comparisons of the code achieve. -/
theorem mimoMlF_spec (D : MlFloats) (rows n : Nat) (y : Nat → ℂ) (h : Nat → Nat → ℂ) (hc : c ≠ []) :
    ∃ x, mimoMlF D rows n y h c = .ok x ∧ IsVector c n x ∧ ∀ x', IsVector c n x' → residualF D rows y h x ≤ residualF D rows y h x' := by
  have hpos : 0 < c.length := List.length_pos_iff.2 hc
  set column : Nat → List ℂ := fun j => (List.range n).map fun i => (idealRow c n i).getD j 0 with hcol
  set norms := (List.range (c.length ^ n)).map fun j => residualF D rows y h (column j) with hnorms
  have hne : norms ≠ [] := by
    rw [← List.length_pos_iff, hnorms, List.length_map, List.length_range]; exact Nat.pow_pos hpos
  obtain ⟨h1, h2⟩ := argminFirst_spec norms hne
  have h1' : argminFirst norms < c.length ^ n := by simpa [hnorms] using h1
  refine ⟨column (argminFirst norms), ?_, ⟨by simp [hcol], ?_⟩, ?_⟩
  · unfold mimoMlF
    simp only []
    rw [if_neg hne]
  · intro z hz
    obtain ⟨i, hi, rfl⟩ := List.mem_map.1 hz
    rw [idealRow_getD (List.mem_range.1 hi) h1', List.getD_eq_getElem _ _ (Nat.mod_lt _ hpos)]
    exact List.getElem_mem _
  · intro x' hx'
    obtain ⟨j, hj, hd⟩ := exists_column hx'
    have e : column j = x' := by
      apply List.ext_getElem (by simp [hcol, hx'.1])
      intro i h3 h4
      have hi : i < n := by simpa [hcol] using h3
      simp only [hcol, List.getElem_map, List.getElem_range]
      rw [idealRow_getD hi hj, hd i hi, List.getD_eq_getElem _ _ h4]
    have h5 := h2 (residualF D rows y h (column j)) (List.mem_map.2 ⟨j, List.mem_range.2 hj, rfl⟩)
    have h6 : norms[argminFirst norms] = residualF D rows y h (column (argminFirst norms)) := by
      simp only [hnorms, List.getElem_map, List.getElem_range]
    rwa [h6, e] at h5

/-! ### C147 -/

/-- C147: the distance of the returned vector exceeds the smallest one at most by the factor `(1 + w) (1 + u) / ((1 - w) (1 - u))` and by `g` times the sizes of the
images (which is all that is lost by rounding `h x`). -/
theorem C147_nearest (hD : MlAccuracy g u w D h n) (hg : 0 ≤ g) (hu : 0 ≤ u) (hw : 0 ≤ w) (hu1 : u < 1) (hw1 : w < 1) (hc : c ≠ []) (rows : Nat) (y : Nat → ℂ) :
    ∃ x, mimoMlF D rows n y h c = .ok x ∧ IsVector c n x ∧ ∀ x', IsVector c n x' →
      mlDist rows y h x ≤ (1 + w) * (1 + u) / ((1 - w) * (1 - u)) * (mlDist rows y h x' + g * absImage rows h x') + g * absImage rows h x := by
  obtain ⟨x, h1, h2, h3⟩ := mimoMlF_spec D rows n y h hc
  refine ⟨x, h1, h2, fun x' hx' => ?_⟩
  have hp : 0 < (1 - w) * (1 - u) := mul_pos (by linarith) (by linarith)
  have h4 := ((residualF_bounds hD hg hu hw hu1.le hw1.le h2.1).1.trans (h3 x' hx')).trans (residualF_bounds hD hg hu hw hu1.le hw1.le hx'.1).2
  rw [← sub_le_iff_le_add, div_mul_eq_mul_div, le_div_iff₀ hp]
  linarith

/-- C147, the same decision: a vector that wins by more than these errors is what both the rounded and the exact computation return. -/
theorem C147_margin (hD : MlAccuracy g u w D h n) (hg : 0 ≤ g) (hu : 0 ≤ u) (hw : 0 ≤ w) (hu1 : u < 1) (hw1 : w < 1) {x : List ℂ} (hx : IsVector c n x) (hc : c ≠ [])
    (hwin : ∀ x', IsVector c n x' → x' ≠ x →
      (1 + w) * (1 + u) / ((1 - w) * (1 - u)) * (mlDist rows y h x + g * absImage rows h x) + g * absImage rows h x' < mlDist rows y h x') :
    mimoMlF D rows n y h c = .ok x ∧ mimoMl rows n y h c = .ok x := by
  have hp : 0 < (1 - w) * (1 - u) := mul_pos (by linarith) (by linarith)
  have hρ : 1 ≤ (1 + w) * (1 + u) / ((1 - w) * (1 - u)) := by
    rw [le_div_iff₀ hp]
    nlinarith [mul_nonneg hu hw]
  have hab : ∀ x, 0 ≤ g * absImage rows h x := fun x => mul_nonneg hg (Real.sqrt_nonneg _)
  constructor
  · obtain ⟨z, h1, h2, h3⟩ := C147_nearest hD hg hu hw hu1 hw1 hc rows y
    by_cases hz : z = x
    · rw [h1, hz]
    · exact absurd (h3 x hx) (not_le.2 (hwin z h2 hz))
  · obtain ⟨z, h1, h2, h3⟩ := C68_ml rows n y h hc
    by_cases hz : z = x
    · rw [h1, hz]
    · have h4 := hwin z h2 hz
      have h5 : mlDist rows y h z ≤ mlDist rows y h x := Real.sqrt_le_sqrt (h3 x hx)
      have h6 := mul_le_mul_of_nonneg_right hρ (add_nonneg (mlDist_nonneg rows y h x) (hab x))
      have := hab x
      have := hab z
      linarith

/-- C147, noise margin: `x` is sent and received with noise of norm `r`; if the image of every other vector is farther away than `(ρ + 1) r` and the rounding errors,
`x` is returned (exact arithmetic: `2 r`). -/
theorem C147_noise (hD : MlAccuracy g u w D h n) (hg : 0 ≤ g) (hu : 0 ≤ u) (hw : 0 ≤ w) (hu1 : u < 1) (hw1 : w < 1) {x : List ℂ} (hx : IsVector c n x) (hc : c ≠ []) {r : ℝ}
    (hr : mlDist rows y h x ≤ r)
    (hsep : ∀ x', IsVector c n x' → x' ≠ x →
      (1 + w) * (1 + u) / ((1 - w) * (1 - u)) * (r + g * absImage rows h x) + g * absImage rows h x' + r <
        mlDist rows (fun i => ∑ j ∈ range x.length, h i j * x.getD j 0) h x') :
    mimoMlF D rows n y h c = .ok x := by
  have hp : 0 < (1 - w) * (1 - u) := mul_pos (by linarith) (by linarith)
  refine (C147_margin (rows := rows) (y := y) hD hg hu hw hu1 hw1 hx hc fun x' hx' hne => ?_).1
  have h1 := hsep x' hx' hne
  have h2 : mlDist rows (fun i => ∑ j ∈ range x.length, h i j * x.getD j 0) h x' ≤ mlDist rows y h x + mlDist rows y h x' := by
    have h3 := nrm_add_le rows (fun i => ∑ j ∈ range x.length, h i j * x.getD j 0 - y i) (fun i => y i - ∑ j ∈ range x'.length, h i j * x'.getD j 0)
    simp only [sub_add_sub_cancel] at h3
    refine h3.trans (le_of_eq ?_)
    congr 1
    rw [mlDist_eq]
    unfold nrm
    simp only [norm_sub_rev (y _)]
  have h4 : (1 + w) * (1 + u) / ((1 - w) * (1 - u)) * (mlDist rows y h x + g * absImage rows h x) ≤
      (1 + w) * (1 + u) / ((1 - w) * (1 - u)) * (r + g * absImage rows h x) :=
    mul_le_mul_of_nonneg_left (by linarith) (div_nonneg (mul_nonneg (by linarith) (by linarith)) hp.le)
  linarith

end

/-! ### The contract -/

/-- `dot` as a loop with complex sums and products of relative error `u` (started at 0, where adding is exact or not) meets the contract with
`g = (1 + u)^(n + 1) - 1`. -/
theorem C147_dot {add mul : ℂ → ℂ → ℂ} {u : ℝ} (hu : 0 ≤ u) (hadd : ∀ a b, ‖add a b - (a + b)‖ ≤ u * ‖a + b‖) (hmul : ∀ a b, ‖mul a b - a * b‖ ≤ u * ‖a * b‖)
    (h : Nat → Nat → ℂ) (x : List ℂ) (i : Nat) :
    ‖dotLoop add mul h x i - ∑ j ∈ range x.length, h i j * x.getD j 0‖ ≤ ((1 + u) ^ (x.length + 1) - 1) * ∑ j ∈ range x.length, ‖h i j‖ * ‖x.getD j 0‖ := by
  unfold dotLoop
  generalize x.length = N
  induction N with
  | zero => simp
  | succ k ih =>
    rw [List.range_succ, List.foldl_append, List.foldl_cons, List.foldl_nil, sum_range_succ, sum_range_succ]
    set a := (List.range k).foldl (fun acc j => add acc (mul (h i j) (x.getD j 0))) 0 with ha
    set s := ∑ j ∈ range k, h i j * x.getD j 0 with hs
    set T := ∑ j ∈ range k, ‖h i j‖ * ‖x.getD j 0‖ with hT
    set p := h i k * x.getD k 0 with hp
    have hpn : ‖h i k‖ * ‖x.getD k 0‖ = ‖p‖ := (norm_mul _ _).symm
    rw [hpn]
    have hsT : ‖s‖ ≤ T := (norm_sum_le _ _).trans (le_of_eq (sum_congr rfl fun j _ => norm_mul _ _))
    have hm := hmul (h i k) (x.getD k 0)
    rw [← hp] at hm
    set q := mul (h i k) (x.getD k 0) with hq
    have h1 : ‖(a + q) - (s + p)‖ ≤ ((1 + u) ^ (k + 1) - 1) * T + u * ‖p‖ := by
      rw [add_sub_add_comm]
      exact (norm_add_le _ _).trans (add_le_add ih hm)
    have h2 : ‖a + q‖ ≤ ‖s + p‖ + (((1 + u) ^ (k + 1) - 1) * T + u * ‖p‖) := by
      have := norm_add_le (s + p) ((a + q) - (s + p))
      rw [add_sub_cancel] at this
      linarith
    have h3 : ‖s + p‖ ≤ T + ‖p‖ := (norm_add_le _ _).trans (by linarith)
    have h4 : ‖add a q - (s + p)‖ ≤ u * ‖a + q‖ + ‖(a + q) - (s + p)‖ := by
      have := norm_add_le (add a q - (a + q)) ((a + q) - (s + p))
      rw [sub_add_sub_cancel] at this
      exact this.trans (add_le_add (hadd a q) le_rfl)
    have h5 := mul_le_mul_of_nonneg_left (h2.trans (add_le_add h3 le_rfl)) hu
    have hp0 : 0 ≤ ‖p‖ := norm_nonneg _
    have hpw : (1 + u) ^ 2 ≤ (1 + u) ^ (k + 2) := pow_le_pow_right₀ (by linarith) (by omega)
    have h6 := mul_le_mul_of_nonneg_right hpw hp0
    rw [show k + 1 + 1 = k + 2 by rfl]
    have e : (1 + u) ^ (k + 2) = (1 + u) ^ (k + 1) * (1 + u) := pow_succ _ _
    rw [e] at h6 ⊢
    nlinarith

/-- Rounding both components. -/
noncomputable def cround (fl : ℝ → ℝ) (z : ℂ) : ℂ := ⟨fl z.re, fl z.im⟩

theorem cround_err {u : ℝ} {fl : ℝ → ℝ} (hu : 0 ≤ u) (h : IsRounding u fl) (z : ℂ) : ‖cround fl z - z‖ ≤ u * ‖z‖ := by
  rw [← abs_of_nonneg (mul_nonneg hu (norm_nonneg z)), ← abs_of_nonneg (norm_nonneg (cround fl z - z))]
  refine sq_le_sq.1 ?_
  rw [mul_pow, ← Complex.normSq_eq_norm_sq, ← Complex.normSq_eq_norm_sq, Complex.normSq_apply, Complex.normSq_apply]
  have e1 := pow_le_pow_left₀ (abs_nonneg _) (h.err z.re) 2
  have e2 := pow_le_pow_left₀ (abs_nonneg _) (h.err z.im) 2
  rw [mul_pow, sq_abs, sq_abs] at e1 e2
  simp only [cround, Complex.sub_re, Complex.sub_im]
  nlinarith

/-- Operations whose results are rounded once. -/
noncomputable def roundedMl (fl : ℝ → ℝ) : MlFloats where
  dot := dotLoop (fun a b => cround fl (a + b)) fun a b => cround fl (a * b)
  sub a b := cround fl (a - b)
  norm l := fl (Real.sqrt (l.map fun z => ‖z‖ ^ 2).sum)

/-- C147: operations that round every result once meet the contract. -/
theorem C147_contract {u : ℝ} {fl : ℝ → ℝ} (hu : 0 ≤ u) (hf : IsRounding u fl) (h : Nat → Nat → ℂ) (n : Nat) :
    MlAccuracy ((1 + u) ^ (n + 1) - 1) u u (roundedMl fl) h n := by
  refine ⟨fun x hx i => ?_, fun a b => cround_err hu hf _, fun l => ?_⟩
  · rw [← hx]
    exact C147_dot hu (fun a b => cround_err hu hf _) (fun a b => cround_err hu hf _) h x i
  · have := hf.err (Real.sqrt (l.map fun z => ‖z‖ ^ 2).sum)
    rwa [abs_of_nonneg (Real.sqrt_nonneg _)] at this

theorem growth_le {u : ℝ} (hu : 0 ≤ u) : ∀ m : Nat, 2 * m * u ≤ 1 → (1 + u) ^ m ≤ 1 + 2 * m * u := by
  intro m
  induction m with
  | zero => simp
  | succ m ih =>
    intro h
    push_cast at h ⊢
    have h1 := ih (by nlinarith)
    rw [pow_succ]
    have h2 := mul_le_mul_of_nonneg_right h1 (show 0 ≤ 1 + u by linarith)
    have h3 : 2 * (m : ℝ) * u * u ≤ 1 * u := mul_le_mul_of_nonneg_right (by nlinarith) hu
    nlinarith

/-- C147 for doubles and up to `2^20` transmit antennas, every operation rounded to 53 bits: the returned vector is nearest up to a factor `1 + 2^-50` and
`(n + 1) 2^-52` times the sizes of the images. -/
theorem C147_double {rows n : Nat} (hn : n < 2 ^ 20) (y : Nat → ℂ) (h : Nat → Nat → ℂ) {c : List ℂ} (hc : c ≠ []) :
    ∃ x, mimoMlF (roundedMl rnd53) rows n y h c = .ok x ∧ IsVector c n x ∧ ∀ x', IsVector c n x' →
      mlDist rows y h x ≤ (1 + 1 / 2 ^ 50) * (mlDist rows y h x' + (n + 1) / 2 ^ 52 * absImage rows h x') + (n + 1) / 2 ^ 52 * absImage rows h x := by
  have hu : (2 : ℝ) ^ (-53 : ℤ) = 1 / 2 ^ 53 := by rw [zpow_neg]; norm_num
  have hnR : (n : ℝ) + 1 ≤ 2 ^ 20 := by exact_mod_cast hn
  have hR := rnd53_isRounding
  rw [hu] at hR
  set u : ℝ := 1 / 2 ^ 53 with hud
  have hu0 : 0 ≤ u := by positivity
  have hg : (1 + u) ^ (n + 1) - 1 ≤ (n + 1) / 2 ^ 52 := by
    have := growth_le hu0 (n + 1) (by push_cast; rw [hud]; nlinarith)
    push_cast at this
    have e : 2 * ((n : ℝ) + 1) * u = (n + 1) / 2 ^ 52 := by rw [hud]; ring
    rw [e] at this
    exact (sub_le_sub_right this 1).trans (by rw [add_sub_cancel_left])
  have hg0 : 0 ≤ (1 + u) ^ (n + 1) - 1 := by linarith [one_le_pow₀ (show 1 ≤ 1 + u by linarith) (n := n + 1)]
  have hu1 : u < 1 := by rw [hud]; norm_num
  obtain ⟨x, h1, h2, h3⟩ := C147_nearest (C147_contract hu0 hR h n) hg0 hu0 hu0 hu1 hu1 hc rows y
  refine ⟨x, h1, h2, fun x' hx' => (h3 x' hx').trans ?_⟩
  have hρ : (1 + u) * (1 + u) / ((1 - u) * (1 - u)) ≤ 1 + 1 / 2 ^ 50 := by
    rw [hud, div_le_iff₀ (by norm_num)]
    norm_num
  have a0 : 0 ≤ absImage rows h x := Real.sqrt_nonneg _
  have a1 : 0 ≤ absImage rows h x' := Real.sqrt_nonneg _
  have b1 := mul_le_mul_of_nonneg_right hg a0
  have b2 := mul_le_mul_of_nonneg_right hg a1
  have d := mlDist_nonneg rows y h x'
  have b3 : (1 + u) * (1 + u) / ((1 - u) * (1 - u)) * (mlDist rows y h x' + ((1 + u) ^ (n + 1) - 1) * absImage rows h x') ≤
      (1 + 1 / 2 ^ 50) * (mlDist rows y h x' + (n + 1) / 2 ^ 52 * absImage rows h x') :=
    mul_le_mul hρ (by linarith) (add_nonneg d (mul_nonneg hg0 a1)) (by positivity)
  linarith

/-! ### Instances -/

/-- BPSK over the channel `[[1, 1/2], [1/2, 1]]`: with doubles `[1, 1]` is decided whatever the noise, as long as its norm is at most 1. -/
example (y : Nat → ℂ) (h : Nat → Nat → ℂ) (h00 : h 0 0 = 1) (h01 : h 0 1 = 1 / 2) (h10 : h 1 0 = 1 / 2) (h11 : h 1 1 = 1) (hy : mlDist 2 y h [1, 1] ≤ 1) :
    mimoMlF (roundedMl rnd53) 2 2 y h [1, -1] = .ok [1, 1] := by
  have hu : (2 : ℝ) ^ (-53 : ℤ) = 1 / 2 ^ 53 := by rw [zpow_neg]; norm_num
  have hR := rnd53_isRounding
  rw [hu] at hR
  have hu0 : (0 : ℝ) ≤ 1 / 2 ^ 53 := by positivity
  have hu1 : (1 : ℝ) / 2 ^ 53 < 1 := by norm_num
  have hg0 : (0 : ℝ) ≤ (1 + 1 / 2 ^ 53) ^ (2 + 1) - 1 := by norm_num
  refine C147_noise (C147_contract hu0 hR h 2) hg0 hu0 hu0 hu1 hu1 ⟨rfl, by simp⟩ (by simp) hy fun x' hx' hne => ?_
  have hcases : x' = [1, -1] ∨ x' = [-1, 1] ∨ x' = [-1, -1] := by
    obtain ⟨hl, hm⟩ := hx'
    match x', hl with
    | [a, b], _ =>
      have ha := hm a (by simp)
      have hb := hm b (by simp)
      simp only [List.mem_cons, List.not_mem_nil, or_false] at ha hb
      rcases ha with rfl | rfl <;> rcases hb with rfl | rfl <;> simp_all
  have habs : ∀ z : List ℂ, z.length = 2 → ‖z.getD 0 0‖ = 1 → ‖z.getD 1 0‖ = 1 → absImage 2 h z ≤ 3 := by
    intro z hz h1 h2
    unfold absImage
    rw [hz]
    simp only [sum_range_succ, sum_range_zero, h00, h01, h10, h11, h1, h2, zero_add]
    rw [Real.sqrt_le_left (by norm_num)]
    norm_num
  have a1 := habs [1, 1] rfl (by simp) (by simp)
  have a2 : absImage 2 h x' ≤ 3 := by
    rcases hcases with rfl | rfl | rfl <;> exact habs _ rfl (by simp) (by simp)
  have hbig : (2 : ℝ) + 1 / 10 ≤ mlDist 2 (fun i => ∑ j ∈ range ([1, 1] : List ℂ).length, h i j * ([1, 1] : List ℂ).getD j 0) h x' := by
    unfold mlDist sqErr
    refine Real.le_sqrt_of_sq_le ?_
    rcases hcases with rfl | rfl | rfl <;>
      simp [sum_range_succ, h00, h01, h10, h11] <;> norm_num
  have hlow : (1 + 1 / 2 ^ 53 : ℝ) * (1 + 1 / 2 ^ 53) / ((1 - 1 / 2 ^ 53) * (1 - 1 / 2 ^ 53)) ≤ 1 + 1 / 1000 := by
    rw [div_le_iff₀ (by norm_num)]
    norm_num
  have hgs : (1 + 1 / 2 ^ 53 : ℝ) ^ (2 + 1) - 1 ≤ 1 / 1000 := by norm_num
  have b1 := mul_le_mul hgs a1 (Real.sqrt_nonneg _) (by norm_num)
  have b2 := mul_le_mul hgs a2 (Real.sqrt_nonneg _) (by norm_num)
  have b0 : 0 ≤ ((1 + 1 / 2 ^ 53 : ℝ) ^ (2 + 1) - 1) * absImage 2 h [1, 1] := mul_nonneg hg0 (Real.sqrt_nonneg _)
  have b3 := mul_le_mul hlow (show 1 + ((1 + 1 / 2 ^ 53 : ℝ) ^ (2 + 1) - 1) * absImage 2 h [1, 1] ≤ 1 + 1 / 1000 * 3 by linarith) (by linarith) (by norm_num)
  have b4 : (1 + 1 / 1000 : ℝ) * (1 + 1 / 1000 * 3) + 1 / 1000 * 3 + 1 < 2 + 1 / 10 := by norm_num
  linarith

end Verif
