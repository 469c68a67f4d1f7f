import Verif.Lemmas.Rayleigh
import Verif.Lemmas.MimoFade
import Mathlib.MeasureTheory.Integral.Gamma
/-
Mean of the Q function over a sum of squared moduli (reception with several antennas).
-/
namespace Verif
open MeasureTheory ProbabilityTheory

section
variable {Ω : Type*} [MeasurableSpace Ω] {P : Measure Ω}

/-- Sum over `T` of squared moduli of independent complex normal variables. -/
theorem erlang_cdf {ι : Type*} [DecidableEq ι] {V : ℝ} (hV : 0 < V) {X : ι × Bool → Ω → ℝ} (hi : iIndepFun X P) (hl : ∀ p, HasLaw (X p) (gaussianReal 0 V.toNNReal) P)
    (T : Finset ι) : ∀ t : ℝ, 0 < t → P.real {ω | ∑ i ∈ T, (X (i, false) ω ^ 2 + X (i, true) ω ^ 2) < t} = erlang V T.card t := by
  have hP := hi.isProbabilityMeasure
  induction T using Finset.induction_on with
  | empty => intro t ht; simp [erlang, ht]
  | insert j T hj ih =>
    intro t ht
    have hpos : ∀ s, 0 < s → 0 ≤ erlang V T.card s := fun s hs => by rw [← ih s hs]; exact measureReal_nonneg
    set S : Ω → ℝ := fun ω => ∑ i ∈ T, (X (i, false) ω ^ 2 + X (i, true) ω ^ 2) with hS
    have hSm : AEMeasurable S P := by
      rw [hS]
      refine Finset.aemeasurable_fun_sum _ fun i _ => ?_
      exact ((hl _).aemeasurable.pow_const 2).add ((hl _).aemeasurable.pow_const 2)
    have hS0 : ∀ ω, 0 ≤ S ω := fun ω => Finset.sum_nonneg fun i _ => by positivity
    have hNm : AEMeasurable (fun ω => (X (j, false) ω, X (j, true) ω)) P := (hl _).aemeasurable.prodMk (hl _).aemeasurable
    have hind : IndepFun (fun ω => (X (j, false) ω, X (j, true) ω)) S P := by
      have h := hi.indepFun_finset₀ ({j} ×ˢ Finset.univ) (T ×ˢ Finset.univ) (by
        rw [Finset.disjoint_left]
        rintro ⟨a, b⟩ h1 h2
        simp only [Finset.mem_product, Finset.mem_singleton, Finset.mem_univ, and_true] at h1 h2
        exact hj (h1 ▸ h2)) (fun p => (hl p).aemeasurable)
      let φ : ((({j} ×ˢ Finset.univ : Finset (ι × Bool))) → ℝ) → ℝ × ℝ := fun v => (v ⟨(j, false), by simp⟩, v ⟨(j, true), by simp⟩)
      let ψ : (((T ×ˢ Finset.univ : Finset (ι × Bool))) → ℝ) → ℝ := fun v => ∑ i : T, (v ⟨(i.1, false), by simp⟩ ^ 2 + v ⟨(i.1, true), by simp⟩ ^ 2)
      have h2 := h.comp (φ := φ) (ψ := ψ) (by fun_prop) (by fun_prop)
      have e : S = (ψ ∘ fun ω p => X p.1 ω) := by
        funext ω
        simp only [hS, ψ, Function.comp]
        rw [← Finset.sum_attach]
        rfl
      rw [e]
      exact h2
    have hA : MeasurableSet {q : (ℝ × ℝ) × ℝ | q.2 + (q.1.1 ^ 2 + q.1.2 ^ 2) < t} := measurableSet_lt (by fun_prop) (by fun_prop)
    have hc := cond_prob hNm hSm hind hA
    have hset : {ω | ∑ i ∈ insert j T, (X (i, false) ω ^ 2 + X (i, true) ω ^ 2) < t} = {ω | ((X (j, false) ω, X (j, true) ω), S ω) ∈ {q : (ℝ × ℝ) × ℝ | q.2 + (q.1.1 ^ 2 + q.1.2 ^ 2) < t}} := by
      ext ω
      simp only [Set.mem_ofPred_eq]
      rw [Finset.sum_insert hj, add_comm]
    let f : ℝ → ENNReal := fun u => P {ω | S ω + u < t}
    have hf : Measurable f := by
      have : Antitone f := fun u v huv => measure_mono fun ω (hω : S ω + v < t) => (by linarith : S ω + u < t)
      exact this.measurable
    have hlaw : P.map (fun ω => (X (j, false) ω, X (j, true) ω)) = (gaussianReal 0 V.toNNReal).prod (gaussianReal 0 V.toNNReal) := by
      have h := (indepFun_iff_map_prod_eq_prod_map_map (hl (j, false)).aemeasurable (hl (j, true)).aemeasurable).1 (hi.indepFun (by simp))
      rw [h, (hl _).map_eq, (hl _).map_eq]
    have hfu : ∀ u, f u = if u < t then ENNReal.ofReal (erlang V T.card (t - u)) else 0 := by
      intro u
      by_cases hu : u < t
      · rw [if_pos hu, ← ih (t - u) (by linarith), ofReal_measureReal]
        refine congrArg P (Set.ext fun ω => ?_)
        simp only [Set.mem_ofPred_eq]
        constructor <;> intro h <;> linarith
      · rw [if_neg hu]
        refine measure_mono_null (t := ∅) (fun ω hω => ?_) measure_empty
        have h1 := hS0 ω
        have h2 : S ω + u < t := hω
        exact absurd h2 (by linarith)
    have hstep : P {ω | ∑ i ∈ insert j T, (X (i, false) ω ^ 2 + X (i, true) ω ^ 2) < t} = ENNReal.ofReal (erlang V (T.card + 1) t) := by
      rw [hset, hc]
      have e1 : ∫⁻ ω, P {ω' | ((X (j, false) ω, X (j, true) ω), S ω') ∈ {q : (ℝ × ℝ) × ℝ | q.2 + (q.1.1 ^ 2 + q.1.2 ^ 2) < t}} ∂P =
          ∫⁻ p, f (p.1 ^ 2 + p.2 ^ 2) ∂(P.map (fun ω => (X (j, false) ω, X (j, true) ω))) := by
        rw [lintegral_map' (by fun_prop) hNm]
        rfl
      rw [e1, hlaw, radius_lintegral hV hf, ← erlang_step hV _ ht, intervalIntegral.integral_of_le (Real.sqrt_nonneg t), integral_Ioc_eq_integral_Ioo,
        ofReal_integral_eq_lintegral_ofReal]
      · have hsub : Set.Ioo 0 (Real.sqrt t) ⊆ Set.Ioi 0 := fun r hr => hr.1
        have hsplit : ∀ r ∈ Set.Ioi (0 : ℝ), ENNReal.ofReal (r / V * Real.exp (-(r ^ 2 / (2 * V)))) * f (r ^ 2) =
            (Set.Ioo 0 (Real.sqrt t)).indicator (fun r => ENNReal.ofReal (r / V * Real.exp (-(r ^ 2 / (2 * V))) * erlang V T.card (t - r ^ 2))) r := by
          intro r hr
          have hr0 : 0 < r := hr
          by_cases hrt : r < Real.sqrt t
          · rw [Set.indicator_of_mem (show r ∈ Set.Ioo 0 (Real.sqrt t) from ⟨hr0, hrt⟩), hfu, if_pos ((Real.lt_sqrt hr0.le).1 hrt), ← ENNReal.ofReal_mul (by positivity)]
          · rw [Set.indicator_of_notMem (fun h : r ∈ Set.Ioo 0 (Real.sqrt t) => hrt h.2), hfu, if_neg (fun h => hrt ((Real.lt_sqrt hr0.le).2 h)), mul_zero]
        rw [setLIntegral_congr_fun measurableSet_Ioi hsplit, setLIntegral_indicator measurableSet_Ioo, Set.inter_eq_self_of_subset_left hsub]
      · refine (Continuous.integrableOn_Icc ?_).mono_set Set.Ioo_subset_Icc_self
        unfold erlang
        fun_prop
      · refine (ae_restrict_iff' measurableSet_Ioo).2 (Filter.Eventually.of_forall fun r hr => ?_)
        have h1 := hr.1
        have := hpos (t - r ^ 2) (by have := (Real.lt_sqrt hr.1.le).1 hr.2; linarith)
        positivity
    rw [Finset.card_insert_of_notMem hj]
    have hnn : 0 ≤ erlang V (T.card + 1) t := by
      rw [← erlang_step hV _ ht]
      refine intervalIntegral.integral_nonneg (Real.sqrt_nonneg t) fun r hr => ?_
      rcases lt_or_eq_of_le hr.2 with h1 | h1
      · have := hpos (t - r ^ 2) (by have := (Real.lt_sqrt hr.1).1 h1; linarith)
        have := hr.1
        positivity
      · rw [h1, Real.sq_sqrt ht.le, sub_self]
        have h0 : erlang V T.card 0 = if T.card = 0 then 1 else 0 := by
          unfold erlang
          rcases hT : T.card with _ | m
          · simp
          · rw [Finset.sum_range_succ']; simp
        rw [h0]
        split <;> positivity
    rw [measureReal_def, hstep, ENNReal.toReal_ofReal hnn]

end

theorem odd_factorial (k : ℕ) : (((2 * k - 1 : ℕ).doubleFactorial : ℕ) : ℝ) / k.factorial = (Nat.centralBinom k : ℝ) / 2 ^ k := by
  have h : (2 * k - 1).doubleFactorial * (2 ^ k * k.factorial) = (2 * k).factorial := by
    cases k with
    | zero => rfl
    | succ n =>
      rw [← Nat.doubleFactorial_two_mul, show 2 * (n + 1) - 1 = 2 * n + 1 by omega, show 2 * (n + 1) = (2 * n + 1) + 1 by ring, Nat.factorial_eq_mul_doubleFactorial]
      ring
  have h2 : Nat.centralBinom k * (k.factorial * k.factorial) = (2 * k).factorial := by
    have := Nat.choose_mul_factorial_mul_factorial (show k ≤ 2 * k by omega)
    rw [show 2 * k - k = k by omega] at this
    rw [Nat.centralBinom_eq_two_mul_choose, ← mul_assoc]
    exact this
  rw [div_eq_div_iff (by positivity) (by positivity)]
  have hk : (k.factorial : ℝ) ≠ 0 := by positivity
  have h3 : (((2 * k - 1).doubleFactorial : ℕ) : ℝ) * (2 ^ k * k.factorial) = (Nat.centralBinom k : ℝ) * (k.factorial * k.factorial) := by
    exact_mod_cast h.trans h2.symm
  apply mul_right_cancel₀ hk
  linarith

theorem half_moment {b : ℝ} (hb : 0 < b) (k : ℕ) :
    IntegrableOn (fun u : ℝ => (u ^ 2) ^ k * Real.exp (-b * u ^ 2)) (Set.Ioi 0) ∧
    ∫ u in Set.Ioi (0 : ℝ), (u ^ 2) ^ k * Real.exp (-b * u ^ 2) = 1 / 2 * ((b ^ k)⁻¹ * (Real.sqrt b)⁻¹) * (((2 * k - 1 : ℕ).doubleFactorial : ℕ) * Real.sqrt Real.pi / 2 ^ k) := by
  have e : Set.EqOn (fun u : ℝ => (u ^ 2) ^ k * Real.exp (-b * u ^ 2)) (fun u : ℝ => u ^ ((2 * k : ℕ) : ℝ) * Real.exp (-b * u ^ (2 : ℝ))) (Set.Ioi 0) := by
    intro u _
    dsimp only
    rw [Real.rpow_natCast, pow_mul, ← Real.rpow_natCast u 2]
    norm_num
  have hq : (-1 : ℝ) < ((2 * k : ℕ) : ℝ) := lt_of_lt_of_le (by norm_num) (Nat.cast_nonneg _)
  constructor
  · have h := integrableOn_rpow_mul_exp_neg_mul_sq hb hq
    refine h.congr_fun (fun u hu => ?_) measurableSet_Ioi
    have := e hu
    dsimp only at this ⊢
    rw [this, Real.rpow_two]
  · rw [setIntegral_congr_fun measurableSet_Ioi e, integral_rpow_mul_exp_neg_mul_rpow (by norm_num) hq hb]
    have h1 : ((((2 * k : ℕ) : ℝ) + 1) / 2) = k + 1 / 2 := by push_cast; ring
    rw [h1, Real.Gamma_nat_add_half, neg_div, h1, Real.rpow_neg hb.le, Real.rpow_add hb, Real.rpow_natCast, ← Real.sqrt_eq_rpow, mul_inv]
    ring

/-- Error probability of a binary decision from the sum of `L` squared moduli, with noise-to-signal ratio `s`. -/
noncomputable def mrcError (L : ℕ) (s : ℝ) : ℝ := 1 / 2 * (1 - (Real.sqrt (1 + 2 * s))⁻¹ * ∑ k ∈ Finset.range L, (Nat.centralBinom k : ℝ) * (s / (2 * (1 + 2 * s))) ^ k)

theorem erlang_mean {s : ℝ} (hs : 0 < s) (L : ℕ) {V std : ℝ} (hV : 0 < V) (hsV : std ^ 2 / (2 * V) = s) :
    IntegrableOn (fun u => gaussianPDFReal 0 1 u * erlang V L (std ^ 2 * u ^ 2)) (Set.Ioi 0) ∧
    ∫ u in Set.Ioi (0 : ℝ), gaussianPDFReal 0 1 u * erlang V L (std ^ 2 * u ^ 2) = mrcError L s := by
  set c0 := (Real.sqrt (2 * Real.pi))⁻¹ with hc0
  have hb : 0 < 1 / 2 + s := by linarith
  have hf : ∀ u : ℝ, gaussianPDFReal 0 1 u * erlang V L (std ^ 2 * u ^ 2) =
      c0 * ((u ^ 2) ^ 0 * Real.exp (-(1 / 2) * u ^ 2)) - ∑ k ∈ Finset.range L, c0 * (s ^ k / k.factorial) * ((u ^ 2) ^ k * Real.exp (-(1 / 2 + s) * u ^ 2)) := by
    intro u
    have h1 : std ^ 2 * u ^ 2 / (2 * V) = s * u ^ 2 := by rw [← hsV]; ring
    have h2 : Real.exp (-(1 / 2 + s) * u ^ 2) = Real.exp (-(1 / 2) * u ^ 2) * Real.exp (-(s * u ^ 2)) := by rw [← Real.exp_add]; congr 1; ring
    have h3 : gaussianPDFReal 0 1 u = c0 * Real.exp (-(1 / 2) * u ^ 2) := by
      rw [gaussianPDFReal, hc0]
      congr 2
      · simp
      · simp; ring
    rw [h3, erlang, h1, mul_sub, mul_one, pow_zero, one_mul, Finset.mul_sum, Finset.mul_sum]
    congr 1
    refine Finset.sum_congr rfl fun k _ => ?_
    rw [h2, mul_pow]
    ring
  have hi0 : IntegrableOn (fun u : ℝ => c0 * ((u ^ 2) ^ 0 * Real.exp (-(1 / 2) * u ^ 2))) (Set.Ioi 0) := (half_moment (by norm_num) 0).1.const_mul _
  have hik : ∀ k ∈ Finset.range L, IntegrableOn (fun u : ℝ => c0 * (s ^ k / k.factorial) * ((u ^ 2) ^ k * Real.exp (-(1 / 2 + s) * u ^ 2))) (Set.Ioi 0) :=
    fun k _ => (half_moment hb k).1.const_mul _
  simp only [hf]
  refine ⟨hi0.sub (integrable_finsetSum _ hik), ?_⟩
  rw [integral_sub hi0 (integrable_finsetSum _ hik), integral_finsetSum _ hik, integral_const_mul, (half_moment (by norm_num) 0).2]
  simp only [integral_const_mul, (half_moment hb _).2]
  have hpi := Real.pi_pos
  have hsp : 0 < Real.sqrt Real.pi := Real.sqrt_pos.2 hpi
  have hs2 : 0 < Real.sqrt 2 := Real.sqrt_pos.2 (by norm_num)
  have hc : c0 * Real.sqrt Real.pi = (Real.sqrt 2)⁻¹ := by
    rw [hc0, Real.sqrt_mul (by norm_num)]
    field_simp
  have h12 : (Real.sqrt (1 / 2))⁻¹ = Real.sqrt 2 := by rw [← Real.sqrt_inv]; norm_num
  have h0 : c0 * (1 / 2 * (((1 / 2 : ℝ) ^ 0)⁻¹ * (Real.sqrt (1 / 2))⁻¹) * (((2 * 0 - 1 : ℕ).doubleFactorial : ℕ) * Real.sqrt Real.pi / 2 ^ 0)) = 1 / 2 := by
    rw [h12]
    have : ((2 * 0 - 1 : ℕ).doubleFactorial : ℕ) = 1 := rfl
    rw [this]
    simp only [pow_zero, inv_one, Nat.cast_one]
    calc c0 * (1 / 2 * (1 * Real.sqrt 2) * (1 * Real.sqrt Real.pi / 1)) = 1 / 2 * Real.sqrt 2 * (c0 * Real.sqrt Real.pi) := by ring
      _ = 1 / 2 := by rw [hc]; field_simp
  rw [h0, mrcError, mul_sub, mul_one, Finset.mul_sum, Finset.mul_sum]
  congr 1
  refine Finset.sum_congr rfl fun k _ => ?_
  have hsb : (Real.sqrt (1 + 2 * s))⁻¹ = (Real.sqrt 2)⁻¹ * (Real.sqrt (1 / 2 + s))⁻¹ := by
    rw [← mul_inv, ← Real.sqrt_mul (by norm_num)]
    congr 2
    ring
  rw [hsb, ← hc]
  have hodd := odd_factorial k
  calc c0 * (s ^ k / k.factorial) * (1 / 2 * (((1 / 2 + s) ^ k)⁻¹ * (Real.sqrt (1 / 2 + s))⁻¹) * (((2 * k - 1 : ℕ).doubleFactorial : ℕ) * Real.sqrt Real.pi / 2 ^ k))
      = 1 / 2 * (c0 * Real.sqrt Real.pi * (Real.sqrt (1 / 2 + s))⁻¹ * ((((2 * k - 1 : ℕ).doubleFactorial : ℕ) : ℝ) / k.factorial * (s ^ k * ((1 / 2 + s) ^ k)⁻¹ / 2 ^ k))) := by ring
    _ = _ := by
      rw [hodd]
      have : s / (2 * (1 + 2 * s)) = s * (1 / 2 + s)⁻¹ / 2 / 2 := by field_simp
      rw [this, div_pow, div_pow, mul_pow, inv_pow]
      ring

section
variable {Ω : Type*} [MeasurableSpace Ω] {P : Measure Ω}

/-- Mean of the Q function over a sum of `L` squared moduli. -/
theorem mrc_mean {ι : Type*} [DecidableEq ι] [Fintype ι] {V : ℝ} (hV : 0 < V) {X : ι × Bool → Ω → ℝ} (hi : iIndepFun X P) (hl : ∀ p, HasLaw (X p) (gaussianReal 0 V.toNNReal) P)
    {std : ℝ} (hs : 0 < std) :
    ∫ ω, qFunction (Real.sqrt (∑ i, (X (i, false) ω ^ 2 + X (i, true) ω ^ 2)) / std) ∂P = mrcError (Fintype.card ι) (std ^ 2 / (2 * V)) := by
  have hP := hi.isProbabilityMeasure
  have hcdf := erlang_cdf hV hi hl Finset.univ
  set S : Ω → ℝ := fun ω => ∑ i, (X (i, false) ω ^ 2 + X (i, true) ω ^ 2) with hS
  have hSm : AEMeasurable S P := by
    rw [hS]
    refine Finset.aemeasurable_fun_sum _ fun i _ => ?_
    exact ((hl _).aemeasurable.pow_const 2).add ((hl _).aemeasurable.pow_const 2)
  have hqm : Measurable fun x : ℝ => qFunction (Real.sqrt x / std) := q_antitone'.measurable.comp (by fun_prop)
  rw [integral_eq_lintegral_of_nonneg_ae (Filter.Eventually.of_forall fun ω => (q_unit _).1) ((hqm.comp_aemeasurable hSm).aestronglyMeasurable)]
  have hA : MeasurableSet {q : ℝ × ℝ | Real.sqrt q.1 / std < q.2} := measurableSet_lt (by fun_prop) (by fun_prop)
  have hPS := Measure.isProbabilityMeasure_map hSm
  have h1 : ∫⁻ ω, ENNReal.ofReal (qFunction (Real.sqrt (S ω) / std)) ∂P = ((P.map S).prod (gaussianReal 0 1)) {q : ℝ × ℝ | Real.sqrt q.1 / std < q.2} := by
    rw [Measure.prod_apply hA, lintegral_map' (measurable_measure_prodMk_left hA).aemeasurable hSm]
    refine lintegral_congr fun ω => ?_
    unfold qFunction
    rw [ofReal_measureReal]
    rfl
  have h2 : ∀ u : ℝ, (P.map S) ((fun x => (x, u)) ⁻¹' {q : ℝ × ℝ | Real.sqrt q.1 / std < q.2}) =
      (Set.Ioi (0 : ℝ)).indicator (fun u => ENNReal.ofReal (erlang V (Fintype.card ι) (std ^ 2 * u ^ 2))) u := by
    intro u
    rw [Measure.map_apply_of_aemeasurable hSm (measurable_prodMk_right hA)]
    by_cases hu : 0 < u
    · rw [Set.indicator_of_mem (show u ∈ Set.Ioi (0 : ℝ) from hu), ← Finset.card_univ, ← hcdf _ (by positivity), ofReal_measureReal]
      refine congrArg P (Set.ext fun ω => ?_)
      simp only [Set.mem_preimage, Set.mem_ofPred_eq]
      rw [div_lt_iff₀ hs, Real.sqrt_lt' (by positivity), mul_pow, mul_comm]
    · rw [Set.indicator_of_notMem (fun h : u ∈ Set.Ioi (0 : ℝ) => hu h)]
      refine measure_mono_null (t := ∅) (fun ω hω => ?_) measure_empty
      have h : Real.sqrt (S ω) / std < u := hω
      have : 0 ≤ Real.sqrt (S ω) / std := by positivity
      exact absurd h (by linarith)
  rw [h1, Measure.prod_apply_symm hA]
  simp only [h2]
  rw [lintegral_indicator measurableSet_Ioi, gaussianReal_of_var_ne_zero 0 one_ne_zero, restrict_withDensity measurableSet_Ioi,
    lintegral_withDensity_eq_lintegral_mul _ (measurable_gaussianPDF _ _) (by unfold erlang; fun_prop)]
  obtain ⟨g1, g2⟩ := erlang_mean (s := std ^ 2 / (2 * V)) (by positivity) (Fintype.card ι) hV rfl
  have hnn : 0 ≤ᵐ[volume.restrict (Set.Ioi (0 : ℝ))] fun u => gaussianPDFReal 0 1 u * erlang V (Fintype.card ι) (std ^ 2 * u ^ 2) := by
    refine (ae_restrict_iff' measurableSet_Ioi).2 (Filter.Eventually.of_forall fun u hu => ?_)
    have hu' : 0 < u := hu
    refine mul_nonneg (gaussianPDFReal_nonneg _ _ _) ?_
    rw [← Finset.card_univ, ← hcdf _ (by positivity)]
    exact measureReal_nonneg
  have h3 : ∫⁻ u in Set.Ioi (0 : ℝ), (gaussianPDF 0 1 * fun u => ENNReal.ofReal (erlang V (Fintype.card ι) (std ^ 2 * u ^ 2))) u =
      ENNReal.ofReal (∫ u in Set.Ioi (0 : ℝ), gaussianPDFReal 0 1 u * erlang V (Fintype.card ι) (std ^ 2 * u ^ 2)) := by
    rw [ofReal_integral_eq_lintegral_ofReal g1 hnn]
    refine lintegral_congr fun u => ?_
    simp only [Pi.mul_apply]
    rw [gaussianPDF, ENNReal.ofReal_mul (gaussianPDFReal_nonneg _ _ _)]
  rw [h3, g2, ENNReal.toReal_ofReal]
  rw [← g2]
  exact integral_nonneg_of_ae hnn

end

end Verif
