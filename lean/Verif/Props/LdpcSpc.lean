import Verif.Props.LdpcBp
import Mathlib.Algebra.BigOperators.Ring.Finset
import Mathlib.Algebra.Order.BigOperators.Ring.Finset
import Mathlib.Analysis.SpecialFunctions.Trigonometric.DerivHyp
/-
C90: for a code with a single parity check, sum-product decoding gives the exact a posteriori LLRs.
-/
namespace Verif

variable (nanSign : NanSigns) (oneLeft : Py (List (List Bool × List (Option ℝ))))

/-- A word is the set of its ones.  The likelihood of the word `S`, relative to the all-zero word, for independent bits with
log-likelihood ratios `llr i = log (P(bit i = 0) / P(bit i = 1))`. -/
noncomputable def wordWeight (llr : Nat → ℝ) (S : Finset Nat) : ℝ := ∏ i ∈ S, Real.exp (-llr i)

/-- The even words over the positions `ns` whose bit `v` is `b`. -/
def evenWords (ns : List Nat) (v : Nat) (b : Bool) : Finset (Finset Nat) :=
  ns.toFinset.powerset.filter (fun S => Even S.card ∧ (decide (v ∈ S)) = b)

/-- Exact a posteriori LLR of bit `v`, given that the word is even. -/
noncomputable def posteriorLlr (ns : List Nat) (llr : Nat → ℝ) (v : Nat) : ℝ :=
  Real.log ((∑ S ∈ evenWords ns v false, wordWeight llr S) / ∑ S ∈ evenWords ns v true, wordWeight llr S)

theorem sum_even_odd (T : Finset Nat) (a : Nat → ℝ) :
    (∑ S ∈ T.powerset.filter (fun S => Even S.card), ∏ i ∈ S, a i) = (∏ i ∈ T, (1 + a i) + ∏ i ∈ T, (1 - a i)) / 2 ∧
    (∑ S ∈ T.powerset.filter (fun S => ¬ Even S.card), ∏ i ∈ S, a i) = (∏ i ∈ T, (1 + a i) - ∏ i ∈ T, (1 - a i)) / 2 := by
  have h1 : ∏ i ∈ T, (1 + a i) = ∑ S ∈ T.powerset, ∏ i ∈ S, a i := Finset.prod_one_add _
  have h2 : ∏ i ∈ T, (1 - a i) = ∑ S ∈ T.powerset, (-1) ^ S.card * ∏ i ∈ S, a i := by
    have : ∀ i, 1 - a i = 1 + -a i := fun i => by ring
    simp only [this]
    rw [Finset.prod_one_add]
    refine Finset.sum_congr rfl fun S _ => ?_
    rw [Finset.prod_neg]
  rw [← Finset.sum_filter_add_sum_filter_not T.powerset (fun S => Even S.card)] at h1 h2
  have e1 : ∑ S ∈ T.powerset.filter (fun S => Even S.card), (-1 : ℝ) ^ S.card * ∏ i ∈ S, a i = ∑ S ∈ T.powerset.filter (fun S => Even S.card), ∏ i ∈ S, a i := by
    refine Finset.sum_congr rfl fun S hS => ?_
    rw [(Finset.mem_filter.1 hS).2.neg_one_pow, one_mul]
  have e2 : ∑ S ∈ T.powerset.filter (fun S => ¬ Even S.card), (-1 : ℝ) ^ S.card * ∏ i ∈ S, a i = -∑ S ∈ T.powerset.filter (fun S => ¬ Even S.card), ∏ i ∈ S, a i := by
    rw [← Finset.sum_neg_distrib]
    refine Finset.sum_congr rfl fun S hS => ?_
    rw [(Nat.not_even_iff_odd.1 (Finset.mem_filter.1 hS).2).neg_one_pow, neg_one_mul]
  rw [e1, e2] at h2
  constructor <;> linarith

theorem tanh_half (x : ℝ) : Real.tanh (x / 2) = (1 - Real.exp (-x)) / (1 + Real.exp (-x)) := by
  rw [Real.tanh_eq_sinh_div_cosh, Real.sinh_eq, Real.cosh_eq]
  have h : Real.exp (x / 2) ≠ 0 := (Real.exp_pos _).ne'
  have h2 : Real.exp (-x) = Real.exp (-(x / 2)) * Real.exp (-(x / 2)) := by rw [← Real.exp_add]; congr 1; ring
  have h3 : Real.exp (-(x / 2)) = (Real.exp (x / 2))⁻¹ := Real.exp_neg _
  rw [h2, h3]
  field_simp

/-- The two posterior sums: over the other positions, even words and odd words. -/
theorem posteriorLlr_eq {ns : List Nat} (hnd : ns.Nodup) {v : Nat} (hv : v ∈ ns) (hne : ns.filter (fun u => u ≠ v) ≠ []) (llr : Nat → ℝ) :
    posteriorLlr ns llr v = llr v + 2 * Real.artanh (((ns.filter (fun u => u ≠ v)).map (fun u => Real.tanh (llr u / 2))).prod) := by
  set a : Nat → ℝ := fun i => Real.exp (-llr i) with ha
  have hapos : ∀ i, 0 < a i := fun i => Real.exp_pos _
  set T := (ns.filter (fun u => u ≠ v)).toFinset with hT
  have hvT : v ∉ T := by simp [hT]
  have hins : ns.toFinset = insert v T := by
    ext u
    simp only [hT, List.mem_toFinset, Finset.mem_insert, List.mem_filter, decide_eq_true_eq]
    constructor
    · intro h
      by_cases hu : u = v
      · exact Or.inl hu
      · exact Or.inr ⟨h, hu⟩
    · rintro (rfl | h)
      · exact hv
      · exact h.1
  have s0 : (∑ S ∈ evenWords ns v false, wordWeight llr S) = ∑ S ∈ T.powerset.filter (fun S => Even S.card), ∏ i ∈ S, a i := by
    refine Finset.sum_congr ?_ fun S _ => rfl
    ext S
    simp only [evenWords, Finset.mem_filter, Finset.mem_powerset, hins, decide_eq_false_iff_not]
    constructor
    · rintro ⟨h1, h2, h3⟩
      exact ⟨(Finset.subset_insert_iff_of_notMem h3).1 h1, h2⟩
    · rintro ⟨h1, h2⟩
      exact ⟨h1.trans (Finset.subset_insert _ _), h2, fun h => hvT (h1 h)⟩
  have s1 : (∑ S ∈ evenWords ns v true, wordWeight llr S) = a v * ∑ S ∈ T.powerset.filter (fun S => ¬ Even S.card), ∏ i ∈ S, a i := by
    rw [Finset.mul_sum]
    symm
    refine Finset.sum_bij (fun S _ => insert v S) ?_ ?_ ?_ ?_
    · intro S hS
      simp only [Finset.mem_filter, Finset.mem_powerset] at hS
      have hvS : v ∉ S := fun h => hvT (hS.1 h)
      simp only [evenWords, Finset.mem_filter, Finset.mem_powerset, hins, decide_eq_true_eq]
      refine ⟨Finset.insert_subset_insert _ hS.1, ?_, Finset.mem_insert_self _ _⟩
      rw [Finset.card_insert_of_notMem hvS, Nat.even_add_one]
      exact hS.2
    · intro S hS S' hS' h
      simp only [Finset.mem_filter, Finset.mem_powerset] at hS hS'
      have h1 : v ∉ S := fun h => hvT (hS.1 h)
      have h2 : v ∉ S' := fun h => hvT (hS'.1 h)
      rw [← Finset.erase_insert h1, ← Finset.erase_insert h2, h]
    · intro S hS
      simp only [evenWords, Finset.mem_filter, Finset.mem_powerset, hins, decide_eq_true_eq] at hS
      refine ⟨S.erase v, ?_, Finset.insert_erase hS.2.2⟩
      simp only [Finset.mem_filter, Finset.mem_powerset]
      refine ⟨fun u hu => ?_, ?_⟩
      · have hu' := Finset.mem_erase.1 hu
        rcases Finset.mem_insert.1 (hS.1 hu'.2) with h | h
        · exact absurd h hu'.1
        · exact h
      · have := hS.2.1
        rw [← Finset.card_erase_add_one hS.2.2, Nat.even_add_one] at this
        exact this
    · intro S hS
      simp only [Finset.mem_filter, Finset.mem_powerset] at hS
      have hvS : v ∉ S := fun h => hvT (hS.1 h)
      unfold wordWeight
      rw [Finset.prod_insert hvS]
  obtain ⟨hE, hO⟩ := sum_even_odd T a
  have hprod : ((ns.filter (fun u => u ≠ v)).map (fun u => Real.tanh (llr u / 2))).prod = (∏ i ∈ T, (1 - a i)) / ∏ i ∈ T, (1 + a i) := by
    have hndf : (ns.filter (fun u => u ≠ v)).Nodup := hnd.filter _
    rw [← Finset.prod_div_distrib, hT, List.prod_toFinset _ hndf]
    congr 1
    exact List.map_congr_left fun u _ => tanh_half _
  have hP : 0 < ∏ i ∈ T, (1 + a i) := Finset.prod_pos fun i _ => by have := hapos i; linarith
  set ρ := ((ns.filter (fun u => u ≠ v)).map (fun u => Real.tanh (llr u / 2))).prod with hρ
  have hlt : |ρ| < 1 := by
    refine abs_prod_lt_one _ (by simpa using hne) fun z hz => ?_
    obtain ⟨u, -, rfl⟩ := List.mem_map.1 hz
    exact abs_tanh_lt _
  rw [abs_lt] at hlt
  have hQ : ∏ i ∈ T, (1 - a i) = ρ * ∏ i ∈ T, (1 + a i) := by
    rw [hprod]
    field_simp
  unfold posteriorLlr
  rw [s0, s1, hE, hO, hQ, Real.artanh_eq_half_log ⟨hlt.1.le, hlt.2.le⟩]
  have h1 : (∏ i ∈ T, (1 + a i) + ρ * ∏ i ∈ T, (1 + a i)) / 2 / (a v * ((∏ i ∈ T, (1 + a i) - ρ * ∏ i ∈ T, (1 + a i)) / 2)) =
      Real.exp (llr v) * ((1 + ρ) / (1 - ρ)) := by
    have hav : Real.exp (llr v) = (a v)⁻¹ := by rw [ha]; simp only [Real.exp_neg, inv_inv]
    have := (hapos v).ne'
    have h2 : 1 - ρ ≠ 0 := by linarith
    have h3 : ∏ i ∈ T, (1 + a i) - ρ * ∏ i ∈ T, (1 + a i) ≠ 0 := by
      rw [show ∏ i ∈ T, (1 + a i) - ρ * ∏ i ∈ T, (1 + a i) = (1 - ρ) * ∏ i ∈ T, (1 + a i) by ring]
      exact mul_ne_zero h2 hP.ne'
    rw [hav]
    field_simp
  rw [h1, Real.log_mul (Real.exp_pos _).ne' (div_pos (by linarith) (by linarith)).ne', Real.log_exp]
  ring

/-- The sum-product message is no larger than any of the incoming messages, so it is not limited. -/
theorem spa_bound {l : List ℝ} {x : ℝ} (hx : x ∈ l) : |2 * Real.artanh ((l.map (fun y => Real.tanh (y / 2))).prod)| ≤ |x| := by
  have hle : |(l.map (fun y => Real.tanh (y / 2))).prod| ≤ |Real.tanh (x / 2)| := by
    induction l with
    | nil => simp at hx
    | cons a l ih =>
      rw [List.map_cons, List.prod_cons, abs_mul]
      rcases List.mem_cons.1 hx with rfl | hx
      · have : |(l.map (fun y => Real.tanh (y / 2))).prod| ≤ 1 := by
          by_cases hl : l = []
          · subst hl; simp
          · refine (abs_prod_lt_one _ (by simpa using hl) fun z hz => ?_).le
            obtain ⟨u, -, rfl⟩ := List.mem_map.1 hz
            exact abs_tanh_lt _
        exact mul_le_of_le_one_right (abs_nonneg _) this
      · exact (mul_le_of_le_one_left (abs_nonneg _) (abs_tanh_lt _).le).trans (ih hx)
  have habs : ∀ y : ℝ, |y| < 1 → |Real.artanh y| = Real.artanh |y| := by
    intro y hy
    rcases le_total 0 y with h | h
    · rw [abs_of_nonneg h, abs_of_nonneg (Real.artanh_nonneg h)]
    · rw [abs_of_nonpos h, artanh_odd, abs_of_nonpos (Real.artanh_nonpos h)]
  have h1 := abs_tanh_lt (x / 2)
  have h2 := lt_of_le_of_lt hle h1
  rw [abs_mul, habs _ h2, abs_of_pos (by norm_num : (0 : ℝ) < 2)]
  have h3 : Real.artanh |(l.map (fun y => Real.tanh (y / 2))).prod| ≤ Real.artanh |Real.tanh (x / 2)| :=
    Real.artanh_le_artanh (by linarith [abs_nonneg (l.map (fun y => Real.tanh (y / 2))).prod]) h1 hle
  rw [← habs _ h1, Real.artanh_tanh, abs_div, abs_of_pos (by norm_num : (0 : ℝ) < 2)] at h3
  linarith

/-- C90: a code with one parity check, LLRs that are non-zero, at most 500 in magnitude and do not satisfy the check: with one
iteration of sum-product decoding the LLR returned for every bit is its exact a posteriori LLR. -/
theorem C90_exact (ns : List Nat) (nv : Nat) (llrs : List ℝ) (hnv : 0 < nv) (hl : llrs.length = nv) (hnd : ns.Nodup) (hlt : ∀ v ∈ ns, v < nv)
    (h2 : 2 ≤ ns.length) (hnz : ∀ x ∈ llrs, x ≠ 0) (hb : ∀ x ∈ llrs, |x| ≤ 500)
    (hodd : ¬ ChecksHold [ns] (fun v => llrs.getD v 0 < 0)) :
    ∃ d o, bpDecode nanSign oneLeft .spa [ns] nv 1 llrs = .ok ([(d, o)], llrs) ∧
      (∀ v ∈ ns, o[v]? = some (some (posteriorLlr ns (fun v => llrs.getD v 0) v))) ∧
      ∀ v < nv, v ∉ ns → o[v]? = some (some (llrs.getD v 0)) := by
  have hclip : ∀ v, clippedLlr llrs v = llrs.getD v 0 := by
    intro v
    unfold clippedLlr
    by_cases hv : v < llrs.length
    · rw [List.getD_eq_getElem _ _ hv]
      have := abs_le.1 (hb _ (List.getElem_mem hv))
      rw [min_eq_right this.2, max_eq_right this.1]
    · rw [List.getD_eq_default _ _ (by omega)]
      norm_num
  have hclip' : clippedLlr llrs = fun v => llrs.getD v 0 := funext hclip
  obtain ⟨K, hK, hd⟩ := C89_spa_one nanSign oneLeft [ns] nv llrs hnv hl (by
    intro m hm
    rw [List.mem_singleton] at hm
    subst hm
    exact ⟨hnd, hlt⟩) hnz
  have hK1 : K = 1 := by
    rcases hK.2.1 with h | h
    · exact h
    · have := hK.1
      rcases Nat.lt_or_ge K 1 with h0 | h0
      · have : K = 0 := by omega
        subst this
        refine absurd ?_ hodd
        rw [hclip'] at h
        exact h
      · omega
  subst hK1
  refine ⟨(List.range nv).map (fun v => decide (bpTotal spaRule [ns] (clippedLlr llrs) 1 v < 0)),
    (List.range nv).map (fun v => some (bpTotal spaRule [ns] (clippedLlr llrs) 1 v)), ?_, ?_, ?_⟩
  · rw [hd]
    unfold bpResult
    have : llrs.map (fun x => max (-500) (min 500 x)) = llrs := by
      conv_rhs => rw [← List.map_id llrs]
      refine List.map_congr_left fun x hx => ?_
      have := abs_le.1 (hb x hx)
      rw [min_eq_right this.2, max_eq_right this.1]
      rfl
    rw [this]
  · intro v hv
    rw [List.getElem?_map, List.getElem?_range (hlt v hv), Option.map_some]
    congr 2
    have hne : ns.filter (fun u => u ≠ v) ≠ [] := by
      intro he
      have hall : ∀ u ∈ ns, u = v := by
        intro u hu
        by_contra hc
        have : u ∈ ns.filter (fun u => u ≠ v) := by simp [hu, hc]
        rw [he] at this
        simp at this
      match ns, hnd, h2, hall with
      | a :: b :: ns, hnd, _, hall =>
        have h1 := hall a (by simp)
        have h2 := hall b (by simp)
        rw [List.nodup_cons] at hnd
        exact hnd.1 (by rw [h1, h2]; simp)
    simp only [bpTotal]
    have hf : (List.range [ns].length).filter (fun c' => decide (v ∈ [ns].getD c' [])) = [0] := by
      simp [List.range_succ, hv]
    rw [hf, hclip', posteriorLlr_eq hnd hv hne]
    simp only [List.map_cons, List.map_nil, List.sum_cons, List.sum_nil, add_zero]
    congr 1
    show spaRule ns (fun v => llrs.getD v 0) v = _
    unfold spaRule
    rw [if_neg hne]
    obtain ⟨u, hu⟩ := List.exists_mem_of_ne_nil _ hne
    have hun : u ∈ ns := List.mem_of_mem_filter hu
    have hbd := spa_bound (l := (ns.filter (fun u => u ≠ v)).map (fun v => llrs.getD v 0)) (List.mem_map.2 ⟨u, hu, rfl⟩)
    rw [List.map_map, Function.comp_def] at hbd
    have hu5 : |llrs.getD u 0| ≤ 500 := by
      rw [List.getD_eq_getElem _ _ (by have := hlt u hun; omega)]
      exact hb _ (List.getElem_mem _)
    have := abs_le.1 (hbd.trans hu5)
    exact (by rw [min_eq_right this.2, max_eq_right this.1])
  · intro v hv hvn
    rw [List.getElem?_map, List.getElem?_range hv, Option.map_some]
    congr 2
    simp only [bpTotal]
    have hf : (List.range [ns].length).filter (fun c' => decide (v ∈ [ns].getD c' [])) = [] := by
      simp [List.range_succ, hvn]
    rw [hf, hclip v]
    simp

end Verif
