import Verif.Lemmas.BpTree3
import Verif.Lemmas.Tanner
/-
C99: sum-product decoding on a cycle-free Tanner graph gives the exact a posteriori LLRs.
-/
namespace Verif

open Finset

variable (nanSign : NanSigns) (oneLeft : Py (List (List Bool × List (Option ℝ))))

theorem codePosterior_eq {H : List (List Nat)} {nv : Nat} (hnd : ∀ ns ∈ H, ns.Nodup) (llr : Nat → ℝ) (v : Nat) :
    codePosterior H nv llr v = postLlr (checkVars H) (range H.length) (range nv) llr v := by
  classical
  have key : ∀ b, ∑ S ∈ codewordsAt H nv v b, ∏ i ∈ S, Real.exp (-llr i) =
      wordSum (checkVars H) (range H.length) (range nv) (fun i => Real.exp (-llr i)) v b := by
    intro b
    unfold codewordsAt wordSum
    rw [Finset.sum_filter]
    refine Finset.sum_congr rfl fun S _ => ?_
    refine if_congr (and_congr_left fun _ => ?_) rfl rfl
    have hcount : ∀ ns ∈ H, ns.countP (fun u => decide (u ∈ S)) = (ns.toFinset ∩ S).card := by
      intro ns hns
      rw [List.countP_eq_length_filter, ← List.toFinset_card_of_nodup ((hnd ns hns).filter _)]
      congr 1
      ext u
      simp
    unfold ChecksHold
    constructor
    · intro h c hc
      rw [mem_range] at hc
      have hm : H.getD c [] ∈ H := getD_mem hc
      have := h _ hm
      rw [hcount _ hm] at this
      exact (even_iff_two_dvd).2 this
    · intro h ns hns
      rw [hcount ns hns]
      obtain ⟨c, hc, rfl⟩ := List.getElem_of_mem hns
      have := h c (mem_range.2 hc)
      unfold checkVars at this
      rw [List.getD_eq_getElem _ _ hc] at this
      exact even_iff_two_dvd.1 this
  unfold codePosterior postLlr
  rw [key, key]

theorem list_sum_range_filter (m : Nat) (P : Nat → Prop) [DecidablePred P] (f : Nat → ℝ) :
    (((List.range m).filter (fun c => decide (P c))).map f).sum = ∑ c ∈ (range m).filter P, f c := by
  rw [← List.sum_toFinset f (List.nodup_range.filter _)]
  refine Finset.sum_congr ?_ fun _ _ => rfl
  ext c
  simp

/-- Textbook sum-product on a cycle-free graph: exact after as many iterations as there are checks. -/
theorem bpTotal_tree {H : List (List Nat)} {nv : Nat} (hH : GoodChecks H nv) (hdeg : ∀ ns ∈ H, 2 ≤ ns.length)
    (hac : (tannerGraph H nv).IsAcyclic) (llr : Nat → ℝ) (hsum : ∑ v ∈ range nv, |llr v| ≤ 500) {k : Nat} (hk : H.length ≤ k) {v : Nat}
    (hv : v < nv) : bpTotal spaRule H llr k v = codePosterior H nv llr v := by
  have hleafy : Leafy (checkVars H) (range H.length) := leafy_of_acyclic (fun ns hns => (hH ns hns).2)
    (fun ns hns h0 => by have := hdeg ns hns; rw [h0] at this; simp at this) hac
  have hN : ∀ c ∈ range H.length, checkVars H c ⊆ range nv ∧ 2 ≤ (checkVars H c).card := by
    intro c hc
    rw [mem_range] at hc
    have hm : H.getD c [] ∈ H := getD_mem hc
    refine ⟨?_, ?_⟩
    · intro u hu
      rw [checkVars, List.mem_toFinset] at hu
      exact mem_range.2 ((hH _ hm).2 u hu)
    · rw [checkVars, List.toFinset_card_of_nodup (hH _ hm).1]
      exact hdeg _ hm
  set ν : Nat → Nat → Nat → ℝ := fun t c v => bpMsgs spaRule H llr t c v with hν
  set μ : Nat → Nat → Nat → ℝ := fun t c v => spaRule (H.getD c []) (bpMsgs spaRule H llr t c) v with hμ
  have hdyn : BpDyn (checkVars H) (range H.length) (fun _ => llr) ν μ := by
    constructor
    · intro c _ v _; rfl
    · intro t c _ v _
      simp only [hν, hμ, bpMsgs]
      rw [list_sum_range_filter]
      congr 1
      refine Finset.sum_congr ?_ fun _ _ => rfl
      ext c'
      simp [checkVars]
  have hfil : ∀ c ∈ range H.length, ∀ v, ((H.getD c []).filter (fun u => u ≠ v)).toFinset = (checkVars H c).erase v := by
    intro c _ v
    ext u
    simp only [checkVars, List.mem_toFinset, List.mem_filter, decide_eq_true_eq, mem_erase]
    tauto
  have hrule : ∀ t, ∀ c ∈ range H.length, ∀ v ∈ checkVars H c,
      μ t c v = max (-500) (min 500 (checkMsg ((checkVars H c).erase v) (ν t c))) := by
    intro t c hc v hv
    have hm : H.getD c [] ∈ H := getD_mem (mem_range.1 hc)
    simp only [hμ, spaRule]
    rw [if_neg]
    · rw [checkMsg, ← hfil c hc v, List.prod_toFinset _ ((hH _ hm).1.filter _)]
    · intro h0
      have : (checkVars H c).erase v = ∅ := by rw [← hfil c hc v, h0]; rfl
      have h2 := (hN c hc).2
      have h3 := Finset.card_erase_of_mem hv
      rw [this, Finset.card_empty] at h3
      omega
  have hbound : ∀ t, ∀ c ∈ range H.length, ∀ v ∈ checkVars H c, ∀ u ∈ checkVars H c, u ≠ v →
      |checkMsg ((checkVars H c).erase v) (ν t c)| ≤ |ν t c u| := by
    intro t c hc v hv u hu huv
    have hm : H.getD c [] ∈ H := getD_mem (mem_range.1 hc)
    have hmem : u ∈ (H.getD c []).filter (fun u => u ≠ v) := by
      rw [← List.mem_toFinset, hfil c hc v]
      exact mem_erase.2 ⟨huv, hu⟩
    have := spa_bound (l := ((H.getD c []).filter (fun u => u ≠ v)).map (ν t c)) (List.mem_map.2 ⟨u, hmem, rfl⟩)
    rw [List.map_map] at this
    rw [checkMsg, ← hfil c hc v, List.prod_toFinset _ ((hH _ hm).1.filter _)]
    exact this
  have hclip : ∀ x : ℝ, |max (-500) (min 500 x)| ≤ |x| := by
    intro x
    rcases le_total 0 x with h | h
    · rw [abs_of_nonneg h, abs_of_nonneg (le_max_of_le_right (le_min (by norm_num) h))]
      exact max_le (by linarith) (min_le_right _ _)
    · rw [abs_of_nonpos h, min_eq_right (by linarith), abs_of_nonpos (max_le (by norm_num) h)]
      have := le_max_right (-500 : ℝ) x
      linarith
  have hsmall := dyn_bound H.length (range H.length) (range nv) (card_range _) hleafy hN (fun _ => llr) ν μ hdyn
    (fun t c hc v hv u hu huv => by
      rw [hrule t c hc v hv]
      exact (hclip _).trans (hbound t c hc v hv u hu huv))
    (fun v => |llr v|) (fun t v _ => le_rfl)
  have htot : ∀ w ∈ range nv, |llr w| + ∑ u ∈ (range nv).erase w, |llr u| ≤ 500 := by
    intro w hw
    rw [Finset.add_sum_erase _ (fun u => |llr u|) hw]
    exact hsum
  have hνle : ∀ t, ∀ c ∈ range H.length, ∀ u ∈ checkVars H c, |ν t c u| ≤ 500 := by
    intro t c hc u hu
    have huV := (hN c hc).1 hu
    match t with
    | 0 =>
      have h1 := htot u huV
      have h2 : 0 ≤ ∑ w ∈ (range nv).erase u, |llr w| := Finset.sum_nonneg fun _ _ => abs_nonneg _
      have h3 : ν 0 c u = llr u := hdyn.zero c hc u hu
      rw [h3]
      linarith
    | t + 1 =>
      rw [hdyn.succ t c hc u hu]
      refine (abs_add_le _ _).trans ?_
      refine le_trans (add_le_add le_rfl ?_) (htot u huV)
      refine (Finset.abs_sum_le_sum_abs _ _).trans (le_trans ?_ (hsmall t u huV))
      refine Finset.sum_le_sum_of_subset_of_nonneg ?_ fun _ _ _ => abs_nonneg _
      intro i hi
      rw [mem_filter] at hi ⊢
      exact ⟨hi.1, hi.2.1, trivial⟩
  have hexact : ∀ t, ∀ c ∈ range H.length, ∀ v ∈ checkVars H c, μ t c v = checkMsg ((checkVars H c).erase v) (ν t c) := by
    intro t c hc v hv
    rw [hrule t c hc v hv]
    have hne : ((checkVars H c).erase v).Nonempty := by
      rw [← Finset.card_pos, Finset.card_erase_of_mem hv]
      have := (hN c hc).2
      omega
    obtain ⟨u, hu⟩ := hne
    have hu' := mem_erase.1 hu
    have := abs_le.1 ((hbound t c hc v hv u hu'.2 hu'.1).trans (hνle t c hc u hu'.2))
    rw [min_eq_right this.2, max_eq_right this.1]
  rw [codePosterior_eq (fun ns hns => (hH ns hns).1)]
  have hfin := dyn_exact H.length (range H.length) (range nv) (card_range _) hleafy hN (fun _ => llr) ν μ hdyn hexact llr v
    (mem_range.2 hv) 0 (fun _ _ _ _ _ => rfl)
  by_cases h0 : H.length = 0
  · have h1 := hfin 0 (by omega)
    rw [← h1]
    match k with
    | 0 => simp [bpTotal, h0]
    | k + 1 => simp [bpTotal, h0]
  · obtain ⟨k, rfl⟩ : ∃ j, k = j + 1 := ⟨k - 1, by omega⟩
    rw [← hfin k (by omega)]
    simp only [bpTotal]
    rw [list_sum_range_filter]
    congr 1
    refine Finset.sum_congr ?_ fun _ _ => rfl
    ext c'
    simp [checkVars]

/-- C99: a code whose Tanner graph has no cycle and whose checks have at least two variables; LLRs whose magnitudes sum up to at most
500 (so that nothing is limited); no message from a variable to a check is zero.  Sum-product decoding stops after `K` iterations, and if
`K` is at least the number of checks, then the LLR returned for every bit is its exact a posteriori LLR and the decision is the most
probable value of the bit.  If it stops earlier, the decisions are a codeword. -/
theorem C99_tree (H : Checks) (nv n : Nat) (llrs : List ℝ) (hnv : 0 < nv) (hl : llrs.length = nv) (hH : GoodChecks H nv)
    (hdeg : ∀ ns ∈ H, 2 ≤ ns.length) (hac : (tannerGraph H nv).IsAcyclic) (hsum : (llrs.map (fun x => |x|)).sum ≤ 500)
    (hn : H.length ≤ n)
    (hnz : ∀ k < n, ∀ c < H.length, ∀ v ∈ H.getD c [], bpMsgs spaRule H (fun v => llrs.getD v 0) k c v ≠ 0) :
    ∃ (K : Nat) (d : List Bool) (o : List (Option ℝ)), StopsAt spaRule H (fun v => llrs.getD v 0) n K ∧
      bpDecode nanSign oneLeft .spa H nv n llrs = .ok ([(d, o)], llrs) ∧ d.length = nv ∧ o.length = nv ∧
      (H.length ≤ K → ∀ v < nv, o[v]? = some (some (codePosterior H nv (fun v => llrs.getD v 0) v)) ∧
        d[v]? = some (decide (codePosterior H nv (fun v => llrs.getD v 0) v < 0))) ∧
      (K < H.length → ChecksHold H (fun v => d.getD v false)) := by
  have hb : ∀ x ∈ llrs, |x| ≤ 500 := by
    intro x hx
    refine le_trans (List.single_le_sum ?_ _ (List.mem_map.2 ⟨x, hx, rfl⟩)) hsum
    intro y hy
    obtain ⟨z, _, rfl⟩ := List.mem_map.1 hy
    exact abs_nonneg z
  have hclip : clippedLlr llrs = fun v => llrs.getD v 0 := by
    funext v
    unfold clippedLlr
    by_cases hv : v < llrs.length
    · rw [List.getD_eq_getElem _ _ hv]
      have := abs_le.1 (hb _ (List.getElem_mem hv))
      rw [min_eq_right this.2, max_eq_right this.1]
    · rw [List.getD_eq_default _ _ (by omega)]
      norm_num
  have hmap : llrs.map (fun x => max (-500) (min 500 x)) = llrs := by
    conv_rhs => rw [← List.map_id llrs]
    refine List.map_congr_left fun x hx => ?_
    have := abs_le.1 (hb x hx)
    rw [min_eq_right this.2, max_eq_right this.1]
    rfl
  have hsum' : ∑ v ∈ range nv, |llrs.getD v 0| ≤ 500 := by
    refine le_trans (le_of_eq ?_) hsum
    rw [← hl, Finset.sum_range, ← List.sum_ofFn]
    congr 1
    refine List.ext_getElem (by simp) fun i h1 h2 => ?_
    simp at h1 h2
    simp [h1]
  obtain ⟨K, hK, hd⟩ := C89_spa_partial nanSign oneLeft H nv n llrs hnv hl hH (by rw [hclip]; exact hnz)
  rw [hclip] at hK
  refine ⟨K, _, _, hK, by rw [hd, bpResult, hmap, hclip], by simp, by simp, ?_, ?_⟩
  · intro hKH v hv
    rw [List.getElem?_map, List.getElem?_range hv, List.getElem?_map, List.getElem?_range hv, Option.map_some, Option.map_some,
      bpTotal_tree hH hdeg hac _ hsum' hKH hv]
    exact ⟨rfl, rfl⟩
  · intro hKH ns hns
    have h1 := hK.2.1.resolve_left (by omega) ns hns
    rw [List.countP_congr] at h1
    · exact h1
    · intro v hv
      have hvlt := (hH ns hns).2 v hv
      simp [hvlt]

/-! ### In numbers: repetition codes -/

theorem spaRule_pair {a b v : Nat} (hab : a ≠ b) (x : Nat → ℝ) :
    (v = a → spaRule [a, b] x v = max (-500) (min 500 (x b))) ∧ (v = b → spaRule [a, b] x v = max (-500) (min 500 (x a))) := by
  constructor
  · rintro rfl
    have : [v, b].filter (fun u => decide (u ≠ v)) = [b] := by simp [hab.symm]
    unfold spaRule
    rw [this, if_neg (by simp)]
    simp only [List.map_cons, List.map_nil, List.prod_cons, List.prod_nil, mul_one, Real.artanh_tanh]
    congr 2
    ring
  · rintro rfl
    have : [a, v].filter (fun u => decide (u ≠ v)) = [a] := by simp [hab]
    unfold spaRule
    rw [this, if_neg (by simp)]
    simp only [List.map_cons, List.map_nil, List.prod_cons, List.prod_nil, mul_one, Real.artanh_tanh]
    congr 2
    ring

/-- A chain of checks `{0,1}, {1,2}, {2,3}` has no cycle. -/
theorem chain4_acyclic : (tannerGraph [[0, 1], [1, 2], [2, 3]] 4).IsAcyclic := by
  refine acyclic_of_rank _ (fun x => match x with | .inl c => 2 * c.1 + 1 | .inr v => 2 * v.1) ?_ ?_
  · rintro (a | a) (b | b) h
    · simp only at h; congr 1; ext; omega
    · simp only at h; omega
    · simp only at h; omega
    · simp only at h; congr 1; ext; omega
  · rintro (x | x) (y | y) (z | z) h1 h2 l1 l2
    · exact h1.elim
    · exact h1.elim
    · exact h2.elim
    · simp only [tannerGraph] at h1 h2 l1 l2
      fin_cases x <;> simp at h1 h2 l1 l2 <;> congr 1 <;> ext <;> omega
    · simp only [tannerGraph] at h1 h2 l1 l2
      fin_cases x <;> fin_cases y <;> fin_cases z <;> simp_all
    · exact h2.elim
    · exact h1.elim
    · exact h1.elim

theorem chain3_acyclic : (tannerGraph [[0, 1], [1, 2]] 3).IsAcyclic := by
  refine acyclic_of_rank _ (fun x => match x with | .inl c => 2 * c.1 + 1 | .inr v => 2 * v.1) ?_ ?_
  · rintro (a | a) (b | b) h
    · simp only at h; congr 1; ext; omega
    · simp only at h; omega
    · simp only at h; omega
    · simp only at h; congr 1; ext; omega
  · rintro (x | x) (y | y) (z | z) h1 h2 l1 l2
    · exact h1.elim
    · exact h1.elim
    · exact h2.elim
    · simp only [tannerGraph] at h1 h2 l1 l2
      fin_cases x <;> simp at h1 h2 l1 l2 <;> congr 1 <;> ext <;> omega
    · simp only [tannerGraph] at h1 h2 l1 l2
      fin_cases x <;> fin_cases y <;> fin_cases z <;> simp_all
    · exact h2.elim
    · exact h1.elim
    · exact h1.elim

local notation "rep4" => ([[0, 1], [1, 2], [2, 3]] : List (List Nat))
local notation "rep4L" => (fun v => List.getD ([3, -1, -1, -2] : List ℝ) v 0)
local notation "rep3" => ([[0, 1], [1, 2]] : List (List Nat))
local notation "rep3L" => (fun v => List.getD ([1, -3, 1] : List ℝ) v 0)

theorem rep4_msgs :
    (bpMsgs spaRule rep4 rep4L 1 0 0 = 3 ∧ bpMsgs spaRule rep4 rep4L 1 0 1 = -2 ∧ bpMsgs spaRule rep4 rep4L 1 1 1 = 2 ∧
      bpMsgs spaRule rep4 rep4L 1 1 2 = -3 ∧ bpMsgs spaRule rep4 rep4L 1 2 2 = -2 ∧ bpMsgs spaRule rep4 rep4L 1 2 3 = -2) ∧
    (bpMsgs spaRule rep4 rep4L 2 0 0 = 3 ∧ bpMsgs spaRule rep4 rep4L 2 0 1 = -4 ∧ bpMsgs spaRule rep4 rep4L 2 1 1 = 2 ∧
      bpMsgs spaRule rep4 rep4L 2 1 2 = -3 ∧ bpMsgs spaRule rep4 rep4L 2 2 2 = 1 ∧ bpMsgs spaRule rep4 rep4L 2 2 3 = -2) := by
  have r1 : ∀ x, spaRule [0, 1] x 1 = max (-500) (min 500 (x 0)) := fun x => (spaRule_pair (by decide) x).2 rfl
  have r2 : ∀ x, spaRule [1, 2] x 1 = max (-500) (min 500 (x 2)) := fun x => (spaRule_pair (by decide) x).1 rfl
  have r3 : ∀ x, spaRule [1, 2] x 2 = max (-500) (min 500 (x 1)) := fun x => (spaRule_pair (by decide) x).2 rfl
  have r4 : ∀ x, spaRule [2, 3] x 2 = max (-500) (min 500 (x 3)) := fun x => (spaRule_pair (by decide) x).1 rfl
  refine ⟨⟨?_, ?_, ?_, ?_, ?_, ?_⟩, ⟨?_, ?_, ?_, ?_, ?_, ?_⟩⟩ <;>
    simp [bpMsgs, show List.range 3 = [0, 1, 2] from rfl, r1, r2, r3, r4] <;> norm_num

theorem rep4_totals :
    (bpTotal spaRule rep4 rep4L 1 0 = 2 ∧ bpTotal spaRule rep4 rep4L 1 1 = 1 ∧ bpTotal spaRule rep4 rep4L 1 2 = -4 ∧
      bpTotal spaRule rep4 rep4L 1 3 = -3) ∧
    (bpTotal spaRule rep4 rep4L 2 0 = 1 ∧ bpTotal spaRule rep4 rep4L 2 1 = -1) ∧
    (bpTotal spaRule rep4 rep4L 3 0 = -1 ∧ bpTotal spaRule rep4 rep4L 3 1 = -1 ∧ bpTotal spaRule rep4 rep4L 3 2 = -1 ∧
      bpTotal spaRule rep4 rep4L 3 3 = -1) := by
  have r0 : ∀ x, spaRule [0, 1] x 0 = max (-500) (min 500 (x 1)) := fun x => (spaRule_pair (by decide) x).1 rfl
  have r1 : ∀ x, spaRule [0, 1] x 1 = max (-500) (min 500 (x 0)) := fun x => (spaRule_pair (by decide) x).2 rfl
  have r2 : ∀ x, spaRule [1, 2] x 1 = max (-500) (min 500 (x 2)) := fun x => (spaRule_pair (by decide) x).1 rfl
  have r3 : ∀ x, spaRule [1, 2] x 2 = max (-500) (min 500 (x 1)) := fun x => (spaRule_pair (by decide) x).2 rfl
  have r4 : ∀ x, spaRule [2, 3] x 2 = max (-500) (min 500 (x 3)) := fun x => (spaRule_pair (by decide) x).1 rfl
  have r5 : ∀ x, spaRule [2, 3] x 3 = max (-500) (min 500 (x 2)) := fun x => (spaRule_pair (by decide) x).2 rfl
  refine ⟨⟨?_, ?_, ?_, ?_⟩, ⟨?_, ?_⟩, ⟨?_, ?_, ?_, ?_⟩⟩ <;>
    simp [bpTotal, bpMsgs, show List.range 3 = [0, 1, 2] from rfl, r0, r1, r2, r3, r4, r5] <;> norm_num

/-- Non-vacuity and exact numbers: the repetition code of length 4 as a chain of three checks with LLRs `3, -1, -1, -2`: all hypotheses of
`C99_tree` hold, the decoder makes three iterations and returns the exact LLR `3 - 1 - 1 - 2 = -1` for every bit. -/
theorem C99_numbers : ∃ (d : List Bool) (o : List (Option ℝ)), bpDecode nanSign oneLeft .spa rep4 4 3 [3, -1, -1, -2] =
    .ok ([(d, o)], [3, -1, -1, -2]) ∧ d = [true, true, true, true] ∧ o = [some (-1), some (-1), some (-1), some (-1)] := by
  obtain ⟨⟨a1, a2, a3, a4, a5, a6⟩, b1, b2, b3, b4, b5, b6⟩ := rep4_msgs
  obtain ⟨⟨t1, t2, t3, t4⟩, ⟨u1, u2⟩, w1, w2, w3, w4⟩ := rep4_totals
  have hgood : GoodChecks rep4 4 := by
    intro ns hns
    simp only [List.mem_cons, List.not_mem_nil, or_false] at hns
    rcases hns with rfl | rfl | rfl <;> decide
  obtain ⟨K, d, o, hK, hdec, hdl, hol, hex, -⟩ := C99_tree nanSign oneLeft rep4 4 3 [3, -1, -1, -2] (by norm_num) rfl hgood
    (by intro ns hns; simp only [List.mem_cons, List.not_mem_nil, or_false] at hns; rcases hns with rfl | rfl | rfl <;> decide)
    chain4_acyclic (by norm_num) le_rfl (by
      intro k hk c hc v hv
      simp only [List.length_cons, List.length_nil] at hc
      interval_cases k <;> interval_cases c <;> simp at hv <;> rcases hv with rfl | rfl
      all_goals first
        | (simp [bpMsgs]; done)
        | (rw [a1]; norm_num) | (rw [a2]; norm_num) | (rw [a3]; norm_num) | (rw [a4]; norm_num) | (rw [a5]; norm_num) | (rw [a6]; norm_num)
        | (rw [b1]; norm_num) | (rw [b2]; norm_num) | (rw [b3]; norm_num) | (rw [b4]; norm_num) | (rw [b5]; norm_num) | (rw [b6]; norm_num))
  have hK3 : 3 ≤ K := by
    by_contra hlt
    have hne := hK.2.1.resolve_left (by omega)
    have hKlt : K < 3 := by omega
    interval_cases K
    · have := hne [0, 1] (by simp)
      simp [bpTotal] at this
    · have := hne [1, 2] (by simp)
      simp only [List.countP_cons, List.countP_nil, t2, t3] at this
      norm_num at this
    · have := hne [0, 1] (by simp)
      simp only [List.countP_cons, List.countP_nil, u1, u2] at this
      norm_num at this
  have h := hex hK3
  have hp : ∀ v < 4, codePosterior rep4 4 rep4L v = -1 := by
    intro v hv
    have hsum : ∑ v ∈ range 4, |rep4L v| ≤ 500 := by simp [Finset.sum_range_succ]; norm_num
    have := bpTotal_tree hgood (by intro ns hns; simp only [List.mem_cons, List.not_mem_nil, or_false] at hns
                                   rcases hns with rfl | rfl | rfl <;> decide) chain4_acyclic rep4L hsum (k := 3) le_rfl hv
    rw [← this]
    interval_cases v
    · exact w1
    · exact w2
    · exact w3
    · exact w4
  refine ⟨d, o, hdec, ?_, ?_⟩
  · refine List.ext_getElem? fun i => ?_
    rcases Nat.lt_or_ge i 4 with hi | hi
    · rw [(h i hi).2, hp i hi]
      interval_cases i <;> norm_num
    · rw [List.getElem?_eq_none (by omega), List.getElem?_eq_none (by simpa using hi)]
  · refine List.ext_getElem? fun i => ?_
    rcases Nat.lt_or_ge i 4 with hi | hi
    · rw [(h i hi).1, hp i hi]
      interval_cases i <;> norm_num
    · rw [List.getElem?_eq_none (by omega), List.getElem?_eq_none (by simpa using hi)]

/-- Stopping early costs exactness: the repetition code of length 3 with LLRs `1, -3, 1`.  The decoder stops after the first iteration, at
the codeword 111, with the LLRs `-2, -1, -2`, whatever the number of iterations asked for, although the exact LLR of every bit is `-1`. -/
theorem C99_early_stop (n : Nat) (hn : 1 ≤ n) :
    bpDecode nanSign oneLeft .spa rep3 3 n [1, -3, 1] =
      .ok ([([true, true, true], [some (-2), some (-1), some (-2)])], [1, -3, 1]) ∧
    ∀ v < 3, codePosterior rep3 3 rep3L v = -1 := by
  have r0 : ∀ x, spaRule [0, 1] x 0 = max (-500) (min 500 (x 1)) := fun x => (spaRule_pair (by decide) x).1 rfl
  have r1 : ∀ x, spaRule [0, 1] x 1 = max (-500) (min 500 (x 0)) := fun x => (spaRule_pair (by decide) x).2 rfl
  have r2 : ∀ x, spaRule [1, 2] x 1 = max (-500) (min 500 (x 2)) := fun x => (spaRule_pair (by decide) x).1 rfl
  have r3 : ∀ x, spaRule [1, 2] x 2 = max (-500) (min 500 (x 1)) := fun x => (spaRule_pair (by decide) x).2 rfl
  have t1 : bpTotal spaRule rep3 rep3L 1 0 = -2 ∧ bpTotal spaRule rep3 rep3L 1 1 = -1 ∧ bpTotal spaRule rep3 rep3L 1 2 = -2 := by
    refine ⟨?_, ?_, ?_⟩ <;> simp [bpTotal, bpMsgs, show List.range 2 = [0, 1] from rfl, r0, r1, r2, r3] <;> norm_num
  have t2 : bpTotal spaRule rep3 rep3L 2 0 = -1 ∧ bpTotal spaRule rep3 rep3L 2 1 = -1 ∧ bpTotal spaRule rep3 rep3L 2 2 = -1 := by
    refine ⟨?_, ?_, ?_⟩ <;> simp [bpTotal, bpMsgs, show List.range 2 = [0, 1] from rfl, r0, r1, r2, r3] <;> norm_num
  have hgood : GoodChecks rep3 3 := by
    intro ns hns
    simp only [List.mem_cons, List.not_mem_nil, or_false] at hns
    rcases hns with rfl | rfl <;> decide
  constructor
  · have hclip : clippedLlr [1, -3, 1] = rep3L := by
      funext v
      unfold clippedLlr
      match v with
      | 0 => norm_num
      | 1 => norm_num
      | 2 => norm_num
      | v + 3 => norm_num
    have hstep : ∀ k < n, ∀ c < List.length rep3, ∀ v ∈ List.getD rep3 c [], bpMsgs spaRule rep3 (clippedLlr [1, -3, 1]) k c v ≠ 0 := by
      rw [hclip]
      intro k _ c hc v hv
      have m1 : ∀ k, bpMsgs spaRule rep3 rep3L k 0 0 = 1 ∧ bpMsgs spaRule rep3 rep3L k 1 2 = 1 := by
        intro k
        cases k with
        | zero => simp [bpMsgs]
        | succ k => simp [bpMsgs, show List.range 2 = [0, 1] from rfl]
      have m2 : ∀ k, bpMsgs spaRule rep3 rep3L (k + 1) 0 1 = -2 ∧ bpMsgs spaRule rep3 rep3L (k + 1) 1 1 = -2 := by
        intro k
        have a1 := (m1 k).1
        have a2 := (m1 k).2
        simp only [List.getD_eq_getElem?_getD] at a1 a2
        constructor
        · rw [bpMsgs]
          simp [show List.range 2 = [0, 1] from rfl, r2, a2]
          norm_num
        · rw [bpMsgs]
          simp [show List.range 2 = [0, 1] from rfl, r1, a1]
          norm_num
      simp only [List.length_cons, List.length_nil] at hc
      interval_cases c <;> simp at hv <;> rcases hv with rfl | rfl
      · rw [(m1 k).1]; norm_num
      · match k with
        | 0 => simp [bpMsgs]
        | k + 1 => rw [(m2 k).1]; norm_num
      · match k with
        | 0 => simp [bpMsgs]
        | k + 1 => rw [(m2 k).2]; norm_num
      · rw [(m1 k).2]; norm_num
    obtain ⟨K, hK, hd⟩ := C89_spa_partial nanSign oneLeft rep3 3 n [1, -3, 1] (by norm_num) rfl hgood hstep
    rw [hclip] at hK
    have hs1 : StopsAt spaRule rep3 rep3L n 1 := by
      refine ⟨hn, Or.inr ?_, ?_⟩
      · intro ns hns
        simp only [List.mem_cons, List.not_mem_nil, or_false] at hns
        rcases hns with rfl | rfl <;> simp only [List.countP_cons, List.countP_nil, t1.1, t1.2.1, t1.2.2] <;> norm_num
      · intro j hj
        have : j = 0 := by omega
        subst this
        intro h
        have := h [0, 1] (by simp)
        simp [bpTotal] at this
    have := StopsAt.unique hK hs1
    subst this
    rw [hd, bpResult, hclip]
    simp only [show List.range 3 = [0, 1, 2] from rfl, List.map_cons, List.map_nil, t1.1, t1.2.1, t1.2.2]
    norm_num
  · intro v hv
    have hsum : ∑ v ∈ range 3, |rep3L v| ≤ 500 := by simp [Finset.sum_range_succ]; norm_num
    have := bpTotal_tree hgood (by intro ns hns; simp only [List.mem_cons, List.not_mem_nil, or_false] at hns
                                   rcases hns with rfl | rfl <;> decide) chain3_acyclic rep3L hsum (k := 2) le_rfl hv
    rw [← this]
    interval_cases v
    · exact t2.1
    · exact t2.2.1
    · exact t2.2.2

end Verif
