import Verif.Props.Turbo
import Verif.Props.Interleavers
/-
C53: `turbo_decode` (/repo/commpy/channelcoding/turbo.py:254-333).
-/
namespace Verif

theorem jointDensity_congr (t : Trellis) (v : NNReal) {L : Nat} {ys ys' yp yp' lam lam' : Nat → ℝ} (h1 : ∀ i < L, ys i = ys' i)
    (h2 : ∀ i < L, yp i = yp' i) (h3 : ∀ i < L, lam i = lam' i) (us : Fin L → Fin 2) :
    jointDensity t v ys yp lam us = jointDensity t v ys' yp' lam' us := by
  refine Finset.prod_congr rfl fun i _ => ?_
  rw [h1 i i.2, h2 i i.2, h3 i i.2]

theorem posteriorAt_congr (t : Trellis) (v : NNReal) {L : Nat} {ys ys' yp yp' lam lam' : Nat → ℝ} (h1 : ∀ i < L, ys i = ys' i)
    (h2 : ∀ i < L, yp i = yp' i) (h3 : ∀ i < L, lam i = lam' i) (i : Nat) :
    posteriorAt t v L ys yp lam i = posteriorAt t v L ys' yp' lam' i := by
  unfold posteriorAt posteriorBit bitDensity
  simp only [jointDensity_congr t v h1 h2 h3]

variable {t : Trellis} (h : t.WF) (hk : t.k = 1) (hn : 2 ≤ t.n) {v : NNReal} (hv : 0 < v) {L : Nat}

include h hk hn hv in
/-- `map_decode` in terms of functions. -/
theorem mapDecode_fun {ys yp lint : List ℝ} (hy : ys.length = L) (hyp : L ≤ yp.length) (hl : lint.length = L)
    (y z lam : Nat → ℝ) (h1 : ∀ i < L, ys.getD i 0 = y i) (h2 : ∀ i < L, yp.getD i 0 = z i) (h3 : ∀ i < L, lint.getD i 0 = lam i) (mode : String) :
    mapDecode t v ys yp lint mode = .ok ((List.range L).map (posteriorAt t v L y z lam),
      (List.range L).map (fun i => if mode = "decode" then (if posteriorAt t v L y z lam i > 0 then 1 else 0) else 0)) := by
  rw [mapDecode_ok h hk hn hy hyp hl mode]
  have key : ∀ i < L, mapLlr t v ys yp lint L i = posteriorAt t v L y z lam i := by
    intro i hi
    rw [← posteriorBit_eq t v hv L ys yp lint ⟨i, hi⟩, ← posteriorAt_congr t v h1 h2 h3]
    unfold posteriorAt
    rw [dif_pos hi]
  congr 2
  · exact List.map_congr_left fun i hi => key i (List.mem_range.1 hi)
  · refine List.map_congr_left fun i hi => ?_
    rw [key i (List.mem_range.1 hi)]

theorem npZip_sub_range (f g : Nat → ℝ) (l : List ℝ) (hl : l.length = L) (hg : ∀ i < L, l.getD i 0 = g i) :
    npZip (· - ·) ((List.range L).map f) l = .ok ((List.range L).map (fun i => f i - g i)) := by
  unfold npZip
  rw [if_pos (by simp [hl])]
  congr 1
  refine List.ext_getElem (by simp [hl]) fun i h1 h2 => ?_
  have hi : i < L := by simpa using h2
  have := hg i hi
  rw [List.getD_eq_getElem _ _ (by omega)] at this
  simp [this]

theorem getD_map_range' {α : Type} (f : Nat → α) {i : Nat} (d : α) (hi : i < L) : ((List.range L).map f).getD i d = f i := by
  rw [List.getD_eq_getElem _ _ (by simpa using hi)]
  simp

theorem idxOf_getD {p : List Nat} (hp : p.Perm (List.range L)) {j : Nat} (hj : j < L) : p.idxOf (p.getD j 0) = j := by
  have hpl : p.length = L := by simpa using hp.length_eq
  rw [List.getD_eq_getElem _ _ (by omega)]
  exact (hp.nodup_iff.2 List.nodup_range).idxOf_getElem j (by omega)

theorem getD_idxOf {p : List Nat} (hp : p.Perm (List.range L)) {i : Nat} (hi : i < L) : p.idxOf i < L ∧ p.getD (p.idxOf i) 0 = i := by
  have hpl : p.length = L := by simpa using hp.length_eq
  have hm : i ∈ p := hp.mem_iff.2 (List.mem_range.2 hi)
  have := List.idxOf_lt_length_iff.2 hm
  refine ⟨by omega, ?_⟩
  rw [List.getD_eq_getElem _ _ this, List.getElem_idxOf]

theorem deinterlv_range {α : Type} (zero : α) {p : List Nat} (hp : p.Perm (List.range L)) (f : Nat → α) :
    deinterlv zero p ((List.range L).map f) = .ok ((List.range L).map (fun i => f (p.idxOf i))) := by
  have hpl : p.length = L := by simpa using hp.length_eq
  obtain ⟨z, h1, h2, h3, -⟩ := deinterlv_spec zero hp (x := (List.range L).map f) (by simp)
  rw [h1]
  congr 1
  refine List.ext_getElem? fun i => ?_
  by_cases hi : i < L
  · obtain ⟨a, b⟩ := getD_idxOf hp hi
    have := h3 (p.idxOf i) (by omega)
    rw [List.getD_eq_getElem _ _ (by omega)] at b
    rw [b] at this
    rw [this]
    simp [hi, a]
  · rw [List.getElem?_eq_none (by simp at h2; omega), List.getElem?_eq_none (by simp; omega)]

include h hk hn hv in
theorem turboIter_ok {ys yp1 yp2 : List ℝ} {p : List Nat} (hp : p.Perm (List.range L)) (hy : ys.length = L) (hy1 : L ≤ yp1.length) (hy2 : L ≤ yp2.length)
    (n i : Nat) (lint : List ℝ) (hl : lint.length = L) (lam : Nat → ℝ) (hlam : ∀ i < L, lint.getD i 0 = lam i) (o : Option (List Nat)) :
    turboIter t v ys (p.map (fun i => ys.getD i 0)) yp1 yp2 p n (lint, o) i =
      .ok ((List.range L).map (fun i =>
          turboPosterior t v L p (fun i => ys.getD i 0) (fun i => yp1.getD i 0) (fun i => yp2.getD i 0) lam (p.idxOf i) -
          turboSecond t v L p (fun i => ys.getD i 0) (fun i => yp1.getD i 0) lam (p.idxOf i)),
        some ((List.range L).map (fun j => if i + 1 = n then
          (if turboPosterior t v L p (fun i => ys.getD i 0) (fun i => yp1.getD i 0) (fun i => yp2.getD i 0) lam j > 0 then 1 else 0) else 0))) := by
  have hpl : p.length = L := by simpa using hp.length_eq
  have hplt : ∀ j < L, p.getD j 0 < L := by
    intro j hj
    rw [List.getD_eq_getElem _ _ (by omega)]
    exact perm_lt hp (List.getElem_mem _)
  have a1 := mapDecode_fun h hk hn hv hy hy1 hl (fun i => ys.getD i 0) (fun i => yp1.getD i 0) lam (fun _ _ => rfl) (fun _ _ => rfl) hlam "compute"
  have a2 := npZip_sub_range (posteriorAt t v L (fun i => ys.getD i 0) (fun i => yp1.getD i 0) lam) lam lint hl hlam
  have a3 := interlv_ok (0 : ℝ) hp (x := (List.range L).map (fun i => posteriorAt t v L (fun i => ys.getD i 0) (fun i => yp1.getD i 0) lam i - lam i)) (by simp)
  set lint2 := p.map (fun i => ((List.range L).map (fun i => posteriorAt t v L (fun i => ys.getD i 0) (fun i => yp1.getD i 0) lam i - lam i)).getD i 0) with hlint2
  have hl2 : lint2.length = L := by simp [hlint2, hpl]
  have hlam2 : ∀ j < L, lint2.getD j 0 = turboSecond t v L p (fun i => ys.getD i 0) (fun i => yp1.getD i 0) lam j := by
    intro j hj
    have hj' := hplt j hj
    rw [hlint2, List.getD_eq_getElem _ _ (by simp; omega), List.getElem_map]
    have e : p[j]'(by omega) = p.getD j 0 := by rw [List.getD_eq_getElem _ _ (by omega)]
    rw [e, getD_map_range' _ _ hj']
    rfl
  have hysi : ∀ j < L, (p.map (fun i => ys.getD i 0)).getD j 0 = ys.getD (p.getD j 0) 0 := by
    intro j hj
    rw [List.getD_eq_getElem _ _ (by simp; omega), List.getElem_map, List.getD_eq_getElem p _ (by omega)]
  have a4 := mapDecode_fun h hk hn hv (ys := p.map (fun i => ys.getD i 0)) (by simp [hpl]) hy2 hl2 (fun j => ys.getD (p.getD j 0) 0) (fun i => yp2.getD i 0)
    (turboSecond t v L p (fun i => ys.getD i 0) (fun i => yp1.getD i 0) lam) hysi (fun _ _ => rfl) hlam2 (if i + 1 = n then "decode" else "compute")
  have a5 := npZip_sub_range (posteriorAt t v L (fun j => ys.getD (p.getD j 0) 0) (fun i => yp2.getD i 0)
    (turboSecond t v L p (fun i => ys.getD i 0) (fun i => yp1.getD i 0) lam)) _ lint2 hl2 hlam2
  have a6 := deinterlv_range (0 : ℝ) hp (fun j => posteriorAt t v L (fun j => ys.getD (p.getD j 0) 0) (fun i => yp2.getD i 0)
    (turboSecond t v L p (fun i => ys.getD i 0) (fun i => yp1.getD i 0) lam) j - turboSecond t v L p (fun i => ys.getD i 0) (fun i => yp1.getD i 0) lam j)
  simp only [turboIter, a1, a2, a3, a4, a5, a6, bind, Except.bind, pure, Except.pure]
  congr 3
  by_cases hi : i + 1 = n
  · simp only [hi, if_true]
    rfl
  · simp only [hi, if_false]
    simp

include h hk hn hv in
/-- C53: for every permutation and every number `n ≥ 1` of iterations, `turbo_decode` returns one bit per systematic symbol:
the signs of the a posteriori LLRs of the second decoder in the last iteration, in natural order. -/
theorem C53_turbo {ys yp1 yp2 lint : List ℝ} {p : List Nat} (hp : p.Perm (List.range L)) (hy : ys.length = L) (hy1 : L ≤ yp1.length)
    (hy2 : L ≤ yp2.length) (hl : lint.length = L) (n : Nat) :
    ∃ bits, turboDecode t v ys yp1 yp2 ((n : Int) + 1) p (some lint) = .ok bits ∧ bits.length = L ∧
      ∀ j < L, bits[p.getD j 0]? = some (if 0 < turboPosterior t v L p (fun i => ys.getD i 0) (fun i => yp1.getD i 0) (fun i => yp2.getD i 0)
        (turboPrior t v L p (fun i => ys.getD i 0) (fun i => yp1.getD i 0) (fun i => yp2.getD i 0) (fun i => lint.getD i 0) n) j then 1 else 0) := by
  have key : ∀ m, ∃ lint' o, (List.range m).foldlM (turboIter t v ys (p.map (fun i => ys.getD i 0)) yp1 yp2 p (n + 1)) (lint, none) = .ok (lint', o) ∧
      lint'.length = L ∧ (∀ i < L, lint'.getD i 0 =
        turboPrior t v L p (fun i => ys.getD i 0) (fun i => yp1.getD i 0) (fun i => yp2.getD i 0) (fun i => lint.getD i 0) m i) := by
    intro m
    induction m with
    | zero => exact ⟨lint, none, rfl, hl, fun i _ => rfl⟩
    | succ m ih =>
      obtain ⟨lint', o, e1, e2, e3⟩ := ih
      refine ⟨(List.range L).map (fun i =>
          turboPosterior t v L p (fun i => ys.getD i 0) (fun i => yp1.getD i 0) (fun i => yp2.getD i 0) (turboPrior t v L p (fun i => ys.getD i 0) (fun i => yp1.getD i 0) (fun i => yp2.getD i 0) (fun i => lint.getD i 0) m) (p.idxOf i) -
          turboSecond t v L p (fun i => ys.getD i 0) (fun i => yp1.getD i 0) (turboPrior t v L p (fun i => ys.getD i 0) (fun i => yp1.getD i 0) (fun i => yp2.getD i 0) (fun i => lint.getD i 0) m) (p.idxOf i)),
        some ((List.range L).map (fun j => if m + 1 = n + 1 then
          (if turboPosterior t v L p (fun i => ys.getD i 0) (fun i => yp1.getD i 0) (fun i => yp2.getD i 0) (turboPrior t v L p (fun i => ys.getD i 0) (fun i => yp1.getD i 0) (fun i => yp2.getD i 0) (fun i => lint.getD i 0) m) j > 0 then 1 else 0) else 0)), ?_, ?_, ?_⟩
      · rw [List.range_succ, List.foldlM_append, e1]
        show ([m].foldlM _ _ : Py _) = _
        rw [List.foldlM_cons, turboIter_ok h hk hn hv hp hy hy1 hy2 (n + 1) m lint' e2 _ e3]
        rfl
      · simp
      · intro i hi
        rw [getD_map_range' _ _ hi]
        rfl
  obtain ⟨lint', o, e1, e2, e3⟩ := key n
  have hi := interlv_ok (0 : ℝ) hp (x := ys) (by omega)
  have hit := turboIter_ok h hk hn hv hp hy hy1 hy2 (n + 1) n lint' e2 _ e3 o
  have hfold : (List.range (n + 1)).foldlM (turboIter t v ys (p.map (fun i => ys.getD i 0)) yp1 yp2 p (n + 1)) (lint, none) =
      turboIter t v ys (p.map (fun i => ys.getD i 0)) yp1 yp2 p (n + 1) (lint', o) n := by
    rw [List.range_succ, List.foldlM_append, e1]
    show ([n].foldlM _ _ : Py _) = _
    rw [List.foldlM_cons, hit]
    rfl
  refine ⟨(List.range L).map (fun i => if n + 1 = n + 1 then
    (if turboPosterior t v L p (fun i => ys.getD i 0) (fun i => yp1.getD i 0) (fun i => yp2.getD i 0) (turboPrior t v L p (fun i => ys.getD i 0) (fun i => yp1.getD i 0) (fun i => yp2.getD i 0) (fun i => lint.getD i 0) n) (p.idxOf i) > 0 then 1 else 0) else 0), ?_, ?_, ?_⟩
  · simp only [turboDecode, hi, bind, Except.bind, Option.getD_some, show ((n : Int) + 1).toNat = n + 1 by omega]
    rw [hfold, hit]
    simp only
    rw [deinterlv_range 0 hp]
  · simp
  · intro j hj
    have hpl : p.length = L := by simpa using hp.length_eq
    have hplt : p.getD j 0 < L := by
      rw [List.getD_eq_getElem _ _ (by omega)]
      exact perm_lt hp (List.getElem_mem _)
    rw [List.getElem?_map, List.getElem?_range hplt, Option.map_some, idxOf_getD hp hj]
    simp

/-- C53: with `L_int = None` the initial LLRs are zero. -/
theorem C53_default (t : Trellis) (σ2 : ℝ) (ys yp1 yp2 : List ℝ) (n : Int) (p : List Nat) :
    turboDecode t σ2 ys yp1 yp2 n p none = turboDecode t σ2 ys yp1 yp2 n p (some (List.replicate ys.length 0)) := rfl

/-- C53: without iterations `turbo_decode` fails (its result is an unbound variable). -/
theorem C53_no_iterations (t : Trellis) (σ2 : ℝ) {ys : List ℝ} (yp1 yp2 : List ℝ) {n : Int} (hn : n ≤ 0) {p : List Nat} (hp : p.Perm (List.range ys.length))
    (lint : Option (List ℝ)) : turboDecode t σ2 ys yp1 yp2 n p lint = .error .nameError := by
  have hi := interlv_ok (0 : ℝ) hp (x := ys) le_rfl
  simp only [turboDecode, hi, bind, Except.bind, show n.toNat = 0 by omega, List.range_zero, List.foldlM_nil, pure, Except.pure]

/-- The hypotheses of C53 are met. -/
example (v : NNReal) (hv : 0 < v) : ∃ bits, turboDecode turboTrellis v [9, -12, 1] [1, 3, -7] [2, 4, -7, 5] 4 [2, 0, 1] (some [0, 0, 0]) = .ok bits ∧
    bits.length = 3 := by
  obtain ⟨bits, h1, h2, -⟩ := C53_turbo turboTrellis_WF rfl (by decide) hv (ys := [9, -12, 1]) (yp1 := [1, 3, -7])
    (yp2 := [2, 4, -7, 5]) (lint := [0, 0, 0]) (p := [2, 0, 1]) (L := 3) (by decide) (by simp) (by simp) (by simp) (by simp) 3
  exact ⟨bits, h1, h2⟩

end Verif
