import Verif.Lemmas.BestFirst
/-
Best-first search: the best leaf and the counter-hypothesis metrics.
-/
namespace Verif

open Finset

/-- The best leaf so far (`none`: no leaf yet) and the common counter-hypothesis metric, against the variables of the program. -/
def BfMap (e : BfEnv) (n : Nat) (st : BfState) : Option (List ℂ × ℝ) → Prop
  | none => st.counter = List.replicate (n * e.order) ⊤ ∧ st.mapBits = none ∧ st.mapMetric = ⊤
  | some (x, cc) => st.counter = List.replicate (n * e.order) ((cc : ℝ) : EReal) ∧ st.mapBits = some (bfSigns (e.demode x)) ∧
      st.mapMetric = ((bfMetric e x : ℝ) : EReal) ∧ IsVector e.c n x ∧ bfMetric e x ≤ cc ∧ cc ≤ bfMetric e x + e.llrMax

theorem le_maxInf {l : List EReal} {x : EReal} (h : x ∈ l) : x ≤ maxInf l := by
  have gen : ∀ (l : List EReal) (acc : EReal), acc ≤ l.foldl max acc ∧ ∀ x ∈ l, x ≤ l.foldl max acc := by
    intro l
    induction l with
    | nil => intro acc; exact ⟨le_rfl, by simp⟩
    | cons a l ih =>
      intro acc
      rw [List.foldl_cons]
      obtain ⟨h1, h2⟩ := ih (max acc a)
      refine ⟨(le_max_left _ _).trans h1, ?_⟩
      intro x hx
      rcases List.mem_cons.1 hx with rfl | hx
      · exact (le_max_right _ _).trans h1
      · exact h2 x hx
  exact (gen l ⊥).2 x h

/-- Pruning never uses a radius below the best metric. -/
theorem radius_ge {e : BfEnv} {n : Nat} {st : BfState} {o : Option (List ℂ × ℝ)} (hm : BfMap e n st o) (ho : 1 ≤ e.order) {idx : Nat}
    (h1 : 1 ≤ idx) (h2 : idx ≤ n) (node : BChain) : st.mapMetric ≤ bfRadius e st idx node := by
  match o, hm with
  | none, ⟨_, hb, _⟩ =>
    unfold bfRadius
    rw [hb]
    exact le_top
  | some (x, cc), ⟨hcn, hb, hmm, _, hle, _⟩ =>
    unfold bfRadius
    rw [hb]
    simp only
    refine le_trans ?_ (le_max_left _ _)
    rw [hmm, hcn, List.take_replicate]
    refine (EReal.coe_le_coe_iff.2 hle).trans (le_maxInf ?_)
    rw [List.mem_replicate]
    refine ⟨?_, rfl⟩
    have h3 : 0 < idx * e.order := Nat.mul_pos h1 ho
    have h4 : idx * e.order ≤ n * e.order := Nat.mul_le_mul_right _ h2
    rw [Nat.min_eq_left h4]
    omega

/-- `np.clip` on reals. -/
noncomputable def clipReal (x lo hi : ℝ) : ℝ := min (max x lo) hi

theorem npClip_coe (x lo hi : ℝ) : npClip ((x : ℝ) : EReal) ((lo : ℝ) : EReal) ((hi : ℝ) : EReal) = ((clipReal x lo hi : ℝ) : EReal) := by
  have hmono : Monotone (fun r : ℝ => (r : EReal)) := EReal.coe_strictMono.monotone
  unfold npClip clipReal
  rw [hmono.map_min, hmono.map_max]

theorem coe_min' (x y : ℝ) : min ((x : ℝ) : EReal) ((y : ℝ) : EReal) = ((min x y : ℝ) : EReal) := by
  have hmono : Monotone (fun r : ℝ => (r : EReal)) := EReal.coe_strictMono.monotone
  rw [hmono.map_min]

/-- Best leaf and counter metric after a new leaf. -/
noncomputable def bfNext (e : BfEnv) (leaf : List ℂ) : Option (List ℂ × ℝ) → List ℂ × ℝ
  | none => (leaf, bfMetric e leaf + e.llrMax)
  | some (x, cc) =>
    if bfMetric e leaf < bfMetric e x then
      (leaf, clipReal (min cc (bfMetric e x)) (bfMetric e leaf - e.llrMax) (bfMetric e leaf + e.llrMax))
    else (x, clipReal (min cc (bfMetric e leaf)) (bfMetric e x - e.llrMax) (bfMetric e x + e.llrMax))

theorem clip_bounds {x m L : ℝ} (hL : 0 ≤ L) (hx : m ≤ x) : m ≤ clipReal x (m - L) (m + L) ∧ clipReal x (m - L) (m + L) ≤ m + L := by
  unfold clipReal
  refine ⟨le_min (le_trans hx (le_max_left _ _)) (by linarith), min_le_right _ _⟩

theorem bfLeaf_spec {e : BfEnv} {n : Nat} (ho : 1 ≤ e.order) (hL : 0 ≤ e.llrMax) {st : BfState} {o : Option (List ℂ × ℝ)}
    (hm : BfMap e n st o) :
    (st.stk 0 = [] → bfLeaf e st = .ok st) ∧
    ∀ leaf t, st.stk 0 = leaf :: t → ChainOk e n leaf → ∃ st', bfLeaf e st = .ok st' ∧ st'.stk = st.stk ∧
      BfMap e n st' (some (bfNext e leaf.symb o)) := by
  constructor
  · intro h
    unfold bfLeaf
    rw [h]
  · intro leaf t hs hok
    obtain ⟨hv, hmet⟩ := hok.head
    unfold bfLeaf
    rw [hs]
    simp only [hmet]
    match o, hm with
    | none, ⟨hcn, hb, hmm⟩ =>
      rw [hmm, if_pos (EReal.coe_lt_top _), if_neg (by omega)]
      refine ⟨_, rfl, rfl, ?_⟩
      refine ⟨?_, rfl, rfl, hv, by linarith, le_rfl⟩
      simp only [hcn, List.map_replicate]
      rw [← EReal.coe_sub, ← EReal.coe_add]
      unfold npClip
      simp
    | some (x, cc), ⟨hcn, hb, hmm, hvx, h1, h2⟩ =>
      simp only [bfNext]
      by_cases hlt : bfMetric e leaf.symb < bfMetric e x
      · rw [hmm, if_pos (EReal.coe_lt_coe_iff.2 hlt), if_neg (by omega), if_pos hlt]
        refine ⟨_, rfl, rfl, ?_⟩
        have hb := clip_bounds hL (show bfMetric e leaf.symb ≤ min cc (bfMetric e x) from le_min (by linarith) hlt.le)
        refine ⟨?_, rfl, rfl, hv, hb.1, hb.2⟩
        simp only [hcn, List.map_replicate]
        rw [coe_min', ← EReal.coe_sub, ← EReal.coe_add, npClip_coe]
      · rw [hmm, if_neg (fun h => hlt (EReal.coe_lt_coe_iff.1 h)), if_neg hlt]
        refine ⟨_, rfl, rfl, ?_⟩
        have hb := clip_bounds hL (show bfMetric e x ≤ min cc (bfMetric e leaf.symb) from le_min h1 (not_lt.1 hlt))
        refine ⟨?_, by simpa using ‹st.mapBits = _›, by simpa using hmm, hvx, hb.1, hb.2⟩
        simp only [hcn, List.map_replicate]
        rw [coe_min', ← EReal.coe_sub, ← EReal.coe_add, npClip_coe]

/-- One turn of the loop: the stacks are passed and trimmed, the best leaf updated. -/
theorem turn_spec {e : BfEnv} {n : Nat} (hsort : ∀ l, IsArgsort l (e.argsort l)) (hc : e.c ≠ []) (ho : 1 ≤ e.order) (hL : 0 ≤ e.llrMax)
    {ss : List Nat} (hss : n - 1 ≤ ss.length) {st : BfState} {o : Option (List ℂ × ℝ)} (hok : StkOk e n st.stk) (hm : BfMap e n st o) :
    ∃ st' o', bfTurn e n ss st = .ok st' ∧ BfMap e n st' o' ∧
      (st'.stk = fun i => if i = 0 then [] else if i < n then
        (((List.range (n - 1)).foldl (bfProcess e) st).stk i).take (ss.getD (i - 1) 0) else
        ((List.range (n - 1)).foldl (bfProcess e) st).stk i) ∧
      ((((List.range (n - 1)).foldl (bfProcess e) st).stk 0 = [] ∧ o' = o) ∨
        ∃ leaf t, ((List.range (n - 1)).foldl (bfProcess e) st).stk 0 = leaf :: t ∧ o' = some (bfNext e leaf.symb o)) := by
  obtain ⟨h1, _, _⟩ := pot_pass hsort hc hok (n - 1) le_rfl
  obtain ⟨v1, v2, v3⟩ := pass_vals (e := e) st (n - 1)
  set st1 := (List.range (n - 1)).foldl (bfProcess e) st with hst1
  have hm1 : BfMap e n st1 o := by
    match o, hm with
    | none, ⟨a, b, c⟩ => exact ⟨v3.trans a, v2.trans b, v1.trans c⟩
    | some (x, cc), ⟨a, b, c, d⟩ => exact ⟨v3.trans a, v2.trans b, v1.trans c, d⟩
  obtain ⟨hl1, hl2⟩ := bfLeaf_spec ho hL hm1
  have htrim : ∀ s : BfState, bfTrim n ss s = .ok { s with
      stk := fun i => if i = 0 then [] else if i < n then (s.stk i).take (ss.getD (i - 1) 0) else s.stk i } := by
    intro s
    unfold bfTrim
    rw [if_neg (by omega)]
  have hmap : ∀ (s : BfState) (f : Nat → List BChain) o, BfMap e n s o → BfMap e n { s with stk := f } o := by
    intro s f o h
    match o, h with
    | none, h => exact h
    | some (x, cc), h => exact h
  cases hs : st1.stk 0 with
  | nil =>
    refine ⟨{ st1 with stk := fun i => if i = 0 then [] else if i < n then (st1.stk i).take (ss.getD (i - 1) 0) else st1.stk i }, o, ?_,
      hmap _ _ _ hm1, rfl, Or.inl ⟨rfl, rfl⟩⟩
    unfold bfTurn
    rw [← hst1, hl1 hs]
    exact htrim st1
  | cons leaf t =>
    have hch := h1 0 leaf (by rw [hs]; simp)
    rw [Nat.sub_zero] at hch
    obtain ⟨st2, he, hstk, hm2⟩ := hl2 leaf t hs hch.2
    refine ⟨{ st2 with stk := fun i => if i = 0 then [] else if i < n then (st2.stk i).take (ss.getD (i - 1) 0) else st2.stk i }, _, ?_,
      hmap _ _ _ hm2, ?_, Or.inr ⟨leaf, t, rfl, rfl⟩⟩
    · unfold bfTurn
      rw [← hst1, he]
      exact htrim st2
    · simp only [hstk]

/-- While no leaf has been found the pass leaves some stack non-empty. -/
theorem pass_nonempty {e : BfEnv} {n : Nat} (hsort : ∀ l, IsArgsort l (e.argsort l)) (hc : e.c ≠ []) (hk : n ≤ e.k) {st : BfState}
    (hok : StkOk e n st.stk) (hb : st.mapBits = none) (hne : ∃ i < n, st.stk i ≠ []) :
    ∃ i < n, ((List.range (n - 1)).foldl (bfProcess e) st).stk i ≠ [] := by
  have := pass_induct (e := e) (n := n) (fun st => StkOk e n st.stk ∧ st.mapBits = none ∧ ∃ i < n, st.stk i ≠ []) ⟨hok, hb, hne⟩ (by
    rintro st i hi ⟨hok, hb, hne⟩
    refine ⟨stkOk_process hsort hc hok i, (process_vals e st i).2.1.trans hb, ?_⟩
    rcases bfProcess_cases e st i with ⟨_, h⟩ | ⟨node, rest, hs, rest', hr, hcase⟩
    · rw [h]; exact hne
    · have hnode : node ∈ st.stk (i + 1) := by rw [hs]; simp
      obtain ⟨hv, hmt⟩ := node_vec hok hnode
      obtain ⟨ch, hx, _⟩ := bfExpand_ok hsort hc hv hmt (show n - (i + 1) + 1 ≤ e.k by omega)
      have hrad : bfRadius e st (i + 1) node = ⊤ := by
        unfold bfRadius
        rw [hb]
      rcases hcase with ⟨⟨err, herr⟩, _⟩ | ⟨child, hx', hcase⟩
      · rw [hx] at herr; cases herr
      · rcases hcase with ⟨hlt, _⟩ | ⟨_, heq⟩
        · rw [hrad] at hlt
          exact absurd hlt not_top_lt
        · refine ⟨i, by omega, ?_⟩
          rw [heq]
          simp only [Function.update_self]
          intro hnil
          have : child ∈ bfInsort (st.stk i) child := mem_bfInsort.2 (Or.inl rfl)
          rw [hnil] at this
          cases this) (n - 1) le_rfl
  exact this.2.2

/-- The initial stacks are well formed. -/
theorem init_ok {e : BfEnv} {n : Nat} (hsort : ∀ l, IsArgsort l (e.argsort l)) (hc : e.c ≠ []) (hn : 1 ≤ n) (hk : 1 ≤ e.k) :
    ∃ first, bfExpand e ([], 0) = .ok first ∧ StkOk e n (bfInit n e.order first).stk ∧ first.length = e.c.length ∧
      (∀ s ∈ e.c, ∃ p ∈ first, p.1 = [s]) ∧ (e.c.Nodup → (first.map Prod.fst).Nodup) ∧
      BfMap e n (bfInit n e.order first) none := by
  obtain ⟨first, h1, h2, h3, h4, h5, _⟩ := bfExpand_ok (e := e) (len := 0) (node := ([], 0)) hsort hc ⟨rfl, by simp⟩ rfl (by omega)
  refine ⟨first, h1, ?_, h4, h3, h5, rfl, rfl, rfl⟩
  intro i ch hch
  simp only [bfInit] at hch
  split at hch
  · rename_i hi
    rw [List.mem_singleton] at hch
    subst hch
    refine ⟨by omega, ?_⟩
    rw [show n - i = 0 + 1 by omega]
    exact h2
  · cases hch

theorem init_sum (w : Nat → BChain → Nat) {n : Nat} (hn : 1 ≤ n) (order : Nat) (first : BChain) :
    bfSum n w (bfInit n order first).stk = w (n - 1) first := by
  unfold bfSum
  rw [sum_eq_single (n - 1)]
  · simp [bfInit]
  · intro i _ hi
    simp [bfInit, hi]
  · intro h
    exact absurd (mem_range.2 (by omega)) h

end Verif
