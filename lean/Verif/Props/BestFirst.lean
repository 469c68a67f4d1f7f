import Verif.Lemmas.BestFirstMap
import Verif.Props.MaxLog
/-
C70: best-first soft detection.
-/
namespace Verif

open Finset

/-- `demode` returns `order` bits per symbol. -/
def DemodeOk (demode : List ℂ → List Nat) (order : Nat) : Prop :=
  ∀ x, (demode x).length = order * x.length ∧ ∀ b ∈ demode x, b = 0 ∨ b = 1

theorem bfResult_some {e : BfEnv} {n : Nat} (hd : DemodeOk e.demode e.order) {st : BfState} {x : List ℂ} {cc : ℝ}
    (hm : BfMap e n st (some (x, cc))) :
    bfResult st = .ok ((e.demode x).map fun b => (((if b = 0 then cc - bfMetric e x else -(cc - bfMetric e x)) : ℝ) : EReal)) := by
  obtain ⟨hcn, hb, hmm, hv, _, _⟩ := hm
  unfold bfResult
  rw [hb]
  simp only
  congr 1
  have hl : (e.demode x).length = n * e.order := by rw [(hd x).1, hv.1, Nat.mul_comm]
  apply List.ext_getElem
  · simp [hcn, bfSigns, hl]
  · intro i h1 h2
    have hi : i < (e.demode x).length := by simpa using h2
    simp only [List.getElem_zipWith, List.getElem_map, bfSigns, hcn, List.getElem_replicate, hmm]
    rcases (hd x).2 _ (List.getElem_mem hi) with h | h
    · rw [h]
      simp only [if_pos]
      rw [← EReal.coe_sub, ← EReal.coe_mul]
      congr 1
      push_cast
      ring
    · rw [h]
      simp only [if_neg (show ¬ 1 = 0 by decide)]
      rw [← EReal.coe_sub, ← EReal.coe_mul]
      congr 1
      push_cast
      ring

section
variable {e : BfEnv} {n : Nat}

theorem pot_init (hm : 2 ≤ e.c.length) (hn : 1 ≤ n) {first : BChain} (hf : first.length = e.c.length) :
    bfPot e.c.length n (bfInit n e.order first).stk < e.c.length ^ n := by
  unfold bfPot
  rw [init_sum _ hn, hf]
  have := bfW_lt hm (n - 1)
  calc e.c.length * bfW e.c.length (n - 1) < e.c.length * e.c.length ^ (n - 1) := Nat.mul_lt_mul_of_pos_left this (by omega)
    _ = e.c.length ^ n := by rw [← pow_succ']; congr 1; omega

/-- The search ends, has found a leaf, and yields one common magnitude. -/
theorem search_spec (hsort : ∀ l, IsArgsort l (e.argsort l)) (hm : 2 ≤ e.c.length) (ho : 1 ≤ e.order) (hL : 0 ≤ e.llrMax)
    (hd : DemodeOk e.demode e.order) (hn : 2 ≤ n) (hk : n ≤ e.k) {ss : List Nat} (hss : n - 1 ≤ ss.length) (hpos : ∀ s ∈ ss, 1 ≤ s)
    {fuel : Nat} (hf : e.c.length ^ n ≤ fuel) (Q : BfState → Option (List ℂ × ℝ) → Prop)
    (hinit : ∀ first, bfExpand e ([], 0) = .ok first → Q (bfInit n e.order first) none)
    (hstep : ∀ st o st' o', StkOk e n st.stk → st.stk 0 = [] → BfMap e n st o → Q st o →
      bfPot e.c.length n st.stk < e.c.length ^ n →
      (st'.stk = fun i => if i = 0 then [] else if i < n then
        (((List.range (n - 1)).foldl (bfProcess e) st).stk i).take (ss.getD (i - 1) 0) else
        ((List.range (n - 1)).foldl (bfProcess e) st).stk i) →
      BfMap e n st' o' →
      ((((List.range (n - 1)).foldl (bfProcess e) st).stk 0 = [] ∧ o' = o) ∨
        ∃ leaf t, ((List.range (n - 1)).foldl (bfProcess e) st).stk 0 = leaf :: t ∧ o' = some (bfNext e leaf.symb o)) → Q st' o') :
    ∃ (x : List ℂ) (cc : ℝ) (st : BfState), bfSearch e n ss fuel =
        .ok ((e.demode x).map fun b => (((if b = 0 then cc - bfMetric e x else -(cc - bfMetric e x)) : ℝ) : EReal)) ∧
      IsVector e.c n x ∧ bfMetric e x ≤ cc ∧ cc ≤ bfMetric e x + e.llrMax ∧ Q st (some (x, cc)) ∧ BfMap e n st (some (x, cc)) ∧
      ∀ i < n, st.stk i = [] := by
  have hc : e.c ≠ [] := by intro h; rw [h] at hm; simp at hm
  obtain ⟨first, h1, h2, h3, _, _, h6⟩ := init_ok (n := n) hsort hc (by omega) (by omega)
  have hp := pot_init (n := n) hm (by omega) h3
  obtain ⟨st, hl, ⟨h0, o, hmap, hQ, hne, _⟩, hok, hem⟩ := loop_induct (e := e) (n := n) (ss := ss) hsort hc
    (fun st => st.stk 0 = [] ∧ ∃ o, BfMap e n st o ∧ Q st o ∧ (o = none → ∃ i, 1 ≤ i ∧ i < n ∧ st.stk i ≠ []) ∧
      bfPot e.c.length n st.stk < e.c.length ^ n) (by
    rintro st hok ⟨h0, o, hmap, hQ, hne, hpot⟩ hex
    obtain ⟨st', o', ht, hmap', hstk, hcase⟩ := turn_spec hsort hc ho hL hss hok hmap
    refine ⟨st', ht, ?_, o', hmap', hstep st o st' o' hok h0 hmap hQ hpot hstk hmap' hcase, ?_, ?_⟩
    · rw [hstk]; rfl
    · intro ho'
      rcases hcase with ⟨hs0, heq⟩ | ⟨leaf, t, _, heq⟩
      · rw [ho'] at heq
        have hmap0 := hmap
        rw [← heq] at hmap0
        obtain ⟨i, hi, hine⟩ := pass_nonempty hsort hc hk hok hmap0.2.1 (by
          obtain ⟨i, _, h2, h3⟩ := hex
          exact ⟨i, h2, h3⟩)
        have hi0 : i ≠ 0 := fun h => hine (by rw [h]; exact hs0)
        refine ⟨i, by omega, hi, ?_⟩
        rw [hstk]
        simp only [if_neg hi0, if_pos hi]
        have hsz : 1 ≤ ss.getD (i - 1) 0 := by
          rw [List.getD_eq_getElem _ _ (by omega)]
          exact hpos _ (List.getElem_mem _)
        rw [← List.length_pos_iff, List.length_take]
        have := List.length_pos_iff.2 hine
        omega
      · rw [ho'] at heq; cases heq
    · exact lt_trans (turn_pot hsort hc hok ht hex).2 hpot) fuel (bfInit n e.order first) h2
    ⟨by simp [bfInit]; omega, none, h6, hinit first h1, fun _ => ⟨n - 1, by omega, by omega, by simp [bfInit]⟩, hp⟩ (by omega)
  have hall : ∀ i < n, st.stk i = [] := by
    intro i hi
    rcases Nat.eq_zero_or_pos i with h | h
    · rw [h]; exact h0
    · exact hem i h hi
  match o, hmap, hQ, hne with
  | none, _, _, hne =>
    obtain ⟨i, a, b, c⟩ := hne rfl
    exact absurd (hall i b) c
  | some (x, cc), hmap, hQ, _ =>
    refine ⟨x, cc, st, ?_, hmap.2.2.2.1, hmap.2.2.2.2.1, hmap.2.2.2.2.2, hQ, hmap, hall⟩
    unfold bfSearch
    rw [h1]
    simp only [hl]
    exact bfResult_some hd hmap

/-! ### Coverage: nothing better is lost -/

/-- Every vector is below a node of the stacks, or no better than the best leaf or a new leaf. -/
def Cov (e : BfEnv) (n : Nat) (stk : Nat → List BChain) (mm : EReal) : Prop :=
  ∀ x, IsVector e.c n x → (∃ i, 1 ≤ i ∧ i < n ∧ ∃ ch ∈ stk i, ∃ p ∈ ch, p.1 <:+ x) ∨ mm ≤ ((bfMetric e x : ℝ) : EReal) ∨
    ∃ ch ∈ stk 0, ((BChain.metric ch : ℝ) : EReal) ≤ ((bfMetric e x : ℝ) : EReal)

theorem bfMap_process {st : BfState} {o : Option (List ℂ × ℝ)} (h : BfMap e n st o) (i : Nat) : BfMap e n (bfProcess e st i) o := by
  obtain ⟨v1, v2, v3⟩ := process_vals e st i
  match o, h with
  | none, ⟨a, b, c⟩ => exact ⟨v3.trans a, v2.trans b, v1.trans c⟩
  | some (x, cc), ⟨a, b, c, d⟩ => exact ⟨v3.trans a, v2.trans b, v1.trans c, d⟩

theorem cov_process (hsort : ∀ l, IsArgsort l (e.argsort l)) (hc : e.c ≠ []) (ho : 1 ≤ e.order) (hk : n ≤ e.k) {st : BfState}
    {o : Option (List ℂ × ℝ)} (hok : StkOk e n st.stk) (hm : BfMap e n st o) {i : Nat} (hi : i < n - 1)
    (hcov : Cov e n st.stk st.mapMetric) : Cov e n (bfProcess e st i).stk (bfProcess e st i).mapMetric := by
  rw [(process_vals e st i).1]
  rcases bfProcess_cases e st i with ⟨_, h⟩ | ⟨node, rest, hs, rest', hr, hcase⟩
  · rw [h]; exact hcov
  · have hnode : node ∈ st.stk (i + 1) := by rw [hs]; simp
    obtain ⟨_, hnok⟩ := hok _ _ hnode
    obtain ⟨hv, hmt⟩ := node_vec hok hnode
    obtain ⟨child0, hx0, _⟩ := bfExpand_ok hsort hc hv hmt (show n - (i + 1) + 1 ≤ e.k by omega)
    have hrad := radius_ge hm ho (idx := i + 1) (by omega) (by omega) node
    rcases hcase with ⟨⟨err, herr⟩, _⟩ | ⟨child, hx, hcase⟩
    · rw [hx0] at herr; cases herr
    · obtain ⟨hcok, hcall, _, _, _⟩ := expand_node hsort hc hok hnode hx
      -- stacks after the step
      have hstk : ∃ l0, (bfProcess e st i).stk = Function.update (Function.update st.stk (i + 1) rest') i l0 ∧
          (∀ ch ∈ st.stk i, ch ∈ l0) ∧ (child ∈ l0 ∨ bfRadius e st (i + 1) node < ((BChain.metric child : ℝ) : EReal)) := by
        rcases hcase with ⟨hlt, heq⟩ | ⟨_, heq⟩
        · refine ⟨st.stk i, ?_, fun _ h => h, Or.inr hlt⟩
          rw [heq]
          simp only
          rw [Function.update_comm (show i + 1 ≠ i by omega), Function.update_eq_self]
        · refine ⟨bfInsort (st.stk i) child, by rw [heq], fun ch h => mem_bfInsort.2 (Or.inr h), Or.inl (mem_bfInsort.2 (Or.inl rfl))⟩
      obtain ⟨l0, hst', hsub, hch⟩ := hstk
      rw [hst']
      intro x hxv
      rcases hcov x hxv with ⟨j, hj1, hj2, ch, hchj, p, hp, hsuf⟩ | hle | ⟨ch, hch0, hle⟩
      · by_cases hj : j = i + 1
        · subst hj
          rw [hs] at hchj
          rcases List.mem_cons.1 hchj with rfl | hrest
          · -- in the popped node
            by_cases hpt : p ∈ ch.tail
            · have htne : ch.tail ≠ [] := List.ne_nil_of_mem hpt
              rcases hr with ⟨rfl, hcases⟩ | ⟨_, rfl⟩
              · rcases hcases with h | h
                · exact absurd h htne
                · right; left
                  refine hrad.trans (h.le.trans (EReal.coe_le_coe_iff.2 ?_))
                  exact ((hnok.tail htne).metric_le hpt).trans (bfMetric_suffix e hsuf)
              · left
                refine ⟨i + 1, hj1, hj2, ch.tail, ?_, p, hpt, hsuf⟩
                rw [Function.update_of_ne (by omega), Function.update_self]
                exact mem_bfInsort.2 (Or.inl rfl)
            · -- the node itself: a child covers
              have hp0 : p = ch.headD ([], 0) := by
                match ch, hp, hpt with
                | a :: t, hp, hpt =>
                  rcases List.mem_cons.1 hp with h | h
                  · exact h
                  · exact absurd h hpt
              have hpl : p.1.length = n - (i + 1) := by rw [hp0]; exact hv.1
              obtain ⟨t, ht⟩ := hsuf
              have htl : t ≠ [] := by
                intro h
                have hl := congrArg List.length ht
                rw [h, List.nil_append, hxv.1, hpl] at hl
                omega
              obtain ⟨t', s, rfl⟩ : ∃ t' s, t = t' ++ [s] := ⟨t.dropLast, t.getLast htl, (List.dropLast_concat_getLast htl).symm⟩
              have hsuf2 : (s :: p.1) <:+ x := ⟨t', by rw [← ht]; simp⟩
              have hsm : s ∈ e.c := hxv.2 s (by rw [← ht]; simp)
              obtain ⟨q, hq, hqs⟩ := hcall s hsm
              have hqeq : q.1 = s :: p.1 := by rw [hqs, hp0]; rfl
              have hqle : BChain.metric child ≤ bfMetric e x :=
                (hcok.metric_le hq).trans (bfMetric_suffix e (by rw [hqeq]; exact hsuf2))
              rcases hch with hmem | hlt
              · rcases Nat.eq_zero_or_pos i with h0 | hpos
                · right; right
                  subst h0
                  refine ⟨child, ?_, EReal.coe_le_coe_iff.2 hqle⟩
                  rw [Function.update_self]
                  exact hmem
                · left
                  refine ⟨i, hpos, by omega, child, ?_, q, hq, by rw [hqeq]; exact hsuf2⟩
                  rw [Function.update_self]
                  exact hmem
              · right; left
                exact hrad.trans (hlt.le.trans (EReal.coe_le_coe_iff.2 hqle))
          · left
            refine ⟨i + 1, hj1, hj2, ch, ?_, p, hp, hsuf⟩
            rw [Function.update_of_ne (by omega), Function.update_self]
            rcases hr with ⟨rfl, _⟩ | ⟨_, rfl⟩
            · exact hrest
            · exact mem_bfInsort.2 (Or.inr hrest)
        · left
          refine ⟨j, hj1, hj2, ch, ?_, p, hp, hsuf⟩
          by_cases hji : j = i
          · subst hji
            rw [Function.update_self]
            exact hsub ch hchj
          · rw [Function.update_of_ne hji, Function.update_of_ne hj]
            exact hchj
      · exact Or.inr (Or.inl hle)
      · right; right
        refine ⟨ch, ?_, hle⟩
        by_cases hi0 : i = 0
        · subst hi0
          rw [Function.update_self]
          exact hsub ch hch0
        · rw [Function.update_of_ne (Ne.symm hi0), Function.update_of_ne (by omega)]
          exact hch0

/-! ### No leaf is reached twice -/

open Classical in
/-- Number of stacked nodes above `x` (or equal to it). -/
noncomputable def bfCnt (n : Nat) (x : List ℂ) (stk : Nat → List BChain) : Nat :=
  bfSum n (fun _ ch => ch.countP fun p => decide (p.1 <:+ x)) stk

theorem suffix_eq_of_length {a b x : List ℂ} (ha : a <:+ x) (hb : b <:+ x) (h : a.length = b.length) : a = b :=
  List.IsSuffix.eq_of_length (List.suffix_of_suffix_length_le ha hb h.le) h

open Classical in
theorem countP_children {x v : List ℂ} {ch : BChain} (hnd : (ch.map Prod.fst).Nodup) (hch : ∀ p ∈ ch, ∃ s, p.1 = s :: v) :
    (ch.countP fun p => decide (p.1 <:+ x)) ≤ if v <:+ x then 1 else 0 := by
  split
  · rename_i hv
    by_contra hcon
    -- two different positions with the same vector
    have hfl : 2 ≤ (ch.filter fun p => decide (p.1 <:+ x)).length := by
      rw [← List.countP_eq_length_filter]; omega
    have hsub : ((ch.filter fun p => decide (p.1 <:+ x)).map Prod.fst).Nodup :=
      hnd.sublist (List.Sublist.map _ List.filter_sublist)
    have hmem : ∀ p ∈ ch.filter (fun p => decide (p.1 <:+ x)), p ∈ ch ∧ decide (p.1 <:+ x) = true := fun p hp => List.mem_filter.1 hp
    generalize ch.filter (fun p => decide (p.1 <:+ x)) = l at hfl hsub hmem
    match l, hfl, hsub, hmem with
    | a :: b :: t, _, hsub, hmem =>
      have ha := hmem a (by simp)
      have hb := hmem b (by simp)
      obtain ⟨s1, h1⟩ := hch a ha.1
      obtain ⟨s2, h2⟩ := hch b hb.1
      have : a.1 = b.1 := suffix_eq_of_length (of_decide_eq_true ha.2) (of_decide_eq_true hb.2) (by rw [h1, h2]; simp)
      rw [List.map_cons, List.map_cons, List.nodup_cons] at hsub
      exact hsub.1 (by rw [this]; simp)
  · rename_i hv
    rw [Nat.le_zero, List.countP_eq_zero]
    intro p hp hps
    obtain ⟨s, hs⟩ := hch p hp
    apply hv
    have := of_decide_eq_true hps
    rw [hs] at this
    exact (List.suffix_cons s v).trans this

open Classical in
theorem cnt_process (hsort : ∀ l, IsArgsort l (e.argsort l)) (hc : e.c ≠ []) (hnd : e.c.Nodup) {st : BfState} (hok : StkOk e n st.stk)
    (x : List ℂ) {i : Nat} (hi : i < n - 1) : bfCnt n x (bfProcess e st i).stk ≤ bfCnt n x st.stk := by
  have := bfSum_process (e := e) (n := n) (fun _ ch => ch.countP fun p => decide (p.1 <:+ x)) (st := st) (i := i) (by omega) 0 (by
    intro node hn cw hcw hce
    have hne := (hok _ _ hn).2.ne
    have hcw' : cw ≤ if node.symb <:+ x then 1 else 0 := by
      cases hx : bfExpand e (node.headD ([], 0)) with
      | error err => rw [hce ⟨err, hx⟩]; omega
      | ok child =>
        obtain ⟨_, _, _, h4, h5⟩ := expand_node hsort hc hok hn hx
        exact (hcw child hx).trans (countP_children (h4 hnd) h5)
    match node, hne, hcw' with
    | a :: t, _, hcw' =>
      have hs : BChain.symb (a :: t) = a.1 := rfl
      rw [hs] at hcw'
      rw [List.countP_cons, List.tail_cons]
      simp only [decide_eq_true_eq]
      have : (if t = [] then 0 else t.countP fun p => decide (p.1 <:+ x)) ≤ t.countP fun p => decide (p.1 <:+ x) := by
        split <;> omega
      omega)
  unfold bfCnt
  split at this <;> omega

end

/-! ### The invariant for unlimited stacks -/

section
variable {e : BfEnv} {n : Nat}

open Classical in
/-- Coverage, no repetition, and where the counter metric comes from. -/
def BfQ (e : BfEnv) (n : Nat) (st : BfState) (o : Option (List ℂ × ℝ)) : Prop :=
  Cov e n st.stk st.mapMetric ∧ (e.c.Nodup → (∀ x, bfCnt n x st.stk + (if o.map Prod.fst = some x then 1 else 0) ≤ 1) ∧
    ∀ x cc, o = some (x, cc) → cc = bfMetric e x + e.llrMax ∨ ∃ x2, x2 ≠ x ∧ IsVector e.c n x2 ∧ bfMetric e x2 ≤ cc)

theorem bfQ_init (hsort : ∀ l, IsArgsort l (e.argsort l)) (hm : e.c ≠ []) (hn : 2 ≤ n) (hk : n ≤ e.k) (first : BChain)
    (hf : bfExpand e ([], 0) = .ok first) : BfQ e n (bfInit n e.order first) none := by
  obtain ⟨first', h1, h2, h3, h4, h5, h6⟩ := bfExpand_ok (e := e) (len := 0) (node := ([], 0)) hsort hm ⟨rfl, by simp⟩ rfl (by omega)
  rw [hf] at h1
  injection h1 with h1
  subst h1
  refine ⟨?_, fun hnd => ⟨?_, by simp⟩⟩
  · intro x hx
    left
    have hxl : x ≠ [] := by intro h; rw [h] at hx; have := hx.1; simp at this; omega
    obtain ⟨t, s, rfl⟩ : ∃ t s, x = t ++ [s] := ⟨x.dropLast, x.getLast hxl, (List.dropLast_concat_getLast hxl).symm⟩
    obtain ⟨p, hp, hps⟩ := h3 s (hx.2 s (by simp))
    refine ⟨n - 1, by omega, by omega, first, by simp [bfInit], p, hp, ?_⟩
    rw [hps]
    exact ⟨t, rfl⟩
  · intro x
    unfold bfCnt
    rw [init_sum _ (by omega)]
    have := countP_children (x := x) (h5 hnd) h6
    rw [if_pos (List.nil_suffix)] at this
    simpa using this

theorem stack_le_pot {stk : Nat → List BChain} (hok : StkOk e n stk) {i : Nat} (h1 : 1 ≤ i) (h2 : i < n) :
    (stk i).length ≤ bfPot e.c.length n stk := by
  unfold bfPot bfSum
  refine le_trans ?_ (single_le_sum (f := fun i => ((stk i).map fun ch => ch.length * bfW e.c.length i).sum) (fun _ _ => Nat.zero_le _)
    (mem_range.2 h2))
  have hw : 1 ≤ bfW e.c.length i := by
    obtain ⟨j, rfl⟩ : ∃ j, i = j + 1 := ⟨i - 1, by omega⟩
    rw [bfW]; omega
  have gen : ∀ l : List BChain, (∀ ch ∈ l, ch ≠ []) → l.length ≤ (l.map fun ch => ch.length * bfW e.c.length i).sum := by
    intro l
    induction l with
    | nil => intro _; simp
    | cons a l ih =>
      intro h
      rw [List.length_cons, List.map_cons, List.sum_cons]
      have h1 := ih fun ch hch => h ch (by simp [hch])
      have h2 := Nat.mul_le_mul (List.length_pos_iff.2 (h a (by simp))) hw
      omega
  exact gen _ fun ch hch => (hok i ch hch).2.ne

theorem bfSum_split (w : Nat → BChain → Nat) (hn : 1 ≤ n) (stk : Nat → List BChain) :
    bfSum n w (fun i => if i = 0 then [] else stk i) + ((stk 0).map (w 0)).sum = bfSum n w stk := by
  obtain ⟨k, rfl⟩ : ∃ k, n = k + 1 := ⟨n - 1, by omega⟩
  unfold bfSum
  rw [sum_range_succ', sum_range_succ' (fun i => ((stk i).map (w i)).sum)]
  simp

theorem clip_min_cases {a m L : ℝ} (hL : 0 ≤ L) (ha : m ≤ a) : clipReal a (m - L) (m + L) = m + L ∨ clipReal a (m - L) (m + L) = a := by
  unfold clipReal
  rw [max_eq_left (by linarith)]
  rcases le_total a (m + L) with h | h
  · right; rw [min_eq_left h]
  · left; rw [min_eq_right h]

open Classical in
theorem bfQ_step (hsort : ∀ l, IsArgsort l (e.argsort l)) (hc : e.c ≠ []) (ho : 1 ≤ e.order) (hL : 0 ≤ e.llrMax) (hn : 2 ≤ n)
    (hk : n ≤ e.k) {ss : List Nat} (hss : n - 1 ≤ ss.length) (hbig : ∀ s ∈ ss, e.c.length ^ n ≤ s) (st : BfState)
    (o : Option (List ℂ × ℝ)) (st' : BfState) (o' : Option (List ℂ × ℝ)) (hok : StkOk e n st.stk) (h0 : st.stk 0 = [])
    (hmap : BfMap e n st o) (hQ : BfQ e n st o) (hpot : bfPot e.c.length n st.stk < e.c.length ^ n)
    (hstk : st'.stk = fun i => if i = 0 then [] else if i < n then
        (((List.range (n - 1)).foldl (bfProcess e) st).stk i).take (ss.getD (i - 1) 0) else
        ((List.range (n - 1)).foldl (bfProcess e) st).stk i)
    (hmap' : BfMap e n st' o')
    (hcase : (((List.range (n - 1)).foldl (bfProcess e) st).stk 0 = [] ∧ o' = o) ∨
        ∃ leaf t, ((List.range (n - 1)).foldl (bfProcess e) st).stk 0 = leaf :: t ∧ o' = some (bfNext e leaf.symb o)) : BfQ e n st' o' := by
  obtain ⟨hok1, hpot1, _⟩ := pot_pass hsort hc hok (n - 1) le_rfl
  have hleaf1 := pass_leaf (e := e) st h0 (n - 1)
  obtain ⟨_, hmap1, hcov1⟩ := pass_induct (e := e) (n := n)
    (fun s => StkOk e n s.stk ∧ BfMap e n s o ∧ Cov e n s.stk s.mapMetric) ⟨hok, hmap, hQ.1⟩
    (fun s i hi ⟨a, b, c⟩ => ⟨stkOk_process hsort hc a i, bfMap_process b i, cov_process hsort hc ho hk a b hi c⟩) (n - 1) le_rfl
  have hcnt1 : e.c.Nodup → ∀ x, bfCnt n x ((List.range (n - 1)).foldl (bfProcess e) st).stk ≤ bfCnt n x st.stk := by
    intro hnd x
    exact (pass_induct (e := e) (n := n) (fun s => StkOk e n s.stk ∧ bfCnt n x s.stk ≤ bfCnt n x st.stk) ⟨hok, le_rfl⟩
      (fun s i hi ⟨a, b⟩ => ⟨stkOk_process hsort hc a i, (cnt_process hsort hc hnd a x hi).trans b⟩) (n - 1) le_rfl).2
  set st1 := (List.range (n - 1)).foldl (bfProcess e) st with hst1
  have hstk' : st'.stk = fun i => if i = 0 then [] else st1.stk i := by
    rw [hstk]
    funext i
    by_cases hi0 : i = 0
    · simp [hi0]
    · simp only [if_neg hi0]
      split
      · rename_i hin
        rw [List.take_of_length_le]
        have h1 := stack_le_pot hok1 (show 1 ≤ i by omega) hin
        have h2 : e.c.length ^ n ≤ ss.getD (i - 1) 0 := by
          rw [List.getD_eq_getElem _ _ (by omega)]
          exact hbig _ (List.getElem_mem _)
        omega
      · rfl
  refine ⟨?_, fun hnd => ⟨?_, ?_⟩⟩
  · -- coverage
    have hle : st'.mapMetric ≤ st1.mapMetric ∧ ∀ ch ∈ st1.stk 0, st'.mapMetric ≤ ((BChain.metric ch : ℝ) : EReal) := by
      rcases hcase with ⟨hs0, rfl⟩ | ⟨leaf, t, hs0, rfl⟩
      · rw [hs0]
        refine ⟨?_, by simp⟩
        match o', hmap', hmap1 with
        | none, a, b => rw [a.2.2, b.2.2]
        | some (x, cc), a, b => rw [a.2.2.1, b.2.2.1]
      · have hone : t = [] := by
          rw [hs0] at hleaf1
          simp only [List.length_cons] at hleaf1
          exact List.length_eq_zero_iff.1 (by omega)
        obtain ⟨_, hlm⟩ := (hok1 0 leaf (by rw [hs0]; simp)).2.head
        match o, hmap1, hmap' with
        | none, a, b =>
          have hb : st'.mapMetric = ((bfMetric e leaf.symb : ℝ) : EReal) := b.2.2.1
          rw [a.2.2, hb, hs0, hone]
          refine ⟨le_top, ?_⟩
          intro ch hch
          rw [List.mem_singleton] at hch
          rw [hch, hlm]
        | some (x, cc), a, b =>
          have ha : st1.mapMetric = ((bfMetric e x : ℝ) : EReal) := a.2.2.1
          have hb : st'.mapMetric = ((bfMetric e (bfNext e leaf.symb (some (x, cc))).1 : ℝ) : EReal) := b.2.2.1
          rw [ha, hb, hs0, hone]
          simp only [bfNext]
          split
          · rename_i hlt
            refine ⟨EReal.coe_le_coe_iff.2 hlt.le, ?_⟩
            intro ch hch
            rw [List.mem_singleton] at hch
            rw [hch, hlm]
          · rename_i hlt
            refine ⟨le_rfl, ?_⟩
            intro ch hch
            rw [List.mem_singleton] at hch
            rw [hch, hlm]
            exact EReal.coe_le_coe_iff.2 (not_lt.1 hlt)
    intro x hx
    rcases hcov1 x hx with ⟨i, hi1, hi2, ch, hch, p, hp, hsuf⟩ | h | ⟨ch, hch, h⟩
    · left
      refine ⟨i, hi1, hi2, ch, ?_, p, hp, hsuf⟩
      rw [hstk']
      simp only [if_neg (show ¬ i = 0 by omega)]
      exact hch
    · exact Or.inr (Or.inl (hle.1.trans h))
    · exact Or.inr (Or.inl ((hle.2 ch hch).trans h))
  · -- no repetition
    intro x
    have hq := (hQ.2 hnd).1
    have hsplit : bfCnt n x st'.stk + ((st1.stk 0).map fun ch => ch.countP fun p => decide (p.1 <:+ x)).sum = bfCnt n x st1.stk := by
      rw [hstk']
      exact bfSum_split _ (by omega) st1.stk
    have hc1 := hcnt1 hnd x
    have hqx := hq x
    rcases hcase with ⟨hs0, rfl⟩ | ⟨leaf, t, hs0, rfl⟩
    · omega
    · have hnew : Option.map Prod.fst (some (bfNext e leaf.symb o)) = some leaf.symb ∨
          Option.map Prod.fst (some (bfNext e leaf.symb o)) = Option.map Prod.fst o := by
        match o with
        | none => left; rfl
        | some (x0, cc) =>
          simp only [bfNext]
          split
          · left; rfl
          · right; rfl
      rcases hnew with hnew | hnew
      · rw [hnew]
        by_cases hxl : leaf.symb = x
        · rw [if_pos (by rw [hxl])]
          have : 1 ≤ ((st1.stk 0).map fun ch => ch.countP fun p => decide (p.1 <:+ x)).sum := by
            rw [hs0, List.map_cons, List.sum_cons]
            have hne := (hok1 0 leaf (by rw [hs0]; simp)).2.ne
            match leaf, hne, hxl with
            | a :: tl, _, hxl =>
              have ha : a.1 = x := hxl
              rw [List.countP_cons, if_pos (by rw [ha]; simp)]
              omega
          split at hqx <;> omega
        · rw [if_neg (by intro h; injection h with h; exact hxl h)]
          omega
      · rw [hnew]
        omega
  · -- origin of the counter metric
    intro x cc hoeq
    have hq := (hQ.2 hnd).2
    rcases hcase with ⟨hs0, rfl⟩ | ⟨leaf, t, hs0, rfl⟩
    · exact hq x cc hoeq
    · obtain ⟨hlv, _⟩ := (hok1 0 leaf (by rw [hs0]; simp)).2.head
      rw [Nat.sub_zero] at hlv
      injection hoeq with hoeq
      match o, hmap, hq, hoeq, hQ with
      | none, _, _, hoeq, _ =>
        simp only [bfNext, Prod.mk.injEq] at hoeq
        left
        rw [← hoeq.2, ← hoeq.1]
      | some (x0, c0), hmap, hq, hoeq, hQ =>
        obtain ⟨_, _, _, hv0, hb1, hb2⟩ := hmap
        simp only [bfNext] at hoeq
        split at hoeq
        · rename_i hlt
          rw [Prod.mk.injEq] at hoeq
          obtain ⟨rfl, hcc⟩ := hoeq
          rw [min_eq_right hb1] at hcc
          rcases clip_min_cases hL hlt.le with h | h
          · left; rw [← hcc, h]
          · right
            refine ⟨x0, ?_, hv0, by rw [← hcc, h]⟩
            intro h2
            rw [h2] at hlt
            exact lt_irrefl _ hlt
        · rename_i hlt
          rw [Prod.mk.injEq] at hoeq
          obtain ⟨rfl, hcc⟩ := hoeq
          rcases clip_min_cases hL (le_min hb1 (not_lt.1 hlt)) with h | h
          · left; rw [← hcc, h]
          · rw [h] at hcc
            rcases min_choice c0 (bfMetric e leaf.symb) with h3 | h3
            · rw [h3] at hcc
              rw [← hcc]
              exact hq x0 c0 rfl
            · right
              refine ⟨leaf.symb, ?_, hlv, by rw [← hcc, h3]⟩
              intro h4
              have hqx := (hQ.2 hnd).1 x0
              rw [if_pos (by rfl)] at hqx
              have hc1 := hcnt1 hnd x0
              have hsplit : bfCnt n x0 st'.stk + ((st1.stk 0).map fun ch => ch.countP fun p => decide (p.1 <:+ x0)).sum =
                  bfCnt n x0 st1.stk := by
                rw [hstk']
                exact bfSum_split _ (by omega) st1.stk
              have : 1 ≤ ((st1.stk 0).map fun ch => ch.countP fun p => decide (p.1 <:+ x0)).sum := by
                rw [hs0, List.map_cons, List.sum_cons]
                have hne := (hok1 0 leaf (by rw [hs0]; simp)).2.ne
                match leaf, hne, h4 with
                | a :: tl, _, h4 =>
                  have ha : a.1 = x0 := h4
                  rw [List.countP_cons, if_pos (by rw [ha]; simp)]
                  omega
              omega

end

/-! ### The metric of the search is the distance -/

theorem bfMetric_partTot {e : BfEnv} {n : Nat} (hk : e.k = n) (hcols : e.cols = n) {x : List ℂ} (hx : x.length = n) :
    ∀ d, d ≤ n → bfMetric e (x.drop (n - d)) = partTot e.r e.yt n (n - d) (fun j => x.getD j 0) := by
  intro d
  induction d with
  | zero =>
    intro _
    rw [Nat.sub_zero, List.drop_of_length_le (by omega)]
    simp [bfMetric, partTot]
  | succ d ih =>
    intro hd
    have hlt : n - (d + 1) < x.length := by omega
    rw [List.drop_eq_getElem_cons hlt, bfMetric, bfChildMetric]
    simp only
    have hsub : n - (d + 1) + 1 = n - d := by omega
    rw [hsub, ih (by omega), partTot_succ (show n - (d + 1) < n by omega), hsub]
    have hlen : (x.drop (n - d)).length + 1 = d + 1 := by rw [List.length_drop, hx]; omega
    rw [hlen, hk, hcols, list_sum_finset, sum_Ico_eq_sum_range, show n - (n - (d + 1)) = d + 1 by omega]
    congr 4
    apply sum_congr rfl
    intro j hj
    rw [mem_range] at hj
    congr 1
    cases j with
    | zero => simp only [List.getD_cons_zero, Nat.add_zero, List.getD_eq_getElem _ _ hlt]
    | succ j =>
      rw [List.getD_cons_succ, List.getD_eq_getElem?_getD, List.getElem?_drop, List.getD_eq_getElem?_getD]
      congr 2
      omega

/-! ### The property -/

section
variable {argsort : List ℝ → List Nat} {qr : (Nat → Nat → ℂ) → (Nat → Nat → ℂ) × (Nat → Nat → ℂ)} {n cols : Nat} {y : Nat → ℂ}
  {h : Nat → Nat → ℂ} {c : List ℂ} {ss : List Nat} {demode : List ℂ → List Nat} {L : ℝ} {fuel : Nat}

theorem bestFirst_eq (hm : 1 ≤ c.length) : bestFirst argsort qr n cols y h c ss demode L fuel =
    bfSearch (bfEnv argsort qr n cols y h c demode L c.length.log2) n ss fuel := by
  unfold bestFirst intLog2
  rw [if_neg (by omega)]

theorem one_le_log2 {m : Nat} (hm : 2 ≤ m) : 1 ≤ m.log2 := (Nat.le_log2 (by omega)).2 (by omega)

/-- C70 (what is true). For a channel with at least two rows and no fewer columns, and stacks of size at least one, the search ends
and returns soft values that describe one vector `x` of constellation points, clipped to `llr_max`: the value is `v` for every bit 0
and `-v` for every bit 1, with one and the same magnitude `v` for all bits. -/
theorem C70_equal_magnitudes_partial (hsort : ∀ l, IsArgsort l (argsort l)) (hn : 2 ≤ n) (hcols : n ≤ cols) (hm : 2 ≤ c.length)
    (hd : DemodeOk demode c.length.log2) (hL : 0 ≤ L) (hss : n - 1 ≤ ss.length) (hpos : ∀ s ∈ ss, 1 ≤ s) (hf : c.length ^ n ≤ fuel) :
    ∃ (x : List ℂ) (v : ℝ), bestFirst argsort qr n cols y h c ss demode L fuel =
        .ok ((demode x).map fun b => (((if b = 0 then v else -v) : ℝ) : EReal)) ∧ IsVector c n x ∧ 0 ≤ v ∧ v ≤ L := by
  rw [bestFirst_eq (by omega)]
  obtain ⟨x, cc, st, h1, h2, h3, h4, _⟩ := search_spec (n := n) (ss := ss) (fuel := fuel) 
    (e := bfEnv argsort qr n cols y h c demode L c.length.log2) hsort hm (one_le_log2 hm) hL hd hn (le_min le_rfl hcols) hss hpos hf (fun _ _ => True)
    (fun _ _ => trivial) (fun _ _ _ _ _ _ _ _ _ _ _ _ => trivial)
  have hLe : (bfEnv argsort qr n cols y h c demode L c.length.log2).llrMax = L := rfl
  rw [hLe] at h4
  exact ⟨x, _, h1, h2, by linarith, by linarith⟩

/-- C70 (what is true). With a square channel and stacks that are never trimmed, the signs give a maximum likelihood vector: positive
for bit 0, negative for bit 1. If that vector is the only one at minimal distance, the values are not zero. -/
theorem C70_ml_partial (hsort : ∀ l, IsArgsort l (argsort l)) (hqr : IsQR n n h (qr h).1 (qr h).2) (hn : 2 ≤ n) (hm : 2 ≤ c.length)
    (hd : DemodeOk demode c.length.log2) (hL : 0 ≤ L) (hss : n - 1 ≤ ss.length) (hbig : ∀ s ∈ ss, c.length ^ n ≤ s)
    (hf : c.length ^ n ≤ fuel) :
    ∃ (x : List ℂ) (v : ℝ), bestFirst argsort qr n n y h c ss demode L fuel =
        .ok ((demode x).map fun b => (((if b = 0 then v else -v) : ℝ) : EReal)) ∧ IsML n n y h c x ∧ 0 ≤ v ∧ v ≤ L ∧
      (c.Nodup → 0 < L → (∀ x', IsVector c n x' → x' ≠ x → sqErr n y h x < sqErr n y h x') → 0 < v) := by
  rw [bestFirst_eq (by omega)]
  set e : BfEnv := bfEnv argsort qr n n y h c demode L c.length.log2 with he
  have hkn : e.k = n := by simp [he, bfEnv]
  have hc : e.c ≠ [] := by intro h0; have : c = [] := h0; rw [this] at hm; simp at hm
  obtain ⟨x, cc, st, h1, h2, h3, h4, h5, h6, h7⟩ := search_spec (n := n) (ss := ss) (fuel := fuel) (e := e) hsort hm (one_le_log2 hm) hL
    hd hn hkn.ge hss (fun s hs => le_trans (Nat.pow_pos (by omega)) (hbig s hs)) hf (BfQ e n)
    (fun first hf => bfQ_init hsort hc hn hkn.ge first hf)
    (fun st o st' o' a b d f g i j k => bfQ_step hsort hc (one_le_log2 hm) hL hn hkn.ge hss hbig st o st' o' a b d f g i j k)
  obtain ⟨C, hC⟩ := qr_distance hqr y
  have hdist : ∀ x', IsVector c n x' → sqErr n y h x' = bfMetric e x' + C := by
    intro x' hx'
    rw [hC x' hx'.1]
    have := bfMetric_partTot hkn rfl hx'.1 n le_rfl
    rw [Nat.sub_self, List.drop_zero] at this
    rw [this]
    simp only [he, bfEnv, list_sum_finset]
  have hmin : ∀ x', IsVector c n x' → bfMetric e x ≤ bfMetric e x' := by
    intro x' hx'
    rcases h5.1 x' hx' with ⟨i, _, hi, ch, hch, _⟩ | hle | ⟨ch, hch, _⟩
    · rw [h7 i hi] at hch; cases hch
    · rw [h6.2.2.1] at hle
      exact EReal.coe_le_coe_iff.1 hle
    · rw [h7 0 (by omega)] at hch; cases hch
  have hLe : e.llrMax = L := rfl
  rw [hLe] at h4
  refine ⟨x, _, h1, ⟨h2, ?_⟩, by linarith, by linarith, ?_⟩
  · intro x' hx'
    rw [hdist x h2, hdist x' hx']
    linarith [hmin x' hx']
  · intro hnd hLpos huniq
    rcases (h5.2 hnd).2 x cc rfl with h8 | ⟨x2, hne, hv2, hle⟩
    · rw [h8]
      have : e.llrMax = L := rfl
      linarith
    · have := huniq x2 hv2 hne
      rw [hdist x h2, hdist x2 hv2] at this
      linarith

/-- C70 (refuted for tall channels). With more rows than columns — more receive than transmit antennas — the detector always ends
in a TypeError, whatever the received vector. -/
theorem C70_tall_refuted (hsort : ∀ l, IsArgsort l (argsort l)) (hc1 : 1 ≤ cols) (hcols : cols < n) (hm : 2 ≤ c.length)
    (hss : n - 1 ≤ ss.length) (hf : c.length ^ n ≤ fuel) :
    bestFirst argsort qr n cols y h c ss demode L fuel = .error .typeError := by
  rw [bestFirst_eq (by omega)]
  set e : BfEnv := bfEnv argsort qr n cols y h c demode L c.length.log2 with he
  have hk : e.k = cols := by simp [he, bfEnv]; omega
  have hc : e.c ≠ [] := by intro h0; have : c = [] := h0; rw [this] at hm; simp at hm
  obtain ⟨first, h1, h2, h3, _, _, h6⟩ := init_ok (e := e) (n := n) hsort hc (by omega) (by omega)
  have hp := pot_init (e := e) (n := n) hm (by omega) h3
  obtain ⟨st, hl, ⟨h0, hb⟩, _, _⟩ := loop_induct (e := e) (n := n) (ss := ss) hsort hc
    (fun st => st.stk 0 = [] ∧ st.mapBits = none) (by
    rintro st hok ⟨h0, hb⟩ _
    have hpass := pass_induct (e := e) (n := n) (fun s => StkOk e n s.stk ∧ s.stk 0 = []) ⟨hok, h0⟩ (by
      rintro s i hi ⟨ha, hb0⟩
      refine ⟨stkOk_process hsort hc ha i, ?_⟩
      by_cases hi0 : i = 0
      · subst hi0
        rcases bfProcess_cases e s 0 with ⟨_, h⟩ | ⟨node, rest, hs, rest', hr, hcase⟩
        · rw [h]; exact hb0
        · have hnode : node ∈ s.stk (0 + 1) := by rw [hs]; simp
          obtain ⟨hv, _⟩ := node_vec ha hnode
          have herr := bfExpand_error (e := e) (node := node.headD ([], 0)) (by rw [hv.1, hk]; omega)
          rcases hcase with ⟨_, heq⟩ | ⟨child, hx, _⟩
          · rw [heq]
            simp only [Function.update_of_ne (show 0 ≠ 0 + 1 by omega)]
            exact hb0
          · rw [herr] at hx; cases hx
      · rw [process_other (by omega) (by omega)]; exact hb0) (n - 1) le_rfl
    have hvals := (pass_vals (e := e) st (n - 1)).2.1
    refine ⟨{ ((List.range (n - 1)).foldl (bfProcess e) st) with
      stk := fun i => if i = 0 then [] else if i < n then
        (((List.range (n - 1)).foldl (bfProcess e) st).stk i).take (ss.getD (i - 1) 0) else
        ((List.range (n - 1)).foldl (bfProcess e) st).stk i }, ?_, rfl, hvals.trans hb⟩
    unfold bfTurn bfLeaf
    rw [hpass.2]
    simp only
    unfold bfTrim
    rw [if_neg (by omega)]) fuel (bfInit n e.order first) h2 ⟨by simp [bfInit]; omega, rfl⟩ (lt_of_lt_of_le hp hf)
  unfold bfSearch
  rw [h1]
  simp only [hl]
  unfold bfResult
  rw [hb]

/-- C70 (refuted for one antenna). A channel with a single row ends in a TypeError. -/
theorem C70_single_refuted (hsort : ∀ l, IsArgsort l (argsort l)) (hc1 : 1 ≤ cols) (hm : 1 ≤ c.length) (hf : 1 ≤ fuel) :
    bestFirst argsort qr 1 cols y h c ss demode L fuel = .error .typeError := by
  rw [bestFirst_eq hm]
  set e : BfEnv := bfEnv argsort qr 1 cols y h c demode L c.length.log2 with he
  have hc : e.c ≠ [] := by intro h0; have : c = [] := h0; rw [this] at hm; simp at hm
  have hk : e.k = 1 := by simp [he, bfEnv]; omega
  obtain ⟨first, h1, _⟩ := init_ok (e := e) (n := 1) hsort hc le_rfl (by omega)
  obtain ⟨f, rfl⟩ : ∃ f, fuel = f + 1 := ⟨fuel - 1, by omega⟩
  unfold bfSearch
  rw [h1]
  simp only
  unfold bfLoop
  rw [if_neg (by rintro ⟨i, h1, h2, _⟩; omega)]
  rfl

end

/-! ### A case in numbers -/

open Classical in
/-- BPSK bits: 0 for the symbol 1. -/
noncomputable def bpskBits (l : List ℂ) : List Nat := l.map fun z => if z = 1 then 0 else 1

theorem bpskBits_ok : DemodeOk bpskBits ([1, -1] : List ℂ).length.log2 := by
  intro x
  refine ⟨by rw [show ([1, -1] : List ℂ).length.log2 = 1 from by decide]; simp [bpskBits], ?_⟩
  intro b hb
  unfold bpskBits at hb
  obtain ⟨z, _, rfl⟩ := List.mem_map.1 hb
  split
  · exact Or.inl rfl
  · exact Or.inr rfl

theorem neg_one_ne_one : (-1 : ℂ) ≠ 1 := by
  intro h
  have := congrArg Complex.re h
  norm_num at this

theorem sqErr_two (y : Nat → ℂ) (h : Nat → Nat → ℂ) (a b : ℂ) :
    sqErr 2 y h [a, b] = ‖y 0 - (h 0 0 * a + h 0 1 * b)‖ ^ 2 + ‖y 1 - (h 1 0 * a + h 1 1 * b)‖ ^ 2 := by
  simp [sqErr, sum_range_succ]

/-- C70 (refuted). The magnitudes do not reflect the reliability of the bits: over the channel `diag(1, 2)` with `y = (1, 2)`, an
error on the second bit is four times as far away as one on the first (the max-log values over all vectors are 4 and 16), but
the detector returns the same value for both, for every sorting routine, stack size and number of steps. -/
theorem C70_reliability_refuted {argsort : List ℝ → List Nat} (hsort : ∀ l, IsArgsort l (argsort l)) {L : ℝ} (hL : 0 ≤ L) {s : Nat}
    (hs : 1 ≤ s) {fuel : Nat} (hf : 4 ≤ fuel) :
    (∃ (x : List ℂ) (a b : EReal) (v : ℝ), IsVector [1, -1] 2 x ∧
      bestFirst argsort (fun h => (fun i j => if i = j then 1 else 0, h)) 2 2 (fun i => (i : ℂ) + 1)
        (fun i j => if i = j then (i : ℂ) + 1 else 0) [1, -1] [s] bpskBits L fuel = .ok [a, b] ∧
      (a = (v : EReal) ∨ a = ((-v : ℝ) : EReal)) ∧ (b = (v : EReal) ∨ b = ((-v : ℝ) : EReal))) ∧
    maxLogApprox 2 (fun i => (i : ℂ) + 1) (fun i j => if i = j then (i : ℂ) + 1 else 0) (1 / 2) [[1, 1], [-1, 1], [1, -1], [-1, -1]]
      bpskBits = .ok [((4 : ℝ) : EReal), ((16 : ℝ) : EReal)] := by
  constructor
  · obtain ⟨x, v, he, hx, _, _⟩ := C70_equal_magnitudes_partial (argsort := argsort)
      (qr := fun h => (fun i j => if i = j then 1 else 0, h)) (n := 2) (cols := 2) (y := fun i => (i : ℂ) + 1)
      (h := fun i j => if i = j then (i : ℂ) + 1 else 0) (c := [1, -1]) (ss := [s]) (demode := bpskBits) (L := L) (fuel := fuel)
      hsort le_rfl le_rfl le_rfl bpskBits_ok hL le_rfl (by simpa using hs) (by simpa using hf)
    obtain ⟨hxl, hxm⟩ := hx
    match x, hxl with
    | [p, q], _ =>
      refine ⟨[p, q], _, _, v, ⟨rfl, hxm⟩, he, ?_, ?_⟩
      · simp only
        split
        · exact Or.inl rfl
        · exact Or.inr rfl
      · simp only
        split
        · exact Or.inl rfl
        · exact Or.inr rfl
  · have hflat : bpskBits ([[1, 1], [-1, 1], [1, -1], [-1, -1]] : List (List ℂ)).flatten = [[0, 0], [1, 0], [0, 1], [1, 1]].flatten := by
      simp [bpskBits, neg_one_ne_one]
    obtain ⟨llr, he, hl, hv⟩ := C72_values (rows := 2) (nb := 2) (y := fun i => (i : ℂ) + 1)
      (h := fun i j => if i = j then (i : ℂ) + 1 else 0) (points := [[1, 1], [-1, 1], [1, -1], [-1, -1]])
      (words := [[0, 0], [1, 0], [0, 1], [1, 1]]) (nv := 1 / 2) (demode := bpskBits) (by simp) rfl (by simp) hflat (by norm_num)
    have e0 : sqErr 2 (fun i => (i : ℂ) + 1) (fun i j => if i = j then (i : ℂ) + 1 else 0) [1, 1] = 0 := by
      rw [sqErr_two]; norm_num
    have e1 : sqErr 2 (fun i => (i : ℂ) + 1) (fun i j => if i = j then (i : ℂ) + 1 else 0) [-1, 1] = 4 := by
      rw [sqErr_two]; norm_num
    have e2 : sqErr 2 (fun i => (i : ℂ) + 1) (fun i j => if i = j then (i : ℂ) + 1 else 0) [1, -1] = 16 := by
      rw [sqErr_two]; norm_num
    have e3 : sqErr 2 (fun i => (i : ℂ) + 1) (fun i j => if i = j then (i : ℂ) + 1 else 0) [-1, -1] = 20 := by
      rw [sqErr_two]; norm_num
    have least : ∀ (k v : Nat) (d : ℝ), (∃ p < 4, (([[0, 0], [1, 0], [0, 1], [1, 1]] : List (List Nat)).getD p []).getD k 0 = v ∧
        d = ([0, 4, 16, 20] : List ℝ).getD p 0) →
        (∀ p < 4, (([[0, 0], [1, 0], [0, 1], [1, 1]] : List (List Nat)).getD p []).getD k 0 = v → d ≤ ([0, 4, 16, 20] : List ℝ).getD p 0) →
        IsLeast (candDist 2 (fun i => (i : ℂ) + 1) (fun i j => if i = j then (i : ℂ) + 1 else 0) [[1, 1], [-1, 1], [1, -1], [-1, -1]]
          [[0, 0], [1, 0], [0, 1], [1, 1]] k v) d := by
      have hd : ∀ p < 4, sqErr 2 (fun i => (i : ℂ) + 1) (fun i j => if i = j then (i : ℂ) + 1 else 0)
          (([[1, 1], [-1, 1], [1, -1], [-1, -1]] : List (List ℂ)).getD p []) = ([0, 4, 16, 20] : List ℝ).getD p 0 := by
        intro p hp
        interval_cases p
        · exact e0
        · exact e1
        · exact e2
        · exact e3
      intro k v d ⟨p, hp, hb, hdp⟩ hmin
      refine ⟨⟨p, hp, hb, by rw [hd p hp]; exact hdp⟩, ?_⟩
      rintro d' ⟨p', hp', hb', rfl⟩
      rw [hd p' hp']
      exact hmin p' hp' hb'
    have a0 := (hv 0 (by norm_num)).1 0 4
      (least 0 0 0 ⟨0, by norm_num, rfl, rfl⟩ (by intro p hp; interval_cases p <;> simp))
      (least 0 1 4 ⟨1, by norm_num, rfl, rfl⟩ (by intro p hp; interval_cases p <;> simp; norm_num))
    have a1 := (hv 1 (by norm_num)).1 0 16
      (least 1 0 0 ⟨0, by norm_num, rfl, rfl⟩ (by intro p hp; interval_cases p <;> simp))
      (least 1 1 16 ⟨2, by norm_num, rfl, rfl⟩ (by intro p hp; interval_cases p <;> simp; norm_num))
    rw [he]
    match llr, hl, a0, a1 with
    | [u, w], _, a0, a1 =>
      simp only [List.getD_cons_zero, List.getD_cons_succ] at a0 a1
      rw [a0, a1]
      norm_num

/-- The hypotheses of `C70_ml_partial` are met by that channel with stacks of size 4, and the decision is unique there. -/
example {argsort : List ℝ → List Nat} (hsort : ∀ l, IsArgsort l (argsort l)) :
    ∃ (x : List ℂ) (v : ℝ), bestFirst argsort (fun h => (fun i j => if i = j then 1 else 0, h)) 2 2 (fun i => (i : ℂ) + 1)
        (fun i j => if i = j then (i : ℂ) + 1 else 0) [1, -1] [4] bpskBits 5 4 =
        .ok ((bpskBits x).map fun b => (((if b = 0 then v else -v) : ℝ) : EReal)) ∧
      IsML 2 2 (fun i => (i : ℂ) + 1) (fun i j => if i = j then (i : ℂ) + 1 else 0) [1, -1] x ∧ 0 ≤ v := by
  obtain ⟨x, v, h1, h2, h3, _⟩ := C70_ml_partial (argsort := argsort)
      (qr := fun h => (fun i j => if i = j then 1 else 0, h)) (n := 2) (y := fun i => (i : ℂ) + 1)
      (h := fun i j => if i = j then (i : ℂ) + 1 else 0) (c := [1, -1]) (ss := [4]) (demode := bpskBits) (L := 5) (fuel := 4)
      hsort (by
        constructor
        · intro i hi j hj
          interval_cases i <;> interval_cases j <;> norm_num [sum_range_succ]
        · intro a ha b hb
          interval_cases a <;> interval_cases b <;> norm_num [sum_range_succ]
        · intro i hi j hj
          interval_cases i <;> interval_cases j <;> norm_num) le_rfl le_rfl bpskBits_ok (by norm_num) le_rfl (by simp) (by simp)
  exact ⟨x, v, h1, h2, h3⟩

end Verif
