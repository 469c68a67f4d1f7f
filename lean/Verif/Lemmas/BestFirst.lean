import Verif.Model.BestFirst
import Verif.Props.Kbest
/-
Invariants of the best-first search.
-/
namespace Verif

open Finset

/-- Metric of a partial symbol vector. -/
noncomputable def bfMetric (e : BfEnv) : List ℂ → ℝ
  | [] => 0
  | s :: v => bfChildMetric e (v, bfMetric e v) s

theorem bfMetric_suffix (e : BfEnv) {v x : List ℂ} (h : v <:+ x) : bfMetric e v ≤ bfMetric e x := by
  obtain ⟨t, rfl⟩ := h
  induction t with
  | nil => exact le_rfl
  | cons s t ih =>
    refine ih.trans ?_
    rw [List.cons_append, bfMetric, bfChildMetric]
    have : 0 ≤ ‖e.yt (e.k - ((t ++ v).length + 1)) - ((List.range ((t ++ v).length + 1)).map fun j =>
      e.r (e.k - ((t ++ v).length + 1)) (e.cols - ((t ++ v).length + 1) + j) * (s :: (t ++ v)).getD j 0).sum‖ ^ 2 := by positivity
    simp only
    linarith

/-- Well-formed node with its siblings, for vectors of length `len`. -/
structure ChainOk (e : BfEnv) (len : Nat) (ch : BChain) : Prop where
  ne : ch ≠ []
  short : ch.length ≤ e.c.length
  nodes : ∀ p ∈ ch, IsVector e.c len p.1 ∧ p.2 = bfMetric e p.1
  sorted : ch.Pairwise fun a b => a.2 ≤ b.2

theorem ChainOk.tail {e : BfEnv} {len : Nat} {ch : BChain} (h : ChainOk e len ch) (ht : ch.tail ≠ []) : ChainOk e len ch.tail where
  ne := ht
  short := by have := h.short; rw [List.length_tail]; omega
  nodes := fun p hp => h.nodes p (List.mem_of_mem_tail hp)
  sorted := h.sorted.sublist (List.tail_sublist ch)

theorem ChainOk.metric_le {e : BfEnv} {len : Nat} {ch : BChain} (h : ChainOk e len ch) {p : List ℂ × ℝ} (hp : p ∈ ch) :
    BChain.metric ch ≤ bfMetric e p.1 := by
  rw [← (h.nodes p hp).2]
  match ch, h.sorted, hp with
  | a :: t, hs, hp =>
    rw [List.pairwise_cons] at hs
    rcases List.mem_cons.1 hp with rfl | hp
    · exact le_rfl
    · exact hs.1 p hp

theorem ChainOk.head {e : BfEnv} {len : Nat} {ch : BChain} (h : ChainOk e len ch) :
    IsVector e.c len ch.symb ∧ BChain.metric ch = bfMetric e ch.symb := by
  match ch, h.ne, h.nodes with
  | a :: t, _, hn => exact hn a (by simp)

theorem bfExpand_error {e : BfEnv} {node : List ℂ × ℝ} (h : e.k < node.1.length + 1) : bfExpand e node = .error .indexError := by
  unfold bfExpand
  rw [if_pos h]

theorem bfExpand_ok {e : BfEnv} (hsort : ∀ l, IsArgsort l (e.argsort l)) (hc : e.c ≠ []) {len : Nat} {node : List ℂ × ℝ}
    (hv : IsVector e.c len node.1) (hm : node.2 = bfMetric e node.1) (hk : len + 1 ≤ e.k) :
    ∃ ch, bfExpand e node = .ok ch ∧ ChainOk e (len + 1) ch ∧ (∀ s ∈ e.c, ∃ p ∈ ch, p.1 = s :: node.1) ∧ ch.length = e.c.length ∧
      (e.c.Nodup → (ch.map Prod.fst).Nodup) ∧ ∀ p ∈ ch, ∃ s, p.1 = s :: node.1 := by
  obtain ⟨v, mv⟩ := node
  simp only at hv hm
  subst hm
  set ms := e.c.map (bfChildMetric e (v, bfMetric e v)) with hms
  obtain ⟨hperm, hsorted⟩ := hsort ms
  have hml : ms.length = e.c.length := by simp [hms]
  have hlt : ∀ i ∈ e.argsort ms, i < e.c.length := by
    intro i hi
    have := hperm.mem_iff.1 hi
    rwa [List.mem_range, hml] at this
  have hget : ∀ i < e.c.length, ms.getD i 0 = bfMetric e (e.c.getD i 0 :: v) := by
    intro i hi
    rw [List.getD_eq_getElem _ _ (by omega), List.getD_eq_getElem _ _ hi]
    simp only [hms, List.getElem_map]
    rfl
  have hlen : (e.argsort ms).length = e.c.length := by rw [hperm.length_eq, List.length_range, hml]
  refine ⟨(e.argsort ms).map fun i => (e.c.getD i 0 :: v, ms.getD i 0), ?_, ⟨?_, ?_, ?_, ?_⟩, ?_, ?_, ?_, ?_⟩
  · unfold bfExpand
    rw [if_neg (by rw [hv.1]; omega), if_neg hc]
  · rw [← List.length_pos_iff, List.length_map, hlen]
    exact List.length_pos_iff.2 hc
  · rw [List.length_map, hlen]
  · intro p hp
    obtain ⟨i, hi, rfl⟩ := List.mem_map.1 hp
    have hi' := hlt i hi
    refine ⟨⟨by simp [hv.1], ?_⟩, hget i hi'⟩
    intro z hz
    rcases List.mem_cons.1 hz with rfl | hz
    · rw [List.getD_eq_getElem _ _ hi']; exact List.getElem_mem _
    · exact hv.2 z hz
  · rw [List.pairwise_map]
    rw [List.pairwise_map] at hsorted
    exact hsorted
  · intro s hs
    obtain ⟨i, hi, rfl⟩ := List.mem_iff_getElem.1 hs
    refine ⟨_, List.mem_map.2 ⟨i, hperm.mem_iff.2 (by rw [List.mem_range, hml]; exact hi), rfl⟩, ?_⟩
    rw [List.getD_eq_getElem _ _ hi]
  · rw [List.length_map, hlen]
  · intro hnd
    rw [List.map_map]
    have h1 : (e.argsort ms).Nodup := hperm.nodup_iff.2 List.nodup_range
    refine (List.nodup_map_iff_inj_on h1).2 ?_
    intro i hi j hj hij
    simp only [Function.comp_apply, List.cons.injEq, and_true] at hij
    rw [List.getD_eq_getElem _ _ (hlt i hi), List.getD_eq_getElem _ _ (hlt j hj)] at hij
    exact (List.Nodup.getElem_inj_iff hnd).1 hij
  · intro p hp
    obtain ⟨i, hi, rfl⟩ := List.mem_map.1 hp
    exact ⟨_, rfl⟩

/-! ### Additive weights of the stacks -/

theorem bfInsort_perm (l : List BChain) (n : BChain) : (bfInsort l n).Perm (n :: l) := by
  unfold bfInsort
  refine List.perm_middle.trans ?_
  rw [List.takeWhile_append_dropWhile]

theorem mem_bfInsort {l : List BChain} {n x : BChain} : x ∈ bfInsort l n ↔ x = n ∨ x ∈ l := by
  rw [(bfInsort_perm l n).mem_iff, List.mem_cons]

/-- Sum of a weight of the nodes over all stacks. -/
def bfSum (n : Nat) (w : Nat → BChain → Nat) (stk : Nat → List BChain) : Nat := ∑ i ∈ range n, ((stk i).map (w i)).sum

theorem bfSum_update {n : Nat} (w : Nat → BChain → Nat) (stk : Nat → List BChain) {a : Nat} (ha : a < n) (l : List BChain) :
    bfSum n w (Function.update stk a l) + ((stk a).map (w a)).sum = bfSum n w stk + (l.map (w a)).sum := by
  unfold bfSum
  rw [← Finset.add_sum_erase (range n) _ (mem_range.2 ha), ← Finset.add_sum_erase (range n) (fun i => ((stk i).map (w i)).sum) (mem_range.2 ha)]
  have : ∑ x ∈ (range n).erase a, ((Function.update stk a l x).map (w x)).sum = ∑ x ∈ (range n).erase a, ((stk x).map (w x)).sum := by
    apply sum_congr rfl
    intro i hi
    rw [Function.update_of_ne (Finset.ne_of_mem_erase hi)]
  rw [this, Function.update_self]
  omega

/-- Effect of processing one stack on the stacks. -/
theorem bfProcess_cases (e : BfEnv) (st : BfState) (i : Nat) :
    (st.stk (i + 1) = [] ∧ bfProcess e st i = st) ∨
    ∃ node rest, st.stk (i + 1) = node :: rest ∧ ∃ rest',
      ((rest' = rest ∧ (node.tail = [] ∨ bfRadius e st (i + 1) node < ((BChain.metric node.tail : ℝ) : EReal))) ∨
        (node.tail ≠ [] ∧ rest' = bfInsort rest node.tail)) ∧
      (((∃ err, bfExpand e (node.headD ([], 0)) = .error err) ∧
          bfProcess e st i = { st with stk := Function.update st.stk (i + 1) rest' }) ∨
        ∃ child, bfExpand e (node.headD ([], 0)) = .ok child ∧
          ((bfRadius e st (i + 1) node < ((BChain.metric child : ℝ) : EReal) ∧
              bfProcess e st i = { st with stk := Function.update st.stk (i + 1) rest' }) ∨
            (((BChain.metric child : ℝ) : EReal) ≤ bfRadius e st (i + 1) node ∧
              bfProcess e st i =
              { st with stk := Function.update (Function.update st.stk (i + 1) rest') i (bfInsort (st.stk i) child) }))) := by
  cases hs : st.stk (i + 1) with
  | nil =>
    left
    refine ⟨rfl, ?_⟩
    unfold bfProcess
    rw [hs]
  | cons node rest =>
    right
    refine ⟨node, rest, rfl, if node.tail ≠ [] ∧ ((BChain.metric node.tail : ℝ) : EReal) ≤ bfRadius e st (i + 1) node then
      bfInsort rest node.tail else rest, ?_, ?_⟩
    · split
      · rename_i h
        exact Or.inr ⟨h.1, rfl⟩
      · rename_i h
        left
        refine ⟨rfl, ?_⟩
        by_cases ht : node.tail = []
        · exact Or.inl ht
        · right
          by_contra hcon
          exact h ⟨ht, not_lt.1 hcon⟩
    · cases hx : bfExpand e (node.headD ([], 0)) with
      | error err =>
        left
        refine ⟨⟨err, rfl⟩, ?_⟩
        unfold bfProcess
        simp only [hs, hx]
      | ok child =>
        right
        refine ⟨child, rfl, ?_⟩
        by_cases hm : ((BChain.metric child : ℝ) : EReal) ≤ bfRadius e st (i + 1) node
        · right
          refine ⟨hm, ?_⟩
          unfold bfProcess
          simp only [hs, hx]
          rw [if_pos hm, Function.update_of_ne (show i ≠ i + 1 by omega)]
        · left
          refine ⟨not_le.1 hm, ?_⟩
          unfold bfProcess
          simp only [hs, hx]
          rw [if_neg hm]

theorem map_sum_insort (w : BChain → Nat) (l : List BChain) (n : BChain) :
    ((bfInsort l n).map w).sum = w n + (l.map w).sum := by
  rw [((bfInsort_perm l n).map w).sum_eq, List.map_cons, List.sum_cons]

/-- Weights that do not grow when a node is replaced by its siblings and children do not grow. -/
theorem bfSum_process {e : BfEnv} {n : Nat} (w : Nat → BChain → Nat) {st : BfState} {i : Nat} (hi : i + 1 < n) (δ : Nat)
    (hw : ∀ node ∈ st.stk (i + 1), ∀ cw : Nat, (∀ child, bfExpand e (node.headD ([], 0)) = .ok child → cw ≤ w i child) →
      ((∃ err, bfExpand e (node.headD ([], 0)) = .error err) → cw = 0) →
      (if node.tail = [] then 0 else w (i + 1) node.tail) + cw + δ ≤ w (i + 1) node) :
    bfSum n w (bfProcess e st i).stk + (if st.stk (i + 1) = [] then 0 else δ) ≤ bfSum n w st.stk := by
  rcases bfProcess_cases e st i with ⟨h1, h2⟩ | ⟨node, rest, hs, rest', hr, hcase⟩
  · rw [h2, if_pos h1, Nat.add_zero]
  · rw [if_neg (by rw [hs]; simp)]
    have hrest : (rest'.map (w (i + 1))).sum ≤ (if node.tail = [] then 0 else w (i + 1) node.tail) + (rest.map (w (i + 1))).sum := by
      rcases hr with ⟨rfl, _⟩ | ⟨hne, rfl⟩
      · omega
      · rw [map_sum_insort, if_neg hne]
    have hu := bfSum_update w st.stk hi rest'
    rw [hs, List.map_cons, List.sum_cons] at hu
    have hnode := hw node (by rw [hs]; simp)
    rcases hcase with ⟨herr, heq⟩ | ⟨child, hc, hcase⟩
    · have := hnode 0 (fun _ _ => Nat.zero_le _) (fun _ => rfl)
      rw [heq]
      simp only
      omega
    · have := hnode (w i child) (fun ch hch => by rw [hc] at hch; injection hch with hch; rw [hch])
        (fun ⟨err, he⟩ => by rw [hc] at he; cases he)
      rcases hcase with ⟨_, heq⟩ | ⟨_, heq⟩
      · rw [heq]
        simp only
        omega
      · rw [heq]
        simp only
        have hu2 := bfSum_update w (Function.update st.stk (i + 1) rest') (show i < n by omega) (bfInsort (st.stk i) child)
        rw [Function.update_of_ne (show i ≠ i + 1 by omega), map_sum_insort] at hu2
        omega

/-! ### Well-formed stacks -/

/-- Every node of stack `i < n` is a well-formed vector of the last `n - i` symbols. -/
def StkOk (e : BfEnv) (n : Nat) (stk : Nat → List BChain) : Prop := ∀ i, ∀ ch ∈ stk i, i < n ∧ ChainOk e (n - i) ch

theorem stkOk_update {e : BfEnv} {n : Nat} {stk : Nat → List BChain} (h : StkOk e n stk) {a : Nat} {l : List BChain}
    (hl : ∀ ch ∈ l, a < n ∧ ChainOk e (n - a) ch) : StkOk e n (Function.update stk a l) := by
  intro i ch hch
  by_cases hi : i = a
  · subst hi
    rw [Function.update_self] at hch
    exact hl ch hch
  · rw [Function.update_of_ne hi] at hch
    exact h i ch hch

theorem headD_eq {ch : BChain} : ch.headD ([], 0) = (BChain.symb ch, BChain.metric ch) := rfl

theorem node_vec {e : BfEnv} {n i : Nat} {stk : Nat → List BChain} (h : StkOk e n stk) {node : BChain} (hn : node ∈ stk i) :
    IsVector e.c (n - i) (node.headD ([], 0)).1 ∧ (node.headD ([], 0)).2 = bfMetric e (node.headD ([], 0)).1 := by
  obtain ⟨_, hok⟩ := h i node hn
  exact hok.head

section
variable {e : BfEnv} {n : Nat}

/-- Outcome of expanding a node of the stacks. -/
theorem expand_node (hsort : ∀ l, IsArgsort l (e.argsort l)) (hc : e.c ≠ []) {stk : Nat → List BChain} (h : StkOk e n stk) {i : Nat}
    {node : BChain} (hn : node ∈ stk (i + 1)) {child : BChain} (hx : bfExpand e (node.headD ([], 0)) = .ok child) :
    ChainOk e (n - i) child ∧ (∀ s ∈ e.c, ∃ p ∈ child, p.1 = s :: node.symb) ∧ child.length = e.c.length ∧
      (e.c.Nodup → (child.map Prod.fst).Nodup) ∧ ∀ p ∈ child, ∃ s, p.1 = s :: node.symb := by
  obtain ⟨hv, hm⟩ := node_vec h hn
  have hlt := (h _ _ hn).1
  by_cases hk : n - (i + 1) + 1 ≤ e.k
  · obtain ⟨ch, h1, h2, h3, h4, h5, h6⟩ := bfExpand_ok hsort hc hv hm hk
    rw [hx] at h1
    injection h1 with h1
    subst h1
    rw [show n - (i + 1) + 1 = n - i by omega] at h2
    exact ⟨h2, h3, h4, h5, h6⟩
  · rw [bfExpand_error (by rw [hv.1]; omega)] at hx
    cases hx

theorem stkOk_process (hsort : ∀ l, IsArgsort l (e.argsort l)) (hc : e.c ≠ []) {st : BfState} (h : StkOk e n st.stk) (i : Nat) :
    StkOk e n (bfProcess e st i).stk := by
  rcases bfProcess_cases e st i with ⟨_, h2⟩ | ⟨node, rest, hs, rest', hr, hcase⟩
  · rw [h2]; exact h
  · have hnode : node ∈ st.stk (i + 1) := by rw [hs]; simp
    have hrest : ∀ ch ∈ rest', i + 1 < n ∧ ChainOk e (n - (i + 1)) ch := by
      intro ch hch
      rcases hr with ⟨rfl, _⟩ | ⟨hne, rfl⟩
      · exact h _ ch (by rw [hs]; simp [hch])
      · rcases mem_bfInsort.1 hch with rfl | hch
        · exact ⟨(h _ _ hnode).1, (h _ _ hnode).2.tail hne⟩
        · exact h _ ch (by rw [hs]; simp [hch])
    rcases hcase with ⟨_, heq⟩ | ⟨child, hx, hcase⟩
    · rw [heq]; exact stkOk_update h hrest
    · rcases hcase with ⟨_, heq⟩ | ⟨_, heq⟩
      · rw [heq]; exact stkOk_update h hrest
      · rw [heq]
        refine stkOk_update (stkOk_update h hrest) ?_
        intro ch hch
        have hi := (h _ _ hnode).1
        refine ⟨by omega, ?_⟩
        rcases mem_bfInsort.1 hch with rfl | hch
        · exact (expand_node hsort hc h hnode hx).1
        · exact (h _ ch hch).2

theorem process_vals (e : BfEnv) (st : BfState) (i : Nat) : (bfProcess e st i).mapMetric = st.mapMetric ∧
    (bfProcess e st i).mapBits = st.mapBits ∧ (bfProcess e st i).counter = st.counter := by
  rcases bfProcess_cases e st i with ⟨_, h2⟩ | ⟨node, rest, hs, rest', hr, hcase⟩
  · rw [h2]; exact ⟨rfl, rfl, rfl⟩
  · rcases hcase with ⟨_, heq⟩ | ⟨child, hx, hcase⟩
    · rw [heq]; exact ⟨rfl, rfl, rfl⟩
    · rcases hcase with ⟨_, heq⟩ | ⟨_, heq⟩ <;> · rw [heq]; exact ⟨rfl, rfl, rfl⟩

theorem process_other {st : BfState} {i j : Nat} (h1 : j ≠ i) (h2 : j ≠ i + 1) : (bfProcess e st i).stk j = st.stk j := by
  rcases bfProcess_cases e st i with ⟨_, h⟩ | ⟨node, rest, hs, rest', hr, hcase⟩
  · rw [h]
  · rcases hcase with ⟨_, heq⟩ | ⟨child, hx, hcase⟩
    · rw [heq]; simp only [Function.update_of_ne h2]
    · rcases hcase with ⟨_, heq⟩ | ⟨_, heq⟩
      · rw [heq]; simp only [Function.update_of_ne h2]
      · rw [heq]; simp only [Function.update_of_ne h1, Function.update_of_ne h2]

/-- A property kept by every stack processing is kept by the pass over the stacks. -/
theorem pass_induct (P : BfState → Prop) {st : BfState} (h0 : P st) (hstep : ∀ st i, i < n - 1 → P st → P (bfProcess e st i)) :
    ∀ k ≤ n - 1, P ((List.range k).foldl (bfProcess e) st) := by
  intro k
  induction k with
  | zero => intro _; exact h0
  | succ k ih =>
    intro hk
    rw [List.range_succ, List.foldl_append]
    exact hstep _ k (by omega) (ih (by omega))

theorem pass_vals (st : BfState) : ∀ k, ((List.range k).foldl (bfProcess e) st).mapMetric = st.mapMetric ∧
    ((List.range k).foldl (bfProcess e) st).mapBits = st.mapBits ∧ ((List.range k).foldl (bfProcess e) st).counter = st.counter := by
  intro k
  induction k with
  | zero => exact ⟨rfl, rfl, rfl⟩
  | succ k ih =>
    rw [List.range_succ, List.foldl_append]
    obtain ⟨h1, h2, h3⟩ := process_vals e ((List.range k).foldl (bfProcess e) st) k
    exact ⟨h1.trans ih.1, h2.trans ih.2.1, h3.trans ih.2.2⟩

theorem pass_above (st : BfState) : ∀ k j, k < j → ((List.range k).foldl (bfProcess e) st).stk j = st.stk j := by
  intro k
  induction k with
  | zero => intro j _; rfl
  | succ k ih =>
    intro j hj
    rw [List.range_succ, List.foldl_append]
    show (bfProcess e ((List.range k).foldl (bfProcess e) st) k).stk j = _
    rw [process_other (by omega) (by omega), ih j (by omega)]

/-- At most one leaf is reached in a pass. -/
theorem pass_leaf (st : BfState) (h0 : st.stk 0 = []) : ∀ k, (((List.range k).foldl (bfProcess e) st).stk 0).length ≤ 1 := by
  intro k
  induction k with
  | zero => simp [h0]
  | succ k ih =>
    rw [List.range_succ, List.foldl_append]
    show ((bfProcess e ((List.range k).foldl (bfProcess e) st) k).stk 0).length ≤ 1
    cases k with
    | zero =>
      show ((bfProcess e st 0).stk 0).length ≤ 1
      rcases bfProcess_cases e st 0 with ⟨_, h⟩ | ⟨node, rest, hs, rest', hr, hcase⟩
      · rw [h, h0]; simp
      · rcases hcase with ⟨_, heq⟩ | ⟨child, hx, hcase⟩
        · rw [heq]
          simp only [Function.update_of_ne (show 0 ≠ 0 + 1 by omega), h0]
          simp
        · rcases hcase with ⟨_, heq⟩ | ⟨_, heq⟩
          · rw [heq]
            simp only [Function.update_of_ne (show 0 ≠ 0 + 1 by omega), h0]
            simp
          · rw [heq]
            simp only [Function.update_self, h0]
            simp [bfInsort]
    | succ k => rw [process_other (by omega) (by omega)]; exact ih

end

/-! ### Termination -/

/-- Weight of a node of stack `i`. -/
def bfW (m : Nat) : Nat → Nat
  | 0 => 0
  | i + 1 => m * bfW m i + 1

theorem bfW_lt {m : Nat} (hm : 2 ≤ m) : ∀ i, bfW m i < m ^ i := by
  intro i
  induction i with
  | zero => simp [bfW]
  | succ i ih =>
    rw [bfW, pow_succ, Nat.mul_comm (m ^ i)]
    have h1 : m * (bfW m i + 1) ≤ m * m ^ i := Nat.mul_le_mul_left _ ih
    rw [Nat.mul_add] at h1
    omega

/-- The potential that decreases with every turn. -/
def bfPot (m n : Nat) (stk : Nat → List BChain) : Nat := bfSum n (fun i ch => ch.length * bfW m i) stk

section
variable {e : BfEnv} {n : Nat}

theorem pot_process (hsort : ∀ l, IsArgsort l (e.argsort l)) (hc : e.c ≠ []) {st : BfState} (h : StkOk e n st.stk) {i : Nat}
    (hi : i < n - 1) : bfPot e.c.length n (bfProcess e st i).stk + (if st.stk (i + 1) = [] then 0 else 1) ≤ bfPot e.c.length n st.stk := by
  refine bfSum_process _ (by omega) 1 ?_
  intro node hn cw hcw hce
  have hne := (h _ _ hn).2.ne
  have hcw' : cw ≤ e.c.length * bfW e.c.length i := by
    cases hx : bfExpand e (node.headD ([], 0)) with
    | error err => rw [hce ⟨err, hx⟩]; omega
    | ok child =>
      have := hcw child hx
      rwa [(expand_node hsort hc h hn hx).2.2.1] at this
  have hl : node.length = node.tail.length + 1 := by
    rw [List.length_tail]
    have := List.length_pos_iff.2 hne
    omega
  have hb : (if node.tail = [] then 0 else node.tail.length * bfW e.c.length (i + 1)) = node.tail.length * bfW e.c.length (i + 1) := by
    split
    · rename_i h; rw [h]; simp
    · rfl
  rw [hb, hl, Nat.succ_mul]
  have : bfW e.c.length (i + 1) = e.c.length * bfW e.c.length i + 1 := rfl
  omega

theorem pot_pass (hsort : ∀ l, IsArgsort l (e.argsort l)) (hc : e.c ≠ []) {st : BfState} (h : StkOk e n st.stk) :
    ∀ k ≤ n - 1, StkOk e n ((List.range k).foldl (bfProcess e) st).stk ∧
      bfPot e.c.length n ((List.range k).foldl (bfProcess e) st).stk ≤ bfPot e.c.length n st.stk ∧
      ((∃ i, 1 ≤ i ∧ i ≤ k ∧ st.stk i ≠ []) →
        bfPot e.c.length n ((List.range k).foldl (bfProcess e) st).stk < bfPot e.c.length n st.stk) := by
  intro k
  induction k with
  | zero => intro _; exact ⟨h, le_rfl, fun ⟨i, h1, h2, _⟩ => by omega⟩
  | succ k ih =>
    intro hk
    obtain ⟨h1, h2, h3⟩ := ih (by omega)
    rw [List.range_succ, List.foldl_append]
    have hp := pot_process hsort hc h1 (show k < n - 1 by omega)
    show StkOk e n (bfProcess e ((List.range k).foldl (bfProcess e) st) k).stk ∧
      bfPot e.c.length n (bfProcess e ((List.range k).foldl (bfProcess e) st) k).stk ≤ _ ∧ (_ →
      bfPot e.c.length n (bfProcess e ((List.range k).foldl (bfProcess e) st) k).stk < _)
    refine ⟨stkOk_process hsort hc h1 k, by omega, ?_⟩
    rintro ⟨i, hi1, hi2, hne⟩
    by_cases hik : i = k + 1
    · subst hik
      rw [pass_above st k (k + 1) (by omega), if_neg hne] at hp
      omega
    · have := h3 ⟨i, hi1, by omega, hne⟩
      omega

theorem bfLeaf_stk {st st' : BfState} (h : bfLeaf e st = .ok st') : st'.stk = st.stk := by
  unfold bfLeaf at h
  split at h
  · injection h with h; rw [← h]
  · simp only at h
    split at h
    · split at h
      · cases h
      · injection h with h; rw [← h]
    · injection h with h; rw [← h]

theorem bfTrim_eq {ss : List Nat} {st st' : BfState} (h : bfTrim n ss st = .ok st') : n - 1 ≤ ss.length ∧
    st' = { st with
      stk := fun i => if i = 0 then [] else if i < n then (st.stk i).take (ss.getD (i - 1) 0) else st.stk i } := by
  unfold bfTrim at h
  split at h
  · cases h
  · injection h with h
    exact ⟨by omega, h.symm⟩

theorem map_sum_take_le (w : BChain → Nat) (l : List BChain) (k : Nat) : ((l.take k).map w).sum ≤ (l.map w).sum := by
  conv_rhs => rw [← List.take_append_drop k l]
  rw [List.map_append, List.sum_append]
  omega

theorem bfSum_trim (w : Nat → BChain → Nat) {ss : List Nat} {st st' : BfState} (h : bfTrim n ss st = .ok st') :
    bfSum n w st'.stk ≤ bfSum n w st.stk := by
  obtain ⟨_, rfl⟩ := bfTrim_eq h
  unfold bfSum
  apply sum_le_sum
  intro i hi
  simp only
  split
  · simp
  · split
    · exact map_sum_take_le _ _ _
    · exact le_rfl

theorem stkOk_trim {ss : List Nat} {st st' : BfState} (hok : StkOk e n st.stk) (h : bfTrim n ss st = .ok st') : StkOk e n st'.stk := by
  obtain ⟨_, rfl⟩ := bfTrim_eq h
  intro i ch hch
  simp only at hch
  split at hch
  · cases hch
  · split at hch
    · exact hok i ch (List.mem_of_mem_take hch)
    · exact hok i ch hch

/-- One turn keeps the stacks well formed and decreases the potential. -/
theorem turn_pot (hsort : ∀ l, IsArgsort l (e.argsort l)) (hc : e.c ≠ []) {ss : List Nat} {st st' : BfState} (h : StkOk e n st.stk)
    (ht : bfTurn e n ss st = .ok st') (hne : ∃ i, 1 ≤ i ∧ i < n ∧ st.stk i ≠ []) :
    StkOk e n st'.stk ∧ bfPot e.c.length n st'.stk < bfPot e.c.length n st.stk := by
  unfold bfTurn at ht
  obtain ⟨h1, _, h3⟩ := pot_pass hsort hc h (n - 1) le_rfl
  split at ht
  · cases ht
  · rename_i st2 hl
    have hs := bfLeaf_stk hl
    rw [← hs] at h1 h3
    obtain ⟨i, a, b, c⟩ := hne
    have := h3 ⟨i, a, by omega, c⟩
    have := bfSum_trim (n := n) (fun i ch => ch.length * bfW e.c.length i) ht
    refine ⟨stkOk_trim h1 ht, ?_⟩
    unfold bfPot at *
    omega

/-- Induction over the turns of the loop. -/
theorem loop_induct (hsort : ∀ l, IsArgsort l (e.argsort l)) (hc : e.c ≠ []) {ss : List Nat} (P : BfState → Prop)
    (hstep : ∀ st, StkOk e n st.stk → P st → (∃ i, 1 ≤ i ∧ i < n ∧ st.stk i ≠ []) → ∃ st', bfTurn e n ss st = .ok st' ∧ P st') :
    ∀ (fuel : Nat) (st : BfState), StkOk e n st.stk → P st → bfPot e.c.length n st.stk < fuel →
      ∃ st', bfLoop e n ss fuel st = .ok st' ∧ P st' ∧ StkOk e n st'.stk ∧ ∀ i, 1 ≤ i → i < n → st'.stk i = [] := by
  intro fuel
  induction fuel with
  | zero => intro st _ _ hp; omega
  | succ fuel ih =>
    intro st hok hP hp
    unfold bfLoop
    by_cases hne : ∃ i, 1 ≤ i ∧ i < n ∧ st.stk i ≠ []
    · rw [if_pos hne]
      obtain ⟨st', ht, hP'⟩ := hstep st hok hP hne
      obtain ⟨h1, h2⟩ := turn_pot hsort hc hok ht hne
      rw [ht]
      exact ih st' h1 hP' (by omega)
    · rw [if_neg hne]
      refine ⟨st, rfl, hP, hok, ?_⟩
      intro i h1 h2
      by_contra h3
      exact hne ⟨i, h1, h2, h3⟩

end

end Verif
