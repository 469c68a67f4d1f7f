import Verif.Spec.TrellisPlot
import Verif.Lemmas.Convcode
import Verif.Props.TrellisLegacy
import Verif.Lemmas.AlgcodeTyped
import Mathlib.Algebra.Order.BigOperators.Group.Finset
import Mathlib.Tactic.Linarith
/- Property theorems for `Trellis.visualize` (C102) and `Trellis.visualize_fsm` (C103). -/
namespace Verif

theorem mgrid_col (L t : Nat) : mgridAxis 0.12 (0.22 * L) (L + 1) t = colX L t := by
  unfold mgridAxis colX
  by_cases h : L = 0
  · subst h; simp
  · rw [if_neg (by omega)]; push_cast; ring_nf

theorem mgrid_row {N i : Nat} (hi : i < N) : mgridAxis 0.1 (0.5 + N * 0.1) N i = rowY N (N - 1 - i) := by
  unfold mgridAxis rowY
  by_cases h : N = 1
  · subst h; simp
  · rw [if_neg h, Nat.cast_sub (by omega), Nat.cast_sub (by omega)]; push_cast; ring_nf

theorem plotGrid_eq {N L t i : Nat} (hi : i < N) : plotGrid N L (N * t + i) = (colX L t, rowY N (N - 1 - i)) := by
  unfold plotGrid
  rw [show (N * t + i) / N = t by rw [Nat.mul_add_div (by omega), Nat.div_eq_of_lt hi, Nat.add_zero],
    show (N * t + i) % N = i by rw [Nat.mul_add_mod, Nat.mod_eq_of_lt hi], mgrid_col, mgrid_row hi]

theorem rev_get {N : Nat} {order : List Nat} (ho : order.length = N) {i : Nat} (hi : i < N) :
    pyGet order.reverse (i : Int) = .ok (order.getD (N - 1 - i) 0) := by
  rw [pyGet_ok (by simpa [ho] using hi), List.getElem_reverse, List.getD_eq_getElem _ _ (by omega)]
  simp [ho]

theorem flatMap_range_rev {α : Type} (N : Nat) (f : Nat → List α) :
    (List.range N).flatMap (fun i => f (N - 1 - i)) = (List.range N).reverse.flatMap f := by
  have : (List.range N).reverse = (List.range N).map (fun i => N - 1 - i) := by
    apply List.ext_getElem
    · simp
    · intro i h1 h2
      simp at h1 h2
      simp
  rw [this, List.flatMap_map]

theorem find_idxOf {row : List Nat} {K : Nat} (hK : row.length = K) (x : Nat) :
    (List.range K).find? (fun u => row.getD u 0 == x) = if x ∈ row then some (row.idxOf x) else none := by
  subst hK
  by_cases h : x ∈ row
  · rw [if_pos h, List.range_eq_range', List.find?_range'_eq_some]
    have hlt := List.idxOf_lt_length_iff.2 h
    refine ⟨?_, by rw [List.mem_range'_1]; omega, ?_⟩
    · rw [List.getD_eq_getElem _ _ hlt]; simp
    · intro j _ hj
      rw [List.getD_eq_getElem _ _ (by omega)]
      have := List.not_of_lt_findIdx (p := (· == x)) (xs := row) hj
      simpa using this
  · rw [if_neg h, List.find?_eq_none]
    intro u hu
    rw [List.mem_range] at hu
    rw [List.getD_eq_getElem _ _ hu]
    simp only [beq_iff_eq]
    intro hx
    exact h (hx ▸ List.getElem_mem hu)

theorem pyGet_pred {α : Type} {K u : Nat} (col : Nat → α) (hu : u < K) :
    pyGet ((List.range K).map col) ((u : Int) - 1) = .ok (col ((u + K - 1) % K)) := by
  cases u with
  | zero =>
    have h1 : pyIdx K (-1) = some (K - 1) := by
      unfold pyIdx
      split
      · omega
      · split
        · congr 1; omega
        · omega
    rw [show ((0 : Nat) : Int) - 1 = -1 by norm_num, pyGet]
    simp only [List.length_map, List.length_range, h1, Option.bind_some]
    rw [List.getElem?_map, List.getElem?_range (by omega), Nat.zero_add, Nat.mod_eq_of_lt (by omega)]
    rfl
  | succ v =>
    rw [show ((v + 1 : Nat) : Int) - 1 = (v : Int) by push_cast; ring, pyGet_ok (by simp; omega)]
    rw [show v + 1 + K - 1 = v + K by omega, Nat.add_mod_right, Nat.mod_eq_of_lt (by omega)]
    simp

theorem plotEdge_eq {α : Type} {tr : Trellis} (h : tr.WF) {L : Nat} {order : List Nat} (ho : order.Perm (List.range (2 ^ tr.M)))
    (r : ℝ) (col : Nat → α) {t i j : Nat} (hi : i < 2 ^ tr.M) (hj : j < 2 ^ tr.M) :
    plotEdge tr (2 ^ tr.M) L order.reverse r ((List.range (2 ^ tr.k)).map col) t i j = .ok
      ((firstInput tr (order.getD (2 ^ tr.M - 1 - i) 0) (order.getD (2 ^ tr.M - 1 - j) 0)).toList.map fun u => spanArrow (2 ^ tr.M) L r t (2 ^ tr.M - 1 - i) (2 ^ tr.M - 1 - j) (col ((u + 2 ^ tr.k - 1) % 2 ^ tr.k))) := by
  have hlen : order.length = 2 ^ tr.M := by simpa using ho.length_eq
  have hs : order.getD (2 ^ tr.M - 1 - i) 0 < 2 ^ tr.M := by
    rw [List.getD_eq_getElem _ _ (by omega)]
    exact List.mem_range.1 (ho.subset (List.getElem_mem _))
  generalize hs1 : order.getD (2 ^ tr.M - 1 - i) 0 = s1 at hs ⊢
  have hrow := List.getElem_mem (show s1 < tr.nextTable.length by rw [h.next_len]; exact hs)
  have hrl := (h.next_row _ hrow).1
  unfold plotEdge
  rw [show 2 ^ tr.M * t + (j + 2 ^ tr.M) = 2 ^ tr.M * (t + 1) + j by ring, plotGrid_eq hi, plotGrid_eq hj, rev_get hlen hi, rev_get hlen hj, hs1]
  simp only [bind, Except.bind, pyGet_ok (show s1 < tr.nextTable.length by rw [h.next_len]; exact hs)]
  unfold firstInput
  simp only [Trellis.next, List.getD_eq_getElem _ _ (show s1 < tr.nextTable.length by rw [h.next_len]; exact hs)]
  rw [find_idxOf hrl]
  by_cases hm : order.getD (2 ^ tr.M - 1 - j) 0 ∈ tr.nextTable[s1]'(by rw [h.next_len]; exact hs)
  · rw [if_pos hm, if_pos hm, pyGet_pred col (by rw [← hrl]; exact List.idxOf_lt_length_iff.2 hm)]
    simp only [pure, Except.pure, spanArrow, Except.ok.injEq, List.cons.injEq, and_true]
    congr 1
    ring
  · rw [if_neg hm, if_neg hm]; rfl

theorem plotEdges_eq {α : Type} {tr : Trellis} (h : tr.WF) {L : Nat} {order : List Nat} (ho : order.Perm (List.range (2 ^ tr.M)))
    (r : ℝ) (col : Nat → α) :
    plotEdges tr (2 ^ tr.M) L order.reverse r ((List.range (2 ^ tr.k)).map col) =
      .ok (allArrows tr L order r (fun u => col ((u + 2 ^ tr.k - 1) % 2 ^ tr.k))) := by
  unfold plotEdges
  rw [mapM_ok (g := fun t => (List.range (2 ^ tr.M)).reverse.flatMap fun i => (List.range (2 ^ tr.M)).reverse.flatMap fun j =>
    (firstInput tr (order.getD i 0) (order.getD j 0)).toList.map fun u => spanArrow (2 ^ tr.M) L r t i j (col ((u + 2 ^ tr.k - 1) % 2 ^ tr.k)))]
  · simp only [bind, Except.bind, pure, Except.pure, allArrows, List.flatMap_def]
  · intro t _
    rw [mapM_ok (g := fun i => (List.range (2 ^ tr.M)).reverse.flatMap fun j =>
      (firstInput tr (order.getD (2 ^ tr.M - 1 - i) 0) (order.getD j 0)).toList.map fun u => spanArrow (2 ^ tr.M) L r t (2 ^ tr.M - 1 - i) j (col ((u + 2 ^ tr.k - 1) % 2 ^ tr.k)))]
    · simp only [bind, Except.bind, pure, Except.pure, Except.ok.injEq]
      rw [← List.flatMap_def, flatMap_range_rev (f := fun i => (List.range (2 ^ tr.M)).reverse.flatMap fun j =>
        (firstInput tr (order.getD i 0) (order.getD j 0)).toList.map fun u => spanArrow (2 ^ tr.M) L r t i j (col ((u + 2 ^ tr.k - 1) % 2 ^ tr.k)))]
    · intro i hi
      rw [mapM_ok _ (fun j hj => plotEdge_eq h ho r col (List.mem_range.1 hi) (List.mem_range.1 hj))]
      simp only [bind, Except.bind, pure, Except.pure, Except.ok.injEq]
      rw [← List.flatMap_def, flatMap_range_rev (f := fun j =>
        (firstInput tr (order.getD (2 ^ tr.M - 1 - i) 0) (order.getD j 0)).toList.map fun u => spanArrow (2 ^ tr.M) L r t (2 ^ tr.M - 1 - i) j (col ((u + 2 ^ tr.k - 1) % 2 ^ tr.k)))]

theorem range_mul_flatMap {α : Type} (N L : Nat) (f : Nat → α) :
    (List.range (N * L)).map f = (List.range L).flatMap fun t => (List.range N).map fun i => f (N * t + i) := by
  induction L with
  | zero => simp
  | succ L ih =>
    rw [Nat.mul_succ, List.range_add, List.map_append, ih, List.range_succ, List.flatMap_append, List.map_map]
    simp [Function.comp_def]

theorem map_range_rev {α : Type} (N : Nat) (f : Nat → α) :
    (List.range N).map (fun i => f (N - 1 - i)) = (List.range N).reverse.map f := by
  have := flatMap_range_rev N (fun i => [f i])
  rwa [← List.map_eq_flatMap, ← List.map_eq_flatMap] at this

theorem plotStates_eq {N L : Nat} {order : List Nat} (ho : order.length = N) :
    plotStates N L order.reverse = .ok ((List.range L).flatMap fun t => (List.range N).reverse.map fun i =>
      ((colX L t, rowY N i), order.getD i 0)) := by
  unfold plotStates
  rw [mapM_ok (g := fun j => (plotGrid N L j, order.getD (N - 1 - j % N) 0))]
  · congr 1
    rw [range_mul_flatMap]
    rw [List.flatMap_congr (fun t _ => ?_)]
    rw [← map_range_rev]
    apply List.map_congr_left
    intro i hi
    rw [List.mem_range] at hi
    rw [plotGrid_eq hi, Nat.mul_add_mod, Nat.mod_eq_of_lt hi]
  · intro j hj
    rw [List.mem_range] at hj
    have : 0 < N := by
      rcases Nat.eq_zero_or_pos N with h | h
      · subst h; simp at hj
      · exact h
    rw [rev_get ho (Nat.mod_lt _ this)]
    rfl

theorem plotLabels_eq {tr : Trellis} (h : tr.WF) (L : Nat) {order : List Nat} (ho : order.Perm (List.range (2 ^ tr.M))) (r : ℝ) :
    plotLabels tr (2 ^ tr.M) L order.reverse r = .ok ((List.range (2 ^ tr.M)).reverse.flatMap fun i => (List.range (2 ^ tr.k)).map fun (u : Nat) =>
      ((colX L 0 - 1.5 * r, rowY (2 ^ tr.M) i + r * (1 - u - 0.7)), (u, tr.out (order.getD i 0) u))) := by
  have hlen : order.length = 2 ^ tr.M := by simpa using ho.length_eq
  unfold plotLabels
  rw [mapM_ok (g := fun i => (List.range (2 ^ tr.k)).map fun (u : Nat) =>
      ((colX L 0 - 1.5 * r, rowY (2 ^ tr.M) (2 ^ tr.M - 1 - i) + r * (1 - u - 0.7)), (u, tr.out (order.getD (2 ^ tr.M - 1 - i) 0) u)))]
  · simp only [bind, Except.bind, pure, Except.pure, Except.ok.injEq]
    rw [← List.flatMap_def, flatMap_range_rev (f := fun i => (List.range (2 ^ tr.k)).map fun (u : Nat) =>
      ((colX L 0 - 1.5 * r, rowY (2 ^ tr.M) i + r * (1 - u - 0.7)), (u, tr.out (order.getD i 0) u)))]
  · intro i hi
    rw [List.mem_range] at hi
    apply mapM_ok
    intro u hu
    rw [List.mem_range] at hu
    have hs : order.getD (2 ^ tr.M - 1 - i) 0 < 2 ^ tr.M := by
      rw [List.getD_eq_getElem _ _ (by omega)]
      exact List.mem_range.1 (ho.subset (List.getElem_mem _))
    have hg := plotGrid_eq (N := 2 ^ tr.M) (L := L) (t := 0) hi
    rw [Nat.mul_zero, Nat.zero_add] at hg
    rw [rev_get hlen hi]
    simp only [bind, Except.bind, tableGet_ok h.out_len (fun r hr => (h.out_row r hr).1) hs hu, hg]
    rfl

/-- C102 (partial: what is really drawn; the colours, the legend and the caller's list are wrong, see the `_refuted` theorems).  For every
well-formed trellis, every number of steps, every order of the states and one colour per input: the circles of time `t` carry the states
in the order given, from the top; there is exactly one arrow per time step and connected pair of states, from circle to circle; the texts
give for every state and input the output.  Missing: the arrow has the colour of the input *before* its smallest input (cyclically). -/
theorem C102_diagram_partial {α : Type} {tr : Trellis} (h : tr.WF) (L : Nat) {order : List Nat} (ho : order.Perm (List.range (2 ^ tr.M)))
    (r : ℝ) (col : Nat → α) :
    ∃ P, visualize tr L order r ((List.range (2 ^ tr.k)).map col) = .ok P ∧
      P.circles = ((List.range L).flatMap fun t => (List.range (2 ^ tr.M)).reverse.map fun i => ((colX L t, rowY (2 ^ tr.M) i), order.getD i 0)) ∧
      P.arrows = allArrows tr L order r (fun u => col ((u + 2 ^ tr.k - 1) % 2 ^ tr.k)) ∧
      P.labels = ((List.range (2 ^ tr.M)).reverse.flatMap fun i => (List.range (2 ^ tr.k)).map fun (u : Nat) =>
        ((colX L 0 - 1.5 * r, rowY (2 ^ tr.M) i + r * (1 - u - 0.7)), (u, tr.out (order.getD i 0) u))) ∧
      P.legend = P.arrows.zip (List.range (2 ^ tr.k)) ∧ P.stateOrder = order.reverse := by
  have hlen : order.length = 2 ^ tr.M := by simpa using ho.length_eq
  unfold visualize
  simp only [plotStates_eq hlen, plotEdges_eq h ho r col, plotLabels_eq h L ho r, bind, Except.bind, pure, Except.pure]
  exact ⟨_, rfl, rfl, rfl, rfl, rfl, rfl⟩

/-- C102: columns go from left to right with time, rows from top to bottom. -/
theorem C102_layout {L N : Nat} : (1 ≤ L → StrictMono (colX L)) ∧ ∀ i j, i < j → j < N → rowY N j < rowY N i := by
  constructor
  · intro hL
    have h1 : (1 : ℝ) ≤ L := by exact_mod_cast hL
    have hpos : 0 < (0.22 * (L : ℝ) - 0.12) / L := by apply div_pos <;> norm_num <;> linarith
    intro a b hab
    have : (a : ℝ) < b := by exact_mod_cast hab
    unfold colX
    nlinarith
  · intro i j hij hj
    have h1 : (2 : ℝ) ≤ N := by exact_mod_cast (by omega : 2 ≤ N)
    have hpos : 0 < (0.4 + 0.1 * (N : ℝ)) / ((N : ℝ) - 1) := by apply div_pos <;> norm_num <;> linarith
    have : (i : ℝ) < j := by exact_mod_cast hij
    unfold rowY
    nlinarith

theorem allArrows_map {α : Type} (tr : Trellis) (L : Nat) (order : List Nat) (r : ℝ) (c : Nat → α) :
    allArrows tr L order r c = (allArrows tr L order r id).map fun a => { x := a.x, y := a.y, dx := a.dx, dy := a.dy, color := c a.color } := by
  unfold allArrows
  simp only [List.map_flatMap, List.map_map]
  rfl

theorem allArrows_color {tr : Trellis} {L : Nat} {order : List Nat} {r : ℝ} {a : PlotArrow Nat} (ha : a ∈ allArrows tr L order r id) :
    a.color < 2 ^ tr.k := by
  unfold allArrows at ha
  simp only [List.mem_flatMap, List.mem_map, Option.mem_toList] at ha
  obtain ⟨t, _, i, _, j, _, u, hu, rfl⟩ := ha
  unfold firstInput at hu
  exact List.mem_range.1 (List.mem_of_find?_eq_some hu)

/-- C102 refuted, colours: `edge_colors` is documented as one colour per input, "that represent the edge corresponding to the input".  With
distinct colours *every* arrow drawn has a wrong colour: compared one by one with the arrows coloured by their (smallest) input, all
colours differ. -/
theorem C102_colour_refuted {α : Type} {tr : Trellis} (h : tr.WF) (L : Nat) {order : List Nat} (ho : order.Perm (List.range (2 ^ tr.M)))
    (r : ℝ) (col : Nat → α) (hinj : ∀ u < 2 ^ tr.k, ∀ v < 2 ^ tr.k, col u = col v → u = v) :
    ∃ P, visualize tr L order r ((List.range (2 ^ tr.k)).map col) = .ok P ∧
      List.Forall₂ (fun a b => a.color ≠ b.color) P.arrows (allArrows tr L order r col) := by
  obtain ⟨P, h1, _, h3, _⟩ := C102_diagram_partial h L ho r col
  refine ⟨P, h1, ?_⟩
  rw [h3, allArrows_map tr L order r col, allArrows_map tr L order r (fun u => _), List.forall₂_map_left_iff, List.forall₂_map_right_iff,
    List.forall₂_same]
  intro a ha hc
  have hu := allArrows_color ha
  have hk : 2 ^ 1 ≤ 2 ^ tr.k := Nat.pow_le_pow_right (by norm_num) h.k_pos
  have := hinj _ (Nat.mod_lt _ (by omega)) _ hu hc
  rcases Nat.eq_zero_or_pos a.color with h0 | h0
  · rw [h0, Nat.zero_add, Nat.mod_eq_of_lt (by omega)] at this; omega
  · rw [show a.color + 2 ^ tr.k - 1 = (a.color - 1) + 2 ^ tr.k by omega, Nat.add_mod_right, Nat.mod_eq_of_lt (by omega)] at this
    omega

/-- C102 refuted, caller's argument: the list passed as `state_order` is left reversed, which is never the list passed in when there are
two states or more; a second call with the same list draws the states upside down. -/
theorem C102_state_order_refuted {α : Type} {tr : Trellis} (h : tr.WF) (hM : 1 ≤ tr.M) (L : Nat) {order : List Nat}
    (ho : order.Perm (List.range (2 ^ tr.M))) (r : ℝ) (col : Nat → α) :
    ∃ P, visualize tr L order r ((List.range (2 ^ tr.k)).map col) = .ok P ∧ P.stateOrder = order.reverse ∧ P.stateOrder ≠ order := by
  obtain ⟨P, h1, _, _, _, _, h6⟩ := C102_diagram_partial h L ho r col
  refine ⟨P, h1, h6, ?_⟩
  rw [h6]
  intro he
  have hlen : order.length = 2 ^ tr.M := by simpa using ho.length_eq
  have h2 : 2 ^ 1 ≤ 2 ^ tr.M := Nat.pow_le_pow_right (by norm_num) hM
  have hnd : order.Nodup := ho.nodup_iff.2 List.nodup_range
  have h0 : order.reverse[0]'(by simp; omega) = order[order.length - 1]'(by omega) := by simp [List.getElem_reverse]
  have h0' : order.reverse[0]'(by simp; omega) = order[0]'(by omega) := by simp only [he]
  have := (List.Nodup.getElem_inj_iff hnd).1 (h0.symm.trans h0')
  omega

theorem sum_range_list (N : Nat) (f : Nat → Nat) : ∑ i ∈ Finset.range N, f i = ((List.range N).map f).sum := by
  induction N with
  | zero => simp
  | succ N ih => rw [Finset.sum_range_succ, ih, List.range_succ]; simp

theorem arrows_length {α : Type} {tr : Trellis} (h : tr.WF) (L : Nat) {order : List Nat} (ho : order.Perm (List.range (2 ^ tr.M)))
    (r : ℝ) (c : Nat → α) :
    (allArrows tr L order r c).length =
      (L - 1) * ∑ s ∈ Finset.range (2 ^ tr.M), ((Finset.range (2 ^ tr.k)).image (tr.next s)).card := by
  have hlen : order.length = 2 ^ tr.M := by simpa using ho.length_eq
  have hgm : ∀ f : Nat → Nat, ((List.range (2 ^ tr.M)).reverse.map (fun i => f (order.getD i 0))).sum = ((List.range (2 ^ tr.M)).map f).sum := by
    intro f
    rw [List.map_reverse, List.sum_reverse]
    have : (List.range (2 ^ tr.M)).map (fun i => f (order.getD i 0)) = order.map f := by
      apply List.ext_getElem
      · simp [hlen]
      · intro i h1 h2
        simp at h1 h2
        simp [List.getElem?_eq_getElem h2]
    rw [this]
    exact (ho.map f).sum_eq
  have hcard : ∀ s < 2 ^ tr.M, ((List.range (2 ^ tr.M)).map (fun s' => ((firstInput tr s s').toList).length)).sum =
      ((Finset.range (2 ^ tr.k)).image (tr.next s)).card := by
    intro s hs
    rw [← sum_range_list]
    have hfi : ∀ s', ((firstInput tr s s').toList).length = if s' ∈ (Finset.range (2 ^ tr.k)).image (tr.next s) then 1 else 0 := by
      intro s'
      unfold firstInput
      cases hf : (List.range (2 ^ tr.k)).find? (fun u => tr.next s u == s') with
      | none =>
        rw [if_neg]
        · rfl
        · rw [Finset.mem_image]
          rintro ⟨u, hu, rfl⟩
          have := List.find?_eq_none.1 hf u (List.mem_range.2 (Finset.mem_range.1 hu))
          simp at this
      | some u =>
        rw [if_pos]
        · rfl
        · have h1 := List.mem_of_find?_eq_some hf
          have h2 := List.find?_some hf
          rw [Finset.mem_image]
          exact ⟨u, Finset.mem_range.2 (List.mem_range.1 h1), by simpa using h2⟩
    rw [Finset.sum_congr rfl (fun s' _ => hfi s'), Finset.sum_boole]
    simp only [Nat.cast_id]
    congr 1
    ext s'
    rw [Finset.mem_filter]
    constructor
    · exact fun h => h.2
    · intro hm
      refine ⟨?_, hm⟩
      obtain ⟨u, hu, rfl⟩ := Finset.mem_image.1 hm
      rw [Finset.mem_range] at hu ⊢
      exact table_lt h.next_len h.next_row hs hu
  unfold allArrows
  simp only [List.length_flatMap, List.length_map]
  have hrow : ∀ i, ((List.range (2 ^ tr.M)).reverse.map fun j => ((firstInput tr (order.getD i 0) (order.getD j 0)).toList).length).sum =
      ((List.range (2 ^ tr.M)).map (fun s' => ((firstInput tr (order.getD i 0) s').toList).length)).sum :=
    fun i => hgm (fun s' => ((firstInput tr (order.getD i 0) s').toList).length)
  simp only [hrow]
  rw [hgm (fun s => ((List.range (2 ^ tr.M)).map (fun s' => ((firstInput tr s s').toList).length)).sum)]
  rw [List.map_const', List.sum_replicate, List.length_range, smul_eq_mul, ← sum_range_list]
  congr 1
  apply Finset.sum_congr rfl
  intro s hs
  exact hcard s (Finset.mem_range.1 hs)

/-- C102, number of arrows: one per time step and pair of states joined by some input, so fewer than the `2^M · 2^k` transitions per step
exactly when there are parallel transitions. -/
theorem C102_count_partial {α : Type} {tr : Trellis} (h : tr.WF) (L : Nat) {order : List Nat} (ho : order.Perm (List.range (2 ^ tr.M)))
    (r : ℝ) (col : Nat → α) :
    ∃ P, visualize tr L order r ((List.range (2 ^ tr.k)).map col) = .ok P ∧
      P.arrows.length = (L - 1) * ∑ s ∈ Finset.range (2 ^ tr.M), ((Finset.range (2 ^ tr.k)).image (tr.next s)).card ∧
      (2 ≤ L → (P.arrows.length = (L - 1) * (2 ^ tr.M * 2 ^ tr.k) ↔
        ∀ s < 2 ^ tr.M, ∀ u < 2 ^ tr.k, ∀ v < 2 ^ tr.k, tr.next s u = tr.next s v → u = v)) := by
  obtain ⟨P, h1, _, h3, _⟩ := C102_diagram_partial h L ho r col
  have hl := arrows_length h L ho r (fun u => col ((u + 2 ^ tr.k - 1) % 2 ^ tr.k))
  rw [← h3] at hl
  refine ⟨P, h1, hl, ?_⟩
  intro hL
  rw [hl, Nat.mul_right_inj (by omega)]
  have hle : ∀ s ∈ Finset.range (2 ^ tr.M), ((Finset.range (2 ^ tr.k)).image (tr.next s)).card ≤ 2 ^ tr.k := by
    intro s _
    simpa using Finset.card_image_le (s := Finset.range (2 ^ tr.k)) (f := tr.next s)
  have hsum : (2 ^ tr.M * 2 ^ tr.k : Nat) = ∑ s ∈ Finset.range (2 ^ tr.M), 2 ^ tr.k := by simp
  rw [hsum, Finset.sum_eq_sum_iff_of_le hle]
  constructor
  · intro hall s hs
    have := hall s (Finset.mem_range.2 hs)
    have hi := Finset.card_image_iff.1 (this.trans (Finset.card_range _).symm)
    intro u hu v hv huv
    exact hi (by simpa using hu) (by simpa using hv) huv
  · intro hall s hs
    rw [Finset.card_image_of_injOn, Finset.card_range]
    intro u hu v hv huv
    exact hall s (Finset.mem_range.1 hs) u (by simpa using hu) v (by simpa using hv) huv

/-- The trellis of the rate 1/2 code with generators 5, 7 (see the example below). -/
def trellis57 : Trellis := ⟨1, 2, 2, false, [[0, 2], [0, 2], [1, 3], [1, 3]], [[0, 3], [3, 0], [1, 2], [2, 1]]⟩

theorem trellis57_wf : trellis57.WF := ⟨by decide, by decide, by decide, by decide, by decide⟩

/-- C102 refuted, legend: for the 4-state code (5, 7) with the default order and colours `col 0`, `col 1`, the legend entry "0-input" is the arrow
from state 3 to state 3, drawn in `col 0`: the transition made by input 1. -/
theorem C102_legend_refuted {α : Type} (r : ℝ) (col : Nat → α) :
    ∃ P, visualize trellis57 2 [0, 1, 2, 3] r [col 0, col 1] = .ok P ∧
      P.legend.head? = some (spanArrow 4 2 r 0 3 3 (col 0), 0) ∧ trellis57.next 3 1 = 3 ∧ trellis57.next 3 0 ≠ 3 := by
  obtain ⟨P, h1, _, h3, _, h5, _⟩ := C102_diagram_partial trellis57_wf 2 (order := [0, 1, 2, 3]) (by decide) r col
  refine ⟨P, h1, ?_, by decide, by decide⟩
  rw [h5, h3]
  rfl

/-- `trellis57` is what the constructor builds; a trellis with parallel transitions loses arrows: 4 drawn, 8 transitions. -/
example {α : Type} (r : ℝ) (col : Nat → α) :
    mkTrellis (fun _ _ => 0) [2] [[5, 7]] 2 none false "MSB" = .ok trellis57 ∧
    (∃ P, visualize trellis57 3 [2, 0, 1, 3] r ((List.range (2 ^ trellis57.k)).map col) = .ok P ∧ P.arrows.length = 16) ∧
    ∃ P tr, mkTrellis (fun _ _ => 0) [0, 1] [[1, 1, 0], [0, 1, 3]] 3 none false "MSB" = .ok tr ∧
      visualize tr 2 [0, 1] r ((List.range (2 ^ tr.k)).map col) = .ok P ∧ P.arrows.length = 4 ∧ 2 ^ tr.M * 2 ^ tr.k = 8 := by
  refine ⟨by decide +kernel, ?_, ?_⟩
  · obtain ⟨P, h1, h2, _⟩ := C102_count_partial trellis57_wf 3 (order := [2, 0, 1, 3]) (by decide) r col
    exact ⟨P, h1, by rw [h2]; decide⟩
  · have hw : Trellis.WF ⟨2, 3, 1, false, [[0, 1, 0, 1], [0, 1, 0, 1]], [[0, 3, 6, 5], [1, 2, 7, 4]]⟩ :=
      ⟨by decide, by decide, by decide, by decide, by decide⟩
    obtain ⟨P, h1, h2, _⟩ := C102_count_partial hw 2 (order := [0, 1]) (by decide) r col
    exact ⟨P, _, by decide +kernel, h1, by rw [h2]; decide, by decide⟩

/-- A point at distance `r` in some direction. -/
theorem planeDist_polar {r : ℝ} (hr : 0 ≤ r) (p : ℝ × ℝ) (a : ℝ) :
    planeDist (p.1 + r * Real.cos a, p.2 + r * Real.sin a) p = r ∧ planeDist (p.1 - r * Real.cos a, p.2 - r * Real.sin a) p = r := by
  have h := Real.sin_sq_add_cos_sq a
  unfold planeDist
  constructor
  · rw [show (p.1 + r * Real.cos a - p.1) ^ 2 + (p.2 + r * Real.sin a - p.2) ^ 2 = r ^ 2 * (Real.sin a ^ 2 + Real.cos a ^ 2) by ring, h, mul_one,
      Real.sqrt_sq hr]
  · rw [show (p.1 - r * Real.cos a - p.1) ^ 2 + (p.2 - r * Real.sin a - p.2) ^ 2 = r ^ 2 * (Real.sin a ^ 2 + Real.cos a ^ 2) by ring, h, mul_one,
      Real.sqrt_sq hr]

/-- What an arrow of the state diagram should be: it leaves the circle (radius `r`) of state `s`, reaches the circle of the next state, and shows the
output and the colour of the input. -/
structure FsmArrowOK {α : Type} (tr : Trellis) (centre : Nat → ℝ × ℝ) (r : ℝ) (col : Nat → α) (s u : Nat) (a : FsmArrow α) : Prop where
  start : planeDist a.start (centre s) = r
  stop : planeDist a.stop (centre (tr.next s u)) = r
  /-- For different states the arrow leaves 9 degrees to the left of the line to the next state … -/
  leaves : tr.next s u ≠ s →
    planeDist (centre (tr.next s u)) (centre s) * (a.start.1 - (centre s).1) =
      r * (((centre (tr.next s u)).1 - (centre s).1) * Real.cos (Real.pi / 20) - ((centre (tr.next s u)).2 - (centre s).2) * Real.sin (Real.pi / 20)) ∧
    planeDist (centre (tr.next s u)) (centre s) * (a.start.2 - (centre s).2) =
      r * (((centre (tr.next s u)).1 - (centre s).1) * Real.sin (Real.pi / 20) + ((centre (tr.next s u)).2 - (centre s).2) * Real.cos (Real.pi / 20))
  /-- … and arrives on the same side of it. -/
  arrives : tr.next s u ≠ s →
    planeDist (centre (tr.next s u)) (centre s) * ((centre (tr.next s u)).1 - a.stop.1) =
      r * (((centre (tr.next s u)).1 - (centre s).1) * Real.cos (Real.pi / 20) + ((centre (tr.next s u)).2 - (centre s).2) * Real.sin (Real.pi / 20)) ∧
    planeDist (centre (tr.next s u)) (centre s) * ((centre (tr.next s u)).2 - a.stop.2) =
      r * (((centre (tr.next s u)).2 - (centre s).2) * Real.cos (Real.pi / 20) - ((centre (tr.next s u)).1 - (centre s).1) * Real.sin (Real.pi / 20))
  text : a.text = tr.out s u
  color : a.color = col u
  textColor : a.textColor = col u

theorem fsm_angle {dx dy : ℝ} (h : dx ≠ 0) :
    Real.sqrt (dx ^ 2 + dy ^ 2) * Real.cos (Real.arctan (dy / dx) + (if 0 < dx then 0 else Real.pi)) = dx ∧
    Real.sqrt (dx ^ 2 + dy ^ 2) * Real.sin (Real.arctan (dy / dx) + (if 0 < dx then 0 else Real.pi)) = dy := by
  have hpos : 0 < 1 + (dy / dx) ^ 2 := by positivity
  have hL : Real.sqrt (dx ^ 2 + dy ^ 2) = |dx| * Real.sqrt (1 + (dy / dx) ^ 2) := by
    rw [← Real.sqrt_sq_eq_abs, ← Real.sqrt_mul (sq_nonneg _)]
    congr 1
    field_simp
  have hs : Real.sqrt (1 + (dy / dx) ^ 2) ≠ 0 := (Real.sqrt_pos.2 hpos).ne'
  have hc : Real.sqrt (dx ^ 2 + dy ^ 2) * Real.cos (Real.arctan (dy / dx)) = |dx| := by
    rw [Real.cos_arctan, hL, mul_one_div, mul_div_assoc, div_self hs, mul_one]
  have hsn : Real.sqrt (dx ^ 2 + dy ^ 2) * Real.sin (Real.arctan (dy / dx)) = |dx| * (dy / dx) := by
    rw [Real.sin_arctan, hL]
    field_simp
  rcases lt_or_gt_of_ne h with hn | hp
  · rw [if_neg (not_lt.2 hn.le), Real.cos_add_pi, Real.sin_add_pi, mul_neg, mul_neg, hc, hsn, abs_of_neg hn]
    constructor
    · ring
    · field_simp
  · rw [if_pos hp, add_zero, hc, hsn, abs_of_pos hp]
    refine ⟨rfl, by field_simp⟩

theorem fsmArrow_ok {α : Type} {tr : Trellis} (h : tr.WF) {order : List Nat} (ho : order.Perm (List.range (2 ^ tr.M))) {pos : Nat → ℝ × ℝ}
    {ang : Nat → ℝ} {r : ℝ} (hr : 0 ≤ r) (radius : ℝ) (col : Nat → α) {idx u : Nat} (hi : idx < 2 ^ tr.M) (hu : u < 2 ^ tr.k) :
    (tr.next (order.getD idx 0) u ≠ order.getD idx 0 →
      (pos (order.idxOf (tr.next (order.getD idx 0) u))).1 ≠ (pos idx).1) →
    ∃ a, fsmArrow tr pos ang radius r order ((List.range (2 ^ tr.k)).map col) idx (order.getD idx 0) u = .ok a ∧
      FsmArrowOK tr (fun s => pos (order.idxOf s)) r col (order.getD idx 0) u a := by
  intro hx
  have hlen : order.length = 2 ^ tr.M := by simpa using ho.length_eq
  have hnd : order.Nodup := ho.nodup_iff.2 List.nodup_range
  have hidx : order.idxOf (order.getD idx 0) = idx := by
    rw [List.getD_eq_getElem _ _ (by omega)]
    exact hnd.idxOf_getElem idx _
  have hs : order.getD idx 0 < 2 ^ tr.M := by
    rw [List.getD_eq_getElem _ _ (by omega)]
    exact List.mem_range.1 (ho.subset (List.getElem_mem _))
  generalize order.getD idx 0 = s at *
  have hn : tr.next s u < 2 ^ tr.M := table_lt h.next_len h.next_row hs hu
  have hno : tr.next s u ∈ order := ho.mem_iff.2 (List.mem_range.2 hn)
  have e1 : tableGet tr.nextTable s u = .ok (tr.next s u) := tableGet_ok h.next_len (fun r hr => (h.next_row r hr).1) hs hu
  have e2 : tableGet tr.outTable s u = .ok (tr.out s u) := tableGet_ok h.out_len (fun r hr => (h.out_row r hr).1) hs hu
  have e3 : pyGet ((List.range (2 ^ tr.k)).map col) (u : Int) = .ok (col u) := by
    rw [pyGet_ok (by simpa using hu)]; simp
  unfold fsmArrow
  simp only [e1, e2, bind, Except.bind, if_pos hno, pure, Except.pure]
  by_cases hself : tr.next s u = s
  · simp only [if_pos hself, e3]
    refine ⟨_, rfl, ?_, ?_, fun hne => absurd hself hne, fun hne => absurd hself hne, rfl, rfl, rfl⟩
    · simp only [hidx]; exact (planeDist_polar hr _ _).1
    · simp only [hself, hidx]; exact (planeDist_polar hr _ _).1
  · have hdx : (pos (order.idxOf (tr.next s u))).1 - (pos idx).1 ≠ 0 := sub_ne_zero.2 (hx hself)
    simp only [if_neg hself, if_neg hdx, e3]
    obtain ⟨a1, a2⟩ := fsm_angle (dy := (pos (order.idxOf (tr.next s u))).2 - (pos idx).2) hdx
    have h05 : Real.pi * 0.05 = Real.pi / 20 := by ring
    generalize Real.arctan (((pos (order.idxOf (tr.next s u))).2 - (pos idx).2) / ((pos (order.idxOf (tr.next s u))).1 - (pos idx).1)) +
      (if 0 < (pos (order.idxOf (tr.next s u))).1 - (pos idx).1 then 0 else Real.pi) = rel at *
    refine ⟨_, rfl, ?_, ?_, ?_, ?_, rfl, rfl, rfl⟩
    · simp only [hidx]; exact (planeDist_polar hr _ _).1
    · exact (planeDist_polar hr _ _).2
    · intro _
      simp only [hidx, h05, planeDist, Real.cos_add, Real.sin_add]
      constructor
      · linear_combination (r * Real.cos (Real.pi / 20)) * a1 - (r * Real.sin (Real.pi / 20)) * a2
      · linear_combination (r * Real.sin (Real.pi / 20)) * a1 + (r * Real.cos (Real.pi / 20)) * a2
    · intro _
      simp only [hidx, h05, planeDist, Real.cos_sub, Real.sin_sub]
      constructor
      · linear_combination (r * Real.cos (Real.pi / 20)) * a1 + (r * Real.sin (Real.pi / 20)) * a2
      · linear_combination (r * Real.cos (Real.pi / 20)) * a2 - (r * Real.sin (Real.pi / 20)) * a1

/-- C103.  `visualize_fsm` for every well-formed trellis, every order of the states, one colour per input and any positions in which no two
different states joined by a transition have the same abscissa (otherwise see `C103_vertical`): every state is drawn once, in the given order; there is exactly one arrow per state and input, in
this order, and each is as it should be; the legend entry of input `u` shows the colour of input `u`; the caller's list is unchanged. -/
theorem C103_fsm {α : Type} {tr : Trellis} (h : tr.WF) {order : List Nat} (ho : order.Perm (List.range (2 ^ tr.M))) {pos : Nat → ℝ × ℝ}
    {ang : Nat → ℝ} {r : ℝ} (hr : 0 ≤ r) (col : Nat → α)
    (hx : ∀ s < 2 ^ tr.M, ∀ u < 2 ^ tr.k, tr.next s u ≠ s → (pos (order.idxOf (tr.next s u))).1 ≠ (pos (order.idxOf s)).1) :
    ∃ P, visualizeFsm tr pos ang order r ((List.range (2 ^ tr.k)).map col) = .ok P ∧
      P.circles = order.zipIdx.map (fun p => (pos p.2, p.1)) ∧
      List.Forall₂ (fun (su : Nat × Nat) a => FsmArrowOK tr (fun s => pos (order.idxOf s)) r col su.1 su.2 a)
        (order.flatMap fun s => (List.range (2 ^ tr.k)).map fun u => (s, u)) P.arrows ∧
      P.legend.map (fun e => (e.1.color, e.2)) = (List.range (2 ^ tr.k)).map (fun u => (col u, u)) ∧
      P.stateOrder = order := by
  have hlen : order.length = 2 ^ tr.M := by simpa using ho.length_eq
  have hnd : order.Nodup := ho.nodup_iff.2 List.nodup_range
  have hone : ∀ i < 2 ^ tr.M, ∃ as : List (FsmArrow α), (List.range (2 ^ tr.k)).mapM (fun (u : Nat) => fsmArrow tr pos ang (r * (2 ^ tr.M : Nat)) r order
      ((List.range (2 ^ tr.k)).map col) i (order.getD i 0) u) = .ok as ∧ as.length = 2 ^ tr.k ∧
      ∀ u (hu : u < 2 ^ tr.k) (hu2 : u < as.length), FsmArrowOK tr (fun s => pos (order.idxOf s)) r col (order.getD i 0) u as[u] := by
    intro i hi
    obtain ⟨as, h1, h2, h3⟩ := mapM_exists (f := fun (u : Nat) => fsmArrow tr pos ang (r * (2 ^ tr.M : Nat)) r order
        ((List.range (2 ^ tr.k)).map col) i (order.getD i 0) u)
      (fun u a => FsmArrowOK tr (fun s => pos (order.idxOf s)) r col (order.getD i 0) u a) (List.range (2 ^ tr.k)) (by
        intro u hu
        rw [List.mem_range] at hu
        apply fsmArrow_ok h ho hr _ col hi hu
        intro hne
        have hs : order.getD i 0 < 2 ^ tr.M := by
          rw [List.getD_eq_getElem _ _ (by omega)]
          exact List.mem_range.1 (ho.subset (List.getElem_mem _))
        have := hx _ hs u hu hne
        rwa [show order.idxOf (order.getD i 0) = i by
          rw [List.getD_eq_getElem _ _ (by omega)]; exact hnd.idxOf_getElem i _] at this)
    simp only [List.length_range, List.getElem_range] at h2 h3
    exact ⟨as, h1, h2, h3⟩
  choose as has1 has2 has3 using hone
  set A : Nat → List (FsmArrow α) := fun i => if hi : i < 2 ^ tr.M then as i hi else [] with hA
  have hmap : order.zipIdx.mapM (fun (p : Nat × Nat) => do
      if p.2 < 2 ^ tr.M then
        let arrows ← (List.range (2 ^ tr.k)).mapM fun u => fsmArrow tr pos ang (r * (2 ^ tr.M : Nat)) r order ((List.range (2 ^ tr.k)).map col) p.2 p.1 u
        pure ((pos p.2, p.1), arrows)
      else .error .indexError) = .ok (order.zipIdx.map fun p => ((pos p.2, p.1), A p.2)) := by
    apply mapM_ok
    intro p hp
    obtain ⟨s, i⟩ := p
    rw [List.mem_zipIdx_iff_getElem?] at hp
    simp only at hp
    obtain ⟨hi, hsi⟩ := List.getElem?_eq_some_iff.1 hp
    have hi' : i < 2 ^ tr.M := by omega
    have hg : order.getD i 0 = s := by rw [List.getD_eq_getElem _ _ hi, hsi]
    have h1 := has1 i hi'
    rw [hg] at h1
    simp only [if_pos hi', h1, bind, Except.bind, pure, Except.pure, hA, dif_pos hi']
  have harr : (order.zipIdx.map fun p => ((pos p.2, p.1), A p.2)).map Prod.snd = (List.range (2 ^ tr.M)).map A := by
    apply List.ext_getElem
    · simp [hlen]
    · intro i h1 h2
      simp
  unfold visualizeFsm
  simp only [bind, Except.bind, pure, Except.pure] at hmap ⊢
  rw [hmap]
  simp only [harr]
  refine ⟨_, rfl, ?_, ?_, ?_, rfl⟩
  · simp [List.map_map, Function.comp_def]
  · have horder : order = (List.range (2 ^ tr.M)).map (fun i => order.getD i 0) := by
      apply List.ext_getElem
      · simp [hlen]
      · intro i h1 h2
        simp [List.getElem?_eq_getElem h1]
    have hff : ∀ l : List Nat, (∀ i ∈ l, i < 2 ^ tr.M) →
        List.Forall₂ (fun (su : Nat × Nat) a => FsmArrowOK tr (fun s => pos (order.idxOf s)) r col su.1 su.2 a)
          ((l.map (fun i => order.getD i 0)).flatMap fun s => (List.range (2 ^ tr.k)).map fun u => (s, u)) (l.map A).flatten := by
      intro l
      induction l with
      | nil => intro _; simp
      | cons i l ih =>
        intro hl
        have hi := hl i (by simp)
        rw [List.map_cons, List.map_cons, List.flatMap_cons, List.flatten_cons]
        apply List.rel_append
        · rw [List.forall₂_iff_get]
          have hAi : A i = as i hi := by simp only [hA, dif_pos hi]
          refine ⟨by rw [hAi, has2]; simp, ?_⟩
          intro u h1 h2
          simp only [List.get_eq_getElem, List.getElem_map, List.getElem_range]
          simp only [hAi]
          exact has3 i hi u (by simpa using h1) _
        · exact ih (fun i hi => hl i (by simp [hi]))
    have := hff (List.range (2 ^ tr.M)) (fun i hi => List.mem_range.1 hi)
    rw [← horder] at this
    exact this
  · have hpos : 0 < 2 ^ tr.M := by positivity
    rw [range_pos_cons hpos, List.map_cons, List.flatten_cons]
    have hA0 : A 0 = as 0 hpos := by simp only [hA, dif_pos hpos]
    rw [hA0]
    apply List.ext_getElem
    · simp [has2 0 hpos]
    · intro u h1 h2
      have hu : u < 2 ^ tr.k := by simpa using h2
      simp only [List.getElem_map, List.getElem_zip, List.getElem_range]
      rw [List.getElem_append_left (by rw [has2]; exact hu)]
      rw [(has3 0 hpos u hu (by rw [has2]; exact hu)).color]

theorem mapM_error_mem {α β : Type} {f : α → Py β} {l : List α} {r : List β} (h : l.mapM f = .ok r) {a : α} (ha : a ∈ l) : ∃ b, f a = .ok b := by
  induction l generalizing r with
  | nil => simp at ha
  | cons x l ih =>
    rw [List.mapM_cons] at h
    cases hx : f x with
    | error e => rw [hx] at h; cases h
    | ok b =>
      rw [hx] at h
      rcases List.mem_cons.1 ha with rfl | ha
      · exact ⟨b, hx⟩
      · cases hl : l.mapM f with
        | error e => rw [hl] at h; cases h
        | ok r' => exact ih hl ha

/-- C103, the remaining positions: if a transition joins two different states drawn at the same abscissa, line 431 divides by zero. -/
theorem C103_vertical {α : Type} {tr : Trellis} (h : tr.WF) {order : List Nat} (ho : order.Perm (List.range (2 ^ tr.M))) {pos : Nat → ℝ × ℝ}
    {ang : Nat → ℝ} {r : ℝ} (hr : 0 ≤ r) (col : Nat → α)
    (hx : ∃ s < 2 ^ tr.M, ∃ u < 2 ^ tr.k, tr.next s u ≠ s ∧ (pos (order.idxOf (tr.next s u))).1 = (pos (order.idxOf s)).1) :
    visualizeFsm tr pos ang order r ((List.range (2 ^ tr.k)).map col) = .error .zeroDivisionError := by
  have hlen : order.length = 2 ^ tr.M := by simpa using ho.length_eq
  have hnd : order.Nodup := ho.nodup_iff.2 List.nodup_range
  have hz : ∀ i < 2 ^ tr.M, ∀ u < 2 ^ tr.k, tr.next (order.getD i 0) u ≠ order.getD i 0 →
      (pos (order.idxOf (tr.next (order.getD i 0) u))).1 = (pos i).1 →
      fsmArrow tr pos ang (r * (2 ^ tr.M : Nat)) r order ((List.range (2 ^ tr.k)).map col) i (order.getD i 0) u = .error .zeroDivisionError := by
    intro i hi u hu hne heq
    have hs : order.getD i 0 < 2 ^ tr.M := by
      rw [List.getD_eq_getElem _ _ (by omega)]
      exact List.mem_range.1 (ho.subset (List.getElem_mem _))
    generalize order.getD i 0 = s at *
    have hno : tr.next s u ∈ order := ho.mem_iff.2 (List.mem_range.2 (table_lt h.next_len h.next_row hs hu))
    have e1 : tableGet tr.nextTable s u = .ok (tr.next s u) := tableGet_ok h.next_len (fun r hr => (h.next_row r hr).1) hs hu
    have e2 : tableGet tr.outTable s u = .ok (tr.out s u) := tableGet_ok h.out_len (fun r hr => (h.out_row r hr).1) hs hu
    unfold fsmArrow
    simp only [e1, e2, bind, Except.bind, if_pos hno, pure, Except.pure, if_neg hne, sub_eq_zero.2 heq, if_true]
  have hrow : ∀ i < 2 ^ tr.M, (∃ as, (List.range (2 ^ tr.k)).mapM (fun (u : Nat) => fsmArrow tr pos ang (r * (2 ^ tr.M : Nat)) r order
      ((List.range (2 ^ tr.k)).map col) i (order.getD i 0) u) = .ok as) ∨
      (List.range (2 ^ tr.k)).mapM (fun (u : Nat) => fsmArrow tr pos ang (r * (2 ^ tr.M : Nat)) r order
      ((List.range (2 ^ tr.k)).map col) i (order.getD i 0) u) = .error .zeroDivisionError := by
    intro i hi
    by_cases hall : ∀ u < 2 ^ tr.k, tr.next (order.getD i 0) u ≠ order.getD i 0 → (pos (order.idxOf (tr.next (order.getD i 0) u))).1 ≠ (pos i).1
    · left
      obtain ⟨as, h1, _⟩ := mapM_exists (f := fun (u : Nat) => fsmArrow tr pos ang (r * (2 ^ tr.M : Nat)) r order
        ((List.range (2 ^ tr.k)).map col) i (order.getD i 0) u) (fun _ _ => True) (List.range (2 ^ tr.k)) (by
          intro u hu
          obtain ⟨a, ha, _⟩ := fsmArrow_ok h ho hr (r * (2 ^ tr.M : Nat)) (ang := ang) col hi (List.mem_range.1 hu) (hall u (List.mem_range.1 hu))
          exact ⟨a, ha, trivial⟩)
      exact ⟨as, h1⟩
    · right
      apply mapM_error_of
      · intro u hu
        rw [List.mem_range] at hu
        by_cases hq : tr.next (order.getD i 0) u ≠ order.getD i 0 → (pos (order.idxOf (tr.next (order.getD i 0) u))).1 ≠ (pos i).1
        · obtain ⟨a, ha, _⟩ := fsmArrow_ok h ho hr (r * (2 ^ tr.M : Nat)) (ang := ang) col hi hu hq
          exact Or.inl ⟨a, ha⟩
        · right
          push Not at hq
          exact hz i hi u hu hq.1 hq.2
      · push Not at hall
        obtain ⟨u, hu, h1, h2⟩ := hall
        exact ⟨u, List.mem_range.2 hu, hz i hi u hu h1 h2⟩
  have hmem : ∀ p ∈ order.zipIdx, p.2 < 2 ^ tr.M ∧ order.getD p.2 0 = p.1 := by
    intro p hp
    rw [List.mem_zipIdx_iff_getElem?] at hp
    obtain ⟨hi, hsi⟩ := List.getElem?_eq_some_iff.1 hp
    exact ⟨by omega, by rw [List.getD_eq_getElem _ _ hi, hsi]⟩
  unfold visualizeFsm
  simp only [bind, Except.bind, pure, Except.pure]
  rw [mapM_error_of (e := .zeroDivisionError)]
  · intro p hp
    obtain ⟨h1, h2⟩ := hmem p hp
    rw [if_pos h1]
    rcases hrow p.2 h1 with ⟨as, ha⟩ | ha
    · rw [h2] at ha; rw [ha]; exact Or.inl ⟨_, rfl⟩
    · rw [h2] at ha; rw [ha]; exact Or.inr rfl
  · obtain ⟨s, hs, u, hu, hne, heq⟩ := hx
    have hso : s ∈ order := ho.mem_iff.2 (List.mem_range.2 hs)
    have hlt := List.idxOf_lt_length_iff.2 hso
    have hg : order.getD (order.idxOf s) 0 = s := by rw [List.getD_eq_getElem _ _ hlt, List.getElem_idxOf hlt]
    refine ⟨(s, order.idxOf s), ?_, ?_⟩
    · rw [List.mem_zipIdx_iff_getElem?]
      simp only
      rw [List.getElem?_eq_getElem hlt, List.getElem_idxOf hlt]
    · have hi : order.idxOf s < 2 ^ tr.M := by omega
      rw [if_pos hi]
      have hbad : (List.range (2 ^ tr.k)).mapM (fun (u : Nat) => fsmArrow tr pos ang (r * (2 ^ tr.M : Nat)) r order
          ((List.range (2 ^ tr.k)).map col) (order.idxOf s) s u) = .error .zeroDivisionError := by
        rcases hrow _ hi with ⟨as, ha⟩ | ha
        · exfalso
          rw [hg] at ha
          have := hz _ hi u hu (by rw [hg]; exact hne) (by rw [hg]; exact heq)
          rw [hg] at this
          have hget := mapM_error_mem ha (List.mem_range.2 hu)
          obtain ⟨b, hb⟩ := hget
          rw [this] at hb; cases hb
        · rw [hg] at ha; exact ha
      rw [hbad]

/-- Concrete case: the code (5, 7), the states of a square whose side is slightly turned, and then exactly on the axes. -/
example {α : Type} (col : Nat → α) (ang : Nat → ℝ) :
    (∃ P, visualizeFsm trellis57 (fun i => ((i : ℝ), 0)) ang [0, 1, 2, 3] 0.04 ((List.range (2 ^ trellis57.k)).map col) = .ok P ∧ P.stateOrder = [0, 1, 2, 3]) ∧
    visualizeFsm trellis57 (fun i => if i % 2 = 1 then (0, (i : ℝ) - 2) else (1 - (i : ℝ), 0)) ang [0, 1, 2, 3] 0.04
      ((List.range (2 ^ trellis57.k)).map col) = .error .zeroDivisionError := by
  constructor
  · obtain ⟨P, h1, _, _, _, h5⟩ := C103_fsm trellis57_wf (order := [0, 1, 2, 3]) (by decide) (pos := fun i => ((i : ℝ), 0)) (ang := ang) (r := 0.04)
      (by norm_num) col (by
        intro s hs u hu hne
        have hs' : s < 4 := hs
        have hu' : u < 2 := hu
        interval_cases s <;> interval_cases u <;> simp_all [trellis57, Trellis.next, List.idxOf, List.findIdx, List.findIdx.go])
    exact ⟨P, h1, h5⟩
  · apply C103_vertical trellis57_wf (by decide) (by norm_num)
    exact ⟨3, by decide, 0, by decide, by decide, by simp [trellis57, Trellis.next, List.idxOf, List.findIdx, List.findIdx.go]⟩

end Verif
