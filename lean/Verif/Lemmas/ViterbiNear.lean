import Verif.Props.ViterbiBerSoft
import Verif.Props.ViterbiFloat
/-
Error events of a trellis decoder whose paths are almost the cheapest ones: the Viterbi decoder with rounding errors.
-/
namespace Verif
open Finset

/-- A path that is among the cheapest up to `ε`. -/
def NearMin (t : Trellis) (μ : Nat → Nat → Nat → ℝ) (τ : Nat) (ε : ℝ) (us : List Nat) : Prop :=
  IsInput t τ us ∧ ∀ vs, IsInput t τ vs → pathCost t μ 0 0 us ≤ pathCost t μ 0 0 vs + ε

/-- Where an almost cheapest path differs from another path `w`: between two meeting points (or up to the end) it is cheaper up to `ε`. -/
theorem near_segment {t : Trellis} {μ : Nat → Nat → Nat → ℝ} {τ : Nat} {ε : ℝ} {us : List Nat} (hmin : NearMin t μ τ ε us) {w : List Nat} (hw : IsInput t τ w) {i : Nat} (hi : i < τ)
    (hne : us.getD i 0 ≠ w.getD i 0) :
    ∃ a b, a ≤ i ∧ i < b ∧ b ≤ τ ∧ us.getD a 0 ≠ w.getD a 0 ∧
      t.runState 0 (us.take a) = t.runState 0 (w.take a) ∧
      (∀ j, a < j → j < b → t.runState 0 (us.take j) ≠ t.runState 0 (w.take j)) ∧
      (b = τ ∨ t.runState 0 (us.take b) = t.runState 0 (w.take b)) ∧
      pathCost t μ a (t.runState 0 (w.take a)) ((us.take b).drop a) ≤
        pathCost t μ a (t.runState 0 (w.take a)) ((w.take b).drop a) + ε := by
  classical
  have hul := hmin.1.1
  have hwl := hw.1
  let P : Nat → Prop := fun j => t.runState 0 (us.take j) = t.runState 0 (w.take j)
  have hP0 : P 0 := by simp [P]
  have hstep : ∀ j < τ, P j → us.getD j 0 = w.getD j 0 → P (j + 1) := by
    intro j hj hPj e
    show t.runState 0 (us.take (j + 1)) = t.runState 0 (w.take (j + 1))
    rw [List.getD_eq_getElem _ _ (by omega), List.getD_eq_getElem _ _ (by omega)] at e
    rw [List.take_succ_eq_append_getElem (by omega), List.take_succ_eq_append_getElem (by omega), Trellis.runState_append,
      Trellis.runState_append, e]
    rw [show t.runState 0 (us.take j) = t.runState 0 (w.take j) from hPj]
  set a := Nat.findGreatest P i with ha
  have hPa : P a := Nat.findGreatest_spec (Nat.zero_le i) hP0
  have hai : a ≤ i := Nat.findGreatest_le i
  have hgt : ∀ j, a < j → j ≤ i → ¬ P j := fun j h1 h2 => Nat.findGreatest_is_greatest h1 h2
  have hdiv : us.getD a 0 ≠ w.getD a 0 := by
    intro e
    rcases Nat.lt_or_ge a i with hlt | hge
    · exact hgt (a + 1) (by omega) (by omega) (hstep a (by omega) hPa e)
    · have : a = i := by omega
      rw [this] at e; exact hne e
  -- next meeting point
  obtain ⟨b, hib, hbτ, hbetween, hend⟩ : ∃ b, i < b ∧ b ≤ τ ∧ (∀ j, i < j → j < b → ¬ P j) ∧ (b = τ ∨ P b) := by
    by_cases hex : ∃ b, i < b ∧ b ≤ τ ∧ P b
    · refine ⟨Nat.find hex, (Nat.find_spec hex).1, (Nat.find_spec hex).2.1, ?_, Or.inr (Nat.find_spec hex).2.2⟩
      intro j h1 h2 h3
      exact Nat.find_min hex h2 ⟨h1, by have := (Nat.find_spec hex).2.1; omega, h3⟩
    · refine ⟨τ, hi, le_refl _, ?_, Or.inl rfl⟩
      intro j h1 h2 h3
      exact hex ⟨j, h1, by omega, h3⟩
  have hsplit : ∀ x : List Nat, x = x.take a ++ ((x.take b).drop a ++ x.drop b) := by
    intro x
    rw [← List.append_assoc]
    conv_lhs => rw [← List.take_append_drop b x]
    congr 1
    conv_lhs => rw [← List.take_append_drop a (x.take b)]
    rw [List.take_take, min_eq_left (by omega)]
  -- the spliced path
  have cost3 : ∀ x y z : List Nat, x.length = a → y.length = b - a → pathCost t μ 0 0 (x ++ (y ++ z)) =
      pathCost t μ 0 0 x + (pathCost t μ a (t.runState 0 x) y + pathCost t μ b (t.runState 0 (x ++ y)) z) := by
    intro x y z hx hy
    rw [pathCost_append, pathCost_append, Nat.zero_add, hx, hy, Trellis.runState_append, show a + (b - a) = b by omega]
  have hla : (us.take a).length = a := by rw [List.length_take]; omega
  have hlb : ((us.take b).drop a).length = b - a := by rw [List.length_drop, List.length_take]; omega
  have hlbw : ((w.take b).drop a).length = b - a := by rw [List.length_drop, List.length_take]; omega
  have hub : us.take a ++ (us.take b).drop a = us.take b := by
    conv_rhs => rw [← List.take_append_drop a (us.take b)]
    rw [List.take_take, min_eq_left (by omega)]
  have hwb : w.take a ++ (w.take b).drop a = w.take b := by
    conv_rhs => rw [← List.take_append_drop a (w.take b)]
    rw [List.take_take, min_eq_left (by omega)]
  have hrun : t.runState 0 (us.take a ++ (w.take b).drop a) = t.runState 0 (w.take b) := by
    rw [Trellis.runState_append, show t.runState 0 (us.take a) = t.runState 0 (w.take a) from hPa, ← Trellis.runState_append, hwb]
  set vs := us.take a ++ ((w.take b).drop a ++ us.drop b) with hvs
  have hvin : IsInput t τ vs := by
    refine ⟨by rw [hvs, List.length_append, List.length_append, hla, hlbw, List.length_drop]; omega, ?_⟩
    intro u hu
    rw [hvs, List.mem_append, List.mem_append] at hu
    rcases hu with hu | hu | hu
    · exact hmin.1.2 u (List.mem_of_mem_take hu)
    · exact hw.2 u (List.mem_of_mem_take (List.mem_of_mem_drop hu))
    · exact hmin.1.2 u (List.mem_of_mem_drop hu)
  have hcu : pathCost t μ 0 0 us = pathCost t μ 0 0 (us.take a) + (pathCost t μ a (t.runState 0 (w.take a)) ((us.take b).drop a) +
      pathCost t μ b (t.runState 0 (us.take b)) (us.drop b)) := by
    conv_lhs => rw [hsplit us]
    rw [cost3 _ _ _ hla hlb, hub, show t.runState 0 (us.take a) = t.runState 0 (w.take a) from hPa]
  have hcv : pathCost t μ 0 0 vs = pathCost t μ 0 0 (us.take a) + (pathCost t μ a (t.runState 0 (w.take a)) ((w.take b).drop a) +
      pathCost t μ b (t.runState 0 (w.take b)) (us.drop b)) := by
    rw [hvs, cost3 _ _ _ hla hlbw, hrun, show t.runState 0 (us.take a) = t.runState 0 (w.take a) from hPa]
  have hrest : pathCost t μ b (t.runState 0 (us.take b)) (us.drop b) = pathCost t μ b (t.runState 0 (w.take b)) (us.drop b) := by
    rcases hend with e | e
    · rw [List.drop_eq_nil_of_le (by omega)]; simp [pathCost]
    · rw [show t.runState 0 (us.take b) = t.runState 0 (w.take b) from e]
  refine ⟨a, b, hai, hib, hbτ, hdiv, hPa, ?_, hend, ?_⟩
  · intro j h1 h2
    by_cases hji : j ≤ i
    · exact hgt j h1 hji
    · exact hbetween j (by omega) h2
  · have := hmin.2 vs hvin
    rw [hcu, hcv, hrest] at this
    linarith

/-- The paths from which the groups are read off (group `i` from `paths i`) are almost the cheapest ones of the traceback windows; where a group is wrong, another path leaves `w`
around it and is cheaper up to `ε`. -/
theorem near_error_path {α : Type} {t : Trellis} (h : t.Balanced) {cost : α → Nat → ℝ} {pad : α} {N tb : Nat} {coded : List α} (hl : coded.length = N * t.n) (htb : 2 ≤ tb) {ε : ℝ}
    {paths : Nat → List Nat}
    (hpaths : ∀ i < N, NearMin t (fun j p u => seqCost cost (rxBlock t (N * t.k) pad coded j) (toBits t.n (t.out p u))) (min (N + t.M / t.k - 1) (i + tb - 1)) ε (paths i))
    {w : List Nat} (hw : IsInput t (N + t.M / t.k - 1) w) :
      ∀ i < N, (paths i).getD i 0 ≠ w.getD i 0 → ∃ a b us, a ≤ i ∧ i < b ∧ b ≤ N + t.M / t.k - 1 ∧ IsInput t (b - a) us ∧ us.getD 0 0 ≠ w.getD a 0 ∧
        us.getD (i - a) 0 = (paths i).getD i 0 ∧
        (∀ j, 0 < j → j < b - a → t.runState (t.runState 0 (w.take a)) (us.take j) ≠ t.runState 0 (w.take (a + j))) ∧
        (t.runState (t.runState 0 (w.take a)) us = t.runState 0 (w.take b) ∨ b + 1 = i + tb ∨ b = N + t.M / t.k - 1) ∧
        seqCost cost (stepSeg t.n a b (paddedRx t pad coded)) (t.runOut (t.runState 0 (w.take a)) us) ≤
          seqCost cost (stepSeg t.n a b (paddedRx t pad coded)) (stepSeg t.n a b (t.runOut 0 w)) + ε := by
  intro i hi hne
  have hk := h.wf.k_pos
  have hq := h.one_le
  set τ := min (N + t.M / t.k - 1) (i + tb - 1) with hτ
  set us := paths i with hus
  have hmin := hpaths i hi
  rw [← hus, ← hτ] at hmin
  have hiτ : i < τ := by omega
  have hwτ : IsInput t τ (w.take τ) := ⟨by rw [List.length_take, hw.1]; omega, fun u hu => hw.2 u (List.mem_of_mem_take hu)⟩
  have hget : ∀ j < τ, (w.take τ).getD j 0 = w.getD j 0 := by
    intro j hj
    rw [List.getD_eq_getElem _ _ (by rw [hwτ.1]; exact hj), List.getD_eq_getElem _ _ (by rw [hw.1]; omega), List.getElem_take]
  have htake : ∀ j ≤ τ, (w.take τ).take j = w.take j := by
    intro j hj; rw [List.take_take, min_eq_left hj]
  obtain ⟨a, b, hai, hib, hbτ, hdiv, hPa, hbet, hend, hle⟩ := near_segment hmin hwτ hiτ (by rw [hget i hiτ]; exact hne)
  have hul := hmin.1.1
  have hsegl : ((us.take b).drop a).length = b - a := by rw [List.length_drop, List.length_take]; omega
  have hwsegl : ((w.take b).drop a).length = b - a := by rw [List.length_drop, List.length_take, hw.1]; omega
  have hstate : ∀ j, j ≤ b - a → t.runState (t.runState 0 (w.take a)) (((us.take b).drop a).take j) = t.runState 0 (us.take (a + j)) := by
    intro j hj
    rw [htake a (by omega)] at hPa
    rw [← hPa, ← Trellis.runState_append]
    congr 1
    rw [List.take_drop, List.take_take, min_eq_left (by omega)]
    conv_rhs => rw [← List.take_append_drop a (us.take (a + j))]
    rw [List.take_take, min_eq_left (by omega)]
  have hfull : t.runState (t.runState 0 (w.take a)) ((us.take b).drop a) = t.runState 0 (us.take b) := by
    have := hstate (b - a) (le_refl _)
    have e : ((us.take b).drop a).take (b - a) = (us.take b).drop a := List.take_of_length_le (by rw [hsegl])
    rwa [e, show a + (b - a) = b by omega] at this
  rw [htake a (by omega), htake b hbτ] at hle
  have hc1 : pathCost t (fun j p u => seqCost cost (rxBlock t (N * t.k) pad coded j) (toBits t.n (t.out p u))) a (t.runState 0 (w.take a)) ((us.take b).drop a) =
      seqCost cost (stepSeg t.n a b (paddedRx t pad coded)) (t.runOut (t.runState 0 (w.take a)) ((us.take b).drop a)) := by
    rw [segCost hk hl _ (by rw [hsegl]; omega), hsegl, show a + (b - a) = b by omega]
  have hc2 : pathCost t (fun j p u => seqCost cost (rxBlock t (N * t.k) pad coded j) (toBits t.n (t.out p u))) a (t.runState 0 (w.take a)) ((w.take b).drop a) =
      seqCost cost (stepSeg t.n a b (paddedRx t pad coded)) (stepSeg t.n a b (t.runOut 0 w)) := by
    rw [segCost hk hl _ (by rw [hwsegl]; omega), hwsegl, show a + (b - a) = b by omega, runOut_seg t w (by omega) (by rw [hw.1]; omega)]
  rw [hc1, hc2] at hle
  refine ⟨a, b, (us.take b).drop a, hai, hib, by omega, ⟨hsegl, fun u hu => hmin.1.2 u (List.mem_of_mem_take (List.mem_of_mem_drop hu))⟩, ?_, ?_, ?_, ?_, hle⟩
  · rw [← hget a (by omega)]
    convert hdiv using 1
    rw [List.getD_eq_getElem _ _ (by rw [hsegl]; omega), List.getD_eq_getElem _ _ (by omega), List.getElem_drop, List.getElem_take]
    simp
  · rw [List.getD_eq_getElem _ _ (by rw [hsegl]; omega), List.getElem_drop, List.getElem_take]
    simp only [show a + (i - a) = i by omega]
    rw [← List.getD_eq_getElem _ 0 (by omega)]
  · intro j h1 h2
    rw [hstate j (by omega)]
    have := hbet (a + j) (by omega) (by omega)
    rwa [htake _ (by omega)] at this
  · rw [hfull]
    rcases hend with e | e
    · rw [hτ] at e; omega
    · rw [htake b hbτ] at e; exact Or.inl e

/-- The same for linear trellises, with error events. -/
theorem near_error_event {α : Type} {t : Trellis} (h : t.Balanced) (hlin : t.Linear) {cost : α → Nat → ℝ} {pad : α} {N tb : Nat} {coded : List α} (hl : coded.length = N * t.n) (htb : 2 ≤ tb) {ε : ℝ}
    {paths : Nat → List Nat}
    (hpaths : ∀ i < N, NearMin t (fun j p u => seqCost cost (rxBlock t (N * t.k) pad coded j) (toBits t.n (t.out p u))) (min (N + t.M / t.k - 1) (i + tb - 1)) ε (paths i))
    {w : List Nat} (hw : IsInput t N w) :
      ∀ i < N, (paths i).getD i 0 ≠ w.getD i 0 → ∃ a b v, a ≤ i ∧ i < b ∧ b ≤ N + t.M / t.k - 1 ∧ Leaves t (b - a) v ∧
        v.getD (i - a) 0 = (paths i).getD i 0 ^^^ w.getD i 0 ∧ (t.runState 0 v = 0 ∨ b + 1 = i + tb ∨ b = N + t.M / t.k - 1) ∧
        seqCost cost (stepSeg t.n a b (paddedRx t pad coded))
            (bitXor (stepSeg t.n a b (t.runOut 0 (w ++ List.replicate (t.M / t.k - 1) 0))) (t.runOut 0 v)) ≤
          seqCost cost (stepSeg t.n a b (paddedRx t pad coded)) (stepSeg t.n a b (t.runOut 0 (w ++ List.replicate (t.M / t.k - 1) 0))) + ε := by
  have hq := h.one_le
  set w' := w ++ List.replicate (t.M / t.k - 1) 0 with hw'
  have hw'in : IsInput t (N + t.M / t.k - 1) w' := by
    refine ⟨by rw [hw', List.length_append, hw.1, List.length_replicate]; omega, ?_⟩
    intro u hu
    rw [hw', List.mem_append] at hu
    rcases hu with hu | hu
    · exact hw.2 u hu
    · rw [List.eq_of_mem_replicate hu]; exact Nat.two_pow_pos _
  have hget : ∀ i < N, w'.getD i 0 = w.getD i 0 := by
    intro i hi
    rw [List.getD_eq_getElem _ _ (by rw [hw'in.1]; omega), List.getD_eq_getElem _ _ (by rw [hw.1]; exact hi)]
    simp only [hw']
    rw [List.getElem_append_left]
  have H := near_error_path h hl htb hpaths hw'in
  intro i hi hne
  obtain ⟨a, b, us, hai, hib, hbT, hus, hfirst, hdg, haway, hcase, hcost⟩ := H i hi (by rw [hget i hi]; exact hne)
  obtain ⟨hleaves, hzero, -⟩ := leaves_xor h.wf hlin hw'in (by omega) hbT hus hfirst haway
  have hsl : ((w'.take b).drop a).length = b - a := by rw [List.length_drop, List.length_take, hw'in.1]; omega
  refine ⟨a, b, List.zipWith (· ^^^ ·) us ((w'.take b).drop a), hai, hib, hbT, hleaves, ?_, ?_, ?_⟩
  · rw [List.getD_eq_getElem _ _ (by rw [hleaves.input.1]; omega), List.getElem_zipWith, ← hdg, ← hget i hi,
      List.getD_eq_getElem _ _ (by rw [hus.1]; omega), List.getD_eq_getElem _ _ (by rw [hw'in.1]; omega), List.getElem_drop, List.getElem_take]
    simp only [show a + (i - a) = i by omega]
  · rw [hzero]; exact hcase
  · have hS' : t.runState 0 (w'.take a) < 2 ^ t.M := h.wf.runState_lt (Nat.two_pow_pos _) (fun u h => hw'in.2 u (List.mem_of_mem_take h))
    have := (Trellis.Linear.run h.wf hlin us ((w'.take b).drop a) (t.runState 0 (w'.take a)) (t.runState 0 (w'.take a)) (by rw [hus.1, hsl]) hS' hS' hus.2
      (fun u h => hw'in.2 u (List.mem_of_mem_take (List.mem_of_mem_drop h)))).2
    rw [Nat.xor_self, runOut_seg t w' (by omega) (by rw [hw'in.1]; exact hbT)] at this
    rw [this]
    have e := bitXor_cancel (x := t.runOut (t.runState 0 (w'.take a)) us) (y := stepSeg t.n a b (t.runOut 0 w')) (by
      rw [Trellis.runOut_length, hus.1, stepSeg_length (by omega) (by rw [Trellis.runOut_length, hw'in.1]; exact Nat.mul_le_mul_right _ hbT)]) (t.runOut_lt_two _ _)
    unfold bitXor at e ⊢
    rw [e]
    exact hcost

/-- Every wrong group shows an error event whose losses add up to at least `-ε`. -/
theorem near_shows {α : Type} {t : Trellis} (h : t.Balanced) (hlin : t.Linear) {cost : α → Nat → ℝ} {pad : α} {N tb : Nat} {coded : List α} (hl : coded.length = N * t.n) (htb : 2 ≤ tb) {ε : ℝ}
    {paths : Nat → List Nat}
    (hpaths : ∀ i < N, NearMin t (fun j p u => seqCost cost (rxBlock t (N * t.k) pad coded j) (toBits t.n (t.out p u))) (min (N + t.M / t.k - 1) (i + tb - 1)) ε (paths i))
    {w : List Nat} (hw : IsInput t N w) :
    ShowsEvents t (N + t.M / t.k - 1) tb N w (fun i => (paths i).getD i 0)
      (metricLoss cost pad (paddedRx t pad coded) (t.runOut 0 (w ++ List.replicate (t.M / t.k - 1) 0))) (-ε) := by
  have hq := h.one_le
  have H := near_error_event h hlin hl htb hpaths hw
  intro i hi hne
  obtain ⟨a, b, v, hai, hib, hbT, hleaves, hvi, hcase, hcost⟩ := H i hi hne
  set c' := t.runOut 0 (w ++ List.replicate (t.M / t.k - 1) 0) with hc'
  have hbn : b * t.n ≤ (N + t.M / t.k - 1) * t.n := Nat.mul_le_mul_right _ hbT
  have hpl : (paddedRx t pad coded).length = (N + t.M / t.k - 1) * t.n := by
    rw [paddedRx, List.length_append, hl, List.length_replicate, ← Nat.add_mul]; congr 1; omega
  have hcl : c'.length = (N + t.M / t.k - 1) * t.n := by
    rw [hc', Trellis.runOut_length, List.length_append, hw.1, List.length_replicate]; congr 1; omega
  have hcb : ∀ x ∈ c', x < 2 := t.runOut_lt_two _ _
  have l1 : (stepSeg t.n a b (paddedRx t pad coded)).length = (b - a) * t.n := stepSeg_length (by omega) (by rw [hpl]; exact hbn)
  have l2 : (stepSeg t.n a b c').length = (b - a) * t.n := stepSeg_length (by omega) (by rw [hcl]; exact hbn)
  have l3 : (t.runOut 0 v).length = (b - a) * t.n := by rw [Trellis.runOut_length, hleaves.input.1]
  have hle := hcost
  have hsegb : ∀ x ∈ stepSeg t.n a b c', x < 2 := fun x hx => hcb x (List.mem_of_mem_drop (List.mem_of_mem_take hx))
  rw [seqCost_xor _ pad (by rw [l1, l2]) (by rw [l3, l2]) hsegb (t.runOut_lt_two _ _)] at hle
  have hbeq : a * t.n + (b - a) * t.n = b * t.n := by rw [← Nat.add_mul]; congr 1; omega
  refine ⟨a, b, v, hai, hib, hbT, hleaves, hvi, hcase, ?_, ?_⟩
  · intro p hpm
    unfold eventPlaces at hpm
    obtain ⟨j, hj, rfl⟩ := mem_image.1 hpm
    rw [mem_filter, mem_range, l3] at hj
    omega
  · have e : ∑ p ∈ eventPlaces t a v, metricLoss cost pad (paddedRx t pad coded) c' p =
        ∑ j ∈ (range (t.runOut 0 v).length).filter (fun j => (t.runOut 0 v).getD j 0 = 1),
          metricLoss cost pad (stepSeg t.n a b (paddedRx t pad coded)) (stepSeg t.n a b c') j := by
      unfold eventPlaces
      rw [sum_image (fun _ _ _ _ h => by simpa using h)]
      apply sum_congr rfl
      intro j hj
      rw [mem_filter, mem_range, l3] at hj
      unfold metricLoss
      rw [stepSeg_getD _ _ _ _ _ hj.1, stepSeg_getD _ _ _ _ _ hj.1]
    rw [e]
    linarith


end Verif
