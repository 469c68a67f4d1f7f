import Verif.Lemmas.BpTree2
/-
The message dynamics of belief propagation on a cycle-free code: boundedness, and exactness after as many iterations as checks.
-/
namespace Verif

open Finset

/-- What an elimination step provides. -/
theorem leaf_step {N : Nat → Finset Nat} {A V : Finset Nat} (hL : Leafy N A) (hN : ∀ c ∈ A, N c ⊆ V ∧ 2 ≤ (N c).card) (hne : A.Nonempty) :
    ∃ c ∈ A, ∃ v0 ∈ V, ∃ U : Finset Nat, v0 ∉ U ∧ N c = insert v0 U ∧ U.Nonempty ∧ U ⊆ V ∧
      (∀ c' ∈ A.erase c, Disjoint (N c') U) ∧ Leafy N (A.erase c) ∧
      (∀ c' ∈ A.erase c, N c' ⊆ V \ U ∧ 2 ≤ (N c').card) := by
  obtain ⟨c, hc, v0, hv0, hfr⟩ := hL A subset_rfl hne
  have hfresh : ∀ c' ∈ A.erase c, Disjoint (N c') ((N c).erase v0) := by
    intro c' hc'
    rw [Finset.disjoint_right]
    intro u hu
    exact hfr u (Finset.mem_of_mem_erase hu) (Finset.ne_of_mem_erase hu) c' (Finset.mem_of_mem_erase hc') (Finset.ne_of_mem_erase hc')
  refine ⟨c, hc, v0, (hN c hc).1 hv0, (N c).erase v0, Finset.notMem_erase _ _, (Finset.insert_erase hv0).symm, ?_,
    (Finset.erase_subset _ _).trans (hN c hc).1, hfresh, fun B hB hne => hL B (hB.trans (Finset.erase_subset _ _)) hne, ?_⟩
  · rw [← Finset.card_pos, Finset.card_erase_of_mem hv0]
    have := (hN c hc).2
    omega
  · intro c' hc'
    refine ⟨?_, (hN c' (Finset.mem_of_mem_erase hc')).2⟩
    intro u hu
    rw [mem_sdiff]
    exact ⟨(hN c' (Finset.mem_of_mem_erase hc')).1 hu, Finset.disjoint_left.1 (hfresh c' hc') hu⟩

/-- Sum over the checks of `v`, one check taken out. -/
theorem sum_checks_erase {N : Nat → Finset Nat} {A : Finset Nat} {c : Nat} (hc : c ∈ A) (v : Nat) (P : Nat → Prop) [DecidablePred P]
    (f : Nat → ℝ) :
    ∑ c' ∈ A.filter (fun c' => v ∈ N c' ∧ P c'), f c' =
      (∑ c' ∈ (A.erase c).filter (fun c' => v ∈ N c' ∧ P c'), f c') + if v ∈ N c ∧ P c then f c else 0 := by
  rw [Finset.sum_filter, Finset.sum_filter, ← Finset.sum_erase_add _ _ hc]

/-- The dynamics: `ν` are the messages from variables to checks, `μ` those from checks to variables, `pr t` the channel LLRs used at
step `t`. -/
structure BpDyn (N : Nat → Finset Nat) (A : Finset Nat) (pr : Nat → Nat → ℝ) (ν μ : Nat → Nat → Nat → ℝ) : Prop where
  zero : ∀ c ∈ A, ∀ v ∈ N c, ν 0 c v = pr 0 v
  succ : ∀ t, ∀ c ∈ A, ∀ v ∈ N c, ν (t + 1) c v = pr (t + 1) v + ∑ c' ∈ A.filter (fun c' => v ∈ N c' ∧ c' ≠ c), μ t c' v

/-- Channel LLRs after elimination of check `c`. -/
noncomputable def elimPr (pr : Nat → Nat → ℝ) (μ : Nat → Nat → Nat → ℝ) (c v0 : Nat) : Nat → Nat → ℝ
  | 0, v => pr 0 v
  | t + 1, v => if v = v0 then pr (t + 1) v0 + μ t c v0 else pr (t + 1) v

theorem elim_dyn {N : Nat → Finset Nat} {A U : Finset Nat} {pr : Nat → Nat → ℝ} {ν μ : Nat → Nat → Nat → ℝ} {c v0 : Nat}
    (h : BpDyn N A pr ν μ) (hc : c ∈ A) (hNc : N c = insert v0 U) (hfresh : ∀ c' ∈ A.erase c, Disjoint (N c') U) :
    BpDyn N (A.erase c) (elimPr pr μ c v0) ν μ := by
  constructor
  · intro c' hc' v hv
    exact h.zero c' (Finset.mem_of_mem_erase hc') v hv
  · intro t c' hc' v hv
    rw [h.succ t c' (Finset.mem_of_mem_erase hc') v hv, sum_checks_erase hc]
    have hvU : v ∉ U := Finset.disjoint_left.1 (hfresh c' hc') hv
    have hcc : c ≠ c' := (Finset.ne_of_mem_erase hc').symm
    have hiff : (v ∈ N c ∧ c ≠ c') ↔ v = v0 := by
      rw [hNc, mem_insert]
      exact ⟨fun h => h.1.resolve_right hvU, fun h => ⟨Or.inl h, hcc⟩⟩
    simp only [elimPr, hiff]
    by_cases hv0 : v = v0
    · subst hv0
      simp only [if_true]
      ring
    · simp only [if_neg hv0]
      ring

/-- The messages into a variable are bounded by the channel LLRs of the other variables. -/
theorem dyn_bound {N : Nat → Finset Nat} : ∀ (n : Nat) (A V : Finset Nat), A.card = n → Leafy N A →
    (∀ c ∈ A, N c ⊆ V ∧ 2 ≤ (N c).card) → ∀ (pr : Nat → Nat → ℝ) (ν μ : Nat → Nat → Nat → ℝ), BpDyn N A pr ν μ →
    (∀ t, ∀ c ∈ A, ∀ v ∈ N c, ∀ u ∈ N c, u ≠ v → |μ t c v| ≤ |ν t c u|) →
    ∀ (α : Nat → ℝ), (∀ t, ∀ v ∈ V, |pr t v| ≤ α v) → ∀ t, ∀ v ∈ V,
      ∑ c ∈ A.filter (fun c => v ∈ N c ∧ True), |μ t c v| ≤ ∑ u ∈ V.erase v, α u := by
  intro n
  induction n with
  | zero =>
    intro A V hA _ _ pr ν μ _ _ α hα t v hv
    rw [Finset.card_eq_zero] at hA
    subst hA
    simp only [Finset.filter_empty, Finset.sum_empty]
    exact Finset.sum_nonneg fun u hu => (abs_nonneg _).trans (hα 0 u (Finset.mem_of_mem_erase hu))
  | succ n ih =>
    intro A V hA hL hN pr ν μ hdyn hμ α hα t v hv
    obtain ⟨c, hc, v0, hv0, U, hv0U, hNc, hUne, hUV, hfresh, hL', hN'⟩ := leaf_step hL hN (Finset.card_pos.1 (by omega))
    have hcard : (A.erase c).card = n := by rw [Finset.card_erase_of_mem hc, hA]; rfl
    have hα0 : ∀ u ∈ V, 0 ≤ α u := fun u hu => (abs_nonneg _).trans (hα 0 u hu)
    have hv0N : v0 ∈ N c := by rw [hNc]; exact mem_insert_self _ _
    have hUN : ∀ u ∈ U, u ∈ N c := fun u hu => by rw [hNc]; exact mem_insert_of_mem hu
    -- messages from fresh variables
    have hνU : ∀ t, ∀ u ∈ U, ν t c u = pr t u := by
      intro t u hu
      match t with
      | 0 => exact hdyn.zero c hc u (hUN u hu)
      | t + 1 =>
        rw [hdyn.succ t c hc u (hUN u hu), Finset.sum_eq_zero, add_zero]
        intro c' hc'
        rw [Finset.mem_filter] at hc'
        exact absurd hu (Finset.disjoint_left.1 (hfresh c' (Finset.mem_erase.2 ⟨hc'.2.2, hc'.1⟩)) hc'.2.1)
    have hμv0 : ∀ t, |μ t c v0| ≤ ∑ u ∈ U, α u := by
      intro t
      obtain ⟨u, hu⟩ := hUne
      have h1 := hμ t c hc v0 hv0N u (hUN u hu) (by rintro rfl; exact hv0U hu)
      rw [hνU t u hu] at h1
      exact (h1.trans (hα t u (hUV hu))).trans (Finset.single_le_sum (f := α) (fun w hw => hα0 w (hUV hw)) hu)
    set α' : Nat → ℝ := Function.update α v0 (α v0 + ∑ u ∈ U, α u) with hα'
    have hsub : ∀ w ∈ V \ U, w ∈ V ∧ w ∉ U := fun w hw => mem_sdiff.1 hw
    have IH := ih (A.erase c) (V \ U) hcard hL' hN' (elimPr pr μ c v0) ν μ (elim_dyn hdyn hc hNc hfresh)
      (fun t c' hc' => hμ t c' (Finset.mem_of_mem_erase hc')) α' (by
        intro t w hw
        have hwV := (hsub w hw).1
        match t with
        | 0 =>
          simp only [elimPr]
          by_cases hw0 : w = v0
          · subst hw0
            rw [hα', Function.update_self]
            have := Finset.sum_nonneg fun u (hu : u ∈ U) => hα0 u (hUV hu)
            linarith [hα 0 w hwV]
          · rw [hα', Function.update_of_ne hw0]
            exact hα 0 w hwV
        | t + 1 =>
          simp only [elimPr]
          by_cases hw0 : w = v0
          · subst hw0
            rw [if_pos rfl, hα', Function.update_self]
            exact (abs_add_le _ _).trans (add_le_add (hα _ _ hwV) (hμv0 t))
          · rw [if_neg hw0, hα', Function.update_of_ne hw0]
            exact hα _ w hwV)
    have hsum : ∀ w ∈ V, w ∉ U → ∑ u ∈ V.erase w, α u = (∑ u ∈ (V \ U).erase w, α u) + ∑ u ∈ U, α u := by
      intro w hw hwU
      have : V.erase w = (V \ U).erase w ∪ U := by
        ext i
        simp only [mem_erase, mem_union, mem_sdiff]
        constructor
        · rintro ⟨h1, h2⟩
          by_cases hi : i ∈ U
          · exact Or.inr hi
          · exact Or.inl ⟨h1, h2, hi⟩
        · rintro (⟨h1, h2, _⟩ | h)
          · exact ⟨h1, h2⟩
          · exact ⟨by rintro rfl; exact hwU h, hUV h⟩
      rw [this, Finset.sum_union]
      exact Finset.disjoint_of_subset_left (Finset.erase_subset _ _) Finset.sdiff_disjoint
    have hv0V' : v0 ∈ V \ U := by rw [mem_sdiff]; exact ⟨hv0, hv0U⟩
    have hupd : ∀ s : Finset Nat, v0 ∉ s → ∑ u ∈ s, α' u = ∑ u ∈ s, α u := by
      intro s hs
      refine Finset.sum_congr rfl fun u hu => ?_
      rw [hα', Function.update_of_ne (by rintro rfl; exact hs hu)]
    rw [sum_checks_erase hc]
    by_cases hvU : v ∈ U
    · -- a fresh variable: only check `c`
      have hzero : ∑ c' ∈ (A.erase c).filter (fun c' => v ∈ N c' ∧ True), |μ t c' v| = 0 := by
        refine Finset.sum_eq_zero fun c' hc' => ?_
        rw [Finset.mem_filter] at hc'
        exact absurd hvU (Finset.disjoint_left.1 (hfresh c' hc'.1) hc'.2.1)
      rw [hzero, zero_add, if_pos ⟨hUN v hvU, trivial⟩]
      have hne : v0 ≠ v := by rintro rfl; exact hv0U hvU
      refine (hμ t c hc v (hUN v hvU) v0 hv0N hne).trans ?_
      have hle : |ν t c v0| ≤ α v0 + ∑ u ∈ (V \ U).erase v0, α u := by
        have hnn : 0 ≤ ∑ u ∈ (V \ U).erase v0, α u :=
          Finset.sum_nonneg fun u hu => hα0 u (hsub u (Finset.mem_of_mem_erase hu)).1
        match t with
        | 0 =>
          rw [hdyn.zero c hc v0 hv0N]
          linarith [hα 0 v0 hv0]
        | t + 1 =>
          rw [hdyn.succ t c hc v0 hv0N]
          refine (abs_add_le _ _).trans (add_le_add (hα _ _ hv0) ?_)
          have hset : A.filter (fun c' => v0 ∈ N c' ∧ c' ≠ c) = (A.erase c).filter (fun c' => v0 ∈ N c' ∧ True) := by
            ext i
            simp only [mem_filter, mem_erase]
            tauto
          rw [hset]
          refine (Finset.abs_sum_le_sum_abs _ _).trans ((IH t v0 hv0V').trans (le_of_eq ?_))
          exact hupd _ (Finset.notMem_erase _ _)
      have : α v0 + ∑ u ∈ (V \ U).erase v0, α u = ∑ u ∈ V \ U, α u := Finset.add_sum_erase _ _ hv0V'
      rw [this] at hle
      refine hle.trans (Finset.sum_le_sum_of_subset_of_nonneg ?_ fun u hu _ => hα0 u (Finset.mem_of_mem_erase hu))
      intro i hi
      rw [mem_sdiff] at hi
      exact mem_erase.2 ⟨by rintro rfl; exact hi.2 hvU, hi.1⟩
    · have hvV' : v ∈ V \ U := by rw [mem_sdiff]; exact ⟨hv, hvU⟩
      have h1 := IH t v hvV'
      rw [hsum v hv hvU]
      by_cases hvv : v = v0
      · subst hvv
        rw [if_pos ⟨hv0N, trivial⟩]
        rw [hupd _ (Finset.notMem_erase _ _)] at h1
        exact add_le_add h1 (hμv0 t)
      · have hnot : v ∉ N c := by
          rw [hNc, mem_insert]
          rintro (h | h)
          · exact hvv h
          · exact hvU h
        rw [if_neg (fun h => hnot h.1), add_zero]
        refine h1.trans (le_of_eq ?_)
        have hm : v0 ∈ (V \ U).erase v := mem_erase.2 ⟨fun h => hvv h.symm, hv0V'⟩
        rw [← Finset.add_sum_erase _ _ hm, ← Finset.add_sum_erase _ α hm, hupd _ (Finset.notMem_erase _ _), hα', Function.update_self]
        ring

/-- Exactness: if the channel LLRs of the variables other than `v` are constant from step `s` on, the messages into `v` give the
exact posterior from step `s + (number of checks) - 1` on. -/
theorem dyn_exact {N : Nat → Finset Nat} : ∀ (n : Nat) (A V : Finset Nat), A.card = n → Leafy N A →
    (∀ c ∈ A, N c ⊆ V ∧ 2 ≤ (N c).card) → ∀ (pr : Nat → Nat → ℝ) (ν μ : Nat → Nat → Nat → ℝ), BpDyn N A pr ν μ →
    (∀ t, ∀ c ∈ A, ∀ v ∈ N c, μ t c v = checkMsg ((N c).erase v) (ν t c)) →
    ∀ (llr : Nat → ℝ) (v : Nat), v ∈ V → ∀ s, (∀ t, s ≤ t → ∀ u ∈ V, u ≠ v → pr t u = llr u) → ∀ k, s + (n - 1) ≤ k →
      llr v + ∑ c ∈ A.filter (fun c => v ∈ N c ∧ True), μ k c v = postLlr N A V llr v := by
  intro n
  induction n with
  | zero =>
    intro A V hA _ _ pr ν μ _ _ llr v hv s _ k _
    rw [Finset.card_eq_zero] at hA
    subst hA
    rw [postLlr_empty llr hv]
    simp
  | succ n ih =>
    intro A V hA hL hN pr ν μ hdyn hμ llr v hv s hs k hk
    obtain ⟨c, hc, v0, hv0, U, hv0U, hNc, hUne, hUV, hfresh, hL', hN'⟩ := leaf_step hL hN (Finset.card_pos.1 (by omega))
    have hcard : (A.erase c).card = n := by rw [Finset.card_erase_of_mem hc, hA]; rfl
    have hAins : insert c (A.erase c) = A := Finset.insert_erase hc
    have hv0N : v0 ∈ N c := by rw [hNc]; exact mem_insert_self _ _
    have hUN : ∀ u ∈ U, u ∈ N c := fun u hu => by rw [hNc]; exact mem_insert_of_mem hu
    have hv0V' : v0 ∈ V \ U := by rw [mem_sdiff]; exact ⟨hv0, hv0U⟩
    have hνU : ∀ t, ∀ u ∈ U, ν t c u = pr t u := by
      intro t u hu
      match t with
      | 0 => exact hdyn.zero c hc u (hUN u hu)
      | t + 1 =>
        rw [hdyn.succ t c hc u (hUN u hu), Finset.sum_eq_zero, add_zero]
        intro c' hc'
        rw [Finset.mem_filter] at hc'
        exact absurd hu (Finset.disjoint_left.1 (hfresh c' (Finset.mem_erase.2 ⟨hc'.2.2, hc'.1⟩)) hc'.2.1)
    have hErase : (N c).erase v0 = U := by rw [hNc, Finset.erase_insert hv0U]
    have IH := ih (A.erase c) (V \ U) hcard hL' hN' (elimPr pr μ c v0) ν μ (elim_dyn hdyn hc hNc hfresh)
      (fun t c' hc' => hμ t c' (Finset.mem_of_mem_erase hc'))
    -- with no other check the sums are empty, so the step does not matter
    have IH' : ∀ (llr : Nat → ℝ) (v : Nat), v ∈ V \ U → ∀ s, (∀ t, s ≤ t → ∀ u ∈ V \ U, u ≠ v → elimPr pr μ c v0 t u = llr u) →
        ∀ k, (n = 0 ∨ s + (n - 1) ≤ k) →
        llr v + ∑ c' ∈ (A.erase c).filter (fun c => v ∈ N c ∧ True), μ k c' v = postLlr N (A.erase c) (V \ U) llr v := by
      intro llr v hv s hs k hk
      by_cases hn : n = 0
      · have h0 : A.erase c = ∅ := Finset.card_eq_zero.1 (by rw [hcard, hn])
        rw [← IH llr v hv s hs (s + (n - 1)) le_rfl, h0]
        simp
      · exact IH llr v hv s hs k (by omega)
    rw [sum_checks_erase hc]
    by_cases hvU : v ∈ U
    · have hzero : ∑ c' ∈ (A.erase c).filter (fun c' => v ∈ N c' ∧ True), μ k c' v = 0 := by
        refine Finset.sum_eq_zero fun c' hc' => ?_
        rw [Finset.mem_filter] at hc'
        exact absurd hvU (Finset.disjoint_left.1 (hfresh c' hc'.1) hc'.2.1)
      have hne : v0 ≠ v := by rintro rfl; exact hv0U hvU
      rw [hzero, zero_add, if_pos ⟨hUN v hvU, trivial⟩, hμ k c hc v (hUN v hvU), ← hAins,
        postLlr_new hUV hv0U hNc hfresh hvU
          (wordSum_pos n _ _ hcard hL' hN' _ (fun i => Real.exp_pos _) v0 hv0V' false)
          (wordSum_pos n _ _ hcard hL' hN' _ (fun i => Real.exp_pos _) v0 hv0V' true)]
      congr 1
      refine checkMsg_congr fun u hu => ?_
      have hu' := Finset.mem_erase.1 hu
      by_cases hu0 : u = v0
      · subst hu0
        rw [Function.update_self]
        have hcst : ∀ t, s ≤ t → ∀ w ∈ V \ U, w ≠ u → elimPr pr μ c u t w = llr w := by
          intro t ht w hw hwu
          have hwv : w ≠ v := by rintro rfl; exact (mem_sdiff.1 hw).2 hvU
          match t with
          | 0 => exact hs 0 ht w (mem_sdiff.1 hw).1 hwv
          | t + 1 =>
            simp only [elimPr]
            rw [if_neg hwu]
            exact hs (t + 1) ht w (mem_sdiff.1 hw).1 hwv
        have hset : A.filter (fun c' => u ∈ N c' ∧ c' ≠ c) = (A.erase c).filter (fun c' => u ∈ N c' ∧ True) := by
          ext i
          simp only [mem_filter, mem_erase]
          tauto
        match k, hk with
        | 0, hk =>
          have hn : n = 0 := by omega
          have h0 : A.erase c = ∅ := Finset.card_eq_zero.1 (by rw [hcard, hn])
          rw [hdyn.zero c hc u hv0N, hs 0 (by omega) u hv0 hne, h0, postLlr_empty llr hv0V']
        | k + 1, hk =>
          rw [hdyn.succ k c hc u hv0N, hset, hs (k + 1) (by omega) u hv0 hne]
          exact IH' llr u hv0V' s hcst k (by omega)
      · have huU : u ∈ U := by
          have := hu'.2
          rw [hNc, mem_insert] at this
          exact this.resolve_left hu0
        rw [Function.update_of_ne hu0, hνU k u huU]
        exact hs k (by omega) u (hUV huU) hu'.1
    · have hvV' : v ∈ V \ U := by rw [mem_sdiff]; exact ⟨hv, hvU⟩
      have hmsg : ∀ t, s ≤ t → μ t c v0 = checkMsg U llr := by
        intro t ht
        rw [hμ t c hc v0 hv0N, hErase]
        refine checkMsg_congr fun u hu => ?_
        rw [hνU t u hu]
        exact hs t ht u (hUV hu) (by rintro rfl; exact hvU hu)
      rw [← hAins, postLlr_old hUV hUne hv0U hNc hfresh hvU]
      by_cases hvv : v = v0
      · subst hvv
        rw [if_pos ⟨hv0N, trivial⟩, hmsg k (by omega), hAins, ← IH' (Function.update llr v (llr v + checkMsg U llr)) v hvV' s (by
          intro t ht w hw hwv
          rw [Function.update_of_ne hwv]
          match t with
          | 0 => exact hs 0 ht w (mem_sdiff.1 hw).1 hwv
          | t + 1 =>
            simp only [elimPr]
            rw [if_neg hwv]
            exact hs (t + 1) ht w (mem_sdiff.1 hw).1 hwv) k (by omega), Function.update_self]
        ring
      · have hnot : v ∉ N c := by
          rw [hNc, mem_insert]
          rintro (h | h)
          · exact hvv h
          · exact hvU h
        rw [if_neg (fun h => hnot h.1), add_zero, hAins, ← IH' (Function.update llr v0 (llr v0 + checkMsg U llr)) v hvV' (s + 1) (by
          intro t ht w hw hwv
          match t, ht with
          | t + 1, ht =>
            simp only [elimPr]
            by_cases hw0 : w = v0
            · subst hw0
              rw [if_pos rfl, Function.update_self, hmsg t (by omega), hs (t + 1) (by omega) w hv0 hwv]
            · rw [if_neg hw0, Function.update_of_ne hw0]
              exact hs (t + 1) (by omega) w (mem_sdiff.1 hw).1 hwv) k (by omega), Function.update_of_ne hvv]

end Verif
