import Verif.Model.Turbo
import Verif.Lemmas.Bcjr
import Verif.Lemmas.Convcode
import Verif.Lemmas.Lists
import Mathlib.Algebra.BigOperators.Intervals
/-
The recursions of the MAP decoder model compute the sums of `Lemmas/Bcjr` up to positive factors.
-/
namespace Verif

theorem pyGet_getD {α : Type} {l : List α} {i : Nat} (d : α) (h : i < l.length) : pyGet l (i : Int) = .ok (l.getD i d) := by
  rw [pyGet_ok h, List.getD_eq_getElem _ _ h]

/-- Branch probability. -/
noncomputable def gam (t : Trellis) (σ2 : ℝ) (ys yp : List ℝ) (τ s u : Nat) : ℝ :=
  branchProb ((toBits t.n (t.out s u)).getD 0 0) ((toBits t.n (t.out s u)).getD 1 0) (ys.getD τ 0) (yp.getD τ 0) σ2

/-- Prior probability. -/
noncomputable def pri (lint : List ℝ) (τ u : Nat) : ℝ :=
  if u = 0 then 1 / (1 + Real.exp (lint.getD τ 0)) else 1 - 1 / (1 + Real.exp (lint.getD τ 0))

noncomputable def wgt (t : Trellis) (σ2 : ℝ) (ys yp lint : List ℝ) (τ s u : Nat) : ℝ := gam t σ2 ys yp τ s u * pri lint τ u

/-- What the decoder stores in `priors`. -/
noncomputable def priorRows (lint : List ℝ) : List (List ℝ) :=
  [lint.map (fun x => 1 / (1 + Real.exp x)), (lint.map (fun x => 1 / (1 + Real.exp x))).map (fun x => 1 - x)]

theorem priorRows_get (lint : List ℝ) {τ u : Nat} (hτ : τ < lint.length) (hu : u < 2) :
    ∃ row, pyGet (priorRows lint) (u : Int) = .ok row ∧ pyGet row (τ : Int) = .ok (pri lint τ u) := by
  have hu' : u = 0 ∨ u = 1 := by omega
  rcases hu' with rfl | rfl
  · refine ⟨_, rfl, ?_⟩
    rw [pyGet_ok (by simpa using hτ)]
    simp [pri, hτ]
  · refine ⟨_, rfl, ?_⟩
    rw [pyGet_ok (by simpa using hτ)]
    simp [pri, hτ]

theorem pri_pos (lint : List ℝ) (τ u : Nat) : 0 < pri lint τ u := by
  unfold pri
  have := Real.exp_pos (lint.getD τ 0)
  split
  · positivity
  · rw [sub_pos, div_lt_one (by positivity)]
    linarith

theorem gam_pos (t : Trellis) (σ2 : ℝ) (ys yp : List ℝ) (τ s u : Nat) : 0 < gam t σ2 ys yp τ s u := Real.exp_pos _

theorem wgt_pos (t : Trellis) (σ2 : ℝ) (ys yp lint : List ℝ) (τ s u : Nat) : 0 < wgt t σ2 ys yp lint τ s u :=
  mul_pos (gam_pos ..) (pri_pos ..)

variable {t : Trellis} (h : t.WF) (hk : t.k = 1) (hn : 2 ≤ t.n) {L : Nat} {σ2 : ℝ} {ys yp lint : List ℝ}

include h hk hn in
theorem backInput_ok (hy : ys.length = L) (hyp : L ≤ yp.length) (hl : lint.length = L) {bnext : List ℝ} (hb : bnext.length = 2 ^ t.M)
    {τ s u : Nat} (hτ : τ < L) (hs : s < 2 ^ t.M) (hu : u < 2) (st : ℝ × List ℝ) :
    backInput t σ2 ys yp (priorRows lint) bnext τ s st u =
      .ok (st.1 + bnext.getD (t.next s u) 0 * wgt t σ2 ys yp lint τ s u, st.2 ++ [gam t σ2 ys yp τ s u]) := by
  have hu' : u < 2 ^ t.k := by rw [hk]; omega
  have h1 : tableGet t.nextTable s u = .ok (t.next s u) := tableGet_ok h.next_len (fun r hr => (h.next_row r hr).1) hs hu'
  have h2 : tableGet t.outTable s u = .ok (t.out s u) := tableGet_ok h.out_len (fun r hr => (h.out_row r hr).1) hs hu'
  have h3 := dec2bitarray_ok (h.out_lt hs hu')
  have hlen : (toBits t.n (t.out s u)).length = t.n := by simp [toBits]
  have h4 : pyGet (toBits t.n (t.out s u)) 1 = .ok ((toBits t.n (t.out s u)).getD 1 0) := pyGet_getD (i := 1) 0 (by omega)
  have h5 : pyGet (toBits t.n (t.out s u)) 0 = .ok ((toBits t.n (t.out s u)).getD 0 0) := pyGet_getD (i := 0) 0 (by omega)
  have h6 := pyGet_getD (l := ys) (i := τ) 0 (by omega)
  have h7 := pyGet_getD (l := yp) (i := τ) 0 (by omega)
  have h8 := pyGet_getD (l := bnext) (i := t.next s u) 0 (by rw [hb]; exact h.next_lt hs hu')
  obtain ⟨row, h9, h10⟩ := priorRows_get lint (τ := τ) (u := u) (by omega) hu
  simp only [backInput, h1, h2, h3, h4, h5, h6, h7, h8, h9, h10, bind, Except.bind, pure, Except.pure, wgt, gam, mul_assoc]

include h hk hn in
theorem backCell_ok (hy : ys.length = L) (hyp : L ≤ yp.length) (hl : lint.length = L) {bnext : List ℝ} (hb : bnext.length = 2 ^ t.M)
    {τ s : Nat} (hτ : τ < L) (hs : s < 2 ^ t.M) :
    backCell t σ2 ys yp (priorRows lint) bnext τ s =
      .ok (bnext.getD (t.next s 0) 0 * wgt t σ2 ys yp lint τ s 0 + bnext.getD (t.next s 1) 0 * wgt t σ2 ys yp lint τ s 1,
        [gam t σ2 ys yp τ s 0, gam t σ2 ys yp τ s 1]) := by
  unfold backCell
  rw [hk, show List.range (2 ^ 1) = [0, 1] by decide, List.foldlM_cons, backInput_ok h hk hn hy hyp hl hb hτ hs (by omega)]
  simp only [bind, Except.bind]
  rw [List.foldlM_cons, backInput_ok h hk hn hy hyp hl hb hτ hs (by omega)]
  simp [bind, Except.bind, pure, Except.pure]

theorem normalise_ok {col : List ℝ} (hc : 0 < col.sum) : normalise col = .ok (col.map (· / col.sum)) := by
  unfold normalise
  rw [if_neg hc.ne']

theorem sum_pos_of {α : Type} {l : List α} {f : α → ℝ} (hne : l ≠ []) (hf : ∀ a ∈ l, 0 < f a) : 0 < (l.map f).sum := by
  induction l with
  | nil => exact absurd rfl hne
  | cons a l ih =>
    rw [List.map_cons, List.sum_cons]
    have ha := hf a (by simp)
    by_cases hl : l = []
    · subst hl; simpa using ha
    · have := ih hl (fun b hb => hf b (List.mem_cons_of_mem _ hb))
      linarith

include h hk hn in
/-- The columns of the backward recursion. -/
theorem backwardRec_ok (hy : ys.length = L) (hyp : L ≤ yp.length) (hl : lint.length = L) :
    ∃ (cols : List (List ℝ)) (c : Nat → ℝ), backwardRec t σ2 ys yp (priorRows lint) = .ok (cols,
        (List.range L).map (fun τ => (List.range (2 ^ t.M)).map (fun s => [gam t σ2 ys yp τ s 0, gam t σ2 ys yp τ s 1]))) ∧
      cols.length = L + 1 ∧ ∀ τ ≤ L, 0 < c τ ∧
        cols.getD τ [] = (List.range (2 ^ t.M)).map (fun s => c τ * bsum (wgt t σ2 ys yp lint) t.next (L - τ) τ s) := by
  have hS : 0 < 2 ^ t.M := by positivity
  have hnx : ∀ s < 2 ^ t.M, ∀ u < 2, t.next s u < 2 ^ t.M := fun s hs u hu => h.next_lt hs (by rw [hk]; omega)
  have key : ∀ m ≤ L, ∃ (cols : List (List ℝ)) (c : Nat → ℝ),
      (List.range' (L - m) m).reverse.foldlM (backStep t σ2 ys yp (priorRows lint)) ([List.replicate (2 ^ t.M) 1], []) = .ok (cols,
          (List.range' (L - m) m).map (fun τ => (List.range (2 ^ t.M)).map (fun s => [gam t σ2 ys yp τ s 0, gam t σ2 ys yp τ s 1]))) ∧
      cols.length = m + 1 ∧ ∀ j ≤ m, 0 < c (L - m + j) ∧
        cols.getD j [] = (List.range (2 ^ t.M)).map (fun s => c (L - m + j) * bsum (wgt t σ2 ys yp lint) t.next (m - j) (L - m + j) s) := by
    intro m
    induction m with
    | zero =>
      intro _
      refine ⟨[List.replicate (2 ^ t.M) 1], fun _ => 1, rfl, rfl, ?_⟩
      intro j hj
      have : j = 0 := by omega
      subst this
      refine ⟨one_pos, ?_⟩
      simp only [bsum, List.getD_cons_zero, Nat.sub_self, mul_one, List.map_const', List.length_range]
    | succ m ih =>
      intro hm
      obtain ⟨cols, c, e1, e2, e3⟩ := ih (by omega)
      set τ := L - (m + 1) with hτ
      have eτ : L - m = τ + 1 := by omega
      rw [List.range'_succ, ← eτ, List.reverse_cons, List.foldlM_append, e1]
      obtain ⟨c0, h0⟩ := e3 0 (by omega)
      have hhead : cols.headD [] = cols.getD 0 [] := by cases cols <;> simp
      rw [Nat.add_zero, Nat.sub_zero] at h0
      set B := bsum (wgt t σ2 ys yp lint) t.next with hB
      set g := c (L - m) with hg
      rw [eτ] at h0
      have hcell : ∀ s ∈ List.range (2 ^ t.M), backCell t σ2 ys yp (priorRows lint) ((List.range (2 ^ t.M)).map (fun s => g * B m (τ + 1) s)) τ s =
          .ok (g * B (m + 1) τ s, [gam t σ2 ys yp τ s 0, gam t σ2 ys yp τ s 1]) := by
        intro s hs
        rw [List.mem_range] at hs
        rw [backCell_ok h hk hn hy hyp hl (by simp) (by omega) hs]
        congr 2
        have a0 := hnx s hs 0 (by omega)
        have a1 := hnx s hs 1 (by omega)
        rw [List.getD_eq_getElem _ _ (by simpa using a0), List.getD_eq_getElem _ _ (by simpa using a1)]
        simp only [List.getElem_map, List.getElem_range, hB, bsum]
        ring
      have hm := mapM_ok (List.range (2 ^ t.M)) hcell
      have hpos : 0 < ((List.range (2 ^ t.M)).map (fun s => g * B (m + 1) τ s)).sum := by
        refine sum_pos_of (by simp) fun s hs => mul_pos c0 ?_
        exact bsum_pos (2 ^ t.M) (fun τ s _ u _ => wgt_pos ..) hnx _ _ _ (List.mem_range.1 hs)
      have hno := normalise_ok hpos
      set Z := ((List.range (2 ^ t.M)).map (fun s => g * B (m + 1) τ s)).sum with hZ
      refine ⟨(List.range (2 ^ t.M)).map (fun s => g * B (m + 1) τ s / Z) :: cols, fun x => if x = τ then g / Z else c x, ?_, ?_, ?_⟩
      · show ([τ].foldlM _ _ : Py _) = _
        rw [List.foldlM_cons]
        simp only [List.foldlM_nil, backStep, hhead, h0, hm, bind, Except.bind, pure, Except.pure, List.map_map, Function.comp_def, hno, List.map_cons, eτ]
      · simp [e2]
      · intro j hj
        match j with
        | 0 =>
          simp only [Nat.add_zero, if_true]
          refine ⟨div_pos c0 hpos, ?_⟩
          rw [List.getD_cons_zero, Nat.sub_zero]
          refine List.map_congr_left fun s _ => ?_
          ring
        | j + 1 =>
          have := e3 j (by omega)
          rw [eτ, show τ + 1 + j = τ + (j + 1) by omega] at this
          have hne : τ + (j + 1) ≠ τ := by omega
          simp only [if_neg hne]
          refine ⟨this.1, ?_⟩
          rw [List.getD_cons_succ, this.2, show m + 1 - (j + 1) = m - j by omega]
  obtain ⟨cols, c, e1, e2, e3⟩ := key L le_rfl
  rw [Nat.sub_self] at e1 e3
  refine ⟨cols, c, ?_, e2, ?_⟩
  · unfold backwardRec
    rw [hy, List.range_eq_range']
    rw [e1]
  · intro τ hτ
    have := e3 τ hτ
    rw [Nat.zero_add] at this
    exact this

/-- `∑ f s * x s` over the states. -/
noncomputable def dotS (S : Nat) (f : List ℝ) (x : Nat → ℝ) : ℝ := ∑ s ∈ Finset.range S, f.getD s 0 * x s

theorem dotS_set {S : Nat} {f : List ℝ} {i : Nat} (hi : i < S) (hf : f.length = S) (d : ℝ) (x : Nat → ℝ) :
    dotS S (f.set i (f.getD i 0 + d)) x = dotS S f x + d * x i := by
  unfold dotS
  rw [← Finset.sum_erase_add _ _ (Finset.mem_range.2 hi), ← Finset.sum_erase_add (Finset.range S) (fun s => f.getD s 0 * x s) (Finset.mem_range.2 hi)]
  have h1 : (f.set i (f.getD i 0 + d)).getD i 0 = f.getD i 0 + d := by
    rw [List.getD_eq_getElem _ _ (by simp; omega)]
    simp
  rw [h1, Finset.sum_congr rfl (g := fun s => f.getD s 0 * x s)]
  · ring
  · intro s hs
    have hne := (Finset.mem_erase.1 hs).1
    simp only [List.getD_eq_getElem?_getD]
    rw [List.getElem?_set_ne (Ne.symm hne)]

theorem dotS_zero (S : Nat) (x : Nat → ℝ) : dotS S (List.replicate S 0) x = 0 := by
  refine Finset.sum_eq_zero fun s hs => ?_
  rw [List.getD_eq_getElem _ _ (by simpa using hs)]
  simp

theorem dotS_one {S : Nat} {f : List ℝ} (hf : f.length = S) : dotS S f (fun _ => 1) = f.sum := by
  subst hf
  unfold dotS
  simp only [mul_one]
  induction f with
  | nil => rfl
  | cons a f ih =>
    rw [List.length_cons, Finset.sum_range_succ']
    simp only [List.getD_cons_succ, List.getD_cons_zero, List.sum_cons]
    rw [ih, add_comm]

theorem dotS_div {S : Nat} (f : List ℝ) (z : ℝ) (x : Nat → ℝ) : dotS S (f.map (· / z)) x = dotS S f x / z := by
  unfold dotS
  rw [Finset.sum_div]
  refine Finset.sum_congr rfl fun s _ => ?_
  have : (f.map (· / z)).getD s 0 = f.getD s 0 / z := by
    by_cases hs : s < f.length
    · rw [List.getD_eq_getElem _ _ (by simpa using hs), List.getD_eq_getElem _ _ hs, List.getElem_map]
    · rw [List.getD_eq_default _ _ (by simpa using hs), List.getD_eq_default _ _ (by simpa using hs), zero_div]
  rw [this]
  ring

include h hk in
theorem forwardCell_ok (hl : lint.length = L) {bnext f f1 : List ℝ} (hb : bnext.length = 2 ^ t.M) (hf : f.length = 2 ^ t.M)
    (hf1 : f1.length = 2 ^ t.M) {τ s u : Nat} (hτ : τ < L) (hs : s < 2 ^ t.M) (hu : u < 2) (app : List ℝ) (happ : app.length = 2) :
    forwardCell t (priorRows lint) bnext ((List.range (2 ^ t.M)).map (fun s => [gam t σ2 ys yp τ s 0, gam t σ2 ys yp τ s 1])) f τ (f1, app) (s, u) =
      .ok (f1.set (t.next s u) (f1.getD (t.next s u) 0 + f.getD s 0 * wgt t σ2 ys yp lint τ s u),
        app.set u (app.getD u 0 + f.getD s 0 * gam t σ2 ys yp τ s u * bnext.getD (t.next s u) 0)) := by
  have hu' : u < 2 ^ t.k := by rw [hk]; omega
  have h1 : tableGet t.nextTable s u = .ok (t.next s u) := tableGet_ok h.next_len (fun r hr => (h.next_row r hr).1) hs hu'
  have hns := h.next_lt hs hu'
  have h2 : pyGet ((List.range (2 ^ t.M)).map (fun s => [gam t σ2 ys yp τ s 0, gam t σ2 ys yp τ s 1])) (s : Int) =
      .ok [gam t σ2 ys yp τ s 0, gam t σ2 ys yp τ s 1] := by
    rw [pyGet_ok (by simpa using hs)]
    simp
  have h3 : pyGet [gam t σ2 ys yp τ s 0, gam t σ2 ys yp τ s 1] (u : Int) = .ok (gam t σ2 ys yp τ s u) := by
    have hu2 : u = 0 ∨ u = 1 := by omega
    rcases hu2 with rfl | rfl <;> rfl
  have h4 := pyGet_getD (l := f) (i := s) 0 (by omega)
  obtain ⟨row, h5, h6⟩ := priorRows_get lint (τ := τ) (u := u) (by omega) hu
  have h7 := pyGet_getD (l := f1) (i := t.next s u) 0 (by omega)
  have h8 := fun x : ℝ => pySet_ok (l := f1) (i := t.next s u) x (by omega)
  have h9 := pyGet_getD (l := bnext) (i := t.next s u) 0 (by omega)
  have h10 := pyGet_getD (l := app) (i := u) 0 (by omega)
  have h11 := fun x : ℝ => pySet_ok (l := app) (i := u) x (by omega)
  simp only [forwardCell, h1, h2, h3, h4, h5, h6, h7, h8, h9, h10, h11, bind, Except.bind, pure, Except.pure, wgt, mul_assoc]

include h hk in
theorem forwardCells_ok (hl : lint.length = L) {bnext f : List ℝ} (hb : bnext.length = 2 ^ t.M) (hf : f.length = 2 ^ t.M)
    {τ : Nat} (hτ : τ < L) : ∀ (sus : List (Nat × Nat)), (∀ su ∈ sus, su.1 < 2 ^ t.M ∧ su.2 < 2) →
    ∀ (f1 : List ℝ) (a0 a1 : ℝ), f1.length = 2 ^ t.M →
    ∃ f1', sus.foldlM (forwardCell t (priorRows lint) bnext ((List.range (2 ^ t.M)).map (fun s => [gam t σ2 ys yp τ s 0, gam t σ2 ys yp τ s 1])) f τ)
        (f1, [a0, a1]) = .ok (f1', [
          a0 + (sus.map (fun su => if su.2 = 0 then f.getD su.1 0 * gam t σ2 ys yp τ su.1 0 * bnext.getD (t.next su.1 0) 0 else 0)).sum,
          a1 + (sus.map (fun su => if su.2 = 1 then f.getD su.1 0 * gam t σ2 ys yp τ su.1 1 * bnext.getD (t.next su.1 1) 0 else 0)).sum]) ∧
      f1'.length = 2 ^ t.M ∧
      ∀ x, dotS (2 ^ t.M) f1' x = dotS (2 ^ t.M) f1 x + (sus.map (fun su => f.getD su.1 0 * wgt t σ2 ys yp lint τ su.1 su.2 * x (t.next su.1 su.2))).sum := by
  intro sus
  induction sus with
  | nil =>
    intro _ f1 a0 a1 h1
    exact ⟨f1, by simp [pure, Except.pure], h1, by simp⟩
  | cons su sus ih =>
    intro hsu f1 a0 a1 h1
    obtain ⟨s, u⟩ := su
    obtain ⟨hs, hu⟩ := hsu (s, u) (by simp)
    simp only at hs hu
    have hns := h.next_lt hs (u := u) (by rw [hk]; omega)
    rw [List.foldlM_cons, forwardCell_ok h hk hl hb hf h1 hτ hs hu [a0, a1] rfl]
    simp only [bind, Except.bind]
    have hu2 : u = 0 ∨ u = 1 := by omega
    rcases hu2 with rfl | rfl
    · obtain ⟨f1', e1, e2, e3⟩ := ih (fun su hh => hsu su (List.mem_cons_of_mem _ hh)) (f1.set (t.next s 0) (f1.getD (t.next s 0) 0 + f.getD s 0 * wgt t σ2 ys yp lint τ s 0))
        (a0 + f.getD s 0 * gam t σ2 ys yp τ s 0 * bnext.getD (t.next s 0) 0) a1 (by simpa using h1)
      refine ⟨f1', ?_, e2, fun x => ?_⟩
      · rw [show [a0, a1].set 0 ([a0, a1].getD 0 0 + f.getD s 0 * gam t σ2 ys yp τ s 0 * bnext.getD (t.next s 0) 0) =
          [a0 + f.getD s 0 * gam t σ2 ys yp τ s 0 * bnext.getD (t.next s 0) 0, a1] from rfl, e1]
        simp [add_assoc]
      · rw [e3, dotS_set hns h1, List.map_cons, List.sum_cons, add_assoc]
    · obtain ⟨f1', e1, e2, e3⟩ := ih (fun su hh => hsu su (List.mem_cons_of_mem _ hh)) (f1.set (t.next s 1) (f1.getD (t.next s 1) 0 + f.getD s 0 * wgt t σ2 ys yp lint τ s 1))
        a0 (a1 + f.getD s 0 * gam t σ2 ys yp τ s 1 * bnext.getD (t.next s 1) 0) (by simpa using h1)
      refine ⟨f1', ?_, e2, fun x => ?_⟩
      · rw [show [a0, a1].set 1 ([a0, a1].getD 1 0 + f.getD s 0 * gam t σ2 ys yp τ s 1 * bnext.getD (t.next s 1) 0) =
          [a0, a1 + f.getD s 0 * gam t σ2 ys yp τ s 1 * bnext.getD (t.next s 1) 0] from rfl, e1]
        simp [add_assoc]
      · rw [e3, dotS_set hns h1, List.map_cons, List.sum_cons, add_assoc]

theorem sum_pairs (S : Nat) (F : Nat × Nat → ℝ) :
    (((List.range S).flatMap (fun s => [(s, 0), (s, 1)])).map F).sum = ∑ s ∈ Finset.range S, (F (s, 0) + F (s, 1)) := by
  induction S with
  | zero => simp
  | succ S ih =>
    rw [List.range_succ, List.flatMap_append, List.map_append, List.sum_append, ih, Finset.sum_range_succ]
    simp

/-- `H` satisfies the backward recursion up to time `τ`. -/
def IsBack (S : Nat) (w : Nat → Nat → Nat → ℝ) (next : Nat → Nat → Nat) (τ : Nat) (H : Nat → Nat → ℝ) : Prop :=
  ∀ τ' < τ, ∀ s < S, H τ' s = w τ' s 0 * H (τ' + 1) (next s 0) + w τ' s 1 * H (τ' + 1) (next s 1)

/-- The LLR computed for time `τ`. -/
noncomputable def mapLlr (t : Trellis) (σ2 : ℝ) (ys yp lint : List ℝ) (L τ : Nat) : ℝ :=
  Real.log (gsum (wgt t σ2 ys yp lint) t.next 1 L τ 0 0 / gsum (wgt t σ2 ys yp lint) t.next 0 L τ 0 0)

theorem isBack_bsum (S : Nat) (w : Nat → Nat → Nat → ℝ) (next : Nat → Nat → Nat) (τ : Nat) :
    IsBack S w next τ (fun τ' s => bsum w next (τ - τ') τ' s) := by
  intro τ' hτ s _
  simp only
  rw [show τ - τ' = (τ - (τ' + 1)) + 1 by omega]
  rfl

theorem isBack_gsum (S : Nat) (w : Nat → Nat → Nat → ℝ) (next : Nat → Nat → Nat) (b L τ : Nat) (hτ : τ < L) :
    IsBack S w next τ (fun τ' s => gsum w next b (L - τ') (τ - τ') τ' s) := by
  intro τ' hτ' s _
  simp only
  rw [show τ - τ' = (τ - (τ' + 1)) + 1 by omega, show L - τ' = (L - (τ' + 1)) + 1 by omega]
  rfl

theorem llr_combine {l p0 p1 q a0 a1 G0 G1 : ℝ} (hp0 : p0 = 1 / (1 + Real.exp l)) (hp1 : p1 = 1 - 1 / (1 + Real.exp l))
    (hq : 0 < q) (h0 : a0 * p0 = q * G0) (h1 : a1 * p1 = q * G1) (hG0 : 0 < G0) (hG1 : 0 < G1) :
    0 < a0 ∧ 0 < a1 ∧ l + Real.log (a1 / a0) = Real.log (G1 / G0) := by
  have he := Real.exp_pos l
  have hp0' : 0 < p0 := by rw [hp0]; positivity
  have hp1' : p1 = Real.exp l * p0 := by rw [hp1, hp0]; field_simp; ring
  have hp1p : 0 < p1 := by rw [hp1']; positivity
  have e0 : a0 = q * G0 / p0 := by rw [eq_div_iff hp0'.ne', h0]
  have e1 : a1 = q * G1 / p1 := by rw [eq_div_iff hp1p.ne', h1]
  refine ⟨by rw [e0]; positivity, by rw [e1]; positivity, ?_⟩
  have : G1 / G0 = Real.exp l * (a1 / a0) := by
    rw [e0, e1, hp1']
    field_simp
  rw [this, Real.log_mul he.ne' (by rw [e0, e1]; positivity), Real.log_exp]

include h hk hn in
theorem forwardStep_ok (hl : lint.length = L) {cols : List (List ℝ)} {c : Nat → ℝ} (hc1 : cols.length = L + 1)
    (hc : ∀ τ ≤ L, 0 < c τ ∧ cols.getD τ [] = (List.range (2 ^ t.M)).map (fun s => c τ * bsum (wgt t σ2 ys yp lint) t.next (L - τ) τ s))
    (decode : Bool) {τ : Nat} (hτ : τ < L) {f : List ℝ} (hf : f.length = 2 ^ t.M) {d : ℝ} (hd : 0 < d)
    (hdot : ∀ H, IsBack (2 ^ t.M) (wgt t σ2 ys yp lint) t.next τ H → dotS (2 ^ t.M) f (H τ) = d * H 0 0) (le : List ℝ) (bits : List Nat) :
    ∃ f' d', forwardStep t decode lint (priorRows lint) cols
        ((List.range L).map (fun τ => (List.range (2 ^ t.M)).map (fun s => [gam t σ2 ys yp τ s 0, gam t σ2 ys yp τ s 1]))) (f, le, bits) τ =
        .ok (f', le ++ [mapLlr t σ2 ys yp lint L τ], bits ++ [if decode then (if mapLlr t σ2 ys yp lint L τ > 0 then 1 else 0) else 0]) ∧
      f'.length = 2 ^ t.M ∧ 0 < d' ∧
      ∀ H, IsBack (2 ^ t.M) (wgt t σ2 ys yp lint) t.next (τ + 1) H → dotS (2 ^ t.M) f' (H (τ + 1)) = d' * H 0 0 := by
  set w := wgt t σ2 ys yp lint with hw
  have hS : 0 < 2 ^ t.M := by positivity
  have hnx : ∀ s < 2 ^ t.M, ∀ u < 2, t.next s u < 2 ^ t.M := fun s hs u hu => h.next_lt hs (by rw [hk]; omega)
  have hwp : ∀ τ s, s < 2 ^ t.M → ∀ u < 2, 0 < w τ s u := fun τ s _ u _ => wgt_pos ..
  obtain ⟨c0, hcol⟩ := hc (τ + 1) (by omega)
  have g1 : pyGet cols ((τ + 1 : Nat) : Int) = .ok (cols.getD (τ + 1) []) := pyGet_getD [] (by omega)
  have g2 : pyGet ((List.range L).map (fun τ => (List.range (2 ^ t.M)).map (fun s => [gam t σ2 ys yp τ s 0, gam t σ2 ys yp τ s 1]))) (τ : Int) =
      .ok ((List.range (2 ^ t.M)).map (fun s => [gam t σ2 ys yp τ s 0, gam t σ2 ys yp τ s 1])) := by
    rw [pyGet_ok (by simpa using hτ)]; simp
  have hbl : (cols.getD (τ + 1) []).length = 2 ^ t.M := by rw [hcol]; simp
  have hbget : ∀ s < 2 ^ t.M, (cols.getD (τ + 1) []).getD s 0 = c (τ + 1) * bsum w t.next (L - (τ + 1)) (τ + 1) s := by
    intro s hs
    rw [hcol, List.getD_eq_getElem _ _ (by simpa using hs)]
    simp
  obtain ⟨f1, e1, e2, e3⟩ := forwardCells_ok (σ2 := σ2) (ys := ys) (yp := yp) h hk hl hbl hf hτ ((List.range (2 ^ t.M)).flatMap (fun s => [(s, 0), (s, 1)]))
    (by
      intro su hsu
      obtain ⟨s, hs, h1⟩ := List.mem_flatMap.1 hsu
      rw [List.mem_range] at hs
      simp only [List.mem_cons, List.not_mem_nil, or_false] at h1
      rcases h1 with rfl | rfl <;> simp [hs]) (List.replicate (2 ^ t.M) 0) 0 0 (by simp)
  have e3' : ∀ H, IsBack (2 ^ t.M) w t.next (τ + 1) H → dotS (2 ^ t.M) f1 (H (τ + 1)) = d * H 0 0 := by
    intro H hH
    rw [e3, dotS_zero, zero_add, sum_pairs, ← hdot H (fun τ' hτ' s hs => hH τ' (by omega) s hs)]
    refine Finset.sum_congr rfl fun s hs => ?_
    rw [hH τ (by omega) s (Finset.mem_range.1 hs)]
    ring
  have hZ : 0 < f1.sum := by
    rw [← dotS_one e2]
    have := e3' _ (isBack_bsum _ w t.next (τ + 1))
    simp only [Nat.sub_self, bsum] at this
    rw [this]
    exact mul_pos hd (bsum_pos _ hwp hnx _ _ _ hS)
  have happ : ∀ b < 2, (∑ s ∈ Finset.range (2 ^ t.M), f.getD s 0 * gam t σ2 ys yp τ s b * (cols.getD (τ + 1) []).getD (t.next s b) 0) * pri lint τ b =
      (c (τ + 1) * d) * gsum w t.next b L τ 0 0 := by
    intro b hb
    have := hdot _ (isBack_gsum _ w t.next b L τ hτ)
    simp only [Nat.sub_self, Nat.sub_zero] at this
    rw [mul_assoc, ← this, Finset.sum_mul]
    unfold dotS
    rw [Finset.mul_sum]
    refine Finset.sum_congr rfl fun s hs => ?_
    have hs' := Finset.mem_range.1 hs
    rw [hbget _ (hnx s hs' b hb), show L - τ = (L - (τ + 1)) + 1 by omega]
    simp only [gsum, hw, wgt]
    ring
  set A0 := ∑ s ∈ Finset.range (2 ^ t.M), f.getD s 0 * gam t σ2 ys yp τ s 0 * (cols.getD (τ + 1) []).getD (t.next s 0) 0 with hA0
  set A1 := ∑ s ∈ Finset.range (2 ^ t.M), f.getD s 0 * gam t σ2 ys yp τ s 1 * (cols.getD (τ + 1) []).getD (t.next s 1) 0 with hA1
  obtain ⟨p0, p1, p2⟩ := llr_combine (l := lint.getD τ 0) (p0 := pri lint τ 0) (p1 := pri lint τ 1) rfl rfl (mul_pos c0 hd) (happ 0 (by omega)) (happ 1 (by omega))
    (gsum_pos _ hwp hnx 0 (by omega) _ _ _ _ hτ hS) (gsum_pos _ hwp hnx 1 (by omega) _ _ _ _ hτ hS)
  have hr : ((List.range (2 ^ t.M)).flatMap (fun s => (List.range (2 ^ t.k)).map (fun u => (s, u)))).foldlM
      (forwardCell t (priorRows lint) (cols.getD (τ + 1) []) ((List.range (2 ^ t.M)).map (fun s => [gam t σ2 ys yp τ s 0, gam t σ2 ys yp τ s 1])) f τ)
      (List.replicate (2 ^ t.M) 0, List.replicate (2 ^ t.k) 0) = .ok (f1, [A0, A1]) := by
    rw [hk]
    refine e1.trans ?_
    rw [sum_pairs, sum_pairs]
    simp [hA0, hA1]
  refine ⟨f1.map (· / f1.sum), d / f1.sum, ?_, by simpa using e2, div_pos hd hZ, ?_⟩
  · have g3 := pyGet_getD (l := lint) (i := τ) 0 (by omega)
    have g4 : pyGet [A0, A1] 1 = .ok A1 := rfl
    have g5 : pyGet [A0, A1] 0 = .ok A0 := rfl
    have g6 : ¬ (A0 = 0 ∨ A1 / A0 ≤ 0) := by
      rintro (h | h)
      · exact p0.ne' h
      · exact absurd (div_pos p1 p0) (not_lt.2 h)
    simp only [forwardStep, g1, g2, hr, g3, g4, g5, bind, Except.bind]
    rw [if_neg g6, normalise_ok hZ, p2]
    rfl
  · intro H hH
    rw [dotS_div, e3' H hH]
    ring

include h hk hn in
/-- The MAP decoder in closed form. -/
theorem mapDecode_ok (hy : ys.length = L) (hyp : L ≤ yp.length) (hl : lint.length = L) (mode : String) :
    mapDecode t σ2 ys yp lint mode = .ok ((List.range L).map (mapLlr t σ2 ys yp lint L),
      (List.range L).map (fun τ => if mode = "decode" then (if mapLlr t σ2 ys yp lint L τ > 0 then 1 else 0) else 0)) := by
  obtain ⟨cols, c, e1, e2, e3⟩ := backwardRec_ok (σ2 := σ2) h hk hn hy hyp hl
  have hpri : mapPriors L lint = .ok (priorRows lint) := by
    unfold mapPriors
    rw [if_pos (by omega)]
    rfl
  have hS : 0 < 2 ^ t.M := by positivity
  have key : ∀ m ≤ L, ∃ f d, (List.range m).foldlM (forwardStep t (mode = "decode") lint (priorRows lint) cols
        ((List.range L).map (fun τ => (List.range (2 ^ t.M)).map (fun s => [gam t σ2 ys yp τ s 0, gam t σ2 ys yp τ s 1]))))
        ((List.replicate (2 ^ t.M) 0).set 0 1, [], []) = .ok (f, (List.range m).map (mapLlr t σ2 ys yp lint L),
          (List.range m).map (fun τ => if mode = "decode" then (if mapLlr t σ2 ys yp lint L τ > 0 then 1 else 0) else 0)) ∧
      f.length = 2 ^ t.M ∧ 0 < d ∧ ∀ H, IsBack (2 ^ t.M) (wgt t σ2 ys yp lint) t.next m H → dotS (2 ^ t.M) f (H m) = d * H 0 0 := by
    intro m
    induction m with
    | zero =>
      intro _
      refine ⟨_, 1, rfl, by simp, one_pos, fun H _ => ?_⟩
      have := dotS_set (f := List.replicate (2 ^ t.M) 0) hS (by simp) 1 (H 0)
      rw [dotS_zero, List.getD_eq_getElem _ _ (by simpa using hS), List.getElem_replicate] at this
      simpa using this
    | succ m ih =>
      intro hm
      obtain ⟨f, d, k1, k2, k3, k4⟩ := ih (by omega)
      obtain ⟨f', d', s1, s2, s3, s4⟩ := forwardStep_ok h hk hn hl e2 e3 (mode = "decode") (τ := m) (by omega) k2 k3 k4
        ((List.range m).map (mapLlr t σ2 ys yp lint L))
        ((List.range m).map (fun τ => if mode = "decode" then (if mapLlr t σ2 ys yp lint L τ > 0 then 1 else 0) else 0))
      refine ⟨f', d', ?_, s2, s3, s4⟩
      rw [List.range_succ, List.foldlM_append, k1]
      show ([m].foldlM _ _ : Py _) = _
      rw [List.foldlM_cons, s1]
      simp [bind, Except.bind, pure, Except.pure]
  obtain ⟨f, d, k1, -⟩ := key L le_rfl
  simp only [mapDecode, hpri, e1, bind, Except.bind, hy]
  rw [k1]
  rfl

end Verif
