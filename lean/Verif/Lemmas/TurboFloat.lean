import Verif.Spec.TurboFloat
import Verif.Lemmas.Turbo
/-
The floating-point recursions of `map_decode` in terms of pure functions, without assumptions about the arithmetic.
-/
namespace Verif

variable (D : MapFloats) (t : Trellis) (σ2 : Fl) (ys yp lint : List Fl)

/-- Branch probability. -/
noncomputable def gamF (τ s u : Nat) : Fl :=
  branchProbF D ((toBits t.n (t.out s u)).getD 0 0) ((toBits t.n (t.out s u)).getD 1 0) (ys.getD τ .nan) (yp.getD τ .nan) σ2

/-- Prior. -/
noncomputable def priF (τ u : Nat) : Fl :=
  let p0 := flDiv D (.fin 1) (flAdd D (.fin 1) (flExp D (lint.getD τ .nan)))
  if u = 0 then p0 else flSub D (.fin 1) p0

noncomputable def priorRowsF : List (List Fl) :=
  let p0 := lint.map (fun x => flDiv D (.fin 1) (flAdd D (.fin 1) (flExp D x)))
  [p0, p0.map (fun x => flSub D (.fin 1) x)]

theorem priorRowsF_get {τ u : Nat} (hτ : τ < lint.length) (hu : u < 2) :
    ∃ row, pyGet (priorRowsF D lint) (u : Int) = .ok row ∧ pyGet row (τ : Int) = .ok (priF D lint τ u) := by
  have hu2 : u = 0 ∨ u = 1 := by omega
  rcases hu2 with rfl | rfl
  · refine ⟨_, rfl, ?_⟩
    rw [pyGet_getD .nan (by simpa using hτ), List.getD_eq_getElem _ _ (by simpa using hτ), List.getElem_map]
    simp only [priF, if_true]
    rw [List.getD_eq_getElem _ _ hτ]
  · refine ⟨_, rfl, ?_⟩
    rw [pyGet_getD .nan (by simpa using hτ), List.getD_eq_getElem _ _ (by simpa using hτ), List.getElem_map, List.getElem_map]
    simp only [priF, one_ne_zero, if_false]
    rw [List.getD_eq_getElem _ _ hτ]

/-- A cell of the backward recursion. -/
noncomputable def cellF (τ : Nat) (b : List Fl) (s : Nat) : Fl :=
  flAdd D (flAdd D (.fin 0) (flMul D (flMul D (b.getD (t.next s 0) .nan) (gamF D t σ2 ys yp τ s 0)) (priF D lint τ 0)))
    (flMul D (flMul D (b.getD (t.next s 1) .nan) (gamF D t σ2 ys yp τ s 1)) (priF D lint τ 1))

/-- The branch probabilities of one time. -/
noncomputable def brF (τ : Nat) : List (List Fl) :=
  (List.range (2 ^ t.M)).map (fun s => [gamF D t σ2 ys yp τ s 0, gamF D t σ2 ys yp τ s 1])

variable {D} {t} (h : t.WF) (hk : t.k = 1) (hn : 2 ≤ t.n) {L : Nat} {σ2} {ys yp lint}

include h hk hn in
theorem backInputF_ok (hy : ys.length = L) (hyp : L ≤ yp.length) (hl : lint.length = L) {bnext : List Fl} (hb : bnext.length = 2 ^ t.M)
    {τ s u : Nat} (hτ : τ < L) (hs : s < 2 ^ t.M) (hu : u < 2) (st : Fl × List Fl) :
    backInputF D t σ2 ys yp (priorRowsF D lint) bnext τ s st u =
      .ok (flAdd D st.1 (flMul D (flMul D (bnext.getD (t.next s u) .nan) (gamF D t σ2 ys yp τ s u)) (priF D lint τ u)),
        st.2 ++ [gamF D t σ2 ys yp τ s u]) := by
  have hu' : u < 2 ^ t.k := by rw [hk]; omega
  have h1 : tableGet t.nextTable s u = .ok (t.next s u) := tableGet_ok h.next_len (fun r hr => (h.next_row r hr).1) hs hu'
  have h2 : tableGet t.outTable s u = .ok (t.out s u) := tableGet_ok h.out_len (fun r hr => (h.out_row r hr).1) hs hu'
  have h3 := dec2bitarray_ok (h.out_lt hs hu')
  have hlen : (toBits t.n (t.out s u)).length = t.n := by simp [toBits]
  have h4 : pyGet (toBits t.n (t.out s u)) 1 = .ok ((toBits t.n (t.out s u)).getD 1 0) := pyGet_getD (i := 1) 0 (by omega)
  have h5 : pyGet (toBits t.n (t.out s u)) 0 = .ok ((toBits t.n (t.out s u)).getD 0 0) := pyGet_getD (i := 0) 0 (by omega)
  have h6 := pyGet_getD (l := ys) (i := τ) .nan (by omega)
  have h7 := pyGet_getD (l := yp) (i := τ) .nan (by omega)
  have h8 := pyGet_getD (l := bnext) (i := t.next s u) .nan (by rw [hb]; exact h.next_lt hs hu')
  obtain ⟨row, h9, h10⟩ := priorRowsF_get D lint (τ := τ) (u := u) (by omega) hu
  simp only [backInputF, h1, h2, h3, h4, h5, h6, h7, h8, h9, h10, bind, Except.bind, pure, Except.pure, gamF]

include h hk hn in
theorem backCellF_ok (hy : ys.length = L) (hyp : L ≤ yp.length) (hl : lint.length = L) {bnext : List Fl} (hb : bnext.length = 2 ^ t.M)
    {τ s : Nat} (hτ : τ < L) (hs : s < 2 ^ t.M) :
    backCellF D t σ2 ys yp (priorRowsF D lint) bnext τ s =
      .ok (cellF D t σ2 ys yp lint τ bnext s, [gamF D t σ2 ys yp τ s 0, gamF D t σ2 ys yp τ s 1]) := by
  unfold backCellF
  rw [hk, show List.range (2 ^ 1) = [0, 1] by decide, List.foldlM_cons, backInputF_ok h hk hn hy hyp hl hb hτ hs (by omega)]
  simp only [bind, Except.bind]
  rw [List.foldlM_cons, backInputF_ok h hk hn hy hyp hl hb hτ hs (by omega)]
  simp [bind, Except.bind, pure, Except.pure, cellF]

include h hk hn in
/-- The columns of the backward recursion. -/
theorem backwardRecF_ok (hy : ys.length = L) (hyp : L ≤ yp.length) (hl : lint.length = L) :
    ∃ cols : List (List Fl), backwardRecF D t σ2 ys yp (priorRowsF D lint) = .ok (cols, (List.range L).map (brF D t σ2 ys yp)) ∧
      cols.length = L + 1 ∧ cols.getD L [] = List.replicate (2 ^ t.M) (.fin 1) ∧
      ∀ τ < L, cols.getD τ [] = normaliseF D ((List.range (2 ^ t.M)).map (cellF D t σ2 ys yp lint τ (cols.getD (τ + 1) []))) := by
  have key : ∀ m ≤ L, ∃ cols : List (List Fl),
      (List.range' (L - m) m).reverse.foldlM (backStepF D t σ2 ys yp (priorRowsF D lint)) ([List.replicate (2 ^ t.M) (.fin 1)], []) =
        .ok (cols, (List.range' (L - m) m).map (brF D t σ2 ys yp)) ∧
      cols.length = m + 1 ∧ (cols.getD 0 []).length = 2 ^ t.M ∧ cols.getD m [] = List.replicate (2 ^ t.M) (.fin 1) ∧
      ∀ j < m, cols.getD j [] = normaliseF D ((List.range (2 ^ t.M)).map (cellF D t σ2 ys yp lint (L - m + j) (cols.getD (j + 1) []))) := by
    intro m
    induction m with
    | zero =>
      intro _
      exact ⟨_, rfl, rfl, by simp, rfl, fun j hj => absurd hj (by omega)⟩
    | succ m ih =>
      intro hm
      obtain ⟨cols, e1, e2, e3, e4, e5⟩ := ih (by omega)
      set τ := L - (m + 1) with hτ
      have eτ : L - m = τ + 1 := by omega
      rw [List.range'_succ, ← eτ, List.reverse_cons, List.foldlM_append, e1]
      have hhead : cols.headD [] = cols.getD 0 [] := by cases cols <;> simp
      have hm' := mapM_ok (List.range (2 ^ t.M)) (fun s hs => backCellF_ok (D := D) (σ2 := σ2) (lint := lint) h hk hn hy hyp hl e3 (τ := τ) (by omega) (List.mem_range.1 hs))
      refine ⟨normaliseF D ((List.range (2 ^ t.M)).map (cellF D t σ2 ys yp lint τ (cols.getD 0 []))) :: cols, ?_, by simp [e2], by simp [normaliseF], ?_, ?_⟩
      · show ([τ].foldlM _ _ : Py _) = _
        rw [List.foldlM_cons]
        simp only [List.foldlM_nil, backStepF, hhead, hm', bind, Except.bind, pure, Except.pure, List.map_map, Function.comp_def, List.map_cons, eτ]
        rfl
      · rw [List.getD_cons_succ, e4]
      · intro j hj
        match j with
        | 0 => simp
        | j + 1 =>
          have := e5 j (by omega)
          rw [eτ, show τ + 1 + j = τ + (j + 1) by omega] at this
          rw [List.getD_cons_succ, List.getD_cons_succ, this]
  obtain ⟨cols, e1, e2, -, e4, e5⟩ := key L le_rfl
  rw [Nat.sub_self] at e1 e5
  refine ⟨cols, ?_, e2, e4, fun τ hτ => ?_⟩
  · unfold backwardRecF
    rw [hy, List.range_eq_range']
    exact e1
  · have := e5 τ hτ
    rw [Nat.zero_add] at this
    exact this

/-- One cell of the forward recursion. -/
noncomputable def fcellF (D : MapFloats) (t : Trellis) (σ2 : Fl) (ys yp lint : List Fl) (bnext f : List Fl) (τ : Nat)
    (st : List Fl × List Fl) (su : Nat × Nat) : List Fl × List Fl :=
  (st.1.set (t.next su.1 su.2) (flAdd D (st.1.getD (t.next su.1 su.2) .nan)
      (flMul D (flMul D (f.getD su.1 .nan) (gamF D t σ2 ys yp τ su.1 su.2)) (priF D lint τ su.2))),
    st.2.set su.2 (flAdd D (st.2.getD su.2 .nan)
      (flMul D (flMul D (f.getD su.1 .nan) (gamF D t σ2 ys yp τ su.1 su.2)) (bnext.getD (t.next su.1 su.2) .nan))))

/-- The pairs of a state and an input, in the order of the loops. -/
def pairsF (t : Trellis) : List (Nat × Nat) := (List.range (2 ^ t.M)).flatMap (fun s => [(s, 0), (s, 1)])

theorem mem_pairsF {su : Nat × Nat} : su ∈ pairsF t ↔ su.1 < 2 ^ t.M ∧ su.2 < 2 := by
  obtain ⟨s, u⟩ := su
  simp only [pairsF, List.mem_flatMap, List.mem_range, List.mem_cons, Prod.mk.injEq, List.not_mem_nil, or_false]
  constructor
  · rintro ⟨a, ha, ⟨rfl, rfl⟩ | ⟨rfl, rfl⟩⟩ <;> simp [ha]
  · rintro ⟨h1, h2⟩
    refine ⟨s, h1, ?_⟩
    have : u = 0 ∨ u = 1 := by omega
    simpa using this

theorem nodup_pairsF : (pairsF t).Nodup := by
  unfold pairsF
  rw [List.nodup_flatMap]
  refine ⟨fun s _ => by simp, ?_⟩
  refine (List.nodup_range (n := 2 ^ t.M)).imp ?_
  intro a b hab
  simp only [Function.onFun, List.disjoint_left]
  intro x hx hx'
  simp only [List.mem_cons, List.not_mem_nil, or_false] at hx hx'
  rcases hx with rfl | rfl <;> rcases hx' with h | h <;> simp_all

include h hk in
theorem forwardCellF_ok (hl : lint.length = L) {bnext f f1 : List Fl} (hb : bnext.length = 2 ^ t.M) (hf : f.length = 2 ^ t.M)
    (hf1 : f1.length = 2 ^ t.M) {τ : Nat} {su : Nat × Nat} (hτ : τ < L) (hs : su.1 < 2 ^ t.M) (hu : su.2 < 2) (app : List Fl) (happ : app.length = 2) :
    forwardCellF D t (priorRowsF D lint) bnext (brF D t σ2 ys yp τ) f τ (f1, app) su = .ok (fcellF D t σ2 ys yp lint bnext f τ (f1, app) su) := by
  obtain ⟨s, u⟩ := su
  simp only at hs hu
  have hu' : u < 2 ^ t.k := by rw [hk]; omega
  have h1 : tableGet t.nextTable s u = .ok (t.next s u) := tableGet_ok h.next_len (fun r hr => (h.next_row r hr).1) hs hu'
  have hns := h.next_lt hs hu'
  have h2 : pyGet (brF D t σ2 ys yp τ) (s : Int) = .ok [gamF D t σ2 ys yp τ s 0, gamF D t σ2 ys yp τ s 1] := by
    rw [pyGet_ok (by simpa [brF] using hs)]
    simp [brF]
  have h3 : pyGet [gamF D t σ2 ys yp τ s 0, gamF D t σ2 ys yp τ s 1] (u : Int) = .ok (gamF D t σ2 ys yp τ s u) := by
    have hu2 : u = 0 ∨ u = 1 := by omega
    rcases hu2 with rfl | rfl <;> rfl
  have h4 := pyGet_getD (l := f) (i := s) .nan (by omega)
  obtain ⟨row, h5, h6⟩ := priorRowsF_get D lint (τ := τ) (u := u) (by omega) hu
  have h7 := pyGet_getD (l := f1) (i := t.next s u) .nan (by omega)
  have h8 := fun x : Fl => pySet_ok (l := f1) (i := t.next s u) x (by omega)
  have h9 := pyGet_getD (l := bnext) (i := t.next s u) .nan (by omega)
  have h10 := pyGet_getD (l := app) (i := u) .nan (by omega)
  have h11 := fun x : Fl => pySet_ok (l := app) (i := u) x (by omega)
  simp only [forwardCellF, h1, h2, h3, h4, h5, h6, h7, h8, h9, h10, h11, bind, Except.bind, pure, Except.pure, fcellF]

include h hk in
theorem forwardCellsF_ok (hl : lint.length = L) {bnext f : List Fl} (hb : bnext.length = 2 ^ t.M) (hf : f.length = 2 ^ t.M)
    {τ : Nat} (hτ : τ < L) : ∀ (sus : List (Nat × Nat)), (∀ su ∈ sus, su.1 < 2 ^ t.M ∧ su.2 < 2) →
    ∀ (st : List Fl × List Fl), st.1.length = 2 ^ t.M → st.2.length = 2 →
    sus.foldlM (forwardCellF D t (priorRowsF D lint) bnext (brF D t σ2 ys yp τ) f τ) st = .ok (sus.foldl (fcellF D t σ2 ys yp lint bnext f τ) st) ∧
      (sus.foldl (fcellF D t σ2 ys yp lint bnext f τ) st).1.length = 2 ^ t.M ∧ (sus.foldl (fcellF D t σ2 ys yp lint bnext f τ) st).2.length = 2 := by
  intro sus
  induction sus with
  | nil => intro _ st h1 h2; exact ⟨rfl, h1, h2⟩
  | cons su sus ih =>
    intro hsu st h1 h2
    obtain ⟨hs, hu⟩ := hsu su (by simp)
    have hc := forwardCellF_ok (D := D) (σ2 := σ2) (ys := ys) (yp := yp) h hk hl hb hf h1 hτ hs hu st.2 h2
    rw [List.foldlM_cons, hc]
    exact ih (fun su hh => hsu su (List.mem_cons_of_mem _ hh)) (fcellF D t σ2 ys yp lint bnext f τ st su) (by simp [fcellF, h1]) (by simp [fcellF, h2])

open Classical in
include h hk in
/-- One step of the forward recursion. -/
theorem forwardStepF_ok (hl : lint.length = L) {cols : List (List Fl)} (hc1 : cols.length = L + 1) {τ : Nat} (hτ : τ < L)
    (hcl : (cols.getD (τ + 1) []).length = 2 ^ t.M) (decode : Bool) {f : List Fl} (hf : f.length = 2 ^ t.M) (le : List Fl) (bits : List Nat)
    {r : List Fl × List Fl}
    (hr : (pairsF t).foldl (fcellF D t σ2 ys yp lint (cols.getD (τ + 1) []) f τ) (List.replicate (2 ^ t.M) (.fin 0), [.fin 0, .fin 0]) = r)
    {l : Fl} (hll : flAdd D (lint.getD τ .nan) (flLog D (flDiv D (r.2.getD 1 .nan) (r.2.getD 0 .nan))) = l) :
    forwardStepF D t decode lint (priorRowsF D lint) cols ((List.range L).map (brF D t σ2 ys yp)) (f, le, bits) τ =
        .ok (normaliseF D r.1, le ++ [l], bits ++ [if decode then (if l.Pos then 1 else 0) else 0]) ∧ r.1.length = 2 ^ t.M := by
  have g1 : pyGet cols ((τ + 1 : Nat) : Int) = .ok (cols.getD (τ + 1) []) := pyGet_getD [] (by omega)
  have g2 : pyGet ((List.range L).map (brF D t σ2 ys yp)) (τ : Int) = .ok (brF D t σ2 ys yp τ) := by
    rw [pyGet_ok (by simpa using hτ)]; simp
  have hpairs : (List.range (2 ^ t.M)).flatMap (fun s => (List.range (2 ^ t.k)).map (fun u => (s, u))) = pairsF t := by
    rw [hk]; rfl
  obtain ⟨c1, c2, c3⟩ := forwardCellsF_ok (D := D) (σ2 := σ2) (ys := ys) (yp := yp) h hk hl hcl hf hτ (pairsF t) (fun su hsu => mem_pairsF.1 hsu)
    (List.replicate (2 ^ t.M) (.fin 0), [.fin 0, .fin 0]) (by simp) rfl
  rw [hr] at c1 c2 c3
  refine ⟨?_, c2⟩
  have g3 := pyGet_getD (l := lint) (i := τ) .nan (by omega)
  have g4 : pyGet r.2 1 = .ok (r.2.getD 1 .nan) := pyGet_getD (l := r.2) (i := 1) Fl.nan (by omega)
  have g5 : pyGet r.2 0 = .ok (r.2.getD 0 .nan) := pyGet_getD (l := r.2) (i := 0) Fl.nan (by omega)
  have hrep : (List.replicate (2 ^ t.k) (Fl.fin 0)) = [.fin 0, .fin 0] := by rw [hk]; rfl
  simp only [forwardStepF, g1, g2, hpairs, hrep, c1, g3, g4, g5, bind, Except.bind, pure, Except.pure, hll]

open Classical in
include h hk hn in
/-- `map_decode` as an induction over time: `P τ f` is an invariant of the forward metrics, `l τ` the LLRs. -/
theorem mapDecodeF_ok (hy : ys.length = L) (hyp : L ≤ yp.length) (hl : lint.length = L) (mode : String) (P : Nat → List Fl → Prop) (l : Nat → Fl)
    (Q : Nat → List Fl → Prop)
    (hQ0 : Q L (List.replicate (2 ^ t.M) (.fin 1)))
    (hQ : ∀ τ < L, ∀ b, b.length = 2 ^ t.M → Q (τ + 1) b → Q τ (normaliseF D ((List.range (2 ^ t.M)).map (cellF D t σ2 ys yp lint τ b))))
    (hP0 : P 0 ((List.replicate (2 ^ t.M) (.fin 0)).set 0 (.fin 1)))
    (hP : ∀ τ < L, ∀ b f, b.length = 2 ^ t.M → f.length = 2 ^ t.M → Q (τ + 1) b → P τ f → ∀ r,
      (pairsF t).foldl (fcellF D t σ2 ys yp lint b f τ) (List.replicate (2 ^ t.M) (.fin 0), [.fin 0, .fin 0]) = r →
      P (τ + 1) (normaliseF D r.1) ∧ flAdd D (lint.getD τ .nan) (flLog D (flDiv D (r.2.getD 1 .nan) (r.2.getD 0 .nan))) = l τ) :
    mapDecodeF D t σ2 ys yp lint mode = .ok ((List.range L).map l,
      (List.range L).map (fun τ => if mode = "decode" then (if (l τ).Pos then 1 else 0) else 0)) := by
  obtain ⟨cols, e1, e2, e3, e4⟩ := backwardRecF_ok (D := D) (σ2 := σ2) h hk hn hy hyp hl
  have hlen : ∀ τ ≤ L, (cols.getD τ []).length = 2 ^ t.M := by
    intro τ hτ
    rcases Nat.lt_or_ge τ L with h1 | h1
    · rw [e4 τ h1]; simp [normaliseF]
    · rw [show τ = L by omega, e3]; simp
  have hcol : ∀ m ≤ L, Q (L - m) (cols.getD (L - m) []) := by
    intro m
    induction m with
    | zero => intro _; rw [Nat.sub_zero, e3]; exact hQ0
    | succ m ih =>
      intro hm
      have := ih (by omega)
      rw [e4 _ (by omega)]
      rw [show L - m = L - (m + 1) + 1 by omega] at this
      exact hQ _ (by omega) _ (hlen _ (by omega)) this
  have hpri : mapPriorsF D L lint = .ok (priorRowsF D lint) := by
    unfold mapPriorsF
    rw [if_pos (by omega)]
    rfl
  have key : ∀ m ≤ L, ∃ f, (List.range m).foldlM (forwardStepF D t (mode = "decode") lint (priorRowsF D lint) cols ((List.range L).map (brF D t σ2 ys yp)))
        ((List.replicate (2 ^ t.M) (.fin 0)).set 0 (.fin 1), [], []) = .ok (f, (List.range m).map l,
          (List.range m).map (fun τ => if mode = "decode" then (if (l τ).Pos then 1 else 0) else 0)) ∧
      f.length = 2 ^ t.M ∧ P m f := by
    intro m
    induction m with
    | zero => intro _; exact ⟨_, rfl, by simp, hP0⟩
    | succ m ih =>
      intro hm
      obtain ⟨f, k1, k2, k3⟩ := ih (by omega)
      have hq := hcol (L - (m + 1)) (by omega)
      rw [show L - (L - (m + 1)) = m + 1 by omega] at hq
      obtain ⟨p1, p2⟩ := hP m (by omega) _ f (hlen (m + 1) (by omega)) k2 hq k3 _ rfl
      obtain ⟨s1, s2⟩ := forwardStepF_ok (D := D) (σ2 := σ2) (ys := ys) (yp := yp) h hk hl e2 (τ := m) (by omega) (hlen (m + 1) (by omega)) (mode = "decode") k2
        ((List.range m).map l) ((List.range m).map (fun τ => if mode = "decode" then (if (l τ).Pos then 1 else 0) else 0)) rfl p2
      refine ⟨_, ?_, by simpa [normaliseF] using s2, p1⟩
      rw [List.range_succ, List.foldlM_append, k1]
      show ([m].foldlM _ _ : Py _) = _
      rw [List.foldlM_cons, s1]
      simp [bind, Except.bind, pure, Except.pure]
  obtain ⟨f, k1, -⟩ := key L le_rfl
  simp only [mapDecodeF, hy, hpri, e1, bind, Except.bind]
  rw [k1]
  rfl

include h hk hn in
/-- LLRs that are nan give LLRs that are nan, and zero bits. -/
theorem mapDecodeF_nan (hy : ys.length = L) (hyp : L ≤ yp.length) (hl : lint.length = L) (mode : String) (hnan : ∀ τ < L, lint.getD τ .nan = .nan) :
    mapDecodeF D t σ2 ys yp lint mode = .ok ((List.range L).map (fun _ => Fl.nan), (List.range L).map (fun _ => 0)) := by
  classical
  rw [mapDecodeF_ok (D := D) (σ2 := σ2) h hk hn hy hyp hl mode (fun _ _ => True) (fun _ => .nan) (fun _ _ => True) trivial (fun _ _ _ _ _ => trivial) trivial
    (fun τ hτ b f _ _ _ _ r _ => ⟨trivial, by rw [hnan τ hτ]; simp [flAdd]⟩)]
  simp [Fl.Pos]

end Verif
