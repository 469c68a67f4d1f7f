import Verif.Spec.Viterbi
import Verif.Lemmas.Convcode
import Verif.Lemmas.TrellisMatrix
import Mathlib.Algebra.Order.Monoid.WithTop
import Mathlib.Data.List.GetD
/-
Lemmas about the Viterbi decoder model.
-/
namespace Verif

/-! ### argmin -/

theorem argminFirst_spec {β : Type} [LinearOrder β] [d : DecidableRel (α := β) (· < ·)] : ∀ (l : List β), l ≠ [] →
    ∃ h : argminFirst l < l.length, ∀ x ∈ l, l[argminFirst l] ≤ x := by
  intro l
  induction l with
  | nil => intro h; exact absurd rfl h
  | cons x xs ih =>
    intro _
    by_cases hxs : xs = []
    · subst hxs
      have : argminFirst [x] = 0 := by simp [argminFirst]
      refine ⟨by rw [this]; simp, ?_⟩
      intro y hy
      simp only [this, List.getElem_cons_zero]
      simp only [List.mem_singleton] at hy
      rw [hy]
    · obtain ⟨h1, h2⟩ := ih hxs
      have hg : xs.getD (argminFirst xs) x = xs[argminFirst xs] := List.getD_eq_getElem _ _ h1
      by_cases hlt : xs[argminFirst xs] < x
      · have e : argminFirst (x :: xs) = argminFirst xs + 1 := by
          simp only [argminFirst]; rw [if_pos (by rw [hg]; exact hlt)]
        refine ⟨by rw [e]; simpa using h1, ?_⟩
        intro y hy
        simp only [e, List.getElem_cons_succ]
        rcases List.mem_cons.1 hy with rfl | hy
        · exact le_of_lt hlt
        · exact h2 y hy
      · have e : argminFirst (x :: xs) = 0 := by
          simp only [argminFirst]; rw [if_neg (by rw [hg]; exact hlt)]
        refine ⟨by rw [e]; simp, ?_⟩
        intro y hy
        simp only [e, List.getElem_cons_zero]
        rcases List.mem_cons.1 hy with rfl | hy
        · exact le_refl _
        · exact le_trans (not_lt.1 hlt) (h2 y hy)

/-! ### Predecessors -/

theorem mem_preds {t : Trellis} (h : t.WF) {s p u : Nat} :
    (p, u) ∈ preds t s ↔ p < 2 ^ t.M ∧ u < 2 ^ t.k ∧ t.next p u = s := by
  unfold preds
  simp only [List.mem_flatMap, List.mem_map, List.mem_filter, decide_eq_true_eq, Prod.exists, Prod.mk.injEq]
  constructor
  · rintro ⟨row, p', hrow, x, u', ⟨hx, rfl⟩, rfl, rfl⟩
    rw [List.mk_mem_zipIdx_iff_getElem?] at hrow hx
    obtain ⟨hp, hrow⟩ := List.getElem?_eq_some_iff.1 hrow
    obtain ⟨hu, hx⟩ := List.getElem?_eq_some_iff.1 hx
    refine ⟨by rw [← h.next_len]; exact hp, ?_, ?_⟩
    · rw [← (h.next_row row (hrow ▸ List.getElem_mem hp)).1]; exact hu
    · unfold Trellis.next
      rw [List.getD_eq_getElem _ _ hp, hrow, List.getD_eq_getElem _ _ hu, hx]
  · rintro ⟨hp, hu, hn⟩
    have hp' : p < t.nextTable.length := by rw [h.next_len]; exact hp
    have hu' : u < t.nextTable[p].length := by rw [(h.next_row _ (List.getElem_mem hp')).1]; exact hu
    refine ⟨t.nextTable[p], p, ?_, s, u, ⟨?_, rfl⟩, rfl, rfl⟩
    · rw [List.mk_mem_zipIdx_iff_getElem?]; exact List.getElem?_eq_getElem hp'
    · rw [List.mk_mem_zipIdx_iff_getElem?]
      unfold Trellis.next at hn
      rw [List.getD_eq_getElem _ _ hp', List.getD_eq_getElem _ _ hu'] at hn
      rw [List.getElem?_eq_getElem hu', hn]

theorem Trellis.Balanced.preds_ne {t : Trellis} (h : t.Balanced) {s : Nat} (hs : s < 2 ^ t.M) : preds t s ≠ [] := by
  intro h0
  have := h.fan_in s hs
  rw [h0, List.length_nil] at this
  have h2 := Nat.two_pow_pos t.k
  omega

/-! ### Add-compare-select as a function -/

section
variable {R α : Type} [LinearOrder R] [Add R] [Zero R]

/-- Candidate metrics into state `s`. -/
def candidates (t : Trellis) (pm : List (WithTop R)) (μ : Nat → Nat → R) (s : Nat) : List (WithTop R) :=
  (preds t s).map fun e => pm.getD e.1 ⊤ + (μ e.1 e.2 : WithTop R)

/-- The selected metric, previous state and input. -/
def bestOf (t : Trellis) (pm : List (WithTop R)) (μ : Nat → Nat → R) (s : Nat) : WithTop R × Nat × Nat :=
  ((candidates t pm μ s).getD (argminFirst (candidates t pm μ s)) ⊤,
    (preds t s).getD (argminFirst (candidates t pm μ s)) (0, 0))

theorem bestOf_spec {t : Trellis} (h : t.Balanced) (pm : List (WithTop R)) (μ : Nat → Nat → R) {s : Nat}
    (hs : s < 2 ^ t.M) :
    (bestOf t pm μ s).2.1 < 2 ^ t.M ∧ (bestOf t pm μ s).2.2 < 2 ^ t.k ∧
    t.next (bestOf t pm μ s).2.1 (bestOf t pm μ s).2.2 = s ∧
    (bestOf t pm μ s).1 = pm.getD (bestOf t pm μ s).2.1 ⊤ + (μ (bestOf t pm μ s).2.1 (bestOf t pm μ s).2.2 : WithTop R) ∧
    ∀ p u, p < 2 ^ t.M → u < 2 ^ t.k → t.next p u = s → (bestOf t pm μ s).1 ≤ pm.getD p ⊤ + (μ p u : WithTop R) := by
  have hne : candidates t pm μ s ≠ [] := by
    unfold candidates
    intro h0
    exact h.preds_ne hs (List.map_eq_nil_iff.1 h0)
  obtain ⟨hlt, hmin⟩ := argminFirst_spec (candidates t pm μ s) hne
  have hlt' : argminFirst (candidates t pm μ s) < (preds t s).length := by
    simpa [candidates] using hlt
  have e2 : (bestOf t pm μ s).2 = (preds t s)[argminFirst (candidates t pm μ s)] := by
    unfold bestOf; simp only; exact List.getD_eq_getElem _ _ hlt'
  have e1 : (bestOf t pm μ s).1 = (candidates t pm μ s)[argminFirst (candidates t pm μ s)] := by
    unfold bestOf; simp only; exact List.getD_eq_getElem _ _ hlt
  have hmem : ((bestOf t pm μ s).2.1, (bestOf t pm μ s).2.2) ∈ preds t s := by
    rw [Prod.mk.eta, e2]; exact List.getElem_mem hlt'
  obtain ⟨h1, h2, h3⟩ := (mem_preds h.wf).1 hmem
  refine ⟨h1, h2, h3, ?_, ?_⟩
  · rw [e1, e2]; unfold candidates; simp
  · intro p u hp hu hn
    rw [e1]
    apply hmin
    unfold candidates
    rw [List.mem_map]
    exact ⟨(p, u), (mem_preds h.wf).2 ⟨hp, hu, hn⟩, rfl⟩

theorem acsState_ok {t : Trellis} (h : t.Balanced) {bm : List α → List Nat → Py R} {r : List α} {μ : Nat → Nat → R}
    (hbm : ∀ p < 2 ^ t.M, ∀ u < 2 ^ t.k, bm r (toBits t.n (t.out p u)) = .ok (μ p u))
    {pm : List (WithTop R)} (hpm : pm.length = 2 ^ t.M) {s : Nat} (hs : s < 2 ^ t.M)
    (pmet : List (WithTop R)) (idx : List (Nat × Nat)) (acc : List (WithTop R × Nat × Nat))
    (h1 : pmet.length = 2 ^ t.k) (h2 : idx.length = 2 ^ t.M) :
    ∃ pmet' idx', pmet'.length = 2 ^ t.k ∧ idx'.length = 2 ^ t.M ∧
      acsState t bm r pm (pmet, idx, acc) s = .ok (pmet', idx', acc ++ [bestOf t pm μ s]) := by
  have hf := h.fan_in s hs
  have hkM : 2 ^ t.k ≤ 2 ^ t.M := Nat.pow_le_pow_right (by omega) h.k_le
  have hvals : ((preds t s).mapM fun e => (do
      let o ← tableGet t.outTable e.1 e.2
      let c ← dec2bitarray o t.n
      let b ← bm r c
      let m ← pyGet pm (e.1 : Int)
      pure (m + (b : WithTop R)) : Py (WithTop R))) = .ok (candidates t pm μ s) := by
    refine mapM_ok _ ?_
    rintro ⟨p, u⟩ hpu
    obtain ⟨hp, hu, hn⟩ := (mem_preds h.wf).1 hpu
    rw [tableGet_ok h.wf.out_len (fun r hr => (h.wf.out_row r hr).1) hp hu]
    simp only [bind, Except.bind]
    rw [show (t.outTable.getD p []).getD u 0 = t.out p u from rfl, dec2bitarray_ok (h.wf.out_lt hp hu)]
    simp only
    rw [hbm p hp u hu]
    simp only
    rw [pyGet_ok (by rw [hpm]; exact hp)]
    simp only [pure, Except.pure]
    rw [List.getD_eq_getElem _ _ (by rw [hpm]; exact hp)]
  have hne : candidates t pm μ s ≠ [] := by
    unfold candidates
    intro h0
    exact h.preds_ne hs (List.map_eq_nil_iff.1 h0)
  obtain ⟨hlt, hmin⟩ := argminFirst_spec (candidates t pm μ s) hne
  have hcl : (candidates t pm μ s).length = 2 ^ t.k := by simp [candidates, hf]
  have hov : overwrite (candidates t pm μ s) pmet = candidates t pm μ s := by
    unfold overwrite; rw [hcl, ← h1]; simp
  refine ⟨candidates t pm μ s, overwrite (preds t s) idx, hcl, ?_, ?_⟩
  · unfold overwrite; rw [List.length_append, List.length_drop, hf, h2]; omega
  · unfold acsState
    simp only [hf]
    rw [if_neg (by omega), if_neg (by omega)]
    simp only [bind, Except.bind] at hvals ⊢
    rw [hvals]
    simp only [hov]
    rw [pyGet_ok hlt]
    simp only
    have hlt' : argminFirst (candidates t pm μ s) < (preds t s).length := by rw [hf, ← hcl]; exact hlt
    rw [pyGet_ok (by unfold overwrite; rw [List.length_append]; omega)]
    simp only [pure, Except.pure]
    congr 4
    unfold bestOf
    rw [List.getD_eq_getElem _ _ hlt, List.getD_eq_getElem _ _ hlt']
    unfold overwrite
    rw [List.getElem_append_left hlt']

theorem acs_ok {t : Trellis} (h : t.Balanced) {bm : List α → List Nat → Py R} {r : List α} {μ : Nat → Nat → R}
    (hbm : ∀ p < 2 ^ t.M, ∀ u < 2 ^ t.k, bm r (toBits t.n (t.out p u)) = .ok (μ p u))
    {pm : List (WithTop R)} (hpm : pm.length = 2 ^ t.M) : ∀ (ss : List Nat), (∀ s ∈ ss, s < 2 ^ t.M) →
    ∀ (pmet : List (WithTop R)) (idx : List (Nat × Nat)) (acc : List (WithTop R × Nat × Nat)),
    pmet.length = 2 ^ t.k → idx.length = 2 ^ t.M →
    ∃ x y, ss.foldlM (acsState t bm r pm) (pmet, idx, acc) = .ok (x, y, acc ++ ss.map (bestOf t pm μ)) := by
  intro ss
  induction ss with
  | nil => intro _ pmet idx acc _ _; exact ⟨pmet, idx, by simp [pure, Except.pure]⟩
  | cons s ss ih =>
    intro hss pmet idx acc h1 h2
    obtain ⟨pmet', idx', h1', h2', e⟩ := acsState_ok h hbm hpm (hss s (by simp)) pmet idx acc h1 h2
    obtain ⟨x, y, e'⟩ := ih (fun s' hs' => hss s' (by simp [hs'])) pmet' idx' (acc ++ [bestOf t pm μ s]) h1' h2'
    refine ⟨x, y, ?_⟩
    rw [List.foldlM_cons, e]
    simp only [bind, Except.bind]
    rw [e']
    simp

/-! ### The sequence of metrics and survivors -/

/-- Path metrics after `τ` steps. -/
def pmSeq (t : Trellis) (μ : Nat → Nat → Nat → R) : Nat → List (WithTop R)
  | 0 => (List.range (2 ^ t.M)).map fun s => if s = 0 then ((0 : R) : WithTop R) else ⊤
  | τ + 1 => (List.range (2 ^ t.M)).map fun s => (bestOf t (pmSeq t μ τ) (μ (τ + 1)) s).1

/-- Previous state chosen at step `τ ≥ 1` in state `s`. -/
def prevAt (t : Trellis) (μ : Nat → Nat → Nat → R) (τ s : Nat) : Nat := (bestOf t (pmSeq t μ (τ - 1)) (μ τ) s).2.1
/-- Input chosen at step `τ ≥ 1` in state `s`. -/
def symChosen (t : Trellis) (μ : Nat → Nat → Nat → R) (τ s : Nat) : Nat := (bestOf t (pmSeq t μ (τ - 1)) (μ τ) s).2.2

/-- Input symbols of the survivor of state `s` after `τ` steps. -/
def survivor (t : Trellis) (μ : Nat → Nat → Nat → R) : Nat → Nat → List Nat
  | 0, _ => []
  | τ + 1, s => survivor t μ τ (prevAt t μ (τ + 1) s) ++ [symChosen t μ (τ + 1) s]

@[simp] theorem pmSeq_length (t : Trellis) (μ : Nat → Nat → Nat → R) (τ : Nat) : (pmSeq t μ τ).length = 2 ^ t.M := by
  cases τ <;> simp [pmSeq]

@[simp] theorem survivor_length (t : Trellis) (μ : Nat → Nat → Nat → R) (τ s : Nat) : (survivor t μ τ s).length = τ := by
  induction τ generalizing s with
  | zero => rfl
  | succ τ ih => simp [survivor, ih]

theorem pmSeq_succ_getD {t : Trellis} {μ : Nat → Nat → Nat → R} {τ s : Nat} (hs : s < 2 ^ t.M) :
    (pmSeq t μ (τ + 1)).getD s ⊤ = (bestOf t (pmSeq t μ τ) (μ (τ + 1)) s).1 := by
  rw [pmSeq, getD_map_range _ _ hs]

theorem prevAt_lt {t : Trellis} (h : t.Balanced) {μ : Nat → Nat → Nat → R} {τ s : Nat} (hs : s < 2 ^ t.M) :
    prevAt t μ τ s < 2 ^ t.M := (bestOf_spec h _ _ hs).1
theorem symChosen_lt {t : Trellis} (h : t.Balanced) {μ : Nat → Nat → Nat → R} {τ s : Nat} (hs : s < 2 ^ t.M) :
    symChosen t μ τ s < 2 ^ t.k := (bestOf_spec h _ _ hs).2.1

theorem survivor_lt {t : Trellis} (h : t.Balanced) {μ : Nat → Nat → Nat → R} : ∀ (τ s : Nat), s < 2 ^ t.M →
    ∀ u ∈ survivor t μ τ s, u < 2 ^ t.k := by
  intro τ
  induction τ with
  | zero => intro s _ u hu; simp [survivor] at hu
  | succ τ ih =>
    intro s hs u hu
    simp only [survivor, List.mem_append, List.mem_singleton] at hu
    rcases hu with hu | rfl
    · exact ih _ (prevAt_lt h hs) u hu
    · exact symChosen_lt h hs

/-- The path selected after `τ` steps: the survivor of the first state with minimal metric. -/
def bestPath (t : Trellis) (μ : Nat → Nat → Nat → R) (τ : Nat) : List Nat :=
  survivor t μ τ (argminFirst (pmSeq t μ τ))

theorem argmin_pmSeq_lt (t : Trellis) (μ : Nat → Nat → Nat → R) (τ : Nat) : argminFirst (pmSeq t μ τ) < 2 ^ t.M := by
  have hne : pmSeq t μ τ ≠ [] := by
    intro h0
    have := pmSeq_length t μ τ
    rw [h0, List.length_nil] at this
    have h2 := Nat.two_pow_pos t.M
    omega
  obtain ⟨h, _⟩ := argminFirst_spec (pmSeq t μ τ) hne
  rw [pmSeq_length] at h
  exact h

end

section
variable {R α : Type} [LinearOrder R] [AddCommMonoid R]

theorem pathCost_snoc (t : Trellis) (μ : Nat → Nat → Nat → R) : ∀ (us : List Nat) (τ s u : Nat),
    pathCost t μ τ s (us ++ [u]) = pathCost t μ τ s us + μ (τ + us.length + 1) (t.runState s us) u := by
  intro us
  induction us with
  | nil => intro τ s u; simp [pathCost, Trellis.runState]
  | cons v us ih =>
    intro τ s u
    rw [List.cons_append, pathCost, ih, pathCost, Trellis.runState_cons, List.length_cons,
      show τ + 1 + us.length + 1 = τ + (us.length + 1) + 1 by omega, add_assoc (μ (τ + 1) s v)]

theorem survivor_spec {t : Trellis} (h : t.Balanced) {μ : Nat → Nat → Nat → R} : ∀ (τ s : Nat), s < 2 ^ t.M →
    (pmSeq t μ τ).getD s ⊤ ≠ ⊤ → t.runState 0 (survivor t μ τ s) = s ∧
      (pmSeq t μ τ).getD s ⊤ = ((pathCost t μ 0 0 (survivor t μ τ s) : R) : WithTop R) := by
  intro τ
  induction τ with
  | zero =>
    intro s hs hne
    rw [pmSeq, getD_map_range _ _ hs] at hne ⊢
    by_cases h0 : s = 0
    · subst h0; simp [survivor, Trellis.runState, pathCost]
    · rw [if_neg h0] at hne; exact absurd rfl hne
  | succ τ ih =>
    intro s hs hne
    have hb := bestOf_spec h (pmSeq t μ τ) (μ (τ + 1)) hs
    rw [pmSeq_succ_getD hs] at hne ⊢
    have hp : prevAt t μ (τ + 1) s = (bestOf t (pmSeq t μ τ) (μ (τ + 1)) s).2.1 := rfl
    have hu : symChosen t μ (τ + 1) s = (bestOf t (pmSeq t μ τ) (μ (τ + 1)) s).2.2 := rfl
    obtain ⟨h1, h2, h3, h4, h5⟩ := hb
    have hne' : (pmSeq t μ τ).getD (bestOf t (pmSeq t μ τ) (μ (τ + 1)) s).2.1 ⊤ ≠ ⊤ := by
      intro h0; rw [h4, h0] at hne; simp at hne
    obtain ⟨i1, i2⟩ := ih _ h1 hne'
    constructor
    · rw [survivor, Trellis.runState_append, hp, i1, hu]
      simpa [Trellis.runState] using h3
    · rw [h4, i2, survivor, pathCost_snoc, hp, hu, i1, survivor_length, Nat.zero_add, WithTop.coe_add]

variable [IsOrderedAddMonoid R]

theorem pmSeq_le {t : Trellis} (h : t.Balanced) {μ : Nat → Nat → Nat → R} : ∀ (us : List Nat), (∀ u ∈ us, u < 2 ^ t.k) →
    (pmSeq t μ us.length).getD (t.runState 0 us) ⊤ ≤ ((pathCost t μ 0 0 us : R) : WithTop R) := by
  intro us
  induction us using List.reverseRecOn with
  | nil =>
    intro _
    rw [List.length_nil, pmSeq, getD_map_range _ _ (by show (0 : Nat) < _; positivity)]
    simp [pathCost, Trellis.runState]
  | append_singleton us u ih =>
    intro hu
    have hus : ∀ v ∈ us, v < 2 ^ t.k := fun v hv => hu v (by simp [hv])
    have hs : t.runState 0 us < 2 ^ t.M := h.wf.runState_lt (by positivity) hus
    have hu0 : u < 2 ^ t.k := hu u (by simp)
    have hs' : t.next (t.runState 0 us) u < 2 ^ t.M := h.wf.next_lt hs hu0
    rw [List.length_append, List.length_cons, List.length_nil, Nat.zero_add, Trellis.runState_append]
    show (pmSeq t μ (us.length + 1)).getD (t.next (t.runState 0 us) u) ⊤ ≤ _
    rw [pmSeq_succ_getD hs', pathCost_snoc, Nat.zero_add, WithTop.coe_add]
    refine le_trans ((bestOf_spec h _ _ hs').2.2.2.2 _ _ hs hu0 rfl) ?_
    exact add_le_add_left (ih hus) _

theorem bestPath_isMin {t : Trellis} (h : t.Balanced) (μ : Nat → Nat → Nat → R) (τ : Nat) :
    IsMinPath t μ τ (bestPath t μ τ) := by
  have hlt := argmin_pmSeq_lt t μ τ
  have hne : pmSeq t μ τ ≠ [] := by
    intro h0
    have := pmSeq_length t μ τ
    rw [h0, List.length_nil] at this
    have h2 := Nat.two_pow_pos t.M
    omega
  obtain ⟨hl, hmin⟩ := argminFirst_spec (pmSeq t μ τ) hne
  have hle : ∀ vs, IsInput t τ vs →
      (pmSeq t μ τ).getD (argminFirst (pmSeq t μ τ)) ⊤ ≤ ((pathCost t μ 0 0 vs : R) : WithTop R) := by
    rintro vs ⟨rfl, hv⟩
    refine le_trans ?_ (pmSeq_le h vs hv)
    have hs : t.runState 0 vs < 2 ^ t.M := h.wf.runState_lt (by positivity) hv
    rw [List.getD_eq_getElem _ _ hl, List.getD_eq_getElem _ _ (by rw [pmSeq_length]; exact hs)]
    exact hmin _ (List.getElem_mem _)
  have hfin : (pmSeq t μ τ).getD (argminFirst (pmSeq t μ τ)) ⊤ ≠ ⊤ := by
    have := hle (List.replicate τ 0) ⟨by simp, fun u hu => by
      rw [List.eq_of_mem_replicate hu]; positivity⟩
    intro h0
    rw [h0, top_le_iff] at this
    exact WithTop.coe_ne_top this
  have hsp := survivor_spec h τ _ hlt hfin
  refine ⟨⟨survivor_length _ _ _ _, survivor_lt h τ _ hlt⟩, ?_⟩
  intro vs hv
  have := hle vs hv
  rw [hsp.2] at this
  exact WithTop.coe_le_coe.1 this

/-- Every state's path metric is the minimum of the costs of the paths into it (`⊤` if there is none). -/
theorem pmSeq_min {t : Trellis} (h : t.Balanced) (μ : Nat → Nat → Nat → R) (τ : Nat) {s : Nat} (hs : s < 2 ^ t.M) :
    (∀ us, IsInput t τ us → t.runState 0 us = s → (pmSeq t μ τ).getD s ⊤ ≤ ((pathCost t μ 0 0 us : R) : WithTop R)) ∧
    ((pmSeq t μ τ).getD s ⊤ = ⊤ ∨ ∃ us, IsInput t τ us ∧ t.runState 0 us = s ∧
      (pmSeq t μ τ).getD s ⊤ = ((pathCost t μ 0 0 us : R) : WithTop R)) := by
  constructor
  · rintro us ⟨rfl, hu⟩ rfl
    exact pmSeq_le h us hu
  · by_cases h0 : (pmSeq t μ τ).getD s ⊤ = ⊤
    · exact Or.inl h0
    · obtain ⟨h1, h2⟩ := survivor_spec h τ s hs h0
      exact Or.inr ⟨_, ⟨survivor_length _ _ _ _, survivor_lt h τ s hs⟩, h1, h2⟩

end
end Verif
