import Verif.Props.Mimo
import Mathlib.Order.Bounds.Basic
/-
C72: the max-log approximation.
-/
namespace Verif

theorem minInf_fold_le : ∀ (l : List ℝ) (acc : EReal), l.foldl (fun acc (x : ℝ) => min acc (x : EReal)) acc ≤ acc ∧
    ∀ x ∈ l, l.foldl (fun acc (x : ℝ) => min acc (x : EReal)) acc ≤ (x : EReal) := by
  intro l
  induction l with
  | nil => intro acc; exact ⟨le_rfl, by simp⟩
  | cons a l ih =>
    intro acc
    rw [List.foldl_cons]
    obtain ⟨h1, h2⟩ := ih (min acc (a : EReal))
    refine ⟨h1.trans (min_le_left _ _), ?_⟩
    intro x hx
    rcases List.mem_cons.1 hx with rfl | hx
    · exact h1.trans (min_le_right _ _)
    · exact h2 x hx

theorem le_minInf_fold : ∀ (l : List ℝ) (acc b : EReal), b ≤ acc → (∀ x ∈ l, b ≤ (x : EReal)) →
    b ≤ l.foldl (fun acc (x : ℝ) => min acc (x : EReal)) acc := by
  intro l
  induction l with
  | nil => intro acc b h _; exact h
  | cons a l ih =>
    intro acc b h1 h2
    rw [List.foldl_cons]
    exact ih _ _ (le_min h1 (h2 a (by simp))) fun x hx => h2 x (by simp [hx])

theorem minInf_least {l : List ℝ} {d : ℝ} (hd : IsLeast {x | x ∈ l} d) : minInf l = (d : EReal) := by
  apply le_antisymm
  · exact (minInf_fold_le l ⊤).2 d hd.1
  · exact le_minInf_fold l ⊤ _ le_top fun x hx => EReal.coe_le_coe_iff.2 (hd.2 hx)

/-- Squared distances of the candidates whose word has value `v` at position `k`. -/
def candDist (rows : Nat) (y : Nat → ℂ) (h : Nat → Nat → ℂ) (points : List (List ℂ)) (words : List (List Nat)) (k v : Nat) : Set ℝ :=
  {d | ∃ p < points.length, (words.getD p []).getD k 0 = v ∧ d = sqErr rows y h (points.getD p [])}

theorem flatten_getD_word : ∀ {words : List (List Nat)} {nb : Nat}, (∀ w ∈ words, w.length = nb) → ∀ {p k : Nat}, p < words.length →
    k < nb → words.flatten.getD (p * nb + k) 0 = (words.getD p []).getD k 0 := by
  intro words
  induction words with
  | nil => intro nb _ p k hp; simp at hp
  | cons w ws ih =>
    intro nb hw p k hp hk
    have hwl := hw w (by simp)
    rw [List.flatten_cons, List.getD_eq_getElem?_getD]
    cases p with
    | zero =>
      rw [Nat.zero_mul, Nat.zero_add, List.getElem?_append_left (by omega), ← List.getD_eq_getElem?_getD]
      rfl
    | succ p =>
      rw [List.getElem?_append_right (by rw [hwl, Nat.succ_mul]; omega),
        show (p + 1) * nb + k - w.length = p * nb + k by rw [hwl, Nat.succ_mul]; omega, ← List.getD_eq_getElem?_getD,
        ih (fun w hw' => hw w (by simp [hw'])) (by simpa using hp) hk]
      rfl

theorem norms_set {rows : Nat} {y : Nat → ℂ} {h : Nat → Nat → ℂ} {points : List (List ℂ)} {words : List (List Nat)} {nb k v : Nat}
    (hlen : words.length = points.length) (hw : ∀ w ∈ words, w.length = nb) (hk : k < nb) :
    {x | x ∈ (points.zipIdx.filter fun e => words.flatten.getD (e.2 * nb + k) 0 = v).map fun e => residualSq rows y h e.1} =
      candDist rows y h points words k v := by
  ext d
  simp only [Set.mem_setOf_eq, candDist, List.mem_map, List.mem_filter, decide_eq_true_eq]
  constructor
  · rintro ⟨⟨x, p⟩, ⟨hmem, hb⟩, rfl⟩
    obtain ⟨_, hp2, hx⟩ := List.mem_zipIdx hmem
    have hp : p < points.length := by simpa using hp2
    refine ⟨p, hp, ?_, ?_⟩
    · rw [← flatten_getD_word hw (by omega) hk]; exact hb
    · rw [residualSq_eq, List.getD_eq_getElem _ _ hp]
      simp only [hx, Nat.sub_zero]
  · rintro ⟨p, hp, hb, rfl⟩
    refine ⟨(points[p], p), ⟨?_, ?_⟩, ?_⟩
    · rw [List.mem_zipIdx_iff_getElem?]
      simp [hp]
    · rw [flatten_getD_word hw (by omega) hk]; exact hb
    · rw [residualSq_eq, List.getD_eq_getElem _ _ hp]

theorem finite_cands (rows : Nat) (y : Nat → ℂ) (h : Nat → Nat → ℂ) (points : List (List ℂ)) (words : List (List Nat)) (k v : Nat)
    (hne : (candDist rows y h points words k v).Nonempty) : ∃ d, IsLeast (candDist rows y h points words k v) d := by
  have hfin : (candDist rows y h points words k v).Finite := by
    apply Set.Finite.subset (((List.range points.length).map fun p => sqErr rows y h (points.getD p [])).finite_toSet)
    rintro d ⟨p, hp, _, rfl⟩
    exact List.mem_map.2 ⟨p, List.mem_range.2 hp, rfl⟩
  obtain ⟨d, hd, hmin⟩ := Set.exists_min_image _ id hfin hne
  exact ⟨d, hd, fun x hx => hmin x hx⟩

section
variable {rows nb : Nat} {y : Nat → ℂ} {h : Nat → Nat → ℂ} {points : List (List ℂ)} {words : List (List Nat)} {nv : ℝ}
  {demode : List ℂ → List Nat}

/-- C72. For every list of candidates: each returned value is the difference between the smallest squared distance among the
candidates with bit 1 and the smallest among those with bit 0, divided by twice the noise variance; it is `+∞` when no candidate
has bit 1 and `-∞` when none has bit 0. -/
theorem C72_values (hp : points ≠ []) (hlen : words.length = points.length) (hw : ∀ w ∈ words, w.length = nb)
    (hdem : demode points.flatten = words.flatten) (hnv : 0 < nv) :
    ∃ llr, maxLogApprox rows y h nv points demode = .ok llr ∧ llr.length = nb ∧ ∀ k < nb,
      (∀ d0 d1, IsLeast (candDist rows y h points words k 0) d0 → IsLeast (candDist rows y h points words k 1) d1 →
        llr.getD k 0 = (((d1 - d0) / (2 * nv) : ℝ) : EReal)) ∧
      ((candDist rows y h points words k 0).Nonempty → candDist rows y h points words k 1 = ∅ → llr.getD k 0 = ⊤) ∧
      (candDist rows y h points words k 0 = ∅ → (candDist rows y h points words k 1).Nonempty → llr.getD k 0 = ⊥) := by
  have hpl : 0 < points.length := List.length_pos_iff.2 hp
  have hbl : words.flatten.length = points.length * nb := by
    rw [List.length_flatten, List.map_congr_left (g := fun _ => nb) hw]
    simp [hlen]
  have hdiv : words.flatten.length / points.length = nb := by rw [hbl, Nat.mul_div_cancel_left _ hpl]
  refine ⟨(List.range nb).map fun k =>
    -(minInf ((points.zipIdx.filter fun e => words.flatten.getD (e.2 * nb + k) 0 = 0).map fun e => residualSq rows y h e.1) -
      minInf ((points.zipIdx.filter fun e => words.flatten.getD (e.2 * nb + k) 0 = 1).map fun e => residualSq rows y h e.1)) /
        ((2 * nv : ℝ) : EReal), ?_, by simp, ?_⟩
  · unfold maxLogApprox
    simp only [hdem]
    rw [if_neg (by rw [hbl, Nat.mul_mod_right]; omega), hdiv]
  · intro k hk
    rw [List.getD_eq_getElem _ _ (by simpa using hk)]
    simp only [List.getElem_map, List.getElem_range]
    have h0 := norms_set (rows := rows) (y := y) (h := h) (v := 0) hlen hw hk
    have h1 := norms_set (rows := rows) (y := y) (h := h) (v := 1) hlen hw hk
    have hpos : (0 : EReal) < ((2 * nv : ℝ) : EReal) := EReal.coe_pos.2 (by positivity)
    refine ⟨?_, ?_, ?_⟩
    · intro d0 d1 hd0 hd1
      rw [minInf_least (by rw [h0]; exact hd0), minInf_least (by rw [h1]; exact hd1), ← EReal.coe_sub, ← EReal.coe_neg,
        ← EReal.coe_div]
      congr 2
      ring
    · intro hne hem
      obtain ⟨d0, hd0⟩ := finite_cands rows y h points words k 0 hne
      rw [minInf_least (by rw [h0]; exact hd0)]
      rw [hem] at h1
      have : ((points.zipIdx.filter fun e => words.flatten.getD (e.2 * nb + k) 0 = 1).map fun e => residualSq rows y h e.1) = [] :=
        List.eq_nil_iff_forall_not_mem.2 fun x hx => by
          have : x ∈ (∅ : Set ℝ) := by rw [← h1]; exact hx
          exact this
      rw [this]
      show -((d0 : EReal) - ⊤) / _ = ⊤
      rw [EReal.sub_top, EReal.neg_bot, EReal.top_div_of_pos_ne_top hpos (EReal.coe_ne_top _)]
    · intro hem hne
      obtain ⟨d1, hd1⟩ := finite_cands rows y h points words k 1 hne
      rw [minInf_least (l := (points.zipIdx.filter fun e => words.flatten.getD (e.2 * nb + k) 0 = 1).map _) (by rw [h1]; exact hd1)]
      rw [hem] at h0
      have : ((points.zipIdx.filter fun e => words.flatten.getD (e.2 * nb + k) 0 = 0).map fun e => residualSq rows y h e.1) = [] :=
        List.eq_nil_iff_forall_not_mem.2 fun x hx => by
          have : x ∈ (∅ : Set ℝ) := by rw [← h0]; exact hx
          exact this
      rw [this]
      show -(⊤ - (d1 : EReal)) / _ = ⊥
      rw [EReal.top_sub_coe, EReal.neg_top, EReal.bot_div_of_pos_ne_top hpos (EReal.coe_ne_top _)]

/-- C72. The sign decides for the bit of the closest candidate: a positive value means that every closest candidate has bit 0, a
negative one that it has bit 1. -/
theorem C72_sign (hp : points ≠ []) (hlen : words.length = points.length) (hw : ∀ w ∈ words, w.length = nb)
    (hbits : ∀ w ∈ words, ∀ b ∈ w, b = 0 ∨ b = 1) (hdem : demode points.flatten = words.flatten) (hnv : 0 < nv) :
    ∃ llr, maxLogApprox rows y h nv points demode = .ok llr ∧ llr.length = nb ∧
      ∀ k < nb, ∀ p < points.length, (∀ p' < points.length, sqErr rows y h (points.getD p []) ≤ sqErr rows y h (points.getD p' [])) →
        (0 < llr.getD k 0 → (words.getD p []).getD k 0 = 0) ∧ (llr.getD k 0 < 0 → (words.getD p []).getD k 0 = 1) := by
  obtain ⟨llr, he, hl, hv⟩ := C72_values (rows := rows) (y := y) (h := h) hp hlen hw hdem hnv
  refine ⟨llr, he, hl, ?_⟩
  intro k hk p hpl hmin
  obtain ⟨hA, hB, hC⟩ := hv k hk
  have hbit : (words.getD p []).getD k 0 = 0 ∨ (words.getD p []).getD k 0 = 1 := by
    rw [List.getD_eq_getElem _ _ (show p < words.length by omega)]
    have hm := List.getElem_mem (show p < words.length by omega)
    rw [List.getD_eq_getElem _ _ (by rw [hw _ hm]; exact hk)]
    exact hbits _ hm _ (List.getElem_mem _)
  have hself : ∀ v, (words.getD p []).getD k 0 = v → IsLeast (candDist rows y h points words k v) (sqErr rows y h (points.getD p [])) := by
    intro v hv
    refine ⟨⟨p, hpl, hv, rfl⟩, ?_⟩
    rintro d ⟨p', hp', _, rfl⟩
    exact hmin p' hp'
  have hle : ∀ v d, IsLeast (candDist rows y h points words k v) d → sqErr rows y h (points.getD p []) ≤ d := by
    rintro v d ⟨⟨p', hp', _, rfl⟩, _⟩
    exact hmin p' hp'
  constructor
  · intro hpos
    rcases hbit with hb | hb
    · exact hb
    · exfalso
      have hS1 := hself 1 hb
      rcases Set.eq_empty_or_nonempty (candDist rows y h points words k 0) with he | hne
      · rw [hC he ⟨_, hS1.1⟩] at hpos
        exact absurd hpos (by simp)
      · obtain ⟨d0, hd0⟩ := finite_cands rows y h points words k 0 hne
        rw [hA d0 _ hd0 hS1, EReal.coe_pos] at hpos
        have := hle 0 d0 hd0
        have h2 : (sqErr rows y h (points.getD p []) - d0) / (2 * nv) ≤ 0 :=
          div_nonpos_of_nonpos_of_nonneg (by linarith) (by positivity)
        linarith
  · intro hneg
    rcases hbit with hb | hb
    · exfalso
      have hS0 := hself 0 hb
      rcases Set.eq_empty_or_nonempty (candDist rows y h points words k 1) with he | hne
      · rw [hB ⟨_, hS0.1⟩ he] at hneg
        exact absurd hneg (by simp)
      · obtain ⟨d1, hd1⟩ := finite_cands rows y h points words k 1 hne
        rw [hA _ d1 hS0 hd1, ← EReal.coe_zero, EReal.coe_lt_coe_iff] at hneg
        have := hle 1 d1 hd1
        have h2 : 0 ≤ (d1 - sqErr rows y h (points.getD p [])) / (2 * nv) :=
          div_nonneg (by linarith) (by positivity)
        linarith
    · exact hb

/-- C72. No candidates, or words that cannot be divided equally among them, raise ValueError. -/
theorem C72_refused : (maxLogApprox rows y h nv [] demode = .error .valueError) ∧
    ((demode points.flatten).length % points.length ≠ 0 → maxLogApprox rows y h nv points demode = .error .valueError) := by
  constructor
  · unfold maxLogApprox
    simp
  · intro hm
    unfold maxLogApprox
    simp only []
    rw [if_pos (Or.inr hm)]

end

/-- Two candidates on one antenna: the hypotheses are met, and the value is as computed by hand. -/
example : ∃ llr, maxLogApprox 1 (fun _ => 3) (fun _ _ => 1) 2 [[1], [-1]] (fun l => if l = [1, -1] then [0, 1] else []) = .ok llr ∧
    llr.getD 0 0 = ((3 : ℝ) : EReal) := by
  obtain ⟨llr, he, _, hv⟩ := C72_values (rows := 1) (nb := 1) (y := fun _ => 3) (h := fun _ _ => 1) (points := [[1], [-1]])
    (words := [[0], [1]]) (nv := 2) (demode := fun l => if l = [1, -1] then [0, 1] else []) (by simp) rfl (by simp) (by simp) (by norm_num)
  refine ⟨llr, he, ?_⟩
  have e0 : sqErr 1 (fun _ => 3) (fun _ _ => 1) [1] = 4 := by simp [sqErr]; norm_num
  have e1 : sqErr 1 (fun _ => 3) (fun _ _ => 1) [-1] = 16 := by simp [sqErr]; norm_num
  rw [(hv 0 (by norm_num)).1 4 16 ⟨⟨0, by simp, by simp, by rw [← e0]; rfl⟩, ?_⟩ ⟨⟨1, by simp, by simp, by rw [← e1]; rfl⟩, ?_⟩]
  · norm_num
  · rintro d ⟨p, hp, hb, rfl⟩
    simp only [List.length_cons, List.length_nil] at hp
    interval_cases p
    · rw [← e0]; rfl
    · simp at hb
  · rintro d ⟨p, hp, hb, rfl⟩
    simp only [List.length_cons, List.length_nil] at hp
    interval_cases p
    · simp at hb
    · rw [← e1]; rfl

end Verif
