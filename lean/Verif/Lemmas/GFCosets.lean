import Verif.Lemmas.GFPower
import Mathlib.Data.Nat.ModEq
import Mathlib.Data.List.Sublists
/- The marking algorithm of `cosets`. -/
namespace Verif

theorem cosetMark_length {x : List Nat} {v count : Nat} {mark : List Nat} (h : mark.length = x.length) :
    (cosetMark x v count mark).length = x.length := by simp [cosetMark, h]

theorem cosetMark_getD {x : List Nat} {v count : Nat} {mark : List Nat} (h : mark.length = x.length) {j : Nat} (hj : j < x.length) :
    (cosetMark x v count mark).getD j 0 = if mark.getD j 0 = 0 ∧ x.getD j 0 = v then count else mark.getD j 0 := by
  have hj2 : j < mark.length := by omega
  simp only [cosetMark, List.getD_eq_getElem?_getD, List.getElem?_zipWith, List.getElem?_eq_getElem hj,
    List.getElem?_eq_getElem hj2, Option.getD_some]

open Classical in
theorem cosetLoop_spec {x : List Nat} {a N count s : Nat} (hN : 0 < N) (hc : 0 < count) (hs : a * 2 ^ s % N = a) :
    ∀ fuel i mark, mark.length = x.length → i ≤ s → s - i < fuel → (∀ t, i ≤ t → t < s → a * 2 ^ t % N ≠ a) →
    ∃ r, cosetLoop x a N count fuel i mark = .ok r ∧ r.length = x.length ∧
      ∀ j, j < x.length → r.getD j 0 =
        if mark.getD j 0 = 0 ∧ ∃ t, i ≤ t ∧ t < s ∧ x.getD j 0 = a * 2 ^ t % N then count else mark.getD j 0 := by
  intro fuel
  induction fuel with
  | zero => intro i mark _ _ h; omega
  | succ fuel ih =>
    intro i mark hl hi hf hmin
    simp only [cosetLoop]
    rw [if_neg (by omega)]
    by_cases his : i = s
    · subst his
      rw [if_neg (by simp [hs])]
      refine ⟨mark, rfl, hl, ?_⟩
      intro j hj
      rw [if_neg]
      rintro ⟨_, t, h1, h2, _⟩; omega
    · rw [if_pos (hmin i le_rfl (by omega))]
      obtain ⟨r, h1, h2, h3⟩ := ih (i + 1) (cosetMark x (a * 2 ^ i % N) count mark) (cosetMark_length hl) (by omega) (by omega)
        (fun t h1 h2 => hmin t (by omega) h2)
      refine ⟨r, h1, h2, ?_⟩
      intro j hj
      rw [h3 j hj, cosetMark_getD hl hj]
      by_cases hm : mark.getD j 0 = 0
      · by_cases hx : x.getD j 0 = a * 2 ^ i % N
        · rw [if_pos (show mark.getD j 0 = 0 ∧ x.getD j 0 = a * 2 ^ i % N from ⟨hm, hx⟩), if_neg (by omega),
            if_pos ⟨hm, i, le_rfl, by omega, hx⟩]
        · rw [if_neg (show ¬ (mark.getD j 0 = 0 ∧ x.getD j 0 = a * 2 ^ i % N) from fun h => hx h.2)]
          congr 1
          rw [eq_iff_iff]
          constructor
          · rintro ⟨h4, t, h5, h6, h7⟩; exact ⟨h4, t, by omega, h6, h7⟩
          · rintro ⟨h4, t, h5, h6, h7⟩
            refine ⟨h4, t, ?_, h6, h7⟩
            rcases Nat.lt_or_ge i t with h8 | h8
            · omega
            · exfalso
              have : t = i := by omega
              subst this; exact hx h7
      · rw [if_neg (show ¬ (mark.getD j 0 = 0 ∧ x.getD j 0 = a * 2 ^ i % N) from fun h => hm h.1),
          if_neg (fun h => hm h.1), if_neg (fun h => hm h.1)]

/-- Cyclotomic relation between positions of a list of exponents. -/
def CosetRel (x : List Nat) (N i j : Nat) : Prop :=
  i = j ∨ (x.getD i 0 ≠ 0 ∧ ∃ t, x.getD j 0 = x.getD i 0 * 2 ^ t % N)

theorem two_pow_mod_mersenne {m : Nat} (a k : Nat) (ha : a < 2 ^ m - 1) : a * 2 ^ (m * k) % (2 ^ m - 1) = a := by
  have h1 : 2 ^ m ≡ 1 [MOD 2 ^ m - 1] := by
    have : 2 ^ m = (2 ^ m - 1) + 1 := by omega
    conv_lhs => rw [this]
    simp [Nat.ModEq]
  have h2 : a * 2 ^ (m * k) ≡ a * 1 [MOD 2 ^ m - 1] := by
    apply Nat.ModEq.mul_left
    rw [pow_mul]
    have := h1.pow k
    rwa [one_pow] at this
  rw [mul_one] at h2
  rw [h2, Nat.mod_eq_of_lt ha]

/-- Conditions on the exponent list. -/
structure CosetInput (x : List Nat) (m : Nat) : Prop where
  pos : 1 ≤ m
  lt : ∀ j, j < x.length → x.getD j 0 < 2 ^ m - 1
  inj : ∀ i j, i < x.length → j < x.length → x.getD i 0 ≠ 0 → x.getD i 0 = x.getD j 0 → i = j

theorem CosetRel.symm {x : List Nat} {m i j : Nat} (h : CosetInput x m) (hi : i < x.length)
    (hr : CosetRel x (2 ^ m - 1) i j) : CosetRel x (2 ^ m - 1) j i := by
  rcases hr with rfl | ⟨h0, t, ht⟩
  · exact Or.inl rfl
  · right
    have key : x.getD j 0 * 2 ^ (t * (m - 1)) % (2 ^ m - 1) = x.getD i 0 := by
      rw [ht, Nat.mod_mul_mod, mul_assoc, ← pow_add, show t + t * (m - 1) = m * t by
        have := h.pos
        obtain ⟨k, rfl⟩ : ∃ k, m = k + 1 := ⟨m - 1, by omega⟩
        simp; ring]
      exact two_pow_mod_mersenne _ _ (h.lt i hi)
    refine ⟨?_, _, key.symm⟩
    intro hj
    rw [hj] at key
    simp at key
    exact h0 (by simpa using key.symm)

theorem CosetRel.trans {x : List Nat} {N i j k : Nat} (h1 : CosetRel x N i j) (h2 : CosetRel x N j k) :
    CosetRel x N i k := by
  rcases h1 with rfl | ⟨h0, t, ht⟩
  · exact h2
  rcases h2 with rfl | ⟨_, t', ht'⟩
  · exact Or.inr ⟨h0, t, ht⟩
  · right
    refine ⟨h0, t + t', ?_⟩
    rw [ht', ht, Nat.mod_mul_mod, mul_assoc, ← pow_add]

/-- Invariant of the marking loop. -/
structure MarkInv (x : List Nat) (m k : Nat) (st : List Nat × Nat) : Prop where
  len : st.1.length = x.length
  cpos : 1 ≤ st.2
  lt : ∀ j, j < x.length → st.1.getD j 0 < st.2
  onto : ∀ c, 1 ≤ c → c < st.2 → ∃ j, j < x.length ∧ st.1.getD j 0 = c
  done : ∀ j, j < k → j < x.length → st.1.getD j 0 ≠ 0
  rel : ∀ i j, i < x.length → j < x.length → st.1.getD i 0 ≠ 0 → (st.1.getD j 0 = st.1.getD i 0 ↔ CosetRel x (2 ^ m - 1) i j)

theorem exists_period {m a : Nat} (h1 : 1 ≤ m) (ha : a < 2 ^ m - 1) :
    ∃ s, 1 ≤ s ∧ s ≤ m ∧ a * 2 ^ s % (2 ^ m - 1) = a ∧ ∀ t, 1 ≤ t → t < s → a * 2 ^ t % (2 ^ m - 1) ≠ a := by
  classical
  have hex : ∃ s, 1 ≤ s ∧ a * 2 ^ s % (2 ^ m - 1) = a := ⟨m, h1, by
    have := two_pow_mod_mersenne (m := m) a 1 ha; rwa [mul_one] at this⟩
  refine ⟨Nat.find hex, (Nat.find_spec hex).1, ?_, (Nat.find_spec hex).2, ?_⟩
  · apply Nat.find_min' hex
    exact ⟨h1, by have := two_pow_mod_mersenne (m := m) a 1 ha; rwa [mul_one] at this⟩
  · intro t ht hts hc
    exact Nat.find_min hex hts ⟨ht, hc⟩

theorem period_mod {a N s : Nat} (hs : a * 2 ^ s % N = a) (t : Nat) : a * 2 ^ t % N = a * 2 ^ (t % s) % N := by
  have : ∀ q r, a * 2 ^ (s * q + r) % N = a * 2 ^ r % N := by
    intro q r
    induction q with
    | zero => simp
    | succ q ih =>
      rw [show s * (q + 1) + r = s + (s * q + r) by ring, pow_add, ← mul_assoc, ← Nat.mod_mul_mod, hs, ih]
  conv_lhs => rw [← Nat.div_add_mod t s]
  exact this _ _

theorem getD_set {l : List Nat} {i j v : Nat} (hi : i < l.length) : (l.set i v).getD j 0 = if j = i then v else l.getD j 0 := by
  simp only [List.getD_eq_getElem?_getD, List.getElem?_set]
  by_cases h : j = i
  · subst h; simp [hi]
  · rw [if_neg (Ne.symm h), if_neg h]

theorem markStep {x : List Nat} {m k : Nat} (h : CosetInput x m) (hk : k < x.length) {st : List Nat × Nat} (hst : MarkInv x m k st) :
    ∃ st', (if st.1.getD k 0 = 0 then do
      let a := x.getD k 0
      let mark := st.1.set k st.2
      let mark ← cosetLoop x a (2 ^ m - 1) st.2 (m + 2) 1 mark
      pure (mark, st.2 + 1)
    else pure st : Py (List Nat × Nat)) = .ok st' ∧ MarkInv x m (k + 1) st' := by
  by_cases hm : st.1.getD k 0 = 0
  · rw [if_pos hm]
    have hak := h.lt k hk
    obtain ⟨s, hs1, hs2, hs3, hs4⟩ := exists_period h.pos hak
    have hkl : k < st.1.length := by rw [hst.len]; exact hk
    obtain ⟨r, h1, h2, h3⟩ := cosetLoop_spec (x := x) (by omega) hst.cpos hs3 (m + 2) 1 (st.1.set k st.2)
      (by simp [hst.len]) hs1 (by omega) hs4
    refine ⟨(r, st.2 + 1), ?_, ?_⟩
    · simp only [h1, bind, Except.bind, pure, Except.pure]
    have hrel0 : ∀ j, j < x.length → CosetRel x (2 ^ m - 1) k j → st.1.getD j 0 = 0 := by
      intro j hj hr
      by_contra hne
      have := (hst.rel j k hj hk hne).2 (hr.symm h hk)
      rw [hm] at this
      exact hne this.symm
    have hreliff : ∀ j, j < x.length → (CosetRel x (2 ^ m - 1) k j ↔ j = k ∨ ∃ t, 1 ≤ t ∧ t < s ∧ x.getD j 0 = x.getD k 0 * 2 ^ t % (2 ^ m - 1)) := by
      intro j hj
      constructor
      · rintro (rfl | ⟨h0, t, ht⟩)
        · exact Or.inl rfl
        · rw [period_mod hs3 t] at ht
          have hts : t % s < s := Nat.mod_lt _ hs1
          rcases Nat.eq_zero_or_pos (t % s) with h4 | h4
          · left
            rw [h4, pow_zero, mul_one, Nat.mod_eq_of_lt hak] at ht
            exact (h.inj k j hk hj h0 ht.symm).symm
          · exact Or.inr ⟨t % s, h4, hts, ht⟩
      · rintro (rfl | ⟨t, h4, h5, h6⟩)
        · exact Or.inl rfl
        · right
          refine ⟨?_, t, h6⟩
          intro h0
          apply hs4 t h4 h5
          rw [h0]; simp
    classical
    have hr : ∀ j, j < x.length → r.getD j 0 = if CosetRel x (2 ^ m - 1) k j then st.2 else st.1.getD j 0 := by
      intro j hj
      rw [h3 j hj, getD_set hkl]
      by_cases hR : CosetRel x (2 ^ m - 1) k j
      · rw [if_pos hR]
        have h0 := hrel0 j hj hR
        rcases (hreliff j hj).1 hR with rfl | ht
        · rw [if_pos rfl]; split <;> rfl
        · by_cases hjk : j = k
          · rw [if_pos hjk]; split <;> rfl
          · rw [if_neg hjk, if_pos ⟨h0, ht⟩]
      · have := mt (hreliff j hj).2 hR
        rw [not_or] at this
        rw [if_neg hR, if_neg this.1, if_neg (fun hh => this.2 hh.2)]
    have hkr : r.getD k 0 = st.2 := by rw [hr k hk, if_pos (show CosetRel x (2 ^ m - 1) k k from Or.inl rfl)]
    refine ⟨h2, by simp, ?_, ?_, ?_, ?_⟩
    · intro j hj
      rw [hr j hj]
      split
      · simp
      · exact Nat.lt_succ_of_lt (hst.lt j hj)
    · intro c hc1 hc2
      have hc2' : c < st.2 + 1 := hc2
      by_cases hc : c = st.2
      · exact ⟨k, hk, by rw [hkr, hc]⟩
      · obtain ⟨j, hj, hjc⟩ := hst.onto c hc1 (by omega)
        refine ⟨j, hj, ?_⟩
        show r.getD j 0 = c
        rw [hr j hj, if_neg, hjc]
        intro hR
        have := hrel0 j hj hR
        omega
    · intro j hj hjx
      show r.getD j 0 ≠ 0
      rw [hr j hjx]
      split
      · have := hst.cpos; omega
      · rename_i hR
        apply hst.done j _ hjx
        rcases Nat.lt_or_ge j k with h4 | h4
        · exact h4
        · exfalso; exact hR (Or.inl (by omega))
    · intro i j hi hj hi0
      have hi0' : r.getD i 0 ≠ 0 := hi0
      show r.getD j 0 = r.getD i 0 ↔ _
      rw [hr i hi] at hi0' ⊢
      rw [hr j hj]
      by_cases hRi : CosetRel x (2 ^ m - 1) k i
      · rw [if_pos hRi]
        by_cases hRj : CosetRel x (2 ^ m - 1) k j
        · rw [if_pos hRj]
          exact ⟨fun _ => (hRi.symm h hk).trans hRj, fun _ => rfl⟩
        · rw [if_neg hRj]
          constructor
          · intro he
            have := hst.lt j hj
            omega
          · intro hij
            exact absurd (hRi.trans hij) hRj
      · rw [if_neg hRi] at hi0' ⊢
        by_cases hRj : CosetRel x (2 ^ m - 1) k j
        · rw [if_pos hRj]
          constructor
          · intro he
            have := hst.lt i hi
            omega
          · intro hij
            exact absurd (hRj.trans (hij.symm h hi)) hRi
        · rw [if_neg hRj]
          exact hst.rel i j hi hj hi0'
  · rw [if_neg hm]
    refine ⟨st, rfl, hst.len, hst.cpos, hst.lt, hst.onto, ?_, hst.rel⟩
    intro j hj hjx
    rcases Nat.lt_or_ge j k with h4 | h4
    · exact hst.done j h4 hjx
    · have : j = k := by omega
      rw [this]; exact hm

theorem cosetMarks_spec {x : List Nat} {m : Nat} (h : CosetInput x m) :
    ∃ st, cosetMarks x m = .ok st ∧ MarkInv x m x.length st := by
  unfold cosetMarks
  suffices hs : ∀ k, k ≤ x.length → ∃ st, (List.range k).foldlM (fun (st : List Nat × Nat) idx =>
      if st.1.getD idx 0 = 0 then do
        let a := x.getD idx 0
        let mark := st.1.set idx st.2
        let mark ← cosetLoop x a (2 ^ m - 1) st.2 (m + 2) 1 mark
        pure (mark, st.2 + 1)
      else (pure st : Py (List Nat × Nat))) (List.replicate x.length 0, 1) = .ok st ∧ MarkInv x m k st from hs _ le_rfl
  intro k
  induction k with
  | zero =>
    intro _
    have hz : ∀ j, (List.replicate x.length 0).getD j 0 = 0 := by
      intro j
      simp only [List.getD_eq_getElem?_getD, List.getElem?_replicate]
      split <;> rfl
    refine ⟨_, rfl, by simp, by simp, ?_, ?_, ?_, ?_⟩
    · intro j _; simp only [hz]; exact Nat.one_pos
    · intro c h1 h2; simp at h2; omega
    · intro j hj; omega
    · intro i j _ _ h0; exact absurd (hz i) h0
  | succ k ih =>
    intro hk
    obtain ⟨st, h1, h2⟩ := ih (by omega)
    obtain ⟨st', h3, h4⟩ := markStep h (by omega) h2
    refine ⟨st', ?_, h4⟩
    rw [List.range_succ, List.foldlM_append, h1]
    simp only [bind, Except.bind, List.foldlM_cons, List.foldlM_nil]
    simp only [bind, Except.bind] at h3
    rw [h3]; rfl

/-- Which positions of the element list end up in class `c`. -/
theorem mem_cosetClass {el mark : List Nat} (hl : el.length = mark.length) {c a : Nat} :
    a ∈ ((el.zip mark).filter (fun p => p.2 = c)).map Prod.fst ↔ ∃ i, i < el.length ∧ el.getD i 0 = a ∧ mark.getD i 0 = c := by
  simp only [List.mem_map, List.mem_filter, decide_eq_true_eq]
  constructor
  · rintro ⟨⟨u, v⟩, ⟨hm, hv⟩, rfl⟩
    obtain ⟨i, hi, he⟩ := List.getElem_of_mem hm
    simp only [List.length_zip, lt_min_iff] at hi
    simp only [List.getElem_zip, Prod.mk.injEq] at he
    refine ⟨i, hi.1, ?_, ?_⟩
    · rw [List.getD_eq_getElem _ _ hi.1]; exact he.1
    · rw [List.getD_eq_getElem _ _ hi.2, he.2]; exact hv
  · rintro ⟨i, hi, h1, h2⟩
    have hi2 : i < mark.length := by omega
    refine ⟨(el[i], mark[i]), ⟨?_, ?_⟩, ?_⟩
    · have : (el.zip mark)[i]'(by simp [hi, hi2]) = (el[i], mark[i]) := by simp
      rw [← this]; exact List.getElem_mem _
    · rwa [List.getD_eq_getElem _ _ hi2] at h2
    · rwa [List.getD_eq_getElem _ _ hi] at h1

/-- The classes returned by `cosets`, described by positions. -/
theorem cosets_spec {m : Nat} (h1 : 1 ≤ m) (h2 : m ≤ 16) {l : List Nat} (hn : l.Nodup) (hl : ∀ x ∈ l, x < 2 ^ m) :
    ∃ st : List Nat × Nat, GF.cosets ⟨m, primpolyArray.getD m 0, some l⟩ =
        .ok ((List.range' 1 (st.2 - 1)).map (fun c => ((l.zip st.1).filter (fun p => p.2 = c)).map Prod.fst)) ∧
      MarkInv (l.map (logE m (primpolyArray.getD m 0))) m l.length st := by
  have ht := tableRow h1 h2
  have hin : CosetInput (l.map (logE m (primpolyArray.getD m 0))) m := by
    have hg : ∀ j (hj : j < l.length), (l.map (logE m (primpolyArray.getD m 0))).getD j 0 = logE m (primpolyArray.getD m 0) l[j] := by
      intro j hj
      rw [List.getD_eq_getElem _ _ (by simpa using hj), List.getElem_map]
    refine ⟨h1, ?_, ?_⟩
    · intro j hj
      rw [List.length_map] at hj
      rw [hg j hj]
      exact logE_lt ht (hl _ (List.getElem_mem hj))
    · intro i j hi hj h0 he
      rw [List.length_map] at hi hj
      rw [hg i hi] at h0 he
      rw [hg j hj] at he
      have hi0 : l[i] ≠ 0 := by intro h; rw [h] at h0; simp [logE] at h0
      have hj0 : l[j] ≠ 0 := by intro h; rw [he, h] at h0; simp [logE] at h0
      have e1 := (logE_spec ht (hl _ (List.getElem_mem hi)) hi0).2.2
      have e2 := (logE_spec ht (hl _ (List.getElem_mem hj)) hj0).2.2
      have : l[i] = l[j] := gfElem_inj ht.isModulus (hl _ (List.getElem_mem hi)) (hl _ (List.getElem_mem hj)) (by rw [e1, e2, he])
      exact (List.Nodup.getElem_inj_iff hn).1 this
  obtain ⟨st, h3, h4⟩ := cosetMarks_spec hin
  refine ⟨st, ?_, by simpa using h4⟩
  rw [GF.cosets, tupleToPower_ok h1 h2 hl]
  simp only [GF.elems, bind, Except.bind, h3, pure, Except.pure]

/-- The cyclotomic relation on exponents is conjugacy of the elements. -/
theorem cosetRel_iff {m : Nat} (h1 : 1 ≤ m) (h2 : m ≤ 16) {l : List Nat} (hn : l.Nodup) (hl : ∀ x ∈ l, x < 2 ^ m)
    {i j : Nat} (hi : i < l.length) (hj : j < l.length) :
    CosetRel (l.map (logE m (primpolyArray.getD m 0))) (2 ^ m - 1) i j ↔
      ∃ t, gfElem (primpolyArray.getD m 0) l[i] ^ 2 ^ t = gfElem (primpolyArray.getD m 0) l[j] := by
  have ht := tableRow h1 h2
  have hp := ht.isModulus
  set p := primpolyArray.getD m 0 with hpd
  have hg : ∀ j (hj : j < l.length), (l.map (logE m p)).getD j 0 = logE m p l[j] := by
    intro j hj
    rw [List.getD_eq_getElem _ _ (by simpa using hj), List.getElem_map]
  have hli := hl _ (List.getElem_mem hi)
  have hlj := hl _ (List.getElem_mem hj)
  have hlog0 : logE m p 0 = 0 := by simp [logE]
  unfold CosetRel
  rw [hg i hi, hg j hj]
  constructor
  · rintro (rfl | ⟨h0, t, h3⟩)
    · exact ⟨0, by simp⟩
    · have hi0 : l[i] ≠ 0 := by intro h; rw [h, hlog0] at h0; exact h0 rfl
      have e1 := logE_spec ht hli hi0
      have hj0 : l[j] ≠ 0 := by
        intro h
        rw [h, hlog0] at h3
        have h5 : logE m p l[i] * 2 ^ (m * t) % (2 ^ m - 1) = 0 := by
          have hk : m * t = t + t * (m - 1) := by
            obtain ⟨k, hk⟩ : ∃ k, m = k + 1 := ⟨m - 1, by omega⟩
            rw [hk]; simp; ring
          rw [hk, pow_add, ← mul_assoc, ← Nat.mod_mul_mod, ← h3]; simp
        rw [two_pow_mod_mersenne _ _ e1.2.1] at h5
        exact h0 h5
      have e2 := logE_spec ht hlj hj0
      refine ⟨t, ?_⟩
      rw [e1.2.2, e2.2.2, h3, ← pow_mul]
      rw [← ht.orderOf_root, pow_mod_orderOf]
  · rintro ⟨t, h3⟩
    by_cases hi0 : l[i] = 0
    · left
      rw [hi0, gfElem_zero, zero_pow (by positivity)] at h3
      have : l[i] = l[j] := by
        apply gfElem_inj hp hli hlj
        rw [hi0, gfElem_zero, h3]
      exact (List.Nodup.getElem_inj_iff hn).1 this
    · have e1 := logE_spec ht hli hi0
      have hj0 : l[j] ≠ 0 := by
        intro h
        rw [h, gfElem_zero] at h3
        have hlt := gfElem_one_lt hp
        haveI : Fact (Irreducible (toPoly p)) := ⟨ht.irreducible⟩
        have h4 := pow_eq_zero_iff (n := 2 ^ t) (by positivity) |>.1 h3
        rw [gfElem_eq_zero hp hli] at h4
        exact hi0 h4
      have e2 := logE_spec ht hlj hj0
      by_cases h0 : logE m p l[i] = 0
      · left
        have he1 := e1.2.2
        rw [h0, pow_zero] at he1
        rw [he1, one_pow] at h3
        have : l[i] = l[j] := by
          apply gfElem_inj hp hli hlj
          rw [he1, h3]
        exact (List.Nodup.getElem_inj_iff hn).1 this
      · right
        refine ⟨h0, t, ?_⟩
        rw [e1.2.2, e2.2.2, ← pow_mul] at h3
        have ho := ht.orderOf_root
        rw [← pow_mod_orderOf, ho] at h3
        have hlt := gfElem_one_lt hp
        have h4 : logE m p l[i] * 2 ^ t % (2 ^ m - 1) < 2 ^ m - 1 := Nat.mod_lt _ (by omega)
        exact (pow_injOn_Iio_orderOf (by simpa [ho] using h4) (by simpa [ho] using e2.2.1) h3).symm

end Verif
