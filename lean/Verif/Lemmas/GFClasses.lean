import Verif.Lemmas.GFMinpoly
/- The classes returned by `cosets`, abstractly. -/
namespace Verif

theorem filter_unique {α : Type} [DecidableEq α] {l : List α} (hn : l.Nodup) {q : α → Bool} {a : α} (ha : a ∈ l) (hq : q a = true)
    (hu : ∀ b ∈ l, q b = true → b = a) : l.filter q = [a] := by
  have h1 : l.filter q = l.filter (fun b => b == a) := by
    apply List.filter_congr
    intro b hb
    by_cases hqb : q b = true
    · rw [hqb, hu b hb hqb]; simp
    · have : b ≠ a := by rintro rfl; exact hqb hq
      simp [hqb, this]
  rw [h1, List.filter_beq, List.count_eq_one_of_mem hn ha]; rfl

theorem cosets_classes {m : Nat} (h1 : 1 ≤ m) (h2 : m ≤ 16) {l : List Nat} (hn : l.Nodup) (hl : ∀ x ∈ l, x < 2 ^ m) :
    ∃ cs, GF.cosets ⟨m, primpolyArray.getD m 0, some l⟩ = .ok cs ∧ (∀ c ∈ cs, c ≠ [] ∧ c.Sublist l) ∧
      (∀ a ∈ l, ∃ c ∈ cs, a ∈ c ∧ cs.filter (fun c => a ∈ c) = [c]) ∧
      (∀ c ∈ cs, ∀ a ∈ c, ∀ b ∈ l, b ∈ c ↔ ∃ t, gfElem (primpolyArray.getD m 0) a ^ 2 ^ t = gfElem (primpolyArray.getD m 0) b) := by
  obtain ⟨st, h3, h4⟩ := cosets_spec h1 h2 hn hl
  have hlen : l.length = st.1.length := by have := h4.len; simpa using this.symm
  set cls : Nat → List Nat := fun c => ((l.zip st.1).filter (fun p => p.2 = c)).map Prod.fst with hcls
  have hmem : ∀ c a, a ∈ cls c ↔ ∃ i, i < l.length ∧ l.getD i 0 = a ∧ st.1.getD i 0 = c := fun c a => mem_cosetClass hlen
  have hlt := h4.lt
  have hdone := h4.done
  have honto := h4.onto
  have hrel := h4.rel
  simp only [List.length_map] at hlt hdone honto hrel
  refine ⟨_, h3, ?_, ?_, ?_⟩
  · intro c hc
    obtain ⟨k, hk, rfl⟩ := List.mem_map.1 hc
    rw [List.mem_range'_1] at hk
    constructor
    · obtain ⟨j, hj, hjk⟩ := honto k hk.1 (by omega)
      apply List.ne_nil_of_mem (a := l.getD j 0)
      exact (hmem k _).2 ⟨j, hj, rfl, hjk⟩
    · have : (((l.zip st.1).filter (fun p => p.2 = k)).map Prod.fst).Sublist ((l.zip st.1).map Prod.fst) :=
        List.Sublist.map _ (List.filter_sublist)
      rwa [List.map_fst_zip (by omega)] at this
  · intro a ha
    obtain ⟨i, hi, rfl⟩ := List.getElem_of_mem ha
    have hi0 := hdone i hi hi
    have hilt := hlt i hi
    have hmr : st.1.getD i 0 ∈ List.range' 1 (st.2 - 1) := by rw [List.mem_range'_1]; omega
    have hmc : l[i] ∈ cls (st.1.getD i 0) := (hmem _ _).2 ⟨i, hi, List.getD_eq_getElem _ _ hi, rfl⟩
    refine ⟨cls (st.1.getD i 0), List.mem_map.2 ⟨_, hmr, rfl⟩, hmc, ?_⟩
    rw [List.filter_map]
    rw [filter_unique (l := List.range' 1 (st.2 - 1)) List.nodup_range' hmr (by simpa using hmc)]
    · rfl
    · intro k _ hk
      have hk' : l[i] ∈ cls k := by simpa using hk
      obtain ⟨j, hj, hjl, hjk⟩ := (hmem _ _).1 hk'
      rw [List.getD_eq_getElem _ _ hj] at hjl
      have : j = i := (List.Nodup.getElem_inj_iff hn).1 hjl
      rw [← hjk, this]
  · intro c hc a ha b hb
    obtain ⟨k, hk, rfl⟩ := List.mem_map.1 hc
    rw [List.mem_range'_1] at hk
    obtain ⟨i, hi, hia, hik⟩ := (hmem k a).1 ha
    obtain ⟨j, hj, hjb⟩ := List.getElem_of_mem hb
    have hia' : l[i] = a := by rw [List.getD_eq_getElem _ _ hi] at hia; exact hia
    have hr := hrel i j hi hj (by omega)
    rw [cosetRel_iff h1 h2 hn hl hi hj, hia', hjb, hik] at hr
    rw [← hr]
    constructor
    · intro hbc
      obtain ⟨j', hj', hjb', hjk'⟩ := (hmem k b).1 hbc
      rw [List.getD_eq_getElem _ _ hj'] at hjb'
      have : j' = j := (List.Nodup.getElem_inj_iff hn).1 (hjb'.trans hjb.symm)
      rw [← this, hjk']
    · intro hjk
      exact (hmem k b).2 ⟨j, hj, by rw [List.getD_eq_getElem _ _ hj, hjb], hjk⟩

/-- In the classes of a list closed under squaring, `minpolys` finds the minimal polynomial. -/
theorem class_minpoly {m : Nat} (h1 : 1 ≤ m) (h2 : m ≤ 16) {l c : List Nat} (hn : l.Nodup) (hl : ∀ x ∈ l, x < 2 ^ m)
    (hsq : ∀ x ∈ l, ∃ y ∈ l, gfElem (primpolyArray.getD m 0) y = gfElem (primpolyArray.getD m 0) x ^ 2)
    (hc : c ≠ [] ∧ c.Sublist l)
    (hcl : ∀ a ∈ c, ∀ b ∈ l, b ∈ c ↔ ∃ t, gfElem (primpolyArray.getD m 0) a ^ 2 ^ t = gfElem (primpolyArray.getD m 0) b) :
    ∃ r, minpolyOfCoset m (primpolyArray.getD m 0) c = .ok r ∧ Nat.log2 r = c.length ∧ r ≠ 0 ∧
      (toPoly r).map (algebraMap (ZMod 2) (GFRing (primpolyArray.getD m 0))) =
        (c.map (fun c => Polynomial.X + Polynomial.C (gfElem (primpolyArray.getD m 0) c))).prod ∧
      (∀ x ∈ c, Polynomial.aeval (gfElem (primpolyArray.getD m 0) x) (toPoly r) = 0) ∧
      ∀ f : Polynomial (ZMod 2), ∀ x ∈ c, Polynomial.aeval (gfElem (primpolyArray.getD m 0) x) f = 0 → toPoly r ∣ f := by
  apply minpolyOfCoset_spec (tableRow h1 h2) hc.1
  · intro x hx; exact hl x (hc.2.subset hx)
  · exact hc.2.nodup hn
  · intro x hx
    obtain ⟨y, hy, hxy⟩ := hsq x (hc.2.subset hx)
    refine ⟨y, (hcl x hx y hy).2 ⟨1, by rw [pow_one, hxy]⟩, hxy⟩
  · intro x hx y hy
    exact (hcl x hx y (hc.2.subset hy)).1 hy

theorem minpolys_ok {m : Nat} (h1 : 1 ≤ m) (h2 : m ≤ 16) {l : List Nat} (hl : ∀ x ∈ l, x < 2 ^ m) :
    ∃ r : List Nat, GF.minpolys ⟨m, primpolyArray.getD m 0, some l⟩ = .ok r ∧ r.length = l.length ∧
      ∀ i (hi : i < l.length) (hr : i < r.length), r[i] ≠ 0 ∧
        Polynomial.aeval (gfElem (primpolyArray.getD m 0) l[i]) (toPoly r[i]) = 0 ∧
        ∀ f : Polynomial (ZMod 2), Polynomial.aeval (gfElem (primpolyArray.getD m 0) l[i]) f = 0 → toPoly r[i] ∣ f := by
  have ht := tableRow h1 h2
  have hp := ht.isModulus
  have hfull : ∀ x ∈ List.range (2 ^ m), x < 2 ^ m := fun x hx => List.mem_range.1 hx
  obtain ⟨cs, hc1, hc2, hc3, hc4⟩ := cosets_classes h1 h2 List.nodup_range hfull
  have hsq : ∀ x ∈ List.range (2 ^ m), ∃ y ∈ List.range (2 ^ m),
      gfElem (primpolyArray.getD m 0) y = gfElem (primpolyArray.getD m 0) x ^ 2 := by
    intro x _
    obtain ⟨y, hy, hxy⟩ := gfElem_surj hp (gfElem (primpolyArray.getD m 0) x ^ 2)
    exact ⟨y, List.mem_range.2 hy, hxy⟩
  obtain ⟨rr, hr1, hr2, hr3⟩ := mapM_exists
    (f := fun x => (cs.filter (fun c => x ∈ c)).mapM (minpolyOfCoset m (primpolyArray.getD m 0)))
    (fun x s => ∃ r, s = [r] ∧ r ≠ 0 ∧ Polynomial.aeval (gfElem (primpolyArray.getD m 0) x) (toPoly r) = 0 ∧
        ∀ f : Polynomial (ZMod 2), Polynomial.aeval (gfElem (primpolyArray.getD m 0) x) f = 0 → toPoly r ∣ f) l (by
      intro x hx
      obtain ⟨c, hc, hxc, hfil⟩ := hc3 x (List.mem_range.2 (hl x hx))
      obtain ⟨r, h3, h4, h5, _, h6, h7⟩ := class_minpoly h1 h2 List.nodup_range hfull hsq (hc2 c hc) (hc4 c hc)
      refine ⟨[r], ?_, r, rfl, h5, h6 x hxc, fun f hf => h7 f x hxc hf⟩
      rw [hfil, List.mapM_cons, h3]; rfl)
  have hne : List.range (2 ^ m) ≠ [] := by
    have : 0 < 2 ^ m := by positivity
    simp
  have hflat : ∀ (rr : List (List Nat)), (∀ i (hi : i < rr.length), ∃ r, rr[i] = [r]) → rr.flatten.length = rr.length ∧
      ∀ i (hi : i < rr.length) (hi2 : i < rr.flatten.length), rr[i] = [rr.flatten[i]] := by
    intro rr
    induction rr with
    | nil => intro _; exact ⟨rfl, by intro i hi; simp at hi⟩
    | cons a rr ih =>
      intro h
      obtain ⟨r, hr⟩ := h 0 (by simp)
      simp only [List.getElem_cons_zero] at hr
      subst hr
      obtain ⟨h3, h4⟩ := ih (fun i hi => by have := h (i + 1) (by simpa using hi); simpa using this)
      refine ⟨by simp only [List.flatten_cons, List.length_append, h3, List.length_cons, List.length_nil]; omega, ?_⟩
      intro i hi hi2
      cases i with
      | zero => simp
      | succ i =>
        have := h4 i (by simpa using hi) (by rw [h3]; simpa using hi)
        simpa using this
  obtain ⟨hf1, hf2⟩ := hflat rr (fun i hi => by
    obtain ⟨r, hr, _⟩ := hr3 i (by omega) hi
    exact ⟨r, hr⟩)
  refine ⟨rr.flatten, ?_, by omega, ?_⟩
  · rw [GF.minpolys, GF.init_arr h2 hne]
    simp only [bind, Except.bind, hc1, GF.elems, pure, Except.pure]
    rw [hr1]
  · intro i hi hr
    obtain ⟨r, hr4, hr5⟩ := hr3 i hi (by omega)
    rw [hf2 i (by omega) hr] at hr4
    injection hr4 with hr4 _
    rw [hr4]; exact hr5

end Verif
