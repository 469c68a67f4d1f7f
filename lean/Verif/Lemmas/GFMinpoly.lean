import Verif.Lemmas.GFCosets
import Mathlib.Algebra.Polynomial.FieldDivision
import Mathlib.RingTheory.Coprime.Lemmas
/- The coefficient arithmetic of `minpolys` and the product over a conjugacy class. -/
namespace Verif

open Polynomial

/-- Polynomial over GF(2)[x]/(p) with the given coefficients, lowest degree first. -/
noncomputable def tPoly (p : Nat) (t : List Nat) : (GFRing p)[X] :=
  ∑ i ∈ Finset.range t.length, C (gfElem p (t.getD i 0)) * X ^ i

theorem tPoly_coeff (p : Nat) (t : List Nat) (j : Nat) : (tPoly p t).coeff j = gfElem p (t.getD j 0) := by
  unfold tPoly
  rw [finset_sum_coeff]
  simp only [coeff_C_mul, coeff_X_pow, mul_ite, mul_one, mul_zero]
  rw [Finset.sum_ite_eq]
  split
  · rfl
  · rename_i h
    rw [Finset.mem_range, not_lt] at h
    rw [getD_ge h, gfElem_zero]

theorem foldlM_inv {α β : Type} {f : β → α → Py β} (P : Nat → β → Prop) (l : List α) (b : β) (h0 : P 0 b)
    (hs : ∀ k (hk : k < l.length) b, P k b → ∃ b', f b l[k] = .ok b' ∧ P (k + 1) b') :
    ∃ b', l.foldlM f b = .ok b' ∧ P l.length b' := by
  induction l generalizing b P with
  | nil => exact ⟨b, rfl, h0⟩
  | cons a l ih =>
    obtain ⟨b1, h1, h2⟩ := hs 0 (by simp) b h0
    obtain ⟨b2, h3, h4⟩ := ih (fun k => P (k + 1)) b1 h2 (by
      intro k hk b hb
      obtain ⟨b', h5, h6⟩ := hs (k + 1) (by simpa using hk) b hb
      exact ⟨b', by simpa using h5, h6⟩)
    refine ⟨b2, ?_, h4⟩
    rw [List.foldlM_cons]
    have h1' : f b a = .ok b1 := by simpa using h1
    rw [h1']; exact h3

theorem mapM_exists {α β : Type} {f : α → Py β} (P : α → β → Prop) (l : List α)
    (h : ∀ a ∈ l, ∃ b, f a = .ok b ∧ P a b) :
    ∃ r : List β, l.mapM f = .ok r ∧ r.length = l.length ∧ ∀ i (hi : i < l.length) (hr : i < r.length), P l[i] r[i] := by
  induction l with
  | nil => exact ⟨[], rfl, rfl, by intro i hi; simp at hi⟩
  | cons a l ih =>
    obtain ⟨b, h1, h2⟩ := h a (by simp)
    obtain ⟨r, h3, h4, h5⟩ := ih (fun a ha => h a (by simp [ha]))
    refine ⟨b :: r, ?_, by simp [h4], ?_⟩
    · rw [List.mapM_cons, h1, h3]; rfl
    · intro i hi hr
      cases i with
      | zero => simpa using h2
      | succ i => simpa using h5 i (by simpa using hi) (by simpa using hr)

theorem minpolyStep_spec {m p : Nat} (hp : IsModulus m p) {t : List Nat} (ht : ∀ x ∈ t, x < 2 ^ m) (hne : t ≠ [])
    {root : Nat} (hr : root < 2 ^ m) :
    ∃ t', minpolyStep m p t root = .ok t' ∧ t'.length = t.length + 1 ∧ (∀ x ∈ t', x < 2 ^ m) ∧
      tPoly p t' = tPoly p t * (X + C (gfElem p root)) := by
  have hL := List.length_pos_iff.2 hne
  set t2 := List.replicate (t.length - 1) 0 ++ [1, root] ++ List.replicate (t.length - 1) 0 with ht2
  have h2l : t2.length - t.length + 1 = t.length + 1 := by simp [ht2]; omega
  have ht2g : ∀ i, t2.getD i 0 = if i = t.length - 1 then 1 else if i = t.length then root else 0 := by
    intro i
    rw [ht2]
    simp only [List.getD_eq_getElem?_getD, List.append_assoc]
    rcases Nat.lt_trichotomy i (t.length - 1) with h | h | h
    · rw [List.getElem?_append_left (by simpa using h), List.getElem?_replicate, if_pos h, if_neg (by omega), if_neg (by omega)]; rfl
    · rw [List.getElem?_append_right (by simp; omega), if_pos h, List.length_replicate, h]; simp
    · rw [List.getElem?_append_right (by simp; omega), if_neg (by omega), List.length_replicate]
      by_cases h3 : i = t.length
      · rw [if_pos h3, show i - (t.length - 1) = 1 by omega]; simp
      · rw [if_neg h3, List.getElem?_append_right (by simp; omega), List.getElem?_replicate]
        split <;> rfl
  have ht2lt : ∀ i, t2.getD i 0 < 2 ^ m := by
    intro i
    rw [ht2g]
    split
    · exact gfElem_one_lt hp
    · split
      · exact hr
      · positivity
  have htlt : ∀ i, t.getD i 0 < 2 ^ m := by
    intro i
    rcases Nat.lt_or_ge i t.length with h | h
    · rw [List.getD_eq_getElem _ _ h]; exact ht _ (List.getElem_mem h)
    · rw [getD_ge h]; positivity
  obtain ⟨prod, h1, h2, h3⟩ := mapM_exists (f := fun n => (List.range t.length).foldlM (fun s k => do
      let q ← polymultiply (t.getD k 0) (t2.getD (n + k) 0) m p
      pure (s ^^^ q)) 0)
    (fun n s => s < 2 ^ m ∧ gfElem p s = ∑ k ∈ Finset.range t.length, gfElem p (t.getD k 0) * gfElem p (t2.getD (n + k) 0))
    (List.range (t2.length - t.length + 1)) (by
      intro n _
      obtain ⟨b, h4, h5⟩ := foldlM_inv (f := fun s k => do
          let q ← polymultiply (t.getD k 0) (t2.getD (n + k) 0) m p
          pure (s ^^^ q))
        (fun K s => s < 2 ^ m ∧ gfElem p s = ∑ k ∈ Finset.range K, gfElem p (t.getD k 0) * gfElem p (t2.getD (n + k) 0))
        (List.range t.length) 0 ⟨by positivity, by simp⟩ (by
          intro k hk b hb
          obtain ⟨h6, h7, h8⟩ := mulE_spec hp (htlt k) (ht2lt (n + k))
          refine ⟨b ^^^ mulE m p (t.getD k 0) (t2.getD (n + k) 0), ?_, Nat.xor_lt_two_pow hb.1 h7, ?_⟩
          · rw [List.getElem_range]
            simp only [h6, bind, Except.bind, pure, Except.pure]
          · rw [gfElem_xor, h8, hb.2, Finset.sum_range_succ])
      refine ⟨b, h4, ?_⟩
      simpa using h5)
  simp only [List.length_range, List.getElem_range] at h2 h3
  rw [h2l] at h2 h3
  refine ⟨prod.reverse, ?_, by simp [h2], ?_, ?_⟩
  · simp only [minpolyStep, bind, Except.bind, pure, Except.pure] at h1 ⊢
    rw [← ht2]
    simp only [h1]
  · intro x hx
    rw [List.mem_reverse] at hx
    obtain ⟨i, hi, rfl⟩ := List.getElem_of_mem hx
    have := h3 i (by omega) hi
    exact this.1
  · ext j
    rw [tPoly_coeff, mul_add, coeff_add, coeff_mul_C, tPoly_coeff]
    rcases Nat.lt_or_ge t.length j with hj | hj
    · rw [getD_ge (l := prod.reverse) (by simp; omega), getD_ge (l := t) (i := j) (by omega)]
      obtain ⟨i, rfl⟩ : ∃ i, j = i + 1 := ⟨j - 1, by omega⟩
      rw [coeff_mul_X, tPoly_coeff, getD_ge (l := t) (i := i) (by omega)]
      simp
    · have hjr : j < prod.reverse.length := by simp; omega
      rw [List.getD_eq_getElem _ _ hjr, List.getElem_reverse]
      have hq := (h3 (prod.length - 1 - j) (by omega) (by omega)).2
      rw [hq, h2, show t.length + 1 - 1 - j = t.length - j by omega]
      have hsum : ∀ k ∈ Finset.range t.length, gfElem p (t.getD k 0) * gfElem p (t2.getD (t.length - j + k) 0) =
          (if k + 1 = j then gfElem p (t.getD k 0) else 0) + (if k = j then gfElem p (t.getD k 0) * gfElem p root else 0) := by
        intro k hk
        rw [Finset.mem_range] at hk
        rw [ht2g]
        by_cases h6 : k + 1 = j
        · rw [if_pos (by omega), if_pos h6, if_neg (by omega)]; simp
        · by_cases h7 : k = j
          · rw [if_neg (by omega), if_pos (by omega), if_neg h6, if_pos h7]; simp
          · rw [if_neg (by omega), if_neg (by omega), if_neg h6, if_neg h7]; simp
      rw [Finset.sum_congr rfl hsum, Finset.sum_add_distrib, Finset.sum_ite_eq']
      congr 1
      · cases j with
        | zero => simp
        | succ i =>
          rw [coeff_mul_X, tPoly_coeff]
          simp only [Nat.add_right_cancel_iff]
          rw [Finset.sum_ite_eq', if_pos (by simp; omega)]
      · split
        · rfl
        · rename_i h6
          rw [Finset.mem_range, not_lt] at h6
          rw [getD_ge (l := t) h6]; simp

theorem minpolyFold_spec {m p : Nat} (hp : IsModulus m p) (c0 : Nat) (rest : List Nat) (hc : ∀ x ∈ c0 :: rest, x < 2 ^ m) :
    ∃ t, rest.foldlM (minpolyStep m p) [c0, 1] = .ok t ∧ (∀ x ∈ t, x < 2 ^ m) ∧
      tPoly p t = ((c0 :: rest).map (fun c => X + C (gfElem p c))).prod ∧ t.length = rest.length + 2 := by
  have h0 : c0 < 2 ^ m := hc c0 (by simp)
  obtain ⟨t, h1, h2, h3, h4⟩ := foldlM_inv (f := minpolyStep m p)
    (fun k t => (∀ x ∈ t, x < 2 ^ m) ∧ tPoly p t = ((c0 :: rest.take k).map (fun c => X + C (gfElem p c))).prod ∧ t.length = k + 2)
    rest [c0, 1] ⟨by
      intro x hx
      simp only [List.mem_cons, List.not_mem_nil, or_false] at hx
      rcases hx with rfl | rfl
      · exact h0
      · exact gfElem_one_lt hp, by
      simp [tPoly, Finset.sum_range_succ, add_comm], by simp⟩ (by
      intro k hk t ht
      obtain ⟨t', h1, h2, h3, h4⟩ := minpolyStep_spec hp ht.1 (by rintro rfl; simp at ht) (hc _ (List.mem_cons_of_mem _ (List.getElem_mem hk)))
      refine ⟨t', h1, h3, ?_, by omega⟩
      rw [h4, ht.2.1, ← List.take_concat_get' _ _ hk, ← List.cons_append, List.map_append, List.prod_append]
      simp)
  refine ⟨t, h1, h2, ?_, h4⟩
  rw [h3, List.take_length]

theorem listPoly_reverse_coeff (t : List Nat) (j : Nat) : (listPoly t.reverse).coeff j = ((t.getD j 0 : Nat) : ZMod 2) := by
  induction t using List.reverseRecOn with
  | nil => simp [listPoly]
  | append_singleton t x ih =>
    rw [List.reverse_append]
    simp only [List.reverse_cons, List.reverse_nil, List.nil_append, List.singleton_append]
    rw [listPoly_cons, coeff_add, ih, coeff_C_mul, coeff_X_pow, List.length_reverse]
    simp only [List.getD_eq_getElem?_getD]
    rcases Nat.lt_trichotomy j t.length with h | h | h
    · rw [if_neg (by omega), List.getElem?_append_left h]; simp
    · subst h; simp
    · rw [if_neg (by omega), List.getElem?_append_right (by omega), List.getElem?_eq_none (l := t) (by omega),
        List.getElem?_eq_none (l := [x]) (by simp; omega)]; simp

/-- What `minpolys` computes for one conjugacy class. -/
theorem minpolyOfCoset_spec {m p : Nat} (h : TableRow m p) {c : List Nat} (hne : c ≠ []) (hc : ∀ x ∈ c, x < 2 ^ m) (hn : c.Nodup)
    (hclosed : ∀ x ∈ c, ∃ y ∈ c, gfElem p y = gfElem p x ^ 2)
    (hconj : ∀ x ∈ c, ∀ y ∈ c, ∃ t, gfElem p x ^ 2 ^ t = gfElem p y) :
    ∃ r, minpolyOfCoset m p c = .ok r ∧ Nat.log2 r = c.length ∧ r ≠ 0 ∧
      (toPoly r).map (algebraMap (ZMod 2) (GFRing p)) = (c.map (fun c => X + C (gfElem p c))).prod ∧
      (∀ x ∈ c, aeval (gfElem p x) (toPoly r) = 0) ∧
      ∀ f : (ZMod 2)[X], ∀ x ∈ c, aeval (gfElem p x) f = 0 → toPoly r ∣ f := by
  classical
  have hp := h.isModulus
  haveI : Fact (Irreducible (toPoly p)) := ⟨h.irreducible⟩
  haveI : Fact (Nat.Prime 2) := ⟨Nat.prime_two⟩
  have hinj : Function.Injective (algebraMap (ZMod 2) (GFRing p)) := RingHom.injective _
  haveI : CharP (GFRing p) 2 := charP_of_injective_algebraMap hinj 2
  haveI : ExpChar (GFRing p) 2 := ExpChar.prime Nat.prime_two
  -- the set of field elements
  set S : Finset (GFRing p) := (c.map (gfElem p)).toFinset with hS
  have hnm : (c.map (gfElem p)).Nodup := by
    rw [List.nodup_map_iff_inj_on hn]
    intro x hx y hy hxy
    exact gfElem_inj hp (hc x hx) (hc y hy) hxy
  have hprodS : (c.map (fun c => (X : (GFRing p)[X]) + C (gfElem p c))).prod = ∏ s ∈ S, (X + C s) := by
    rw [hS, List.prod_toFinset _ hnm, List.map_map]; rfl
  have himg : S.image (frobenius (GFRing p) 2) = S := by
    apply Finset.eq_of_subset_of_card_le
    · intro z hz
      obtain ⟨s, hs, rfl⟩ := Finset.mem_image.1 hz
      rw [hS, List.mem_toFinset, List.mem_map] at hs
      obtain ⟨x, hx, rfl⟩ := hs
      obtain ⟨y, hy, hxy⟩ := hclosed x hx
      rw [frobenius_def, ← hxy, hS, List.mem_toFinset, List.mem_map]
      exact ⟨y, hy, rfl⟩
    · rw [Finset.card_image_of_injective _ (frobenius_inj _ 2)]
  have hfix : (∏ s ∈ S, (X + C s)).map (frobenius (GFRing p) 2) = ∏ s ∈ S, (X + C s) := by
    rw [Polynomial.map_prod]
    conv_rhs => rw [← himg, Finset.prod_image (fun a _ b _ hab => frobenius_inj _ 2 hab)]
    simp
  obtain ⟨c0, rest, rfl⟩ : ∃ c0 rest, c = c0 :: rest := by
    cases c with
    | nil => exact absurd rfl hne
    | cons a b => exact ⟨a, b, rfl⟩
  obtain ⟨t, ht1, ht2, ht3, ht4⟩ := minpolyFold_spec hp c0 rest hc
  have hbin : ∀ j, t.getD j 0 < 2 := by
    intro j
    have h1 : (tPoly p t).coeff j ^ 2 = (tPoly p t).coeff j := by
      have h2 := congrArg (fun q => q.coeff j) hfix
      simp only [coeff_map, frobenius_def] at h2
      rw [ht3, hprodS]; exact h2
    rw [tPoly_coeff] at h1
    have h3 : gfElem p (t.getD j 0) * (gfElem p (t.getD j 0) - 1) = 0 := by linear_combination h1
    have hlt : t.getD j 0 < 2 ^ m := by
      rcases Nat.lt_or_ge j t.length with h | h
      · rw [List.getD_eq_getElem _ _ h]; exact ht2 _ (List.getElem_mem h)
      · rw [getD_ge h]; positivity
    rcases mul_eq_zero.1 h3 with h4 | h4
    · rw [gfElem_eq_zero hp hlt] at h4; omega
    · have : gfElem p (t.getD j 0) = gfElem p 1 := by rw [gfElem_one]; linear_combination h4
      have := gfElem_inj hp hlt (gfElem_one_lt hp) this
      omega
  have hbin' : ∀ x ∈ t.reverse, x < 2 := by
    intro x hx
    rw [List.mem_reverse] at hx
    obtain ⟨i, hi, rfl⟩ := List.getElem_of_mem hx
    have := hbin i
    rwa [List.getD_eq_getElem _ _ hi] at this
  have hmap : (toPoly (bitarray2dec t.reverse)).map (algebraMap (ZMod 2) (GFRing p)) =
      ((c0 :: rest).map (fun c => X + C (gfElem p c))).prod := by
    rw [toPoly_bitarray2dec hbin', ← ht3]
    ext j
    rw [coeff_map, listPoly_reverse_coeff, tPoly_coeff]
    have := hbin j
    have h01 : t.getD j 0 = 0 ∨ t.getD j 0 = 1 := by omega
    rcases h01 with h0 | h0 <;> rw [h0] <;> simp
  have hr0 : bitarray2dec t.reverse ≠ 0 := by
    intro h0
    rw [h0, toPoly_zero, Polynomial.map_zero, hprodS] at hmap
    have := Finset.prod_eq_zero_iff.1 hmap.symm
    obtain ⟨s, _, hs⟩ := this
    exact (monic_X_add_C s).ne_zero hs
  refine ⟨bitarray2dec t.reverse, ?_, ?_, hr0, hmap, ?_, ?_⟩
  · simp only [minpolyOfCoset, ht1, bind, Except.bind, pure, Except.pure]
  · rw [← toPoly_natDegree hr0, ← natDegree_map_eq_of_injective hinj, hmap, hprodS]
    rw [natDegree_prod_of_monic _ _ (fun s _ => monic_X_add_C s)]
    simp only [natDegree_X_add_C, Finset.sum_const, smul_eq_mul, mul_one]
    rw [hS, List.toFinset_card_of_nodup hnm, List.length_map]
  · intro x hx
    rw [aeval_def, ← eval_map, hmap, hprodS, eval_prod]
    apply Finset.prod_eq_zero (i := gfElem p x)
    · rw [hS, List.mem_toFinset, List.mem_map]; exact ⟨x, hx, rfl⟩
    · rw [eval_add, eval_X, eval_C, ← gfElem_xor, Nat.xor_self, gfElem_zero]
  · intro f x hx hfx
    rw [← map_dvd_map' (algebraMap (ZMod 2) (GFRing p)), hmap, hprodS]
    have hneg : ∀ s : GFRing p, (X : (GFRing p)[X]) + C s = X - C s := by
      intro s
      rw [sub_eq_add_neg, CharTwo.neg_eq]
    apply Finset.prod_dvd_of_coprime
    · intro s _ s' _ hss
      simp only [Function.onFun, hneg]
      exact pairwise_coprime_X_sub_C (s := id) Function.injective_id hss
    · intro s hs
      rw [hneg, dvd_iff_isRoot, IsRoot, eval_map, ← aeval_def]
      rw [hS, List.mem_toFinset, List.mem_map] at hs
      obtain ⟨y, hy, rfl⟩ := hs
      obtain ⟨t, ht⟩ := hconj x hx y hy
      rw [← ht]
      have hexp : ∀ t (z : GFRing p), aeval z f = 0 → aeval (z ^ 2 ^ t) f = 0 := by
        intro t
        induction t with
        | zero => intro z hz; simpa using hz
        | succ t ih =>
          intro z hz
          rw [pow_succ', pow_mul]
          apply ih
          have := ZMod.expand_card (p := 2) f
          rw [← expand_aeval, this, map_pow, hz]; simp
      exact hexp t _ hfx

end Verif
