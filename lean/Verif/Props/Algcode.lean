import Verif.Lemmas.Algcode
/-
Property theorems for `cyclic_code_genpoly` (C29).  `f64` is the passage of the result through a float64 array;
the hypothesis `hf` says that it is exact for integers below 2^53.
-/
namespace Verif

open Polynomial

theorem map_f64_id {f64 : Nat → Nat} (hf : ∀ x, x < 2 ^ 53 → f64 x = x) {ps : List Nat} {P : (ZMod 2)[X]} {n : Nat} {k : Int}
    (hps : ∀ g : Nat, g ∈ ps ↔ (toPoly g ∣ P ∧ ((toPoly g).natDegree : Int) = n - k)) (hk2 : (n : Int) - k ≤ 52) :
    ps.map f64 = ps := by
  conv_rhs => rw [← List.map_id ps]
  apply List.map_congr_left
  intro g hg
  have hd := ((hps g).1 hg).2
  by_cases h0 : g = 0
  · subst h0; exact hf 0 (by norm_num)
  · apply hf
    apply (Nat.log2_lt h0).1
    rw [← toPoly_natDegree h0]
    omega

theorem sub_one_dvd_pow_sub_one {R : Type} [CommRing R] (x : R) (t : Nat) : x - 1 ∣ x ^ t - 1 := by
  simpa using sub_dvd_pow_sub_pow x 1 t

/-- The members of the list computed by the subset loop. -/
theorem genpoly_mem {m n : Nat} {k : Int} (h1 : 1 ≤ m) (h2 : m ≤ 16) (hk : k < n) {cs : List (List Nat)} {mp : List Nat}
    (hf2 : List.Forall₂ (ClassPoly (primpolyArray.getD m 0)) cs mp) (hnd : cs.flatten.Nodup)
    (hmem : ∀ x, x ∈ cs.flatten ↔ 1 ≤ x ∧ x < 2 ^ m) (g : Nat) :
    g ∈ ((List.range' 1 (2 ^ mp.length - 1)).filter (fun i =>
        decide ((((maskSelect cs (toBits mp.length i)).flatten.length : Nat) : Int) = (n : Int) - k))).map (genpolyVal m mp) ↔
      (toPoly g ∣ X ^ (2 ^ m - 1) - 1 ∧ ((toPoly g).natDegree : Int) = n - k) := by
  have hpow : ∀ {a b : Nat}, a ≤ b → 2 ^ a ≤ 2 ^ b := fun h => Nat.pow_le_pow_right (by norm_num) h
  have h2m : 2 ≤ 2 ^ m := by simpa using hpow h1
  have ht := tableRow h1 h2
  have hlen := flatten_length_eq hnd hmem
  -- value of the loop for one mask
  have hval : ∀ i, ∃ g, genpolyVal m mp i = g ∧ g ≠ 0 ∧ toPoly g = ((maskSelect mp (toBits mp.length i)).map toPoly).prod ∧
      Nat.log2 g = (maskSelect cs (toBits mp.length i)).flatten.length ∧ toPoly g ∣ X ^ (2 ^ m - 1) - 1 := by
    intro i
    have hsub : (maskSelect cs (toBits mp.length i)).flatten.Sublist cs.flatten :=
      List.Sublist.flatten (maskSelect_sublist cs _)
    obtain ⟨g, hg1, hg2, hg3, hg4, _, hg6⟩ := select_spec ht (maskSelect_forall₂ hf2 (toBits mp.length i)) (hsub.nodup hnd)
      (fun x hx => (hmem x).1 (hsub.subset hx)) (by have := hsub.length_le; omega)
    exact ⟨g, by simp [genpolyVal, hg1], hg2, hg3, hg4, hg6⟩
  simp only [List.mem_map, List.mem_filter, List.mem_range'_1, decide_eq_true_eq]
  constructor
  · rintro ⟨i, ⟨_, hi⟩, rfl⟩
    obtain ⟨g, hg1, hg2, hg3, hg4, hg5⟩ := hval i
    rw [hg1]
    have hd : (Nat.log2 g : Int) = n - k := by rw [hg4]; exact hi
    exact ⟨hg5, by rw [toPoly_natDegree hg2, hd]⟩
  · rintro ⟨hdvd, hdeg⟩
    classical
    have hXm : (X ^ (2 ^ m - 1) - 1 : (ZMod 2)[X]).Monic := monic_X_pow_sub_C 1 (by omega)
    have hg0 : g ≠ 0 := by
      rintro rfl
      rw [toPoly_zero, zero_dvd_iff] at hdvd
      exact hXm.ne_zero hdvd
    obtain ⟨E, hE⟩ := hdvd
    have hE0 : E ≠ 0 := by rintro rfl; rw [mul_zero] at hE; exact hXm.ne_zero hE
    have hdegE : (toPoly g).natDegree + E.natDegree = 2 ^ m - 1 := by
      rw [← natDegree_mul (toPoly_ne_zero hg0) hE0, ← hE]
      exact natDegree_X_pow_sub_C
    -- choose the polynomials that divide g
    set q : Nat → Bool := fun r => decide (toPoly r ∣ toPoly g) with hq
    set mask := mp.map (fun b => if q b then 1 else 0) with hmask
    have hmb : ∀ x ∈ mask, x < 2 := by
      intro x hx
      obtain ⟨b, _, rfl⟩ := List.mem_map.1 hx
      split <;> norm_num
    have hml : mask.length = mp.length := by simp [hmask]
    have htb : toBits mp.length (bitarray2dec mask) = mask := by rw [← hml]; exact toBits_bitarray2dec hmb
    obtain ⟨G, hG1, hG2, hG3, hG4, hG5⟩ := hval (bitarray2dec mask)
    rw [htb] at hG3 hG4
    have hselm : maskSelect mp mask = mp.filter q := maskSelect_self q mp
    have hselc : maskSelect cs mask = ((cs.zip mp).filter (fun p => q p.2)).map Prod.fst := maskSelect_map q cs mp
    -- complementary selection
    set mask' := mp.map (fun b => if (fun b => !q b) b then 1 else 0) with hmask'
    have hselm' : maskSelect mp mask' = mp.filter (fun b => !q b) := maskSelect_self _ mp
    have hselc' : maskSelect cs mask' = ((cs.zip mp).filter (fun p => !q p.2)).map Prod.fst := maskSelect_map _ cs mp
    have hsubc : (maskSelect cs mask).flatten.Sublist cs.flatten := List.Sublist.flatten (maskSelect_sublist cs _)
    have hsubc' : (maskSelect cs mask').flatten.Sublist cs.flatten := List.Sublist.flatten (maskSelect_sublist cs _)
    have hF := maskSelect_forall₂ hf2 mask
    have hF' := maskSelect_forall₂ hf2 mask'
    have hpair : ∀ {p : List Nat × Nat}, p ∈ cs.zip mp → ClassPoly (primpolyArray.getD m 0) p.1 p.2 := by
      intro p hp
      exact (List.forall₂_zip hf2 hp)
    have hPg : toPoly G ∣ toPoly g := by
      apply linear_prod_dvd ht (hsubc.nodup hnd) (fun x hx => ((hmem x).1 (hsubc.subset hx)).2)
      · rw [hG3]; exact forall₂_prod_map hF
      · intro x hx
        obtain ⟨c, hc, hxc⟩ := List.mem_flatten.1 hx
        rw [hselc] at hc
        obtain ⟨⟨c', r⟩, hcr, rfl⟩ := List.mem_map.1 hc
        rw [List.mem_filter] at hcr
        obtain ⟨D, hD⟩ : toPoly r ∣ toPoly g := by simpa [hq] using hcr.2
        rw [hD, map_mul, (hpair hcr.1).root x hxc, zero_mul]
    obtain ⟨G', hH1, hH2, hH3, hH4, _, hH6⟩ := select_spec ht hF' (hsubc'.nodup hnd)
      (fun x hx => (hmem x).1 (hsubc'.subset hx)) (by have := hsubc'.length_le; omega)
    have hPE : toPoly G' ∣ E := by
      apply linear_prod_dvd ht (hsubc'.nodup hnd) (fun x hx => ((hmem x).1 (hsubc'.subset hx)).2)
      · rw [hH3]; exact forall₂_prod_map hF'
      · intro x hx
        have hx1 := (hmem x).1 (hsubc'.subset hx)
        obtain ⟨c, hc, hxc⟩ := List.mem_flatten.1 hx
        rw [hselc'] at hc
        obtain ⟨⟨c', r⟩, hcr, rfl⟩ := List.mem_map.1 hc
        rw [List.mem_filter] at hcr
        have hnd' : ¬ toPoly r ∣ toPoly g := by simpa [hq] using hcr.2
        have h0 := aeval_X_pow_sub_one ht hx1.1 hx1.2
        rw [hE, map_mul] at h0
        have : Fact (Irreducible (toPoly (primpolyArray.getD m 0))) := ⟨ht.irreducible⟩
        rcases mul_eq_zero.1 h0 with h0 | h0
        · exact absurd ((hpair hcr.1).minimal _ x hxc h0) hnd'
        · exact h0
    -- degrees
    have hsum : (maskSelect cs mask).flatten.length + (maskSelect cs mask').flatten.length = 2 ^ m - 1 := by
      rw [hselc, hselc', ← hlen]
      have : ∀ (a : List (List Nat)) (b : List Nat), a.length = b.length →
          (((a.zip b).filter (fun p => q p.2)).map Prod.fst).flatten.length +
            (((a.zip b).filter (fun p => !q p.2)).map Prod.fst).flatten.length = a.flatten.length := by
        intro a
        induction a with
        | nil => intro b _; simp
        | cons x a ih =>
          intro b hb
          cases b with
          | nil => simp at hb
          | cons y b =>
            have := ih b (by simpa using hb)
            simp only [List.zip_cons_cons, List.filter_cons]
            cases hy : q y <;>
              simp only [hy, Bool.false_eq_true, if_false, if_true, Bool.not_false, Bool.not_true, List.map_cons, List.flatten_cons,
                List.length_append] <;> omega
      exact this cs mp hf2.length_eq
    have hd1 := natDegree_le_of_dvd hPg (toPoly_ne_zero hg0)
    have hd2 := natDegree_le_of_dvd hPE hE0
    rw [toPoly_natDegree hG2] at hd1
    rw [toPoly_natDegree hH2] at hd2
    have hGd : Nat.log2 G = (toPoly g).natDegree := by omega
    have hGg : G = g := by
      apply toPoly_inj
      refine eq_of_monic_of_dvd_of_natDegree_le (toPoly_monic hG2) (toPoly_monic hg0) hPg ?_ |>.symm
      rw [toPoly_natDegree hG2, hGd]
    refine ⟨bitarray2dec mask, ⟨⟨?_, ?_⟩, ?_⟩, ?_⟩
    · by_contra h0
      have h0 : bitarray2dec mask = 0 := by omega
      have hz : mask = List.replicate mp.length 0 := by
        rw [← htb, h0]
        apply List.ext_getElem
        · simp
        · intro i _ _; simp [toBits]
      have : maskSelect cs mask = [] := by
        simp only [maskSelect, List.map_eq_nil_iff, List.filter_eq_nil_iff, decide_eq_true_eq]
        intro p hp
        have := (List.of_mem_zip hp).2
        rw [hz] at this
        rw [List.eq_of_mem_replicate this]; norm_num
      rw [this] at hG4
      simp only [List.flatten_nil, List.length_nil] at hG4
      omega
    · have := bitarray2dec_lt hmb
      rw [hml] at this
      have h0 : 0 < 2 ^ mp.length := by positivity
      omega
    · rw [htb, ← hG4, hGd]; exact hdeg
    · rw [hG1, hGg]

/-- C29, what the function returns, for every odd block length `n` it accepts: if `m ≤ 16` is the least exponent with
`n ∣ 2^m - 1`, the result is the list of all binary polynomials of degree `n - k` that divide `x^(2^m-1) - 1` (not
`x^n - 1`: see `C29_genpoly_refuted`), each passed through the float64 array. -/
theorem C29_genpoly_actual (f64 : Nat → Nat) {m n : Nat} {k : Int} (hodd : n % 2 = 1) (h1 : 1 ≤ m) (h2 : m ≤ 16)
    (hdv : n ∣ 2 ^ m - 1) (hleast : ∀ j, 1 ≤ j → j < m → ¬ n ∣ 2 ^ j - 1) (hk : k < n) :
    ∃ ps : List Nat, cyclicCodeGenpoly f64 n k = .ok (ps.map f64) ∧
      ∀ g : Nat, g ∈ ps ↔ (toPoly g ∣ X ^ (2 ^ m - 1) - 1 ∧ ((toPoly g).natDegree : Int) = n - k) := by
  -- the field found by the search is GF(2^m) itself
  have hff : findField n = m := by
    have hsome : (List.range' 1 17).find? (fun j => (2 ^ j - 1) % n == 0) = some m := by
      rw [List.find?_range'_eq_some]
      refine ⟨by simpa using Nat.mod_eq_zero_of_dvd hdv, by rw [List.mem_range'_1]; omega, ?_⟩
      intro j hj1 hj2
      have : ¬ (2 ^ j - 1) % n = 0 := fun h => hleast j hj1 hj2 (Nat.dvd_of_mod_eq_zero h)
      simpa using this
    unfold findField; rw [hsome]; rfl
  obtain ⟨cs, mp, he, hf2, hnd, hmem⟩ := genpoly_eq (f64 := f64) (k := k) hodd (by omega : findField n ≤ 16)
  rw [hff] at he hf2 hmem
  exact ⟨_, he, genpoly_mem h1 h2 hk hf2 hnd hmem⟩

/-- C29 (partial: the block length must be of the form 2^m - 1, m ≤ 16, and n - k ≤ 52).  Then the result lists exactly the
binary polynomials of degree n - k that divide x^n - 1.  Missing: block lengths that properly divide 2^m - 1, for which the
claim is false (`C29_genpoly_refuted`), and n - k > 52, where the float64 array loses the low coefficients. -/
theorem C29_genpoly_partial {f64 : Nat → Nat} (hf : ∀ x, x < 2 ^ 53 → f64 x = x) {m n : Nat} {k : Int} (h1 : 1 ≤ m) (h2 : m ≤ 16)
    (hn : n = 2 ^ m - 1) (hk : k < n) (hk2 : (n : Int) - k ≤ 52) :
    ∃ polys, cyclicCodeGenpoly f64 n k = .ok polys ∧
      ∀ g : Nat, g ∈ polys ↔ (toPoly g ∣ X ^ n - 1 ∧ ((toPoly g).natDegree : Int) = n - k) := by
  have hpow : ∀ {a b : Nat}, a ≤ b → 2 ^ a ≤ 2 ^ b := fun h => Nat.pow_le_pow_right (by norm_num) h
  have h2m : 2 ≤ 2 ^ m := by simpa using hpow h1
  have hodd : n % 2 = 1 := by
    obtain ⟨j, rfl⟩ : ∃ j, m = j + 1 := ⟨m - 1, by omega⟩
    rw [pow_succ] at hn h2m; omega
  obtain ⟨ps, he, hps⟩ := C29_genpoly_actual f64 hodd h1 h2 (by rw [hn]) (by
    intro j hj1 hj2 hd
    have hlt : 2 ^ j < 2 ^ m := Nat.pow_lt_pow_right (by norm_num) hj2
    have hj2' : 2 ≤ 2 ^ j := by simpa using hpow hj1
    have := Nat.le_of_dvd (by omega) hd
    omega) hk
  rw [← hn] at hps
  exact ⟨ps, by rw [he, map_f64_id hf hps hk2], hps⟩

/-- C29 (partial: n - k ≤ 52 and the least m with n ∣ 2^m - 1 is at most 16).  Completeness for every such odd block length: no generator is missing.  Every
binary polynomial of degree n - k dividing x^n - 1 is in the result.  Missing: soundness, false for proper divisors of 2^m - 1. -/
theorem C29_genpoly_complete_partial {f64 : Nat → Nat} (hf : ∀ x, x < 2 ^ 53 → f64 x = x) {m n : Nat} {k : Int} (hodd : n % 2 = 1)
    (h1 : 1 ≤ m) (h2 : m ≤ 16) (hdv : n ∣ 2 ^ m - 1) (hleast : ∀ j, 1 ≤ j → j < m → ¬ n ∣ 2 ^ j - 1) (hk : k < n)
    (hk2 : (n : Int) - k ≤ 52) :
    ∃ polys, cyclicCodeGenpoly f64 n k = .ok polys ∧
      ∀ g : Nat, toPoly g ∣ X ^ n - 1 → ((toPoly g).natDegree : Int) = n - k → g ∈ polys := by
  obtain ⟨ps, he, hps⟩ := C29_genpoly_actual f64 hodd h1 h2 hdv hleast hk
  refine ⟨ps, by rw [he, map_f64_id hf hps hk2], fun g hd hg => (hps g).2 ⟨hd.trans ?_, hg⟩⟩
  obtain ⟨t, ht⟩ := hdv
  rw [ht, pow_mul]
  exact sub_one_dvd_pow_sub_one _ _

/-- The hypotheses of the last two theorems are met by n = 5, m = 4 (5 divides 15 but not 1, 3 or 7) and k = 1. -/
example : 5 % 2 = 1 ∧ 5 ∣ 2 ^ 4 - 1 ∧ (∀ j, 1 ≤ j → j < 4 → ¬ 5 ∣ 2 ^ j - 1) ∧ ((1 : Int) < 5) ∧ (5 : Int) - 1 ≤ 52 := by
  refine ⟨by norm_num, by norm_num, ?_, by norm_num, by norm_num⟩
  intro j h1 h2
  interval_cases j <;> norm_num

/-- C29. Even block lengths are rejected; block lengths dividing no 2^m - 1 with m ≤ 16 end in IndexError. -/
theorem C29_genpoly_errors (f64 : Nat → Nat) (n : Nat) (k : Int) :
    (n % 2 = 0 → cyclicCodeGenpoly f64 n k = .error .valueError) ∧
    (n % 2 = 1 → (∀ m, 1 ≤ m → m ≤ 16 → ¬ n ∣ 2 ^ m - 1) → cyclicCodeGenpoly f64 n k = .error .indexError) := by
  constructor
  · intro h; rw [cyclicCodeGenpoly, if_pos h]
  · intro h hno
    have hff : findField n = 17 := by
      unfold findField
      cases hfd : (List.range' 1 17).find? (fun m => (2 ^ m - 1) % n == 0) with
      | none => rfl
      | some a =>
        have h1 := List.mem_of_find?_eq_some hfd
        have h2 := List.find?_some hfd
        rw [List.mem_range'_1] at h1
        rw [beq_iff_eq] at h2
        by_cases ha : a ≤ 16
        · exact absurd (Nat.dvd_of_mod_eq_zero h2) (hno a h1.1 ha)
        · simp; omega
    rw [cyclicCodeGenpoly, if_neg (by omega), hff]
    have : GF.init (.arr (List.range' 1 (2 ^ 17 - 1))) 17 = .error .indexError := by
      have h1 : pyGet primpolyArray (17 : Int) = .error .indexError := pyGet_out (i := 17) (by simp [primpolyArray])
      simp only [GF.init, bind, Except.bind]
      rw [show ((17 : Nat) : Int) = 17 from rfl, h1]
    simp only [this, bind, Except.bind]

/-- C29 refuted for proper divisors of 2^m - 1: for the (5, 1) code the list contains x^4 + x + 1 (19), which does not divide
x^5 - 1. -/
theorem C29_genpoly_refuted :
    ∃ polys, cyclicCodeGenpoly id 5 1 = .ok polys ∧ ∃ g ∈ polys, ¬ toPoly g ∣ X ^ 5 - 1 := by
  refine ⟨[25, 31, 19], by decide +kernel, 19, by simp, ?_⟩
  intro h
  have h33 : (X ^ 5 - 1 : (ZMod 2)[X]) = toPoly 33 := by
    rw [show (33 : Nat) = 2 ^ 5 + 1 by norm_num, toPoly_two_pow_add (by norm_num), toPoly_one]
    rw [sub_eq_add_neg, CharTwo.neg_eq]
  rw [h33] at h
  obtain ⟨r, hr1, hr2, hr3⟩ := polydivide_spec (y := 19) (by norm_num) 33
  have hr : r = 7 := by
    have : polydivide 33 19 = .ok 7 := by decide +kernel
    rw [hr1] at this; cases this; rfl
  rw [(modByMonic_eq_zero_iff_dvd (toPoly_monic (by norm_num))).2 h, hr, toPoly_eq_zero] at hr3
  norm_num at hr3

example : cyclicCodeGenpoly id 15 4 = .ok [2479, 3171, 3929] := by decide +kernel

end Verif
