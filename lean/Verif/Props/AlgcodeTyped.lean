import Verif.Lemmas.AlgcodeTyped
import Mathlib.RingTheory.AdjoinRoot
import Mathlib.FieldTheory.Minpoly.Finite
import Mathlib.RingTheory.AdjoinRoot
import Mathlib.FieldTheory.Minpoly.Field
/-
Property theorems for `cyclic_code_genpoly` with the machine integers it really uses (C101).  `rnd` is the rounding of an integer to a
float64 (exact below 2^53).  The field degree `m` is the least one with n ∣ 2^m - 1.
-/
namespace Verif

open Polynomial

theorem findField_eq {m n : Nat} (h1 : 1 ≤ m) (h2 : m ≤ 16) (hdv : n ∣ 2 ^ m - 1) (hleast : ∀ j, 1 ≤ j → j < m → ¬ n ∣ 2 ^ j - 1) :
    findField n = m := by
  have hsome : (List.range' 1 17).find? (fun j => (2 ^ j - 1) % n == 0) = some m := by
    rw [List.find?_range'_eq_some]
    refine ⟨by simpa using Nat.mod_eq_zero_of_dvd hdv, by rw [List.mem_range'_1]; omega, ?_⟩
    intro j hj1 hj2
    have : ¬ (2 ^ j - 1) % n = 0 := fun h => hleast j hj1 hj2 (Nat.dvd_of_mod_eq_zero h)
    simpa using this
  unfold findField; rw [hsome]; rfl

/-- Minimal polynomials over GF(2^m) have degree at most m. -/
theorem classPoly_deg_le {m p : Nat} (h : TableRow m p) {c : List Nat} {r : Nat} (hc : ClassPoly p c r) : Nat.log2 r ≤ m := by
  haveI : Fact (Irreducible (toPoly p)) := ⟨h.irreducible⟩
  have hp0 : toPoly p ≠ 0 := h.irreducible.ne_zero
  obtain ⟨x, hx⟩ := List.exists_mem_of_ne_nil _ hc.pos
  haveI : Module.Finite (ZMod 2) (GFRing p) := (AdjoinRoot.powerBasis hp0).finite
  have hint : IsIntegral (ZMod 2) (gfElem p x) := Algebra.IsIntegral.isIntegral _
  have hd := hc.minimal (minpoly (ZMod 2) (gfElem p x)) x hx (minpoly.aeval _ _)
  have h1 := natDegree_le_of_dvd hd (minpoly.ne_zero hint)
  have h2 := minpoly.natDegree_le (A := ZMod 2) (gfElem p x)
  have h3 : Module.finrank (ZMod 2) (GFRing p) = m := by
    rw [(AdjoinRoot.powerBasis hp0).finrank, AdjoinRoot.powerBasis_dim, toPoly_natDegree h.isModulus.ne_zero, h.isModulus.deg]
  rw [toPoly_natDegree hc.ne] at h1
  omega

/-- What is needed about one mask. -/
theorem mask_facts {m : Nat} (h1 : 1 ≤ m) (h2 : m ≤ 16) {cs : List (List Nat)} {mp : List Nat}
    (hf2 : List.Forall₂ (ClassPoly (primpolyArray.getD m 0)) cs mp) (hnd : cs.flatten.Nodup)
    (hmem : ∀ x, x ∈ cs.flatten ↔ 1 ≤ x ∧ x < 2 ^ m) (i : Nat) :
    (maskSelect mp (toBits mp.length i)).foldlM (genpolyMul (2 ^ m)) 1 = .ok (genpolyVal m mp i) ∧
    (∀ r ∈ maskSelect mp (toBits mp.length i), r ≠ 0 ∧ Irreducible (toPoly r) ∧ Nat.log2 r ≤ 16) ∧
    ((maskSelect mp (toBits mp.length i)).map Nat.log2).sum < 2 ^ m ∧
    toPoly (genpolyVal m mp i) = ((maskSelect mp (toBits mp.length i)).map toPoly).prod ∧ genpolyVal m mp i < 2 ^ 2 ^ m := by
  have ht := tableRow h1 h2
  have h2m : 2 ^ 1 ≤ 2 ^ m := Nat.pow_le_pow_right (by norm_num) h1
  have hlen := flatten_length_eq hnd hmem
  have hsub : (maskSelect cs (toBits mp.length i)).flatten.Sublist cs.flatten := List.Sublist.flatten (maskSelect_sublist cs _)
  have hF := maskSelect_forall₂ hf2 (toBits mp.length i)
  obtain ⟨g, hg1, hg2, hg3, hg4, _, _⟩ := select_spec ht hF (hsub.nodup hnd)
    (fun x hx => (hmem x).1 (hsub.subset hx)) (by have := hsub.length_le; omega)
  have hv : genpolyVal m mp i = g := by simp [genpolyVal, hg1]
  rw [hv]
  refine ⟨hg1, ?_, ?_, hg3, (Nat.log2_lt hg2).1 (by rw [hg4]; have := hsub.length_le; omega)⟩
  · intro r hr
    obtain ⟨j, hj, rfl⟩ := List.getElem_of_mem hr
    have hcp := (List.forall₂_iff_get.1 hF).2 j (by rw [hF.length_eq]; exact hj) hj
    simp only [List.get_eq_getElem] at hcp
    refine ⟨hcp.ne, hcp.irreducible ht, le_trans (classPoly_deg_le ht hcp) h2⟩
  · rw [(forall₂_log hF).1]
    have := hsub.length_le
    omega

theorem mask_ne_nil {cs : List (List Nat)} {mp : List Nat} (hl : cs.length = mp.length) {n : Nat} {k : Int} (hk : k < n) {i : Nat}
    (hi : genpolySel cs mp.length n k i = true) : maskSelect mp (toBits mp.length i) ≠ [] := by
  intro h0
  have hz : maskSelect cs (toBits mp.length i) = [] := by
    have h1 : ∀ (a : List (List Nat)) (b : List Nat) (q : List Nat), a.length = b.length → maskSelect b q = [] → maskSelect a q = [] := by
      intro a
      induction a with
      | nil => intro b q _ _; simp [maskSelect]
      | cons x a ih =>
        intro b q hab hb
        cases b with
        | nil => simp at hab
        | cons y b =>
          cases q with
          | nil => simp [maskSelect]
          | cons z q =>
            have := ih b q (by simpa using hab)
            simp only [maskSelect] at hb this ⊢
            simp only [List.zip_cons_cons, List.filter_cons] at hb ⊢
            by_cases hz : z = 1
            · simp [hz] at hb
            · simp only [hz, decide_false, Bool.false_eq_true, if_false] at hb ⊢
              exact this hb
    exact h1 cs mp _ hl h0
  simp only [genpolySel, hz, List.flatten_nil, List.length_nil, decide_eq_true_eq] at hi
  omega

theorem prod_irreducible_iff {rs : List (ZMod 2)[X]} (h : ∀ r ∈ rs, Irreducible r) (hne : rs ≠ []) : Irreducible rs.prod ↔ rs.length = 1 := by
  cases rs with
  | nil => exact absurd rfl hne
  | cons a rs =>
    cases rs with
    | nil => simpa using h a (by simp)
    | cons b rs =>
      simp only [List.length_cons, List.prod_cons]
      constructor
      · intro hi
        rcases hi.isUnit_or_isUnit rfl with hu | hu
        · exact absurd hu (h a (by simp)).not_isUnit
        · exact absurd (isUnit_of_mul_isUnit_left hu) (h b (by simp)).not_isUnit
      · intro hl; omega

theorem genpolyT_exact {ver : NpVer} {rnd : Int → Int} (hr : ∀ x, 0 ≤ x → x < 2 ^ 53 → rnd x = x) {m n : Nat} {k : Int} (hodd : n % 2 = 1)
    (h1 : 1 ≤ m) (hm : m ≤ 2 ∨ (ver = .v1 ∧ m ≤ 5)) (hdv : n ∣ 2 ^ m - 1) (hleast : ∀ j, 1 ≤ j → j < m → ¬ n ∣ 2 ^ j - 1) (hk : k < n) :
    ∃ ps : List Nat, cyclicCodeGenpolyT ver rnd n k = .ok ps ∧
      ∀ g : Nat, g ∈ ps ↔ (toPoly g ∣ X ^ (2 ^ m - 1) - 1 ∧ ((toPoly g).natDegree : Int) = n - k) := by
  have h2 : m ≤ 16 := by omega
  obtain ⟨cs, mp, hf2, hnd, hmem, _, heq⟩ := genpolyT_loop (ver := ver) (k := k) rnd hodd h1 h2 (findField_eq h1 h2 hdv hleast)
  have hw : 2 * 2 ^ m - 1 ≤ 7 ∨ (ver = .v1 ∧ 2 * 2 ^ m - 1 ≤ 63) := by
    rcases hm with h | ⟨h, h'⟩
    · have : 2 ^ m ≤ 2 ^ 2 := Nat.pow_le_pow_right (by norm_num) h
      left; omega
    · have : 2 ^ m ≤ 2 ^ 5 := Nat.pow_le_pow_right (by norm_num) h'
      right; exact ⟨h, by omega⟩
  have hw32 : 2 ^ m ≤ 2 ^ 5 := Nat.pow_le_pow_right (by norm_num) (by omega)
  have hex : ∀ i, ∃ y : NpNum, (maskSelect mp (toBits mp.length i)).foldlM (genpolyMulT ver rnd (2 ^ m)) (.py 1) = .ok y ∧
      (rnd y.val).toNat = genpolyVal m mp i := by
    intro i
    obtain ⟨h3, h4, h5, h6, h7⟩ := mask_facts h1 h2 hf2 hnd hmem i
    obtain ⟨y, g, h8, _, h9, h10⟩ := genpolyFoldT_exact (ver := ver) rnd hw _ 1 (.py 1) (by norm_num) (fun r hr => (h4 r hr).1)
      (by rw [show Nat.log2 1 = 0 from rfl]; omega) trivial rfl
    rw [h3] at h9; cases h9
    refine ⟨y, h8, ?_⟩
    have hlt : genpolyVal m mp i < 2 ^ 32 := lt_of_lt_of_le h7 (Nat.pow_le_pow_right (by norm_num) hw32)
    rw [h10, hr _ (by positivity) (by exact_mod_cast lt_of_lt_of_le hlt (Nat.pow_le_pow_right (by norm_num) (by norm_num)))]
    simp
  choose y hy1 hy2 using hex
  rw [heq (by rcases hm with h | h; exact Or.inl (by omega); exact Or.inr h.1)]
  rw [foldlM_filter_ok (c := genpolySel cs mp.length n k) (g := y)]
  · refine ⟨_, rfl, ?_⟩
    intro g
    rw [← genpoly_mem h1 h2 hk hf2 hnd hmem g, List.nil_append, List.map_map]
    simp only [Function.comp_def, hy2]
    rfl
  · intro acc i _
    rw [hy1]
    cases genpolySel cs mp.length n k i <;> rfl

/-- C101 (partial: the claim holds for numpy 1 and field degrees up to 5, that is block lengths up to 31).  The result is the list of all binary
polynomials of degree n - k dividing x^(2^m-1) - 1, as in C29.  Missing: larger fields, where the function in general raises TypeError
(`C101_numpy1_large`), and numpy 2 (`C101_numpy2`). -/
theorem C101_numpy1_small_partial {rnd : Int → Int} (hr : ∀ x, 0 ≤ x → x < 2 ^ 53 → rnd x = x) {m n : Nat} {k : Int} (hodd : n % 2 = 1)
    (h1 : 1 ≤ m) (h5 : m ≤ 5) (hdv : n ∣ 2 ^ m - 1) (hleast : ∀ j, 1 ≤ j → j < m → ¬ n ∣ 2 ^ j - 1) (hk : k < n) :
    ∃ ps : List Nat, cyclicCodeGenpolyT .v1 rnd n k = .ok ps ∧
      ∀ g : Nat, g ∈ ps ↔ (toPoly g ∣ X ^ (2 ^ m - 1) - 1 ∧ ((toPoly g).natDegree : Int) = n - k) :=
  genpolyT_exact hr hodd h1 (Or.inr ⟨rfl, h5⟩) hdv hleast hk

/-- C101, numpy 1 and field degree at least 6: the first product is a float, so that a second one raises TypeError.  If some divisor of
degree n - k is reducible the function raises TypeError; otherwise all divisors of that degree are irreducible and it returns them. -/
theorem C101_numpy1_large {rnd : Int → Int} (hr : ∀ x, 0 ≤ x → x < 2 ^ 53 → rnd x = x) {m n : Nat} {k : Int} (hodd : n % 2 = 1)
    (h6 : 6 ≤ m) (h2 : m ≤ 16) (hdv : n ∣ 2 ^ m - 1) (hleast : ∀ j, 1 ≤ j → j < m → ¬ n ∣ 2 ^ j - 1) (hk : k < n) :
    ((∃ g : Nat, toPoly g ∣ X ^ (2 ^ m - 1) - 1 ∧ ((toPoly g).natDegree : Int) = n - k ∧ ¬ Irreducible (toPoly g)) →
      cyclicCodeGenpolyT .v1 rnd n k = .error .typeError) ∧
    ((¬ ∃ g : Nat, toPoly g ∣ X ^ (2 ^ m - 1) - 1 ∧ ((toPoly g).natDegree : Int) = n - k ∧ ¬ Irreducible (toPoly g)) →
      ∃ ps : List Nat, cyclicCodeGenpolyT .v1 rnd n k = .ok ps ∧
        ∀ g : Nat, g ∈ ps ↔ (toPoly g ∣ X ^ (2 ^ m - 1) - 1 ∧ ((toPoly g).natDegree : Int) = n - k)) := by
  have h1 : 1 ≤ m := by omega
  obtain ⟨cs, mp, hf2, hnd, hmem, _, heq⟩ := genpolyT_loop (ver := .v1) (k := k) rnd hodd h1 h2 (findField_eq h1 h2 hdv hleast)
  have hw : 2 ^ 6 ≤ 2 ^ m := Nat.pow_le_pow_right (by norm_num) h6
  have hone : 1 < 2 ^ 2 ^ m := Nat.one_lt_two_pow (by omega)
  have hmask := mask_facts h1 h2 hf2 hnd hmem
  -- one selected polynomial
  have hsingle : ∀ i r, maskSelect mp (toBits mp.length i) = [r] →
      (maskSelect mp (toBits mp.length i)).foldlM (genpolyMulT .v1 rnd (2 ^ m)) (.py 1) = .ok (.f64 (genpolyVal m mp i)) ∧
      genpolyVal m mp i < 2 ^ 53 := by
    intro i r hs
    obtain ⟨h3, h4, h5, hpoly, h7⟩ := hmask i
    rw [hs] at h3 h4 hpoly ⊢
    simp only [List.map_cons, List.map_nil, List.prod_cons, List.prod_nil, mul_one] at hpoly
    have hgr : genpolyVal m mp i = r := toPoly_inj hpoly
    obtain ⟨hr0, _, hr16⟩ := h4 r (by simp)
    have hlt : r < 2 ^ 53 := (Nat.log2_lt hr0).1 (by omega)
    have hmul : genpolyMul (2 ^ m) 1 r = .ok (genpolyVal m mp i) := by
      rw [List.foldlM_cons] at h3
      cases hg : genpolyMul (2 ^ m) 1 r with
      | ok v => rw [hg] at h3; exact h3
      | error e => rw [hg] at h3; cases h3
    refine ⟨?_, by rw [hgr]; exact hlt⟩
    rw [List.foldlM_cons, genpolyMulT_float hr (x := .py 1) (by omega) hone (by rw [← hgr]; exact h7) hmul (by rw [hgr]; exact hlt) trivial rfl]
    rfl
  have hmany : ∀ i r1 r2 rs, maskSelect mp (toBits mp.length i) = r1 :: r2 :: rs →
      (maskSelect mp (toBits mp.length i)).foldlM (genpolyMulT .v1 rnd (2 ^ m)) (.py 1) = .error .typeError := by
    intro i r1 r2 rs hs
    obtain ⟨h3, h4, h5, hpoly, h7⟩ := hmask i
    rw [hs] at h3 h4 ⊢
    obtain ⟨hr0, _, hr16⟩ := h4 r1 (by simp)
    have hlt : r1 < 2 ^ 53 := (Nat.log2_lt hr0).1 (by omega)
    have hltw : r1 < 2 ^ 2 ^ m := (Nat.log2_lt hr0).1 (by omega)
    obtain ⟨v, hv1, hv2⟩ := genpolyMul_spec (w := 2 ^ m) (by omega) hone hltw
    rw [toPoly_one, one_mul] at hv2
    rw [toPoly_inj hv2] at hv1
    rw [List.foldlM_cons, genpolyMulT_float hr (x := .py 1) (by omega) hone hltw hv1 hlt trivial rfl]
    simp only [bind, Except.bind, List.foldlM_cons, genpolyMulT, dec2bitarrayT]
  -- irreducibility of the value and number of selected polynomials
  have hirr : ∀ i, genpolySel cs mp.length n k i = true →
      (Irreducible (toPoly (genpolyVal m mp i)) ↔ (maskSelect mp (toBits mp.length i)).length = 1) := by
    intro i hi
    obtain ⟨h3, h4, h5, hpoly, h7⟩ := hmask i
    rw [hpoly, prod_irreducible_iff]
    · simp
    · intro q hq
      obtain ⟨r, hr, rfl⟩ := List.mem_map.1 hq
      exact (h4 r hr).2.1
    · intro h0
      exact mask_ne_nil hf2.length_eq hk hi (List.map_eq_nil_iff.1 h0)
  rw [heq (Or.inr rfl)]
  constructor
  · rintro ⟨g, hg1, hg2, hg3⟩
    have hgm := (genpoly_mem h1 h2 hk hf2 hnd hmem g).2 ⟨hg1, hg2⟩
    obtain ⟨i, hi, rfl⟩ := List.mem_map.1 hgm
    rw [List.mem_filter] at hi
    have hsel : genpolySel cs mp.length n k i = true := hi.2
    rw [foldlM_error_of (e := .typeError)]
    · rfl
    · intro j _ b
      by_cases hj : genpolySel cs mp.length n k j = true
      · rw [if_pos hj]
        rcases hs : maskSelect mp (toBits mp.length j) with _ | ⟨r1, rs⟩
        · exact absurd hs (mask_ne_nil hf2.length_eq hk hj)
        · rcases rs with _ | ⟨r2, rs⟩
          · left; rw [← hs, (hsingle j r1 hs).1]; exact ⟨_, rfl⟩
          · right; rw [← hs, hmany j r1 r2 rs hs]; rfl
      · rw [if_neg hj]; exact Or.inl ⟨_, rfl⟩
    · refine ⟨i, hi.1, fun b => ?_⟩
      rw [if_pos hsel]
      rcases hs : maskSelect mp (toBits mp.length i) with _ | ⟨r1, rs⟩
      · exact absurd hs (mask_ne_nil hf2.length_eq hk hsel)
      · rcases rs with _ | ⟨r2, rs⟩
        · rw [hirr i hsel, hs] at hg3; exact absurd rfl hg3
        · rw [← hs, hmany i r1 r2 rs hs]; rfl
  · intro hno
    have hall : ∀ i ∈ List.range' 1 (2 ^ mp.length - 1), genpolySel cs mp.length n k i = true →
        ∃ r, maskSelect mp (toBits mp.length i) = [r] := by
      intro i hi hsel
      rw [← List.length_eq_one_iff, ← hirr i hsel]
      by_contra hred
      apply hno
      have hgm := (genpoly_mem h1 h2 hk hf2 hnd hmem (genpolyVal m mp i)).1 (List.mem_map.2 ⟨i, List.mem_filter.2 ⟨hi, hsel⟩, rfl⟩)
      exact ⟨_, hgm.1, hgm.2, hred⟩
    rw [foldlM_filter_ok (c := genpolySel cs mp.length n k) (g := fun i => .f64 (genpolyVal m mp i))]
    · refine ⟨_, rfl, ?_⟩
      intro g
      rw [← genpoly_mem h1 h2 hk hf2 hnd hmem g, List.nil_append, List.map_map]
      have hcongr : ((List.range' 1 (2 ^ mp.length - 1)).filter (genpolySel cs mp.length n k)).map
          ((fun g : NpNum => (rnd g.val).toNat) ∘ fun i => NpNum.f64 (genpolyVal m mp i)) =
          ((List.range' 1 (2 ^ mp.length - 1)).filter (genpolySel cs mp.length n k)).map (genpolyVal m mp) := by
        apply List.map_congr_left
        intro i hi
        obtain ⟨hi1, hi2⟩ := List.mem_filter.1 hi
        obtain ⟨r, hs⟩ := hall i hi1 hi2
        simp only [Function.comp_apply, NpNum.val]
        rw [hr _ (by positivity) (by exact_mod_cast (hsingle i r hs).2)]
        simp
      rw [hcongr]
      rfl
    · intro acc i hi
      by_cases hsel : genpolySel cs mp.length n k i = true
      · obtain ⟨r, hs⟩ := hall i hi hsel
        rw [if_pos hsel, if_pos hsel, (hsingle i r hs).1]
        rfl
      · rw [if_neg hsel, if_neg hsel]

/-- C101, numpy 2: exact for m ≤ 2; for m = 3, 4 OverflowError unless there is nothing to return; for 5 ≤ m ≤ 16 always OverflowError. -/
theorem C101_numpy2 {rnd : Int → Int} (hr : ∀ x, 0 ≤ x → x < 2 ^ 53 → rnd x = x) {m n : Nat} {k : Int} (hodd : n % 2 = 1)
    (h1 : 1 ≤ m) (h2 : m ≤ 16) (hdv : n ∣ 2 ^ m - 1) (hleast : ∀ j, 1 ≤ j → j < m → ¬ n ∣ 2 ^ j - 1) (hk : k < n) :
    (m ≤ 2 → ∃ ps : List Nat, cyclicCodeGenpolyT .v2 rnd n k = .ok ps ∧
      ∀ g : Nat, g ∈ ps ↔ (toPoly g ∣ X ^ (2 ^ m - 1) - 1 ∧ ((toPoly g).natDegree : Int) = n - k)) ∧
    (3 ≤ m → m ≤ 4 → (∃ g : Nat, toPoly g ∣ X ^ (2 ^ m - 1) - 1 ∧ ((toPoly g).natDegree : Int) = n - k) →
      cyclicCodeGenpolyT .v2 rnd n k = .error .overflowError) ∧
    (3 ≤ m → m ≤ 4 → (¬ ∃ g : Nat, toPoly g ∣ X ^ (2 ^ m - 1) - 1 ∧ ((toPoly g).natDegree : Int) = n - k) →
      cyclicCodeGenpolyT .v2 rnd n k = .ok []) ∧
    (5 ≤ m → cyclicCodeGenpolyT .v2 rnd n k = .error .overflowError) := by
  obtain ⟨cs, mp, hf2, hnd, hmem, hbig, heq⟩ := genpolyT_loop (ver := .v2) (k := k) rnd hodd h1 h2 (findField_eq h1 h2 hdv hleast)
  refine ⟨fun h => genpolyT_exact hr hodd h1 (Or.inl h) hdv hleast hk, ?_, ?_, hbig⟩
  · intro h3 h4 ⟨g, hg⟩
    have hw : 2 ^ 3 ≤ 2 ^ m := Nat.pow_le_pow_right (by norm_num) h3
    have hone : 1 < 2 ^ 2 ^ m := Nat.one_lt_two_pow (by omega)
    have hov : ∀ i, genpolySel cs mp.length n k i = true →
        (maskSelect mp (toBits mp.length i)).foldlM (genpolyMulT .v2 rnd (2 ^ m)) (.py 1) = .error .overflowError := by
      intro i hi
      obtain ⟨_, h4, h5, _, _⟩ := mask_facts h1 h2 hf2 hnd hmem i
      rcases hs : maskSelect mp (toBits mp.length i) with _ | ⟨r, rs⟩
      · exact absurd hs (mask_ne_nil hf2.length_eq hk hi)
      · rw [hs] at h4 h5
        simp only [List.map_cons, List.sum_cons] at h5
        have hlt : r < 2 ^ 2 ^ m := (Nat.log2_lt (h4 r (by simp)).1).1 (by omega)
        rw [List.foldlM_cons]
        have := genpolyMulT_v2_overflow rnd (w := 2 ^ m) (a := 1) (b := r) (by omega) hone hlt
        rw [show ((1 : Nat) : Int) = 1 from rfl] at this
        rw [this]; rfl
    obtain ⟨i, hi, _⟩ := List.mem_map.1 ((genpoly_mem h1 h2 hk hf2 hnd hmem g).2 hg)
    rw [List.mem_filter] at hi
    have hsel : genpolySel cs mp.length n k i = true := hi.2
    rw [heq (Or.inl h4), foldlM_error_of (e := .overflowError)]
    · rfl
    · intro j _ b
      by_cases hj : genpolySel cs mp.length n k j = true
      · rw [if_pos hj, hov j hj]; exact Or.inr rfl
      · rw [if_neg hj]; exact Or.inl ⟨_, rfl⟩
    · exact ⟨i, hi.1, fun b => by rw [if_pos hsel, hov i hsel]; rfl⟩
  · intro h3 h4 hno
    rw [heq (Or.inl h4), foldlM_filter_ok (c := fun _ => false) (g := fun _ => .py 0)]
    · simp [bind, Except.bind]
    · intro acc i hi
      have hsel : ¬ genpolySel cs mp.length n k i = true := by
        intro hsel
        apply hno
        exact ⟨_, (genpoly_mem h1 h2 hk hf2 hnd hmem (genpolyVal m mp i)).1 (List.mem_map.2 ⟨i, List.mem_filter.2 ⟨hi, hsel⟩, rfl⟩)⟩
      rw [if_neg hsel]; rfl

theorem least_of_lt {m j : Nat} (hj1 : 1 ≤ j) (hj2 : j < m) : ¬ 2 ^ m - 1 ∣ 2 ^ j - 1 := by
  intro hd
  have hlt : 2 ^ j < 2 ^ m := Nat.pow_lt_pow_right (by norm_num) hj2
  have hj2' : 2 ^ 1 ≤ 2 ^ j := Nat.pow_le_pow_right (by norm_num) hj1
  have := Nat.le_of_dvd (by omega) hd
  omega

/-- C101 refuted: with numpy 1 `cyclic_code_genpoly(63, 57)` raises TypeError (x^6 + x^5 + x^4 + x^3 + x^2 + x + 1 is a reducible divisor of
degree 6); with numpy 2 `cyclic_code_genpoly(7, 4)`, the Hamming code, raises OverflowError, although 1011 is a generator. -/
theorem C101_refuted {rnd : Int → Int} (hr : ∀ x, 0 ≤ x → x < 2 ^ 53 → rnd x = x) :
    cyclicCodeGenpolyT .v1 rnd 63 57 = .error .typeError ∧
    cyclicCodeGenpolyT .v2 rnd 7 4 = .error .overflowError ∧ toPoly 11 ∣ X ^ 7 - 1 ∧ (toPoly 11).natDegree = 3 := by
  have h11 : (toPoly 11 : (ZMod 2)[X]) = X ^ 3 + X + 1 := by
    rw [show (11 : Nat) = 2 ^ 3 + (2 ^ 1 + 1) by norm_num, toPoly_two_pow_add (by norm_num), toPoly_two_pow_add (by norm_num), toPoly_one]
    ring
  have h13 : (toPoly 13 : (ZMod 2)[X]) = X ^ 3 + X ^ 2 + 1 := by
    rw [show (13 : Nat) = 2 ^ 3 + (2 ^ 2 + 1) by norm_num, toPoly_two_pow_add (by norm_num), toPoly_two_pow_add (by norm_num), toPoly_one]
    ring
  have h127 : (toPoly 127 : (ZMod 2)[X]) = X ^ 6 + X ^ 5 + X ^ 4 + X ^ 3 + X ^ 2 + X + 1 := by
    rw [show (127 : Nat) = 2 ^ 6 + (2 ^ 5 + (2 ^ 4 + (2 ^ 3 + (2 ^ 2 + (2 ^ 1 + 1))))) by norm_num, toPoly_two_pow_add (by norm_num),
      toPoly_two_pow_add (by norm_num), toPoly_two_pow_add (by norm_num), toPoly_two_pow_add (by norm_num), toPoly_two_pow_add (by norm_num),
      toPoly_two_pow_add (by norm_num), toPoly_one]
    ring
  have two : (2 : (ZMod 2)[X]) = 0 := CharTwo.two_eq_zero
  have hprod : (toPoly 127 : (ZMod 2)[X]) = toPoly 11 * toPoly 13 := by
    rw [h11, h13, h127]
    linear_combination (-X ^ 3) * two
  have hx7 : (X ^ 7 - 1 : (ZMod 2)[X]) = toPoly 127 * (X - 1) := by rw [h127]; ring
  have hd11 : (toPoly 11 : (ZMod 2)[X]).natDegree = 3 := by rw [toPoly_natDegree (by norm_num)]; decide
  have hd13 : (toPoly 13 : (ZMod 2)[X]).natDegree = 3 := by rw [toPoly_natDegree (by norm_num)]; decide
  have h11d : (toPoly 11 : (ZMod 2)[X]) ∣ X ^ 7 - 1 := ⟨toPoly 13 * (X - 1), by rw [hx7, hprod]; ring⟩
  refine ⟨?_, ?_, h11d, hd11⟩
  · refine (C101_numpy1_large hr (m := 6) (n := 63) (k := 57) (by norm_num) (by norm_num) (by norm_num) (by norm_num)
      (fun j h1 h2 => least_of_lt (m := 6) h1 h2) (by norm_num)).1 ⟨127, ?_, ?_, ?_⟩
    · refine dvd_trans ⟨X - 1, hx7⟩ ?_
      rw [show 2 ^ 6 - 1 = 7 * 9 by norm_num, pow_mul]
      exact sub_one_dvd_pow_sub_one _ _
    · rw [toPoly_natDegree (by norm_num)]; decide
    · intro hi
      rcases hi.isUnit_or_isUnit hprod with hu | hu
      · have := natDegree_eq_zero_of_isUnit hu; omega
      · have := natDegree_eq_zero_of_isUnit hu; omega
  · exact (C101_numpy2 hr (m := 3) (n := 7) (k := 4) (by norm_num) (by norm_num) (by norm_num) (by norm_num)
      (fun j h1 h2 => least_of_lt (m := 3) h1 h2) (by norm_num)).2.1 (by norm_num) (by norm_num) ⟨11, by simpa using h11d, by rw [hd11]; norm_num⟩

/-- The second alternative of `C101_numpy1_large` occurs: (63, 62), where every divisor of the degree asked for is linear. -/
example {rnd : Int → Int} (hr : ∀ x, 0 ≤ x → x < 2 ^ 53 → rnd x = x) : ∃ ps : List Nat, cyclicCodeGenpolyT .v1 rnd 63 62 = .ok ps ∧
    ∀ g : Nat, g ∈ ps ↔ (toPoly g ∣ X ^ (2 ^ 6 - 1) - 1 ∧ ((toPoly g).natDegree : Int) = (63 : Nat) - 62) := by
  refine (C101_numpy1_large hr (m := 6) (n := 63) (k := 62) (by norm_num) (by norm_num) (by norm_num) (by norm_num)
      (fun j h1 h2 => least_of_lt (m := 6) h1 h2) (by norm_num)).2 ?_
  rintro ⟨g, _, hg, hni⟩
  apply hni
  apply irreducible_of_degree_eq_one
  have h1 : (toPoly g).natDegree = 1 := by push_cast at hg; omega
  exact (degree_eq_iff_natDegree_eq_of_pos (by norm_num)).2 h1

/-- The hypotheses of `C101_numpy1_small_partial` hold for every primitive length up to 31, e.g. the (15, 11) Hamming code. -/
example {rnd : Int → Int} (hr : ∀ x, 0 ≤ x → x < 2 ^ 53 → rnd x = x) : ∃ ps : List Nat, cyclicCodeGenpolyT .v1 rnd 15 11 = .ok ps ∧
    ∀ g : Nat, g ∈ ps ↔ (toPoly g ∣ X ^ (2 ^ 4 - 1) - 1 ∧ ((toPoly g).natDegree : Int) = (15 : Nat) - 11) :=
  C101_numpy1_small_partial hr (m := 4) (by norm_num) (by norm_num) (by norm_num) (by norm_num)
    (fun j h1 h2 => least_of_lt (m := 4) h1 h2) (by norm_num)

end Verif
