import Verif.Lemmas.GFClasses
import Verif.Model.Algcode
/- Lemmas for `cyclic_code_genpoly`. -/
namespace Verif

open Polynomial

theorem genpolyMul_spec {w a b : Nat} (hw : 1 ≤ w) (ha : a < 2 ^ w) (hb : b < 2 ^ w) :
    ∃ r, genpolyMul w a b = .ok r ∧ toPoly r = toPoly a * toPoly b := by
  have hca : toBits w a ≠ [] := by intro h; have := congrArg List.length h; simp at this; omega
  have hcb : toBits w b ≠ [] := by intro h; have := congrArg List.length h; simp at this; omega
  obtain ⟨c, hc⟩ : ∃ c, convolve (toBits w a) (toBits w b) = .ok c := ⟨_, convolve_ok hca hcb⟩
  refine ⟨bitarray2dec (c.map (· % 2)), ?_, ?_⟩
  · simp only [genpolyMul, dec2bitarray_ok ha, dec2bitarray_ok hb, hc, bind, Except.bind, pure, Except.pure]
  · rw [toPoly_bitarray2dec (by intro x hx; obtain ⟨y, _, rfl⟩ := List.mem_map.1 hx; exact Nat.mod_lt _ (by norm_num)),
      listPoly_mod, listPoly_convolve hc, toPoly_toBits ha, toPoly_toBits hb]

theorem toPoly_ne_zero {a : Nat} (h : a ≠ 0) : toPoly a ≠ 0 := by rwa [Ne, toPoly_eq_zero]

theorem genpolyFold_spec {w : Nat} : ∀ (rs : List Nat) (g0 : Nat), g0 ≠ 0 → (∀ r ∈ rs, r ≠ 0) →
    Nat.log2 g0 + (rs.map Nat.log2).sum < w →
    ∃ g, rs.foldlM (genpolyMul w) g0 = .ok g ∧ g ≠ 0 ∧ toPoly g = toPoly g0 * (rs.map toPoly).prod ∧
      Nat.log2 g = Nat.log2 g0 + (rs.map Nat.log2).sum := by
  intro rs
  induction rs with
  | nil => intro g0 h0 _ _; exact ⟨g0, rfl, h0, by simp, by simp⟩
  | cons r rs ih =>
    intro g0 h0 hr hlt
    simp only [List.map_cons, List.sum_cons] at hlt
    have hr0 := hr r (by simp)
    obtain ⟨g1, h1, h2⟩ := genpolyMul_spec (w := w) (by omega) ((Nat.log2_lt h0).1 (by omega)) ((Nat.log2_lt hr0).1 (by omega : Nat.log2 r < w))
    have hg1 : g1 ≠ 0 := by
      intro h
      rw [h, toPoly_zero] at h2
      rcases mul_eq_zero.1 h2.symm with h | h
      · exact toPoly_ne_zero h0 h
      · exact toPoly_ne_zero hr0 h
    have hlog : Nat.log2 g1 = Nat.log2 g0 + Nat.log2 r := by
      rw [← toPoly_natDegree hg1, h2, natDegree_mul (toPoly_ne_zero h0) (toPoly_ne_zero hr0), toPoly_natDegree h0, toPoly_natDegree hr0]
    obtain ⟨g, h3, h4, h5, h6⟩ := ih g1 hg1 (fun r hr' => hr r (by simp [hr'])) (by omega)
    refine ⟨g, ?_, h4, ?_, ?_⟩
    · rw [List.foldlM_cons, h1]; exact h3
    · rw [h5, h2, List.map_cons, List.prod_cons, mul_assoc]
    · rw [h6, hlog, List.map_cons, List.sum_cons]; omega

theorem foldlM_filter_ok {β : Type} {f : List β → Nat → Py (List β)} {c : Nat → Bool} {g : Nat → β} (l : List Nat)
    (h : ∀ acc, ∀ i ∈ l, f acc i = .ok (if c i then acc ++ [g i] else acc)) (acc : List β) :
    l.foldlM f acc = .ok (acc ++ (l.filter c).map g) := by
  induction l generalizing acc with
  | nil => simp [pure, Except.pure]
  | cons i l ih =>
    rw [List.foldlM_cons, h acc i (by simp)]
    simp only [bind, Except.bind]
    rw [ih (fun acc i hi => h acc i (by simp [hi]))]
    rw [List.filter_cons]
    split <;> simp

theorem maskSelect_map {α β : Type} (q : β → Bool) : ∀ (as : List α) (bs : List β),
    maskSelect as (bs.map (fun b => if q b then 1 else 0)) = ((as.zip bs).filter (fun p => q p.2)).map Prod.fst := by
  intro as
  induction as with
  | nil => intro bs; simp [maskSelect]
  | cons a as ih =>
    intro bs
    cases bs with
    | nil => simp [maskSelect]
    | cons b bs =>
      have h := ih bs
      simp only [maskSelect] at h ⊢
      simp only [List.map_cons, List.zip_cons_cons, List.filter_cons]
      by_cases hb : q b
      · simp [hb]; simpa using h
      · simp [hb]; simpa using h

theorem maskSelect_self {β : Type} (q : β → Bool) (bs : List β) :
    maskSelect bs (bs.map (fun b => if q b then 1 else 0)) = bs.filter q := by
  rw [maskSelect_map]
  induction bs with
  | nil => rfl
  | cons b bs ih =>
    simp only [List.zip_cons_cons, List.filter_cons]
    by_cases hb : q b
    · simp [hb, ih]
    · simp [hb, ih]

theorem maskSelect_forall₂ {α β : Type} {R : α → β → Prop} {as : List α} {bs : List β} (h : List.Forall₂ R as bs) (mask : List Nat) :
    List.Forall₂ R (maskSelect as mask) (maskSelect bs mask) := by
  induction h generalizing mask with
  | nil => simp [maskSelect]
  | @cons a b as bs hab _ ih =>
    cases mask with
    | nil => simp [maskSelect]
    | cons k mask =>
      have h := ih mask
      simp only [maskSelect] at h ⊢
      simp only [List.zip_cons_cons, List.filter_cons]
      by_cases hk : k = 1
      · simp [hk]; exact ⟨hab, by simpa using h⟩
      · simp [hk]; simpa using h

theorem maskSelect_sublist {α : Type} : ∀ (as : List α) (mask : List Nat), (maskSelect as mask).Sublist as := by
  intro as mask
  have h : (((as.zip mask).filter (fun p => p.2 = 1)).map Prod.fst).Sublist ((as.zip mask).map Prod.fst) :=
    List.Sublist.map _ List.filter_sublist
  refine h.trans ?_
  clear h
  induction as generalizing mask with
  | nil => simp
  | cons a as ih =>
    cases mask with
    | nil => simp
    | cons k mask => simpa using ih mask

/-- What is known about a class `c` of the non-zero elements and its polynomial `r`. -/
structure ClassPoly (p : Nat) (c : List Nat) (r : Nat) : Prop where
  ne : r ≠ 0
  deg : Nat.log2 r = c.length
  pos : c ≠ []
  map : (toPoly r).map (algebraMap (ZMod 2) (GFRing p)) = (c.map (fun c => X + C (gfElem p c))).prod
  root : ∀ x ∈ c, aeval (gfElem p x) (toPoly r) = 0
  minimal : ∀ f : (ZMod 2)[X], ∀ x ∈ c, aeval (gfElem p x) f = 0 → toPoly r ∣ f

theorem forall₂_prod_map {p : Nat} {cs : List (List Nat)} {rs : List Nat} (h : List.Forall₂ (ClassPoly p) cs rs) :
    ((rs.map toPoly).prod).map (algebraMap (ZMod 2) (GFRing p)) = (cs.flatten.map (fun c => X + C (gfElem p c))).prod := by
  induction h with
  | nil => simp
  | cons h1 _ ih =>
    rw [List.map_cons, List.prod_cons, Polynomial.map_mul, ih, h1.map, List.flatten_cons, List.map_append, List.prod_append]

theorem forall₂_log {p : Nat} {cs : List (List Nat)} {rs : List Nat} (h : List.Forall₂ (ClassPoly p) cs rs) :
    (rs.map Nat.log2).sum = cs.flatten.length ∧ (cs.map List.length).sum = cs.flatten.length ∧ ∀ r ∈ rs, r ≠ 0 := by
  induction h with
  | nil => simp
  | cons h1 _ ih =>
    refine ⟨by simp [ih.1, h1.deg], by simp, ?_⟩
    intro r hr
    rcases List.mem_cons.1 hr with rfl | hr
    · exact h1.ne
    · exact ih.2.2 r hr

/-- A product of distinct linear factors divides every binary polynomial vanishing at their roots. -/
theorem linear_prod_dvd {m p : Nat} (h : TableRow m p) {L : List Nat} (hn : L.Nodup) (hL : ∀ x ∈ L, x < 2 ^ m)
    {F G : (ZMod 2)[X]} (hG : G.map (algebraMap (ZMod 2) (GFRing p)) = (L.map (fun c => X + C (gfElem p c))).prod)
    (hF : ∀ x ∈ L, aeval (gfElem p x) F = 0) : G ∣ F := by
  classical
  have hp := h.isModulus
  haveI : Fact (Irreducible (toPoly p)) := ⟨h.irreducible⟩
  have hinj : Function.Injective (algebraMap (ZMod 2) (GFRing p)) := RingHom.injective _
  haveI : CharP (GFRing p) 2 := charP_of_injective_algebraMap hinj 2
  have hnm : (L.map (gfElem p)).Nodup := by
    rw [List.nodup_map_iff_inj_on hn]
    intro x hx y hy hxy
    exact gfElem_inj hp (hL x hx) (hL y hy) hxy
  have hprodS : (L.map (fun c => (X : (GFRing p)[X]) + C (gfElem p c))).prod = ∏ s ∈ (L.map (gfElem p)).toFinset, (X + C s) := by
    rw [List.prod_toFinset _ hnm, List.map_map]; rfl
  rw [← map_dvd_map' (algebraMap (ZMod 2) (GFRing p)), hG, hprodS]
  have hneg : ∀ s : GFRing p, (X : (GFRing p)[X]) + C s = X - C s := by
    intro s
    rw [sub_eq_add_neg, CharTwo.neg_eq]
  apply Finset.prod_dvd_of_coprime
  · intro s _ s' _ hss
    simp only [Function.onFun, hneg]
    exact pairwise_coprime_X_sub_C (s := id) Function.injective_id hss
  · intro s hs
    rw [hneg, dvd_iff_isRoot, IsRoot, eval_map, ← aeval_def]
    rw [List.mem_toFinset, List.mem_map] at hs
    obtain ⟨y, hy, rfl⟩ := hs
    exact hF y hy

theorem pairwise_disjoint_of_filter {cs : List (List Nat)} (h : ∀ a, (cs.filter (fun c => a ∈ c)).length ≤ 1) :
    cs.Pairwise List.Disjoint := by
  induction cs with
  | nil => exact List.Pairwise.nil
  | cons c cs ih =>
    rw [List.pairwise_cons]
    constructor
    · intro c' hc' a ha ha'
      have h1 := h a
      rw [List.filter_cons, if_pos (by simpa using ha), List.length_cons] at h1
      have : c' ∈ cs.filter (fun c => a ∈ c) := by rw [List.mem_filter]; exact ⟨hc', by simpa using ha'⟩
      have := List.length_pos_of_mem this
      omega
    · apply ih
      intro a
      have h1 := h a
      rw [List.filter_cons] at h1
      split at h1
      · rw [List.length_cons] at h1; omega
      · exact h1

/-- Everything `cyclic_code_genpoly` computes before the subset loop. -/
theorem genpoly_classes {m : Nat} (h1 : 1 ≤ m) (h2 : m ≤ 16) :
    ∃ cs minpols, GF.cosets ⟨m, primpolyArray.getD m 0, some (List.range' 1 (2 ^ m - 1))⟩ = .ok cs ∧
      GF.init (.arr (cs.map (fun c => c.getD 0 0))) m = .ok ⟨m, primpolyArray.getD m 0, some (cs.map (fun c => c.getD 0 0))⟩ ∧
      GF.minpolys ⟨m, primpolyArray.getD m 0, some (cs.map (fun c => c.getD 0 0))⟩ = .ok minpols ∧
      List.Forall₂ (ClassPoly (primpolyArray.getD m 0)) cs minpols ∧
      cs.flatten.Nodup ∧ (∀ x, x ∈ cs.flatten ↔ 1 ≤ x ∧ x < 2 ^ m) := by
  have ht := tableRow h1 h2
  have hp := ht.isModulus
  have hlt1 := gfElem_one_lt hp
  set p := primpolyArray.getD m 0 with hpd
  set l := List.range' 1 (2 ^ m - 1) with hl
  have hmem : ∀ x, x ∈ l ↔ 1 ≤ x ∧ x < 2 ^ m := by intro x; rw [hl, List.mem_range'_1]; omega
  have hnd : l.Nodup := List.nodup_range'
  have hlt : ∀ x ∈ l, x < 2 ^ m := fun x hx => ((hmem x).1 hx).2
  obtain ⟨cs, hc1, hc2, hc3, hc4⟩ := cosets_classes h1 h2 hnd hlt
  rw [← hpd] at hc1 hc4
  haveI : Fact (Irreducible (toPoly p)) := ⟨ht.irreducible⟩
  have hsq : ∀ x ∈ l, ∃ y ∈ l, gfElem p y = gfElem p x ^ 2 := by
    intro x hx
    obtain ⟨y, hy, hxy⟩ := gfElem_surj hp (gfElem p x ^ 2)
    refine ⟨y, (hmem y).2 ⟨?_, hy⟩, hxy⟩
    by_contra h0
    have : y = 0 := by omega
    rw [this, gfElem_zero] at hxy
    have h3 := pow_eq_zero_iff (n := 2) (by norm_num) |>.1 hxy.symm
    rw [gfElem_eq_zero hp (hlt x hx)] at h3
    have := ((hmem x).1 hx).1
    omega
  have hcne : cs ≠ [] := by
    rintro rfl
    obtain ⟨c, hc, _⟩ := hc3 1 ((hmem 1).2 ⟨le_rfl, hlt1⟩)
    simp at hc
  have hlead : ∀ c ∈ cs, c.getD 0 0 ∈ c := by
    intro c hc
    have := List.length_pos_iff.2 (hc2 c hc).1
    rw [List.getD_eq_getElem _ _ this]; exact List.getElem_mem this
  obtain ⟨mp, hm1, hm2, hm3⟩ := minpolys_ok h1 h2 (l := cs.map (fun c => c.getD 0 0)) (by
    intro x hx
    obtain ⟨c, hc, rfl⟩ := List.mem_map.1 hx
    exact hlt _ ((hc2 c hc).2.subset (hlead c hc)))
  rw [← hpd] at hm1
  refine ⟨cs, mp, hc1, GF.init_arr h2 (by simpa using hcne), hm1, ?_, ?_, ?_⟩
  · rw [List.forall₂_iff_get]
    rw [List.length_map] at hm2
    refine ⟨hm2.symm, ?_⟩
    intro i hi hi2
    simp only [List.get_eq_getElem]
    obtain ⟨h3, h4, h5⟩ := hm3 i (by simpa using hi) hi2
    rw [List.getElem_map] at h4 h5
    have hcm := List.getElem_mem hi
    obtain ⟨r, hr1, hr2, hr3, hr4, hr5, hr6⟩ := class_minpoly h1 h2 hnd hlt hsq (hc2 _ hcm) (hc4 _ hcm)
    rw [← hpd] at hr4 hr5 hr6 h4 h5
    have hld := hlead _ hcm
    have heq : r = mp[i] := by
      apply toPoly_inj
      apply eq_of_monic_of_associated (toPoly_monic hr3) (toPoly_monic h3)
      exact associated_of_dvd_dvd (hr6 _ _ hld h4) (h5 _ (hr5 _ hld))
    subst heq
    exact ⟨h3, hr2, (hc2 _ hcm).1, hr4, hr5, hr6⟩
  · rw [List.nodup_flatten]
    refine ⟨fun c hc => (hc2 c hc).2.nodup hnd, ?_⟩
    apply pairwise_disjoint_of_filter
    intro a
    by_cases ha : a ∈ l
    · obtain ⟨c, _, _, hf⟩ := hc3 a ha
      rw [hf]; simp
    · have : cs.filter (fun c => a ∈ c) = [] := by
        rw [List.filter_eq_nil_iff]
        intro c hc hac
        exact ha ((hc2 c hc).2.subset (by simpa using hac))
      rw [this]; simp
  · intro x
    rw [← hmem x, List.mem_flatten]
    constructor
    · rintro ⟨c, hc, hx⟩; exact (hc2 c hc).2.subset hx
    · intro hx
      obtain ⟨c, hc, hxc, _⟩ := hc3 x hx
      exact ⟨c, hc, hxc⟩

/-- x^N - 1 vanishes at every non-zero element. -/
theorem aeval_X_pow_sub_one {m p : Nat} (h : TableRow m p) {x : Nat} (h0 : 1 ≤ x) (hx : x < 2 ^ m) :
    aeval (gfElem p x) (X ^ (2 ^ m - 1) - 1 : (ZMod 2)[X]) = 0 := by
  obtain ⟨i, _, hi⟩ := h.exists_pow hx (by omega)
  have h3 : gfElem p x ^ (2 ^ m - 1) = 1 := by
    rw [hi, ← pow_mul, mul_comm, pow_mul, ← h.orderOf_root, pow_orderOf_eq_one, one_pow]
  simp [h3]

/-- The value of the subset loop for index `i`. -/
noncomputable def genpolyVal (m : Nat) (minpols : List Nat) (i : Nat) : Nat :=
  match (maskSelect minpols (toBits minpols.length i)).foldlM (genpolyMul (2 ^ m)) 1 with
  | .ok g => g
  | .error _ => 0

theorem flatten_length_eq {m : Nat} {cs : List (List Nat)} (hn : cs.flatten.Nodup) (hm : ∀ x, x ∈ cs.flatten ↔ 1 ≤ x ∧ x < 2 ^ m) :
    cs.flatten.length = 2 ^ m - 1 := by
  have : cs.flatten.Perm (List.range' 1 (2 ^ m - 1)) := by
    rw [List.perm_ext_iff_of_nodup hn List.nodup_range']
    intro x
    rw [hm, List.mem_range'_1]; omega
  rw [this.length_eq, List.length_range']

/-- A selection of classes and the corresponding polynomials. -/
theorem select_spec {m p : Nat} (h : TableRow m p) {cs : List (List Nat)} {rs : List Nat} (hf : List.Forall₂ (ClassPoly p) cs rs)
    (hn : cs.flatten.Nodup) (hm : ∀ x ∈ cs.flatten, 1 ≤ x ∧ x < 2 ^ m) (hlen : cs.flatten.length ≤ 2 ^ m - 1) :
    ∃ g, rs.foldlM (genpolyMul (2 ^ m)) 1 = .ok g ∧ g ≠ 0 ∧ toPoly g = (rs.map toPoly).prod ∧
      Nat.log2 g = cs.flatten.length ∧ (cs.map List.length).sum = cs.flatten.length ∧
      toPoly g ∣ X ^ (2 ^ m - 1) - 1 := by
  obtain ⟨h1, h2, h3⟩ := forall₂_log hf
  have hlt := gfElem_one_lt h.isModulus
  have hl1 : Nat.log2 1 = 0 := rfl
  obtain ⟨g, h4, h5, h6, h7⟩ := genpolyFold_spec (w := 2 ^ m) rs 1 (by norm_num) h3 (by rw [h1, hl1]; omega)
  rw [toPoly_one, one_mul] at h6
  refine ⟨g, h4, h5, h6, by rw [h7, h1, hl1, Nat.zero_add], h2, ?_⟩
  apply linear_prod_dvd h hn (fun x hx => (hm x hx).2)
  · rw [h6]; exact forall₂_prod_map hf
  · intro x hx; exact aeval_X_pow_sub_one h (hm x hx).1 (hm x hx).2

theorem genpoly_eq {f64 : Nat → Nat} {n : Nat} {k : Int} (hodd : n % 2 = 1) (hm : findField n ≤ 16) :
    ∃ cs minpols, cyclicCodeGenpoly f64 n k = .ok
      ((((List.range' 1 (2 ^ minpols.length - 1)).filter (fun i =>
        decide ((((maskSelect cs (toBits minpols.length i)).flatten.length : Nat) : Int) = (n : Int) - k))).map
          (genpolyVal (findField n) minpols)).map f64) ∧
      List.Forall₂ (ClassPoly (primpolyArray.getD (findField n) 0)) cs minpols ∧
      cs.flatten.Nodup ∧ (∀ x, x ∈ cs.flatten ↔ 1 ≤ x ∧ x < 2 ^ findField n) := by
  have h1 : 1 ≤ findField n := by
    unfold findField
    cases hfd : (List.range' 1 17).find? (fun m => (2 ^ m - 1) % n == 0) with
    | none => simp
    | some a =>
      have := List.mem_of_find?_eq_some hfd
      rw [List.mem_range'_1] at this
      simpa using this.1
  rw [cyclicCodeGenpoly, if_neg (by omega)]
  generalize findField n = m at *
  have ht := tableRow h1 hm
  obtain ⟨cs, mp, h3, h4, h5, h6, h7, h8⟩ := genpoly_classes h1 hm
  refine ⟨cs, mp, ?_, h6, h7, h8⟩
  have hlt := gfElem_one_lt ht.isModulus
  have hr : List.range' 1 (2 ^ m - 1) ≠ [] := by simp; omega
  have hlen := flatten_length_eq h7 h8
  simp only [bind, Except.bind, GF.init_arr hm hr, h3, h4, h5]
  rw [foldlM_filter_ok (c := fun i => decide ((((maskSelect cs (toBits mp.length i)).flatten.length : Nat) : Int) = (n : Int) - k))
    (g := genpolyVal m mp)]
  · simp [pure, Except.pure]
  · intro acc i hi
    rw [List.mem_range'_1] at hi
    have hil : i < 2 ^ mp.length := by omega
    have hsel := maskSelect_forall₂ h6 (toBits mp.length i)
    have hsub : (maskSelect cs (toBits mp.length i)).flatten.Sublist cs.flatten :=
      List.Sublist.flatten (maskSelect_sublist cs _)
    have hsl : (maskSelect cs (toBits mp.length i)).flatten.length ≤ 2 ^ m - 1 := by
      have := hsub.length_le; omega
    obtain ⟨g, hg1, hg2, hg3, hg4, hg5, hg6⟩ := select_spec ht hsel (hsub.nodup h7)
      (fun x hx => (h8 x).1 (hsub.subset hx)) hsl
    have hmm : maskSelect (cs.map List.length) (toBits mp.length i) = (maskSelect cs (toBits mp.length i)).map List.length := by
      simp only [maskSelect, List.zip_map_left, List.filter_map, List.map_map]
      rfl
    rw [dec2bitarray_ok hil]
    simp only [hmm, hg5]
    by_cases hc : (((maskSelect cs (toBits mp.length i)).flatten.length : Nat) : Int) = (n : Int) - k
    · have hgv : genpolyVal m mp i = g := by simp [genpolyVal, hg1]
      rw [if_pos hc, hg1, hgv]
      simp only [hc, decide_true, if_true, pure, Except.pure]
    · rw [if_neg hc]
      simp only [hc, decide_false, pure, Except.pure, Bool.false_eq_true, if_false]

end Verif
