import Verif.Props.NpTyped
import Verif.Props.Algcode
/- Lemmas for `cyclic_code_genpoly` with machine integers. -/
namespace Verif

open Polynomial

theorem foldlM_congr_inv {α β : Type} {f g : β → α → Py β} (P : β → Prop) (l : List α) (b : β) (h0 : P b)
    (hs : ∀ a ∈ l, ∀ b, P b → f b a = g b a ∧ ∃ b', g b a = .ok b' ∧ P b') : l.foldlM f b = l.foldlM g b := by
  induction l generalizing b with
  | nil => rfl
  | cons a l ih =>
    obtain ⟨h1, b', h2, h3⟩ := hs a (by simp) b h0
    rw [List.foldlM_cons, List.foldlM_cons, h1, h2]
    exact ih b' h3 (fun a ha => hs a (by simp [ha]))

theorem foldlM_congr_mem {α β : Type} {f g : β → α → Py β} {l : List α} {b : β} (h : ∀ b, ∀ a ∈ l, f b a = g b a) :
    l.foldlM f b = l.foldlM g b := by
  induction l generalizing b with
  | nil => rfl
  | cons a l ih =>
    rw [List.foldlM_cons, List.foldlM_cons, h b a (by simp)]
    congr 1
    funext b'
    exact ih (fun b a ha => h b a (by simp [ha]))

theorem mapM_error_of {α β : Type} {f : α → Py β} {e : PyErr} {l : List α} (h : ∀ a ∈ l, (∃ b, f a = .ok b) ∨ f a = .error e)
    (he : ∃ a ∈ l, f a = .error e) : l.mapM f = .error e := by
  induction l with
  | nil => obtain ⟨a, ha, _⟩ := he; simp at ha
  | cons a l ih =>
    rcases h a (by simp) with ⟨b, hb⟩ | hb
    · obtain ⟨a', ha', hae⟩ := he
      rcases List.mem_cons.1 ha' with rfl | ha'
      · rw [hb] at hae; cases hae
      · rw [List.mapM_cons, hb, ih (fun a ha => h a (by simp [ha])) ⟨a', ha', hae⟩]; rfl
    · exact mapM_error_head hb

theorem foldlM_error_of {α β : Type} {f : β → α → Py β} {e : PyErr} {l : List α}
    (h : ∀ a ∈ l, ∀ b, (∃ b', f b a = .ok b') ∨ f b a = .error e)
    (he : ∃ a ∈ l, ∀ b, f b a = .error e) (b : β) : l.foldlM f b = .error e := by
  induction l generalizing b with
  | nil => obtain ⟨a, ha, _⟩ := he; simp at ha
  | cons a l ih =>
    rw [List.foldlM_cons]
    rcases h a (by simp) b with ⟨b', hb⟩ | hb
    · obtain ⟨a', ha', hae⟩ := he
      rcases List.mem_cons.1 ha' with rfl | ha'
      · rw [hae] at hb; cases hb
      · rw [hb]; exact ih (fun a ha => h a (by simp [ha])) ⟨a', ha', hae⟩ b'
    · rw [hb]; rfl

theorem t2_lt {m : Nat} {root : Nat} (k : Nat) (h1 : 1 ≤ m) (hr : root < 2 ^ m) (i : Nat) :
    (List.replicate k 0 ++ [1, root] ++ List.replicate k 0).getD i 0 < 2 ^ m := by
  have h2 : 1 < 2 ^ m := Nat.one_lt_two_pow (by omega)
  rcases Nat.lt_or_ge i (List.replicate k 0 ++ [1, root] ++ List.replicate k 0).length with h | h
  · rw [List.getD_eq_getElem _ _ h]
    have := List.getElem_mem h
    simp only [List.mem_append, List.mem_replicate, List.mem_cons, List.not_mem_nil, or_false] at this
    rcases this with (⟨_, h⟩ | (h | h)) | ⟨_, h⟩ <;> rw [h] <;> first | omega | exact hr
  · rw [getD_ge h]; positivity

theorem getD_lt_of {m : Nat} {t : List Nat} (ht : ∀ x ∈ t, x < 2 ^ m) (i : Nat) : t.getD i 0 < 2 ^ m := by
  rcases Nat.lt_or_ge i t.length with h | h
  · rw [List.getD_eq_getElem _ _ h]; exact ht _ (List.getElem_mem h)
  · rw [getD_ge h]; positivity

theorem minpolyStepT_eq {ver : NpVer} (rnd : Int → Int) {m p : Nat} (h1 : 1 ≤ m) (hm : m ≤ 4 ∨ (ver = .v1 ∧ m ≤ 32)) {t : List Nat}
    (ht : ∀ x ∈ t, x < 2 ^ m) {root : Nat} (hr : root < 2 ^ m) : minpolyStepT ver rnd m p t root = minpolyStep m p t root := by
  unfold minpolyStepT minpolyStep
  simp only []
  congr 1
  apply mapM_congr_mem
  intro n _
  congr 1
  funext s k
  rw [polymultiplyT_eq rnd h1 (getD_lt_of ht k) (t2_lt _ h1 hr _) hm]

theorem minpolyOfCosetT_eq {ver : NpVer} (rnd : Int → Int) {m p : Nat} (hp : IsModulus m p) (h1 : 1 ≤ m)
    (hm : m ≤ 4 ∨ (ver = .v1 ∧ m ≤ 32)) {c : List Nat} (hc : ∀ x ∈ c, x < 2 ^ m) :
    minpolyOfCosetT ver rnd m p c = minpolyOfCoset m p c := by
  cases c with
  | nil => rfl
  | cons c0 rest =>
    simp only [minpolyOfCosetT, minpolyOfCoset]
    rw [foldlM_congr_inv (f := minpolyStepT ver rnd m p) (g := minpolyStep m p) (fun t => (∀ x ∈ t, x < 2 ^ m) ∧ t ≠ [])]
    · refine ⟨?_, by simp⟩
      intro x hx
      simp only [List.mem_cons, List.not_mem_nil, or_false] at hx
      rcases hx with rfl | rfl
      · exact hc _ (by simp)
      · exact Nat.one_lt_two_pow (by omega)
    · intro a ha t ht
      have har := hc a (by simp [ha])
      refine ⟨minpolyStepT_eq rnd h1 hm ht.1 har, ?_⟩
      obtain ⟨t', h2, h3, h4, _⟩ := minpolyStep_spec hp ht.1 ht.2 har
      exact ⟨t', h2, h4, by rintro rfl; simp at h3⟩

theorem minpolyOfCosetT_single (ver : NpVer) (rnd : Int → Int) (m p c0 : Nat) : ∃ r, minpolyOfCosetT ver rnd m p [c0] = .ok r := ⟨_, rfl⟩

theorem minpolyOfCosetT_overflow (rnd : Int → Int) {m p : Nat} (h5 : 5 ≤ m) {c0 c1 : Nat} {rest : List Nat}
    (hc : ∀ x ∈ c0 :: c1 :: rest, x < 2 ^ m) : minpolyOfCosetT .v2 rnd m p (c0 :: c1 :: rest) = .error .overflowError := by
  have h0 : c0 < 2 ^ m := hc _ (by simp)
  have h1 : c1 < 2 ^ m := hc _ (by simp)
  have hs : minpolyStepT .v2 rnd m p [c0, 1] c1 = .error .overflowError := by
    unfold minpolyStepT
    simp only []
    rw [range_pos_cons (n := _ + 1) (by omega), mapM_error_head (e := .overflowError)]
    · rfl
    · rw [show [c0, 1].length = 2 from rfl, range_pos_cons (n := 2) (by norm_num), List.foldlM_cons]
      rw [polymultiplyT_overflow rnd h5 (by simpa using h0) (t2_lt _ (by omega) h1 _)]
      rfl
  simp only [minpolyOfCosetT, List.foldlM_cons, hs]
  rfl

theorem minpolysT_eq {ver : NpVer} (rnd : Int → Int) {m : Nat} (h1 : 1 ≤ m) (h2 : m ≤ 16) (hm : m ≤ 4 ∨ ver = .v1) {l : List Nat} :
    GF.minpolysT ver rnd ⟨m, primpolyArray.getD m 0, some l⟩ = GF.minpolys ⟨m, primpolyArray.getD m 0, some l⟩ := by
  have hfull : ∀ x ∈ List.range (2 ^ m), x < 2 ^ m := fun x hx => List.mem_range.1 hx
  obtain ⟨cs, hc1, hc2, hc3, hc4⟩ := cosets_classes h1 h2 List.nodup_range hfull
  have hne : List.range (2 ^ m) ≠ [] := by
    have : 0 < 2 ^ m := by positivity
    simp
  rw [GF.minpolysT, GF.minpolys, GF.init_arr h2 hne]
  simp only [bind, Except.bind, hc1, GF.elems]
  rw [mapM_congr_mem (g := fun x => (cs.filter (fun c => x ∈ c)).mapM (minpolyOfCoset m (primpolyArray.getD m 0)))]
  intro x _
  apply mapM_congr_mem
  intro c hc
  have hcm := (List.mem_filter.1 hc).1
  exact minpolyOfCosetT_eq rnd (tableRow h1 h2).isModulus h1 (hm.imp id (fun h => ⟨h, by omega⟩)) (fun x hx => hfull x ((hc2 c hcm).2.subset hx))

/-- With numpy 2 and m ≥ 5, `minpolys` raises as soon as one of the elements is neither 0 nor 1. -/
theorem minpolysT_overflow (rnd : Int → Int) {m : Nat} (h5 : 5 ≤ m) (h2 : m ≤ 16) {l : List Nat} (hl : ∀ x ∈ l, x < 2 ^ m)
    (hex : ∃ x ∈ l, 2 ≤ x) : GF.minpolysT .v2 rnd ⟨m, primpolyArray.getD m 0, some l⟩ = .error .overflowError := by
  have h1 : 1 ≤ m := by omega
  have ht := tableRow h1 h2
  have hp := ht.isModulus
  set p := primpolyArray.getD m 0 with hpd
  have hfull : ∀ x ∈ List.range (2 ^ m), x < 2 ^ m := fun x hx => List.mem_range.1 hx
  obtain ⟨cs, hc1, hc2, hc3, hc4⟩ := cosets_classes h1 h2 List.nodup_range hfull
  rw [← hpd] at hc1 hc4
  have hne : List.range (2 ^ m) ≠ [] := by
    have : 0 < 2 ^ m := by positivity
    simp
  have hcoset : ∀ c ∈ cs, (∃ r, minpolyOfCosetT .v2 rnd m p c = .ok r) ∨ minpolyOfCosetT .v2 rnd m p c = .error .overflowError := by
    intro c hc
    obtain ⟨hcne, hcs⟩ := hc2 c hc
    cases c with
    | nil => exact absurd rfl hcne
    | cons c0 rest =>
      cases rest with
      | nil => exact Or.inl (minpolyOfCosetT_single _ _ _ _ _)
      | cons c1 rest => exact Or.inr (minpolyOfCosetT_overflow rnd h5 (fun x hx => hfull x (hcs.subset hx)))
  rw [GF.minpolysT, GF.init_arr h2 hne]
  simp only [bind, Except.bind, ← hpd, hc1, GF.elems]
  rw [mapM_error_of (e := .overflowError)]
  · intro x hx
    obtain ⟨c, hc, hxc, hfil⟩ := hc3 x (List.mem_range.2 (hl x hx))
    rw [hfil, List.mapM_cons]
    rcases hcoset c hc with ⟨r, hr⟩ | hr
    · rw [hr]; exact Or.inl ⟨_, rfl⟩
    · rw [hr]; exact Or.inr rfl
  · obtain ⟨x, hx, hx2⟩ := hex
    refine ⟨x, hx, ?_⟩
    obtain ⟨c, hc, hxc, hfil⟩ := hc3 x (List.mem_range.2 (hl x hx))
    rw [hfil]
    -- the square of x is another member of the class
    haveI : Fact (Irreducible (toPoly p)) := ⟨ht.irreducible⟩
    obtain ⟨y, hy, hyx⟩ := gfElem_surj hp (gfElem p x ^ 2)
    have hyc : y ∈ c := (hc4 c hc x hxc y (List.mem_range.2 hy)).2 ⟨1, by rw [pow_one, hyx]⟩
    have hyne : y ≠ x := by
      rintro rfl
      have h3 : gfElem p y * (gfElem p y - 1) = 0 := by linear_combination -hyx
      rcases mul_eq_zero.1 h3 with h4 | h4
      · rw [gfElem_eq_zero hp hy] at h4; omega
      · have : gfElem p y = gfElem p 1 := by rw [gfElem_one]; linear_combination h4
        have := gfElem_inj hp hy (gfElem_one_lt hp) this
        omega
    obtain ⟨hcne, hcs⟩ := hc2 c hc
    have hov : minpolyOfCosetT .v2 rnd m p c = .error .overflowError := by
      cases c with
      | nil => exact absurd rfl hcne
      | cons c0 rest =>
        cases rest with
        | nil => simp only [List.mem_singleton] at hxc hyc; omega
        | cons c1 rest => exact minpolyOfCosetT_overflow rnd h5 (fun x hx => hfull x (hcs.subset hx))
    rw [List.mapM_cons, hov]; rfl

/-- One multiplication, conversion exact. -/
theorem genpolyMulT_exact {ver : NpVer} (rnd : Int → Int) {w a b : Nat} (hw : 1 ≤ w) (ha : a < 2 ^ w) (hb : b < 2 ^ w)
    (hl : 2 * w - 1 ≤ 7 ∨ (ver = .v1 ∧ 2 * w - 1 ≤ 63)) {x : NpNum} (hx : x.isInt) (hv : x.val = a) :
    ∃ y r, genpolyMulT ver rnd w x b = .ok y ∧ y.isInt ∧ genpolyMul w a b = .ok r ∧ y.val = r := by
  have hca : toBits w a ≠ [] := by intro h; have := congrArg List.length h; simp at this; omega
  have hcb : toBits w b ≠ [] := by intro h; have := congrArg List.length h; simp at this; omega
  have hd : dec2bitarrayT x w = .ok (toBits w a) := by
    cases x with
    | f64 v => exact hx.elim
    | py v => simp only [NpNum.val] at hv; simp only [dec2bitarrayT, hv, Int.toNat_natCast, dec2bitarray_ok ha]
    | int d v => simp only [NpNum.val] at hv; simp only [dec2bitarrayT, hv, Int.toNat_natCast, dec2bitarray_ok ha]
  obtain ⟨z, hz1, hz2, hz3⟩ := b2dT_ok (ver := ver) rnd (bits := (((List.range ((toBits w a).length + (toBits w b).length - 1)).map (fun k =>
      ((List.range (k + 1)).map (fun i => (toBits w a).getD i 0 * (toBits w b).getD (k - i) 0)).sum)).map (· % 2)))
    (by intro a ha; obtain ⟨b, _, rfl⟩ := List.mem_map.1 ha; exact Nat.mod_lt _ (by norm_num))
    (by simp only [List.length_map, List.length_range, toBits_length]; rcases hl with h | ⟨h, h'⟩; exact Or.inl (by omega); exact Or.inr ⟨h, by omega⟩)
  refine ⟨z, _, ?_, hz2, ?_, hz3⟩
  · simp only [genpolyMulT, hd, dec2bitarray_ok hb, convolve_ok hca hcb, bind, Except.bind, hz1]
  · simp only [genpolyMul, dec2bitarray_ok ha, dec2bitarray_ok hb, convolve_ok hca hcb, bind, Except.bind, pure, Except.pure]

theorem genpolyFoldT_exact {ver : NpVer} (rnd : Int → Int) {w : Nat} (hl : 2 * w - 1 ≤ 7 ∨ (ver = .v1 ∧ 2 * w - 1 ≤ 63)) :
    ∀ (rs : List Nat) (g0 : Nat) (x : NpNum), g0 ≠ 0 → (∀ r ∈ rs, r ≠ 0) → Nat.log2 g0 + (rs.map Nat.log2).sum < w → x.isInt → x.val = g0 →
    ∃ y g, rs.foldlM (genpolyMulT ver rnd w) x = .ok y ∧ y.isInt ∧ rs.foldlM (genpolyMul w) g0 = .ok g ∧ y.val = g := by
  intro rs
  induction rs with
  | nil => intro g0 x _ _ _ hx hv; exact ⟨x, g0, rfl, hx, rfl, hv⟩
  | cons r rs ih =>
    intro g0 x h0 hr hlt hx hv
    simp only [List.map_cons, List.sum_cons] at hlt
    have hr0 := hr r (by simp)
    have hgw := (Nat.log2_lt h0).1 (by omega : Nat.log2 g0 < w)
    have hrw := (Nat.log2_lt hr0).1 (by omega : Nat.log2 r < w)
    obtain ⟨g1, h1, h2⟩ := genpolyMul_spec (w := w) (by omega) hgw hrw
    obtain ⟨y, g1', hy1, hy2, hy3, hy4⟩ := genpolyMulT_exact (ver := ver) rnd (by omega) hgw hrw hl hx hv
    rw [h1] at hy3; cases hy3
    have hg1 : g1 ≠ 0 := by
      intro h
      rw [h, toPoly_zero] at h2
      rcases mul_eq_zero.1 h2.symm with h | h
      · exact toPoly_ne_zero h0 h
      · exact toPoly_ne_zero hr0 h
    have hlog : Nat.log2 g1 = Nat.log2 g0 + Nat.log2 r := by
      rw [← toPoly_natDegree hg1, h2, natDegree_mul (toPoly_ne_zero h0) (toPoly_ne_zero hr0), toPoly_natDegree h0, toPoly_natDegree hr0]
    obtain ⟨z, g, h3, h4, h5, h6⟩ := ih g1 y hg1 (fun r hr' => hr r (by simp [hr'])) (by omega) hy2 hy4
    exact ⟨z, g, by rw [List.foldlM_cons, hy1]; exact h3, h4, by rw [List.foldlM_cons, h1]; exact h5, h6⟩

/-- numpy 1, convolution of 64 entries or more: the first product is a float. -/
theorem genpolyMulT_float {rnd : Int → Int} (hr : ∀ x, 0 ≤ x → x < 2 ^ 53 → rnd x = x) {w a b : Nat} (hw : 64 ≤ 2 * w - 1) (ha : a < 2 ^ w)
    (hb : b < 2 ^ w) {r : Nat} (hg : genpolyMul w a b = .ok r) (hlt : r < 2 ^ 53) {x : NpNum} (hx : x.isInt) (hv : x.val = a) :
    genpolyMulT .v1 rnd w x b = .ok (.f64 r) := by
  have hca : toBits w a ≠ [] := by intro h; have := congrArg List.length h; simp at this; omega
  have hcb : toBits w b ≠ [] := by intro h; have := congrArg List.length h; simp at this; omega
  have hd : dec2bitarrayT x w = .ok (toBits w a) := by
    cases x with
    | f64 v => exact hx.elim
    | py v => simp only [NpNum.val] at hv; simp only [dec2bitarrayT, hv, Int.toNat_natCast, dec2bitarray_ok ha]
    | int d v => simp only [NpNum.val] at hv; simp only [dec2bitarrayT, hv, Int.toNat_natCast, dec2bitarray_ok ha]
  simp only [genpolyMul, dec2bitarray_ok ha, dec2bitarray_ok hb, convolve_ok hca hcb, bind, Except.bind, pure, Except.pure, Except.ok.injEq] at hg
  rw [← hg] at hlt ⊢
  obtain ⟨v, h1, h2⟩ := bitarray2decT_v1_float hr (d := 8) (bits := (((List.range ((toBits w a).length + (toBits w b).length - 1)).map (fun k =>
      ((List.range (k + 1)).map (fun i => (toBits w a).getD i 0 * (toBits w b).getD (k - i) 0)).sum)).map (· % 2)))
    (by intro a ha; obtain ⟨b, _, rfl⟩ := List.mem_map.1 ha; exact Nat.mod_lt _ (by norm_num))
    (by simp only [List.length_map, List.length_range, toBits_length]; omega)
    (lt_of_lt_of_le hlt (Nat.pow_le_pow_right (by norm_num) (by norm_num)))
  simp only [genpolyMulT, hd, dec2bitarray_ok hb, convolve_ok hca hcb, bind, Except.bind, h1, h2 hlt]

theorem genpolyMulT_v2_overflow (rnd : Int → Int) {w a b : Nat} (hw : 8 ≤ 2 * w - 1) (ha : a < 2 ^ w) (hb : b < 2 ^ w) :
    genpolyMulT .v2 rnd w (.py a) b = .error .overflowError := by
  have hca : toBits w a ≠ [] := by intro h; have := congrArg List.length h; simp at this; omega
  have hcb : toBits w b ≠ [] := by intro h; have := congrArg List.length h; simp at this; omega
  simp only [genpolyMulT, dec2bitarrayT, Int.toNat_natCast, dec2bitarray_ok ha, dec2bitarray_ok hb, convolve_ok hca hcb, bind, Except.bind]
  exact bitarray2decT_v2_overflow rnd (by norm_num) (by simp only [List.length_map, List.length_range, toBits_length]; omega)

theorem ClassPoly.irreducible {p c r} {m : Nat} (h : TableRow m p) (hc : ClassPoly p c r) : Irreducible (toPoly r) := by
  haveI : Fact (Irreducible (toPoly p)) := ⟨h.irreducible⟩
  have hlen := List.length_pos_iff.2 hc.pos
  have hdeg : (toPoly r).natDegree = c.length := by rw [toPoly_natDegree hc.ne, hc.deg]
  have hr0 := toPoly_ne_zero hc.ne
  obtain ⟨x, hx⟩ := List.exists_mem_of_ne_nil _ hc.pos
  refine ⟨fun hu => ?_, ?_⟩
  · have := natDegree_eq_zero_of_isUnit hu; omega
  · intro f g hfg
    have hroot := hc.root x hx
    rw [hfg, map_mul] at hroot
    have hf0 : f ≠ 0 := by rintro rfl; rw [zero_mul] at hfg; exact hr0 hfg
    have hg0 : g ≠ 0 := by rintro rfl; rw [mul_zero] at hfg; exact hr0 hfg
    have hdd := congrArg natDegree hfg
    rw [natDegree_mul hf0 hg0] at hdd
    rcases mul_eq_zero.1 hroot with h0 | h0
    · right
      have := natDegree_le_of_dvd (hc.minimal f x hx h0) hf0
      exact isUnit_iff_degree_eq_zero.2 (by rw [degree_eq_natDegree hg0]; norm_cast; omega)
    · left
      have := natDegree_le_of_dvd (hc.minimal g x hx h0) hg0
      exact isUnit_iff_degree_eq_zero.2 (by rw [degree_eq_natDegree hf0]; norm_cast; omega)

/-- Is the mask `i` selected by the degree test? -/
def genpolySel (cs : List (List Nat)) (len : Nat) (n : Nat) (k : Int) (i : Nat) : Bool :=
  decide ((((maskSelect cs (toBits len i)).flatten.length : Nat) : Int) = (n : Int) - k)

/-- The masks visited by the subset loop that pass the degree test. -/
def genpolyMasks (cs : List (List Nat)) (len : Nat) (n : Nat) (k : Int) : List Nat :=
  (List.range' 1 (2 ^ len - 1)).filter (genpolySel cs len n k)

/-- `cyclic_code_genpoly` up to the subset loop. -/
theorem genpolyT_loop {ver : NpVer} (rnd : Int → Int) {n m : Nat} {k : Int} (hodd : n % 2 = 1) (h1 : 1 ≤ m) (h2 : m ≤ 16) (hff : findField n = m) :
    ∃ cs mp, List.Forall₂ (ClassPoly (primpolyArray.getD m 0)) cs mp ∧ cs.flatten.Nodup ∧ (∀ x, x ∈ cs.flatten ↔ 1 ≤ x ∧ x < 2 ^ m) ∧
      (5 ≤ m → cyclicCodeGenpolyT .v2 rnd n k = .error .overflowError) ∧
      (m ≤ 4 ∨ ver = .v1 → cyclicCodeGenpolyT ver rnd n k =
        (List.range' 1 (2 ^ mp.length - 1)).foldlM (fun (polys : List NpNum) i =>
          if genpolySel cs mp.length n k i then
            (maskSelect mp (toBits mp.length i)).foldlM (genpolyMulT ver rnd (2 ^ m)) (.py 1) >>= fun g => .ok (polys ++ [g])
          else .ok polys) [] >>= fun r => .ok (r.map fun g => (rnd g.val).toNat)) := by
  obtain ⟨cs, mp, h3, h4, h5, h6, h7, h8⟩ := genpoly_classes h1 h2
  have ht := tableRow h1 h2
  have hlt := gfElem_one_lt ht.isModulus
  have hr : List.range' 1 (2 ^ m - 1) ≠ [] := by simp; omega
  have hlen := flatten_length_eq h7 h8
  refine ⟨cs, mp, h6, h7, h8, ?_, ?_⟩
  · intro hm5
    have hcne : ∀ c ∈ cs, c ≠ [] := by
      intro c hc
      obtain ⟨i, hi, rfl⟩ := List.getElem_of_mem hc
      have := (List.forall₂_iff_get.1 h6).2 i hi (by rw [← h6.length_eq]; exact hi)
      exact this.pos
    have hlead : ∀ c ∈ cs, c.getD 0 0 ∈ c := by
      intro c hc
      have := List.length_pos_iff.2 (hcne c hc)
      rw [List.getD_eq_getElem _ _ this]; exact List.getElem_mem this
    rw [cyclicCodeGenpolyT, if_neg (by omega), hff]
    simp only [bind, Except.bind, GF.init_arr h2 hr, h3, h4]
    rw [minpolysT_overflow rnd hm5 h2]
    · intro x hx
      obtain ⟨c, hc, rfl⟩ := List.mem_map.1 hx
      exact ((h8 _).1 (List.mem_flatten.2 ⟨c, hc, hlead c hc⟩)).2
    · -- the class of 2 is not the class of 1
      have h32 : 2 ^ 5 ≤ 2 ^ m := Nat.pow_le_pow_right (by norm_num) hm5
      obtain ⟨c, hc, h2c⟩ := List.mem_flatten.1 ((h8 2).2 ⟨by norm_num, by omega⟩)
      refine ⟨c.getD 0 0, List.mem_map.2 ⟨c, hc, rfl⟩, ?_⟩
      by_contra hlt2
      have hl := hlead c hc
      have hl1 := (h8 _).1 (List.mem_flatten.2 ⟨c, hc, hl⟩)
      have hone : c.getD 0 0 = 1 := by omega
      rw [hone] at hl
      obtain ⟨i, hi, hci⟩ := List.getElem_of_mem hc
      have hcp := (List.forall₂_iff_get.1 h6).2 i hi (by rw [← h6.length_eq]; exact hi)
      simp only [List.get_eq_getElem, hci] at hcp
      haveI : Fact (Irreducible (toPoly (primpolyArray.getD m 0))) := ⟨ht.irreducible⟩
      haveI : CharP (GFRing (primpolyArray.getD m 0)) 2 := charP_of_injective_algebraMap (RingHom.injective (algebraMap (ZMod 2) _)) 2
      have hd := hcp.minimal (X + 1) 1 hl (by simp [gfElem_one, CharTwo.add_self_eq_zero])
      obtain ⟨E, hE⟩ := hd
      have h20 := hcp.root 2 h2c
      have h21 : aeval (gfElem (primpolyArray.getD m 0) 2) (X + 1 : (ZMod 2)[X]) = 0 := by rw [hE, map_mul, h20, zero_mul]
      simp only [map_add, aeval_X, map_one] at h21
      have h22 : gfElem (primpolyArray.getD m 0) 2 = gfElem (primpolyArray.getD m 0) 1 := by
        rw [gfElem_one]; exact CharTwo.add_eq_zero.1 h21
      have := gfElem_inj ht.isModulus (by omega) (by omega) h22
      omega
  · intro hv
    rw [cyclicCodeGenpolyT, if_neg (by omega), hff]
    simp only [bind, Except.bind, GF.init_arr h2 hr, h3, h4]
    rw [minpolysT_eq rnd h1 h2 hv, h5]
    simp only []
    rw [foldlM_congr_mem (g := fun (polys : List NpNum) i =>
          if genpolySel cs mp.length n k i then
            (maskSelect mp (toBits mp.length i)).foldlM (genpolyMulT ver rnd (2 ^ m)) (.py 1) >>= fun g => .ok (polys ++ [g])
          else .ok polys)]
    · rfl
    · intro acc i hi
      rw [List.mem_range'_1] at hi
      have hil : i < 2 ^ mp.length := by omega
      have hmm : maskSelect (cs.map List.length) (toBits mp.length i) = (maskSelect cs (toBits mp.length i)).map List.length := by
        simp only [maskSelect, List.zip_map_left, List.filter_map, List.map_map]
        rfl
      rw [dec2bitarray_ok hil]
      simp only [hmm, genpolySel, ← List.length_flatten, decide_eq_true_eq]
      rfl

end Verif
