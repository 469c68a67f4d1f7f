import Verif.Lemmas.NpTyped
import Verif.Props.GFields
import Verif.Props.TrellisLegacy
import Verif.Lemmas.TrellisMatrix
/-
C100: the functions that go through `bitarray2dec` do not depend on the integer type of the array, i.e. on the numpy version.
`rnd` is the rounding of an integer to a float64; where it matters it is assumed exact below 2^53.
-/
namespace Verif

/-- Not a float: usable as an index and as an argument of `bin`. -/
def NpNum.isInt : NpNum → Prop
  | .f64 _ => False
  | _ => True

/-- C100, `bitarray2dec`, complete: on an array of `d`-bit integers (d = 8 for the arrays the library makes, 64 for numpy's default),
numpy 2 is exact up to `d - 1` bits and raises OverflowError from `d` bits on, whatever the bits are (even all zero);
numpy 1 is exact up to 63 bits and returns a float from 64 bits on. -/
theorem C100_bitarray2dec {rnd : Int → Int} (hr : ∀ x, 0 ≤ x → x < 2 ^ 53 → rnd x = x) {d : Nat} (hd : 1 ≤ d) {bits : List Nat}
    (hb : ∀ x ∈ bits, x < 2) :
    (bits.length < d → ∃ x, bitarray2decT .v2 rnd d bits = .ok x ∧ x.isInt ∧ x.val = bitarray2dec bits) ∧
    (d ≤ bits.length → bitarray2decT .v2 rnd d bits = .error .overflowError) ∧
    (bits.length ≤ 63 → ∃ x, bitarray2decT .v1 rnd d bits = .ok x ∧ x.isInt ∧ x.val = bitarray2dec bits) ∧
    (64 ≤ bits.length → bitarray2dec bits < 2 ^ 1023 → ∃ x, bitarray2decT .v1 rnd d bits = .ok x ∧ ¬ x.isInt ∧
      (bitarray2dec bits < 2 ^ 53 → x.val = bitarray2dec bits)) := by
  have key : ∀ ver, bits.length ≤ resWidth ver d - 1 →
      ∃ x, bitarray2decT ver rnd d bits = .ok x ∧ x.isInt ∧ x.val = bitarray2dec bits := by
    intro ver hl
    by_cases h0 : bits = []
    · subst h0
      exact ⟨.py 0, rfl, trivial, rfl⟩
    · exact ⟨_, bitarray2decT_exact rnd hd hb h0 hl, trivial, rfl⟩
  refine ⟨fun h => key .v2 (by simp only [resWidth]; omega), fun h => bitarray2decT_v2_overflow rnd hd h, fun h => key .v1 h, ?_⟩
  intro h1 h2
  obtain ⟨v, hv1, hv2⟩ := bitarray2decT_v1_float hr (d := d) hb h1 h2
  exact ⟨_, hv1, fun h => h, hv2⟩

/-- The exact cases in one lemma: `w ≤ 7` for both versions, `w ≤ 63` for numpy 1. -/
theorem b2dT_ok {ver : NpVer} (rnd : Int → Int) {bits : List Nat} (hb : ∀ x ∈ bits, x < 2)
    (hl : bits.length ≤ 7 ∨ (ver = .v1 ∧ bits.length ≤ 63)) :
    ∃ x, bitarray2decT ver rnd 8 bits = .ok x ∧ x.isInt ∧ x.val = bitarray2dec bits := by
  by_cases h0 : bits = []
  · subst h0
    exact ⟨.py 0, rfl, trivial, rfl⟩
  · refine ⟨_, bitarray2decT_exact rnd (by norm_num) hb h0 ?_, trivial, rfl⟩
    cases ver <;> simp only [resWidth] <;> rcases hl with h | ⟨h, h'⟩ <;> first | omega | cases h

/-- C100, the round trip of C01 on the array that `dec2bitarray` really returns (int8): exact for widths up to 7 with every
numpy, up to 63 with numpy 1; with numpy 2 every width from 8 on is an OverflowError. -/
theorem C100_roundtrip_partial (rnd : Int → Int) {n w : Nat} (h : n < 2 ^ w) :
    ∃ b, dec2bitarray n w = .ok b ∧
      (∀ ver, (w ≤ 7 ∨ (ver = .v1 ∧ w ≤ 63)) → ∃ x, bitarray2decT ver rnd 8 b = .ok x ∧ x.isInt ∧ x.val = n) ∧
      (8 ≤ w → bitarray2decT .v2 rnd 8 b = .error .overflowError) := by
  refine ⟨_, dec2bitarray_ok h, fun ver hw => ?_, fun hw => bitarray2decT_v2_overflow rnd (by norm_num) (by simpa using hw)⟩
  obtain ⟨x, h1, h2, h3⟩ := b2dT_ok (ver := ver) rnd (bits := toBits w n) (fun _ hx => toBits_lt_two hx) (by simpa using hw)
  exact ⟨x, h1, h2, by rw [h3, bitarray2dec_toBits h]⟩

/-- C100 is false of numpy 2 as stated: the number 5 does not survive the round trip through eight bits. -/
theorem C100_roundtrip_refuted (rnd : Int → Int) :
    ∃ b, dec2bitarray 5 8 = .ok b ∧ bitarray2decT .v2 rnd 8 b = .error .overflowError ∧ bitarray2decT .v1 rnd 8 b = .ok (.int 64 5) := by
  refine ⟨_, dec2bitarray_ok (by norm_num), bitarray2decT_v2_overflow rnd (by norm_num) (by simp), ?_⟩
  rw [bitarray2decT_exact rnd (by norm_num) (bits := toBits 8 5) (fun _ hx => toBits_lt_two hx) (by decide) (by simp [resWidth]), bitarray2dec_toBits (by norm_num)]
  rfl

theorem polymultiplyT_eq {ver : NpVer} (rnd : Int → Int) {x y m p : Nat} (h1 : 1 ≤ m) (hx : x < 2 ^ m) (hy : y < 2 ^ m)
    (hm : m ≤ 4 ∨ (ver = .v1 ∧ m ≤ 32)) : polymultiplyT ver rnd x y m p = polymultiply x y m p := by
  have hca : toBits m x ≠ [] := by intro h; have := congrArg List.length h; simp at this; omega
  have hcb : toBits m y ≠ [] := by intro h; have := congrArg List.length h; simp at this; omega
  unfold polymultiplyT polymultiply
  rw [dec2bitarray_ok hx, dec2bitarray_ok hy]
  simp only [bind, Except.bind, convolve_ok hca hcb]
  obtain ⟨z, hz1, hz2, hz3⟩ := b2dT_ok (ver := ver) rnd (bits := (((List.range ((toBits m x).length + (toBits m y).length - 1)).map (fun k =>
      ((List.range (k + 1)).map (fun i => (toBits m x).getD i 0 * (toBits m y).getD (k - i) 0)).sum)).map (· % 2)))
    (by intro a ha; obtain ⟨b, _, rfl⟩ := List.mem_map.1 ha; exact Nat.mod_lt _ (by norm_num))
    (by simp only [List.length_map, List.length_range, toBits_length]; rcases hm with h | ⟨h, h'⟩; exact Or.inl (by omega); exact Or.inr ⟨h, by omega⟩)
  rw [hz1]
  simp only []
  rw [hz3]
  cases z with
  | f64 v => exact hz2.elim
  | py v => simp
  | int d v => simp

theorem polymultiplyT_overflow (rnd : Int → Int) {x y m p : Nat} (h1 : 5 ≤ m) (hx : x < 2 ^ m) (hy : y < 2 ^ m) :
    polymultiplyT .v2 rnd x y m p = .error .overflowError := by
  have hca : toBits m x ≠ [] := by intro h; have := congrArg List.length h; simp at this; omega
  have hcb : toBits m y ≠ [] := by intro h; have := congrArg List.length h; simp at this; omega
  unfold polymultiplyT
  rw [dec2bitarray_ok hx, dec2bitarray_ok hy]
  simp only [bind, Except.bind, convolve_ok hca hcb]
  rw [bitarray2decT_v2_overflow rnd (by norm_num) (by simp only [List.length_map, List.length_range, toBits_length]; omega)]

/-- C100, products in GF(2^m): as in exact arithmetic with numpy 1 (m ≤ 16) and, for m ≤ 4, with numpy 2; with numpy 2 and m ≥ 5 every
product is an OverflowError. -/
theorem C100_gf_mul_partial (rnd : Int → Int) {m : Nat} (h1 : 1 ≤ m) (h2 : m ≤ 16) {a b : List Nat} (ha : a ≠ []) (hl : a.length = b.length)
    (hae : ∀ x ∈ a, x < 2 ^ m) (hbe : ∀ x ∈ b, x < 2 ^ m) {g h : GF} (hg : IsGF m a g) (hh : IsGF m b h) :
    g.mulT .v1 rnd h = g.mul h ∧ (m ≤ 4 → g.mulT .v2 rnd h = g.mul h) ∧ (5 ≤ m → g.mulT .v2 rnd h = .error .overflowError) := by
  have hb : b ≠ [] := by rintro rfl; apply ha; exact List.length_eq_zero_iff.1 (by simpa using hl)
  rw [isGF_iff h2 ha] at hg
  rw [isGF_iff h2 hb] at hh
  subst hg hh
  have key : ∀ ver, (m ≤ 4 ∨ (ver = .v1 ∧ m ≤ 32)) → GF.mulT ver rnd ⟨m, primpolyArray.getD m 0, some a⟩ ⟨m, primpolyArray.getD m 0, some b⟩ =
      GF.mul ⟨m, primpolyArray.getD m 0, some a⟩ ⟨m, primpolyArray.getD m 0, some b⟩ := by
    intro ver hv
    simp only [GF.mulT, GF.mul, GF.elems, bind, Except.bind, hl, if_true]
    rw [mapM_congr_mem (g := fun (p : Nat × Nat) => polymultiply p.1 p.2 m (primpolyArray.getD m 0))]
    intro p hp
    have := List.of_mem_zip hp
    exact polymultiplyT_eq rnd h1 (hae _ this.1) (hbe _ this.2) hv
  refine ⟨key .v1 (Or.inr ⟨rfl, by omega⟩), fun hm => key .v2 (Or.inl hm), fun hm => ?_⟩
  simp only [GF.mulT, GF.elems, bind, Except.bind, hl, if_true]
  cases a with
  | nil => exact absurd rfl ha
  | cons x a =>
    cases b with
    | nil => exact absurd rfl hb
    | cons y b =>
      rw [List.zip_cons_cons, mapM_error_head (e := .overflowError)]
      exact polymultiplyT_overflow rnd hm (hae x (by simp)) (hbe y (by simp))

/-- In GF(32) with numpy 2 not even 1 · 1 can be computed. -/
example (rnd : Int → Int) : ∃ g, IsGF 5 [1] g ∧ g.mulT .v2 rnd g = .error .overflowError ∧ g.mulT .v1 rnd g = .ok g := by
  refine ⟨⟨5, 37, some [1]⟩, rfl, ?_, ?_⟩
  · exact (C100_gf_mul_partial rnd (m := 5) (by norm_num) (by norm_num) (a := [1]) (b := [1]) (by simp) rfl (by simp) (by simp) rfl rfl).2.2 le_rfl
  · refine (C100_gf_mul_partial rnd (m := 5) (by norm_num) (by norm_num) (a := [1]) (b := [1]) (by simp) rfl (by simp) (by simp)
      (g := ⟨5, 37, some [1]⟩) (h := ⟨5, 37, some [1]⟩) rfl rfl).1.trans ?_
    decide +kernel

/-- C100, `Trellis`: same tables as in exact arithmetic if the code has at most 63 (numpy 2: at most 7) memory cells and output bits
per step; with numpy 2 a code with 8 or more memory cells, or 8 or more output bits, is an OverflowError. -/
theorem C100_trellis_partial (rnd : Int → Int) {junk : Nat → Nat → Nat} {memory : List Nat} {G : List (List Nat)} {n : Nat}
    {feedback : Option (List (List Nat))} {rsc : Bool} {fmt : String} (h : TrellisArgs memory G n feedback fmt) :
    (memory.sum ≤ 63 → n ≤ 63 → mkTrellisT .v1 rnd junk memory G n feedback rsc fmt = mkTrellis junk memory G n feedback rsc fmt) ∧
    (memory.sum ≤ 7 → n ≤ 7 → mkTrellisT .v2 rnd junk memory G n feedback rsc fmt = mkTrellis junk memory G n feedback rsc fmt) ∧
    (8 ≤ memory.sum ∨ 8 ≤ n → mkTrellisT .v2 rnd junk memory G n feedback rsc fmt = .error .overflowError) := by
  have key : ∀ ver, (memory.sum ≤ 7 ∧ n ≤ 7) ∨ (ver = .v1 ∧ memory.sum ≤ 63 ∧ n ≤ 63) →
      mkTrellisT ver rnd junk memory G n feedback rsc fmt = mkTrellis junk memory G n feedback rsc fmt := by
    intro ver hv
    unfold mkTrellisT mkTrellis
    simp only [if_pos h.fmt_ok]
    congr 1; funext f
    congr 1; funext g
    congr 1
    apply mapM_congr_mem
    intro s _
    apply mapM_congr_mem
    intro u _
    congr 1; funext sb
    congr 1; funext ub
    obtain ⟨o, ho1, _, ho3⟩ := b2dT_ok (ver := ver) rnd (bits := (List.range n).map (outBit (memMax memory + 1) G.length g (shiftReg junk memory sb ub)))
      (by intro x hx; obtain ⟨j, _, rfl⟩ := List.mem_map.1 hx; exact Nat.mod_lt _ (by norm_num))
      (by simp only [List.length_map, List.length_range]; rcases hv with hv | hv; exact Or.inl hv.2; exact Or.inr ⟨hv.1, hv.2.2⟩)
    have hlen : (nextBits (memMax memory + 1) G.length memory f (shiftReg junk memory sb ub)).length = memory.sum := by
      rw [← h.mem_len]; exact nextBits_length f _
    obtain ⟨q, hq1, _, hq3⟩ := b2dT_ok (ver := ver) rnd (bits := nextBits (memMax memory + 1) G.length memory f (shiftReg junk memory sb ub))
      (nextBits_lt_two f _) (by rw [hlen]; rcases hv with hv | hv; exact Or.inl hv.1; exact Or.inr ⟨hv.1, hv.2.1⟩)
    simp only [ho1, hq1, bind, Except.bind, ho3, hq3, Int.toNat_natCast]
  refine ⟨fun h1 h2 => key .v1 (Or.inr ⟨rfl, h1, h2⟩), fun h1 h2 => key .v2 (Or.inl ⟨h1, h2⟩), fun hbig => ?_⟩
  have hok := mkTrellis_ok (junk := junk) (rsc := rsc) h
  unfold mkTrellisT
  unfold mkTrellis at hok
  rw [if_pos h.fmt_ok] at hok ⊢
  simp only [bind, Except.bind] at hok ⊢
  cases hf : coefMatrix fmt (memMax memory + 1) G.length G.length (feedback.getD (defaultFeedback fmt G.length memory)) with
  | error e => rw [hf] at hok; simp at hok
  | ok f =>
    cases hg : coefMatrix fmt (memMax memory + 1) G.length n G with
    | error e => rw [hf, hg] at hok; simp at hok
    | ok g =>
      simp only []
      rw [range_pos_cons (n := 2 ^ memory.sum) (by positivity)]
      rw [mapM_error_head (e := .overflowError)]
      rw [range_pos_cons (n := 2 ^ G.length) (by positivity)]
      rw [mapM_error_head (e := .overflowError)]
      rw [dec2bitarray_ok (by positivity), dec2bitarray_ok (by positivity)]
      simp only []
      by_cases hn : 8 ≤ n
      · rw [bitarray2decT_v2_overflow rnd (by norm_num) (by simpa using hn)]
      · obtain ⟨o, ho1, _, ho3⟩ := b2dT_ok (ver := .v2) rnd (bits := (List.range n).map (outBit (memMax memory + 1) G.length g
            (shiftReg junk memory (toBits memory.sum 0) (toBits G.length 0))))
          (by intro x hx; obtain ⟨j, _, rfl⟩ := List.mem_map.1 hx; exact Nat.mod_lt _ (by norm_num))
          (by simp only [List.length_map, List.length_range]; omega)
        rw [ho1]
        simp only []
        rw [bitarray2decT_v2_overflow rnd (by norm_num) (by rw [← h.mem_len, nextBits_length f _]; omega)]

/-- A standard code with 256 states meets the hypotheses: `Trellis` cannot be constructed with numpy 2. -/
example (rnd : Int → Int) (junk : Nat → Nat → Nat) :
    mkTrellisT .v2 rnd junk [8] [[369, 491]] 2 none false "MSB" = .error .overflowError ∧
    mkTrellisT .v1 rnd junk [8] [[369, 491]] 2 none false "MSB" = mkTrellis junk [8] [[369, 491]] 2 none false "MSB" := by
  have h : TrellisArgs [8] [[369, 491]] 2 none "MSB" :=
    ⟨by decide, by decide, rfl, ⟨rfl, by decide⟩, by decide, by rintro F ⟨⟩, by rintro F ⟨⟩⟩
  exact ⟨(C100_trellis_partial rnd h).2.2 (by decide), (C100_trellis_partial rnd h).1 (by decide) (by decide)⟩

/-- C100, `modulate` on whole symbols: with numpy 1, or with int64 bits, or up to 7 bits per symbol, the result is that of exact
arithmetic; with numpy 2 and int8 bits (as returned by `dec2bitarray`, `pnsequence` or the LDPC encoder) a modem with 8 or more bits per
symbol raises OverflowError on every message. -/
theorem C100_modulate_partial (rnd : Int → Int) (s : Modem) {bits : List Nat} (hb : ∀ x ∈ bits, x < 2) (hne : bits ≠ []) (h0 : 0 < s.nbits)
    (hmul : s.nbits ∣ bits.length) :
    (∀ ver d, (s.nbits ≤ resWidth ver d - 1) → 1 ≤ d → modulateT ver rnd d s bits = modulate s bits) ∧
    (8 ≤ s.nbits → modulateT .v2 rnd 8 s bits = .error .overflowError) := by
  constructor
  · intro ver d hd h1
    unfold modulateT modulate
    have hz : s.nbits ≠ 0 := by omega
    simp only [if_neg hz, if_neg hne]
    apply mapM_congr_mem
    intro i _
    by_cases hch : (bits.drop i).take s.nbits = []
    · rw [hch]; rfl
    · rw [bitarray2decT_exact rnd h1 (fun x hx => hb x (List.mem_of_mem_drop (List.mem_of_mem_take hx))) hch
        (le_trans (List.length_take_le _ _) hd)]
      rfl
  · intro h8
    unfold modulateT
    rw [if_neg (by omega), if_neg hne]
    have hlen : s.nbits ≤ bits.length := Nat.le_of_dvd (List.length_pos_iff.2 hne) hmul
    unfold strideIdx
    rw [range_pos_cons (n := (bits.length - 0 + s.nbits - 1) / s.nbits) (Nat.div_pos (by omega) h0), List.map_cons, mapM_error_head (e := .overflowError)]
    simp only [Nat.zero_mul, Nat.add_zero, List.drop_zero]
    rw [bitarray2decT_v2_overflow rnd (by norm_num) (by rw [List.length_take]; omega)]
    rfl

/-- A modem with 256 points, one message of one symbol. -/
example (rnd : Int → Int) (s : Modem) (h : s.nbits = 8) :
    modulateT .v2 rnd 8 s (List.replicate 8 0) = .error .overflowError ∧
    modulateT .v2 rnd 64 s (List.replicate 8 0) = modulate s (List.replicate 8 0) ∧
    modulateT .v1 rnd 8 s (List.replicate 8 0) = modulate s (List.replicate 8 0) := by
  have hm := C100_modulate_partial rnd s (bits := List.replicate 8 0) (by decide) (by decide) (by omega) (by rw [h]; decide)
  exact ⟨hm.2 (by omega), hm.1 .v2 64 (by rw [h]; decide) (by omega), hm.1 .v1 8 (by rw [h]; decide) (by omega)⟩

end Verif
