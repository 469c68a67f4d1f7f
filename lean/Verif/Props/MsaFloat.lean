import Verif.Model.MsaFloat
import Verif.Props.LdpcBp
import Verif.Model.Float53
/-
C131: min-sum decoding of fixed-point LLRs in double precision is exact.
-/
namespace Verif

/-- Additions are exact when the result is a multiple of `q` of at most 53 bits (true of doubles for `q` a power of two in the normal range). -/
def ExactSums (fl : ℝ → ℝ) (q : ℝ) : Prop := ∀ m : ℤ, |m| ≤ 2 ^ 53 → fl (m * q) = m * q

/-- A multiple of `q` of magnitude at most `B`. -/
def FixedPt (q B x : ℝ) : Prop := (∃ m : ℤ, x = m * q) ∧ |x| ≤ B

theorem FixedPt.mono {q B B' x : ℝ} (h : FixedPt q B x) (hB : B ≤ B') : FixedPt q B' x := ⟨h.1, h.2.trans hB⟩

theorem FixedPt.add {q B B' x y : ℝ} (h : FixedPt q B x) (h' : FixedPt q B' y) : FixedPt q (B + B') (x + y) := by
  obtain ⟨⟨m, hm⟩, hb⟩ := h
  obtain ⟨⟨m', hm'⟩, hb'⟩ := h'
  refine ⟨⟨m + m', ?_⟩, (abs_add_le x y).trans (by linarith)⟩
  rw [hm, hm']; push_cast; ring

theorem FixedPt.neg {q B x : ℝ} (h : FixedPt q B x) : FixedPt q B (-x) := by
  obtain ⟨⟨m, hm⟩, hb⟩ := h
  refine ⟨⟨-m, ?_⟩, by rwa [abs_neg]⟩
  rw [hm]; push_cast; ring

theorem ExactSums.eq {fl : ℝ → ℝ} {q B x : ℝ} (h : ExactSums fl q) (hq : 0 < q) (hB : B ≤ 2 ^ 53 * q) (hx : FixedPt q B x) : fl x = x := by
  obtain ⟨⟨m, hm⟩, hb⟩ := hx
  rw [hm]
  apply h
  rw [hm, abs_mul, abs_of_pos hq] at hb
  have : |(m : ℝ)| ≤ 2 ^ 53 := le_of_mul_le_mul_right (hb.trans hB) hq
  exact_mod_cast this

theorem npSign_cases (x : ℝ) : npSign x = 1 ∨ npSign x = -1 ∨ npSign x = 0 := by
  unfold npSign
  split
  · exact Or.inl rfl
  · split
    · exact Or.inr (Or.inl rfl)
    · exact Or.inr (Or.inr rfl)

theorem signs_cases (l : List ℝ) : (l.map npSign).prod = 1 ∨ (l.map npSign).prod = -1 ∨ (l.map npSign).prod = 0 := by
  induction l with
  | nil => left; rfl
  | cons a l ih =>
    rw [List.map_cons, List.prod_cons]
    rcases npSign_cases a with h | h | h <;> rcases ih with h' | h' | h' <;> rw [h, h'] <;> norm_num

theorem foldl_min_mem (l : List ℝ) (a : ℝ) : l.foldl min a = a ∨ l.foldl min a ∈ l := by
  induction l generalizing a with
  | nil => left; rfl
  | cons b l ih =>
    rw [List.foldl_cons]
    rcases ih (min a b) with h | h
    · rcases min_choice a b with h' | h'
      · left; rw [h, h']
      · right; rw [h, h']; exact List.mem_cons_self
    · exact Or.inr (List.mem_cons_of_mem _ h)

theorem FixedPt.abs {q B x : ℝ} (h : FixedPt q B x) : FixedPt q B |x| := by
  rcases abs_choice x with e | e <;> rw [e]
  · exact h
  · exact h.neg

theorem minAbs_fixed {q B : ℝ} (hB : 0 ≤ B) {l : List ℝ} (h : ∀ x ∈ l, FixedPt q B x) : FixedPt q B (minAbs l) := by
  unfold minAbs
  have h0 : FixedPt q B |l.headD 0| := by
    cases l with
    | nil => exact ⟨⟨0, by simp⟩, by simpa using hB⟩
    | cons a l => exact (h a List.mem_cons_self).abs
  rcases foldl_min_mem (l.tail.map (fun x => |x|)) |l.headD 0| with e | e
  · rw [e]; exact h0
  · obtain ⟨y, hy, he⟩ := List.mem_map.1 e
    rw [← he]
    exact (h y (List.mem_of_mem_tail hy)).abs

theorem msaRow_fixed {q B : ℝ} (hB : 0 ≤ B) {ns : List Nat} {x : Nat → Option ℝ} (h : ∀ u ∈ ns, ∃ y, x u = some y ∧ FixedPt q B y) (v : Nat) :
    ∃ y, msaRow ns x v = some y ∧ FixedPt q B y := by
  have hl : ∀ l : List Nat, (∀ u ∈ l, ∃ y, x u = some y ∧ FixedPt q B y) → ∃ ys, l.mapM x = some ys ∧ ∀ y ∈ ys, FixedPt q B y := by
    intro l
    induction l with
    | nil => intro _; exact ⟨[], rfl, by simp⟩
    | cons a l ih =>
      intro h
      obtain ⟨y, hy, hf⟩ := h a List.mem_cons_self
      obtain ⟨ys, hys, hfs⟩ := ih (fun u hu => h u (List.mem_cons_of_mem _ hu))
      refine ⟨y :: ys, by rw [List.mapM_cons, hy, hys]; rfl, ?_⟩
      intro z hz
      rcases List.mem_cons.1 hz with rfl | hz
      · exact hf
      · exact hfs z hz
  obtain ⟨ys, hys, hf⟩ := hl (ns.filter (fun u => u ≠ v)) (fun u hu => h u (List.mem_of_mem_filter hu))
  refine ⟨_, by rw [msaRow, hys]; rfl, ?_⟩
  have hm := minAbs_fixed hB hf
  show FixedPt q B ((ys.map npSign).prod * minAbs ys)
  rcases signs_cases ys with e | e | e <;> rw [e]
  · rwa [one_mul]
  · rw [neg_one_mul]; exact hm.neg
  · rw [zero_mul]; exact ⟨⟨0, by simp⟩, by simpa using hB⟩

theorem msaRow_congr {ns : List Nat} {x y : Nat → Option ℝ} (h : ∀ u ∈ ns, x u = y u) (v : Nat) : msaRow ns x v = msaRow ns y v := by
  have hl : ∀ l : List Nat, (∀ u ∈ l, x u = y u) → l.mapM x = l.mapM y := by
    intro l
    induction l with
    | nil => intro _; rfl
    | cons a l ih =>
      intro h
      rw [List.mapM_cons, List.mapM_cons, h a List.mem_cons_self, ih (fun u hu => h u (List.mem_cons_of_mem _ hu))]
  rw [msaRow, msaRow, hl _ (fun u hu => h u (List.mem_of_mem_filter hu))]

/-- Sums of `r` numbers are computed exactly. -/
theorem sum_fixed {fl : ℝ → ℝ} {q B : ℝ} (h : ExactSums fl q) (hq : 0 < q) (hB : 0 ≤ B) (C : ℝ) (hC : C ≤ 2 ^ 53 * q) :
    ∀ (l : List ℝ) (s : ℝ) (k : Nat), FixedPt q (k * B) s → (∀ x ∈ l, FixedPt q B x) → (k + l.length : ℕ) * B ≤ C →
      l.foldl (fun s x => fl (s + x)) s = s + l.sum ∧ FixedPt q ((k + l.length : ℕ) * B) (s + l.sum) := by
  intro l
  induction l with
  | nil => intro s k hs _ _; simpa using hs
  | cons a l ih =>
    intro s k hs hl hb
    have ha := hs.add (hl a List.mem_cons_self)
    have e : (k : ℝ) * B + B = ((k + 1 : ℕ) : ℝ) * B := by push_cast; ring
    rw [e] at ha
    have hlen : k + (a :: l).length = (k + 1) + l.length := by simp; omega
    rw [hlen] at hb ⊢
    have hle : ((k + 1 : ℕ) : ℝ) * B ≤ C := le_trans (mul_le_mul_of_nonneg_right (by exact_mod_cast Nat.le_add_right _ _) hB) hb
    rw [List.foldl_cons, h.eq hq (hle.trans hC) ha]
    have := ih (s + a) (k + 1) ha (fun x hx => hl x (List.mem_cons_of_mem _ hx)) hb
    rw [List.sum_cons, ← add_assoc]
    exact this

/-- The two decoders are in the same state, with messages of at most `B`. -/
def SameState (q B : ℝ) (H : Checks) (a b : BpState) : Prop :=
  a.dec = b.dec ∧ a.out = b.out ∧ ∀ c < H.length, ∀ v ∈ H.getD c [], a.msg c v = b.msg c v ∧ ∃ y, b.msg c v = some y ∧ FixedPt q B y

theorem mapM_id_some (l : List Nat) (f : Nat → Option ℝ) (g : Nat → ℝ) (h : ∀ c ∈ l, f c = some (g c)) : (l.map f).mapM id = some (l.map g) := by
  induction l with
  | nil => rfl
  | cons a l ih =>
    rw [List.map_cons, List.mapM_cons, h a List.mem_cons_self, ih (fun c hc => h c (List.mem_cons_of_mem _ hc))]; rfl

theorem sum_fixedPt {q B : ℝ} (l : List ℝ) (h : ∀ x ∈ l, FixedPt q B x) : FixedPt q (l.length * B) l.sum := by
  induction l with
  | nil => exact ⟨⟨0, by simp⟩, by simp⟩
  | cons a l ih =>
    have := (h a List.mem_cons_self).add (ih (fun x hx => h x (List.mem_cons_of_mem _ hx)))
    rw [List.sum_cons]
    refine this.mono (le_of_eq ?_)
    rw [List.length_cons]; push_cast; ring

theorem msaIterF_eq {fl : ℝ → ℝ} {q : ℝ} (h : ExactSums fl q) (hq : 0 < q) {H : Checks} {w : Nat} (hw : ∀ v, (checksOf H v).length ≤ w) (hw1 : 1 ≤ w)
    {llr : Nat → ℝ} {L : ℝ} (hL : ∀ v, FixedPt q L (llr v)) (ns : Nat → Nat → Bool) (k : Nat) {B : ℝ} (hB : L ≤ B) (hC : w * B + L ≤ 2 ^ 53 * q)
    {a b : BpState} (hab : SameState q B H a b) :
    (msaIterF fl ns H llr k a = .error .valueError ∧ bpIter ns .msa H llr k b = .error .valueError) ∨
    ∃ a' b', msaIterF fl ns H llr k a = .ok a' ∧ bpIter ns .msa H llr k b = .ok b' ∧ SameState q (w * B) H a' b' := by
  by_cases hd : H.any (fun ns => decide (ns.length = 1)) = true
  · left
    constructor
    · simp only [msaIterF]
      rw [if_pos hd]; rfl
    · simp only [bpIter, checkUpdate]
      rw [if_pos hd]; rfl
  right
  have hL0 : 0 ≤ L := (abs_nonneg _).trans (hL 0).2
  have hB0 : 0 ≤ B := hL0.trans hB
  obtain ⟨-, -, hmsg⟩ := hab
  have hrow : ∀ c < H.length, ∀ v, msaRow (H.getD c []) (a.msg c) v = msaRow (H.getD c []) (b.msg c) v ∧
      ∃ y, msaRow (H.getD c []) (b.msg c) v = some y ∧ FixedPt q B y :=
    fun c hc v => ⟨msaRow_congr (fun u hu => (hmsg c hc u hu).1) v, msaRow_fixed hB0 (fun u hu => (hmsg c hc u hu).2) v⟩
  have hck : ∀ v, ∀ c ∈ checksOf H v, c < H.length := fun v c hc => List.mem_range.1 (List.mem_of_mem_filter hc)
  have hg : ∃ g : Nat → Nat → ℝ, ∀ c < H.length, ∀ v, msaRow (H.getD c []) (b.msg c) v = some (g c v) ∧ FixedPt q B (g c v) := by
    refine ⟨fun c v => (msaRow (H.getD c []) (b.msg c) v).getD 0, fun c hc v => ?_⟩
    obtain ⟨-, y, hy, hf⟩ := hrow c hc v
    dsimp only
    rw [hy]
    exact ⟨rfl, hf⟩
  obtain ⟨g, hg⟩ := hg
  have htot : ∀ v, ((checksOf H v).map (fun c => msaRow (H.getD c []) (b.msg c) v)).mapM id = some ((checksOf H v).map (fun c => g c v)) :=
    fun v => mapM_id_some _ _ _ (fun c hc => (hg c (hck v c hc) v).1)
  have hfix : ∀ v, ∀ x ∈ (checksOf H v).map (fun c => g c v), FixedPt q B x := by
    intro v x hx
    obtain ⟨c, hc, rfl⟩ := List.mem_map.1 hx
    exact (hg c (hck v c hc) v).2
  have htotE : ∀ v, totalLlr H llr (fun c v => msaRow (H.getD c []) (b.msg c) v) v = some (((checksOf H v).map (fun c => g c v)).sum + llr v) := by
    intro v
    unfold totalLlr nanSum
    rw [htot v]; rfl
  have htotF : ∀ v, (sumMsgsF fl ((checksOf H v).map (fun c => msaRow (H.getD c []) (a.msg c) v))).map (fun s => fl (s + llr v)) =
      totalLlr H llr (fun c v => msaRow (H.getD c []) (b.msg c) v) v := by
    intro v
    have e : (checksOf H v).map (fun c => msaRow (H.getD c []) (a.msg c) v) = (checksOf H v).map (fun c => msaRow (H.getD c []) (b.msg c) v) :=
      List.map_congr_left (fun c hc => (hrow c (hck v c hc) v).1)
    have hlw : ((0 + ((checksOf H v).map (fun c => g c v)).length : ℕ) : ℝ) * B ≤ w * B :=
      mul_le_mul_of_nonneg_right (by rw [zero_add, List.length_map]; exact_mod_cast hw v) hB0
    have hs := sum_fixed h hq hB0 (w * B) (by linarith) ((checksOf H v).map (fun c => g c v)) 0 0 ⟨⟨0, by simp⟩, by simp⟩ (hfix v) hlw
    rw [htotE v]
    unfold sumMsgsF
    rw [e, htot v]
    simp only [Option.map_some]
    rw [hs.1]
    rw [zero_add] at hs ⊢
    rw [h.eq hq hC (((hs.2.mono hlw)).add (hL v))]
  refine ⟨{ msg := fun c v => (msaRow (H.getD c []) (a.msg c) v).bind (fun x => (totalLlr H llr (fun c v => msaRow (H.getD c []) (b.msg c) v) v).map (fun t => fl (-x + t)))
            dec := fun v => signBit (ns k v) (totalLlr H llr (fun c v => msaRow (H.getD c []) (b.msg c) v) v)
            out := totalLlr H llr (fun c v => msaRow (H.getD c []) (b.msg c) v) },
    { msg := fun c v => (msaRow (H.getD c []) (b.msg c) v).bind (fun x => (totalLlr H llr (fun c v => msaRow (H.getD c []) (b.msg c) v) v).map (fun t => -x + t))
      dec := fun v => signBit (ns k v) (totalLlr H llr (fun c v => msaRow (H.getD c []) (b.msg c) v) v)
      out := totalLlr H llr (fun c v => msaRow (H.getD c []) (b.msg c) v) }, ?_, ?_, ?_⟩
  · simp only [msaIterF]
    rw [if_neg hd]
    simp only [pure, Except.pure, htotF]
  · simp only [bpIter, checkUpdate]
    rw [if_neg hd]
    rfl
  · refine ⟨rfl, rfl, fun c hc v hv => ?_⟩
    have hcv : c ∈ checksOf H v := by
      unfold checksOf
      exact List.mem_filter.2 ⟨List.mem_range.2 hc, by simpa using hv⟩
    have hsum : ((checksOf H v).map (fun c => g c v)).sum = g c v + (((checksOf H v).erase c).map (fun c => g c v)).sum := by
      have := ((List.perm_cons_erase hcv).map (fun c => g c v)).sum_eq
      rwa [List.map_cons, List.sum_cons] at this
    have hrest : FixedPt q (w * B) (-(g c v) + (((checksOf H v).map (fun c => g c v)).sum + llr v)) := by
      have h1 := sum_fixedPt (((checksOf H v).erase c).map (fun c => g c v)) (fun x hx => by
        obtain ⟨c', hc', rfl⟩ := List.mem_map.1 hx
        exact (hg c' (hck v c' (List.mem_of_mem_erase hc')) v).2)
      have h2 := h1.add (hL v)
      rw [hsum]
      rw [show -(g c v) + (g c v + (((checksOf H v).erase c).map (fun c => g c v)).sum + llr v) = (((checksOf H v).erase c).map (fun c => g c v)).sum + llr v by ring]
      refine h2.mono ?_
      rw [List.length_map, List.length_erase_of_mem hcv]
      have hlen : (checksOf H v).length - 1 ≤ w - 1 := by have := hw v; omega
      have : (((checksOf H v).length - 1 : ℕ) : ℝ) * B ≤ ((w - 1 : ℕ) : ℝ) * B := mul_le_mul_of_nonneg_right (by exact_mod_cast hlen) hB0
      rw [Nat.cast_sub hw1] at this
      push_cast at this
      linarith
    dsimp only
    rw [(hrow c hc v).1, (hg c hc v).1, htotE v]
    simp only [Option.bind_some, Option.map_some]
    rw [h.eq hq (by linarith) hrest]
    exact ⟨rfl, _, rfl, hrest⟩

theorem msaLoopF_eq {fl : ℝ → ℝ} {q : ℝ} (h : ExactSums fl q) (hq : 0 < q) {H : Checks} {w : Nat} (hw : ∀ v, (checksOf H v).length ≤ w) (hw1 : 1 ≤ w)
    {llr : Nat → ℝ} {L : ℝ} (hL : ∀ v, FixedPt q L (llr v)) (ns : Nat → Nat → Bool) :
    ∀ (n k : Nat) (B : ℝ) (a b : BpState), L ≤ B → w ^ n * B + L ≤ 2 ^ 53 * q → SameState q B H a b →
      (∃ e, msaLoopF fl ns H llr n k a = .error e ∧ bpLoop ns .msa H llr n k b = .error e) ∨
      ∃ a' b', msaLoopF fl ns H llr n k a = .ok a' ∧ bpLoop ns .msa H llr n k b = .ok b' ∧ a'.dec = b'.dec ∧ a'.out = b'.out := by
  intro n
  induction n with
  | zero => intro k B a b _ _ hab; exact Or.inr ⟨a, b, rfl, rfl, hab.1, hab.2.1⟩
  | succ n ih =>
    intro k B a b hB hC hab
    simp only [msaLoopF, bpLoop]
    by_cases hs : syndromeOk H b.dec = true
    · right
      rw [hab.1, if_pos hs, if_pos hs]
      exact ⟨a, b, rfl, rfl, hab.1, hab.2.1⟩
    rw [hab.1, if_neg hs, if_neg hs]
    have hL0 : 0 ≤ L := (abs_nonneg _).trans (hL 0).2
    have hB0 : 0 ≤ B := hL0.trans hB
    have hw1' : (1 : ℝ) ≤ w := by exact_mod_cast hw1
    have hpow : (1 : ℝ) ≤ (w : ℝ) ^ n := one_le_pow₀ hw1'
    have hC1 : w * B + L ≤ 2 ^ 53 * q := by
      refine le_trans ?_ hC
      have : (w : ℝ) * B ≤ w ^ (n + 1) * B := by
        refine mul_le_mul_of_nonneg_right ?_ hB0
        rw [pow_succ]
        nlinarith
      linarith
    rcases msaIterF_eq h hq hw hw1 hL ns k hB hC1 hab with ⟨h1, h2⟩ | ⟨a', b', h1, h2, h3⟩
    · left
      exact ⟨.valueError, by rw [h1]; rfl, by rw [h2]; rfl⟩
    · rw [h1, h2]
      exact ih (k + 1) (w * B) a' b' (by nlinarith) (by rw [pow_succ] at hC; rw [← mul_assoc]; exact hC) h3

/-- C131: with LLRs that are multiples of a step `q` (as is 500), at most `w` checks per bit and `500 (w^n + 1) ≤ 2^53 q`, `ldpc_bp_decode` with 'MSA' and `n`
iterations returns in double precision exactly what it returns in exact arithmetic, for any number of blocks. -/
theorem C131_exact (nanSign : NanSigns) (oneLeft : Py (List (List Bool × List (Option ℝ)))) (fl : ℝ → ℝ) (q : ℝ) (h : ExactSums fl q) (hq : 0 < q)
    (H : Checks) (nv n : Nat) (llrs : List ℝ) (w : Nat) (hw : ∀ v, (checksOf H v).length ≤ w) (hw1 : 1 ≤ w) (hx : ∀ x ∈ llrs, ∃ m : ℤ, x = m * q)
    (h500 : ∃ m : ℤ, (500 : ℝ) = m * q) (hb : 500 * ((w : ℝ) ^ n + 1) ≤ 2 ^ 53 * q) :
    msaDecodeF fl nanSign oneLeft H nv n llrs = bpDecode nanSign oneLeft .msa H nv n llrs := by
  have hclip : ∀ x, (∃ m : ℤ, x = m * q) → FixedPt q 500 (clipR llrMax x) := by
    intro x hx
    refine ⟨?_, abs_le.2 ⟨le_max_left _ _, max_le (by norm_num [llrMax]) (min_le_left _ _)⟩⟩
    obtain ⟨m, hm⟩ := hx
    obtain ⟨m5, hm5⟩ := h500
    have : clipR llrMax x = -500 ∨ clipR llrMax x = 500 ∨ clipR llrMax x = x := by
      unfold clipR llrMax
      rcases max_choice (-500 : ℝ) (min 500 x) with e | e
      · left; exact e
      · rcases min_choice (500 : ℝ) x with e' | e'
        · right; left; rw [e, e']
        · right; right; rw [e, e']
    rcases this with e | e | e
    · exact ⟨-m5, by rw [e, hm5]; push_cast; ring⟩
    · exact ⟨m5, by rw [e, hm5]⟩
    · exact ⟨m, by rw [e, hm]⟩
  have hfix : ∀ (b v : Nat), FixedPt q 500 ((((llrs.map (clipR llrMax)).drop (b * nv)).take nv).getD v 0) := by
    intro b v
    by_cases hv : v < (((llrs.map (clipR llrMax)).drop (b * nv)).take nv).length
    · rw [List.getD_eq_getElem _ _ hv]
      have hmem := List.mem_of_mem_drop (List.mem_of_mem_take (List.getElem_mem hv))
      obtain ⟨x, hxm, hxe⟩ := List.mem_map.1 hmem
      rw [← hxe]
      exact hclip x (hx x hxm)
    · rw [List.getD_eq_default _ _ (by omega)]
      exact ⟨⟨0, by simp⟩, by norm_num⟩
  have hblock : ∀ b, msaBlockF fl (nanSign b) H nv n (((llrs.map (clipR llrMax)).drop (b * nv)).take nv) =
      bpBlock (nanSign b) .msa H nv n (((llrs.map (clipR llrMax)).drop (b * nv)).take nv) := by
    intro b
    simp only [msaBlockF, bpBlock]
    set llr := fun v => (((llrs.map (clipR llrMax)).drop (b * nv)).take nv).getD v 0 with hllr
    have h0 : SameState q 500 H (bpInit llr) (bpInit llr) := ⟨rfl, rfl, fun c _ v _ => ⟨rfl, llr v, rfl, hfix b v⟩⟩
    rcases msaLoopF_eq h hq hw hw1 (hfix b) (nanSign b) n 0 500 _ _ le_rfl (by linarith) h0 with ⟨e, h1, h2⟩ | ⟨a', b', h1, h2, h3, h4⟩
    · rw [h1, h2]
    · rw [h1, h2]
      simp only [bind, Except.bind, pure, Except.pure]
      rw [h3, h4]
  simp only [msaDecodeF, bpDecode, hblock]

/-- The contract holds for double-precision rounding: it is enough that numbers with a 53-bit mantissa are not changed. -/
theorem exactSums_of_double {fl : ℝ → ℝ} (h : ∀ y : ℚ, IsFloat 53 |y| → fl (y : ℝ) = y) (e : ℤ) : ExactSums fl (2 ^ e) := by
  intro m hm
  have := h ((m : ℚ) * 2 ^ e) ?_
  · push_cast at this
    exact this
  · rw [abs_mul, abs_of_pos (by positivity : (0 : ℚ) < 2 ^ e)]
    rcases lt_or_eq_of_le hm with hlt | heq
    · refine ⟨m.natAbs, e, ?_, ?_⟩
      · have : (m.natAbs : ℤ) < 2 ^ 53 := by rw [Int.natCast_natAbs]; exact hlt
        exact_mod_cast this
      · rw [Nat.cast_natAbs]; push_cast; rfl
    · refine ⟨1, 53 + e, by norm_num, ?_⟩
      have : |(m : ℚ)| = 2 ^ 53 := by exact_mod_cast heq
      rw [this, zpow_add₀ (by norm_num)]
      norm_num

/-- Integer LLRs, double precision. -/
theorem C131_integers (nanSign : NanSigns) (oneLeft : Py (List (List Bool × List (Option ℝ)))) (fl : ℝ → ℝ) (h : ∀ y : ℚ, IsFloat 53 |y| → fl (y : ℝ) = y)
    (H : Checks) (nv n : Nat) (llrs : List ℤ) (w : Nat) (hw : ∀ v, (checksOf H v).length ≤ w) (hw1 : 1 ≤ w) (hb : 500 * (w ^ n + 1) ≤ 2 ^ 53) :
    msaDecodeF fl nanSign oneLeft H nv n (llrs.map (fun (m : ℤ) => (m : ℝ))) = bpDecode nanSign oneLeft .msa H nv n (llrs.map (fun (m : ℤ) => (m : ℝ))) := by
  refine C131_exact nanSign oneLeft fl (2 ^ (0 : ℤ)) (exactSums_of_double h 0) (by positivity) H nv n _ w hw hw1 ?_ ⟨500, by norm_num⟩ ?_
  · intro x hx
    obtain ⟨m, -, rfl⟩ := List.mem_map.1 hx
    exact ⟨m, by simp⟩
  · rw [zpow_zero, mul_one]
    exact_mod_cast hb

/-- LLRs in steps of 1/16, checks in which every bit appears at most three times, 20 iterations: the bound holds. -/
example : 500 * (((3 : ℕ) : ℝ) ^ 20 + 1) ≤ 2 ^ 53 * (2 ^ (-4 : ℤ)) := by norm_num

/-- A rounding function that satisfies the contract and is not the identity: rounding down to a multiple of 1/16. -/
example : ExactSums (fun x => ⌊x * 16⌋ / 16) (1 / 16) ∧ (⌊((3 : ℝ) / 100) * 16⌋ : ℝ) / 16 ≠ 3 / 100 := by
  constructor
  · intro m _
    have : (m : ℝ) * (1 / 16) * 16 = m := by ring
    dsimp only
    rw [this, Int.floor_intCast]; ring
  · have : ⌊((3 : ℝ) / 100) * 16⌋ = 0 := by rw [Int.floor_eq_zero_iff]; constructor <;> norm_num
    rw [this]; norm_num

/-- A (7,4) code with LLRs that contain an error, 10 iterations. -/
example (nanSign : NanSigns) (oneLeft : Py (List (List Bool × List (Option ℝ)))) (fl : ℝ → ℝ) (h : ∀ y : ℚ, IsFloat 53 |y| → fl (y : ℝ) = y) :
    msaDecodeF fl nanSign oneLeft [[0, 2, 4, 6], [1, 2, 5, 6], [3, 4, 5, 6]] 7 10 (([3, 5, -2, 700, 4, 9, 1] : List ℤ).map (fun (m : ℤ) => (m : ℝ))) =
      bpDecode nanSign oneLeft .msa [[0, 2, 4, 6], [1, 2, 5, 6], [3, 4, 5, 6]] 7 10 (([3, 5, -2, 700, 4, 9, 1] : List ℤ).map (fun (m : ℤ) => (m : ℝ))) := by
  refine C131_integers nanSign oneLeft fl h _ 7 10 _ 3 (fun v => ?_) (by norm_num) (by norm_num)
  exact (List.length_filter_le _ _).trans (by simp)

end Verif
