import Verif.Model.Sequences
import Verif.Lemmas.Lists
import Verif.Lemmas.Utilities
import Mathlib.Algebra.BigOperators.Group.Finset.Basic
import Mathlib.Combinatorics.Pigeonhole
import Mathlib.Data.Finset.Card
import Mathlib.Order.Interval.Finset.Nat
import Mathlib.Tactic.Linarith
/- Helper lemmas for the shift register. -/
namespace Verif

/-- one register update -/
def pnNext (mask sr : List Nat) : List Nat := (List.zipWith (· &&& ·) sr mask).sum % 2 :: sr.dropLast

theorem pnNext_length (mask : List Nat) {sr : List Nat} (h : sr ≠ []) : (pnNext mask sr).length = sr.length := by
  have := List.length_pos_iff.2 h
  simp [pnNext]; omega

/-- register after `i` updates -/
def pnState (mask seed : List Nat) (i : Nat) : List Nat := (pnNext mask)^[i] seed

theorem pnState_succ (mask seed : List Nat) (i : Nat) :
    pnState mask seed (i + 1) = pnNext mask (pnState mask seed i) := Function.iterate_succ_apply' _ _ _

theorem pnState_length (mask : List Nat) {seed : List Nat} (h : seed ≠ []) (i : Nat) :
    (pnState mask seed i).length = seed.length := by
  induction i with
  | zero => rfl
  | succ i ih =>
    rw [pnState_succ, pnNext_length, ih]
    intro hc; rw [hc] at ih
    exact h (List.length_eq_zero_iff.1 ih.symm)

/-- output bit `i` -/
def pnOut (mask seed : List Nat) (i : Nat) : Nat := (pnState mask seed i).getD (seed.length - 1) 0

theorem pyGet_last {α : Type} (l : List α) (h : l ≠ []) (d : α) : pyGet l (-1) = .ok (l.getD (l.length - 1) d) := by
  have hl := List.length_pos_iff.2 h
  unfold pyGet pyIdx
  rw [if_neg (by omega), if_pos (by omega)]
  have : ((-1 : Int) + l.length).toNat = l.length - 1 := by omega
  have h2 : l.length - 1 < l.length := by omega
  simp [this, List.getD_eq_getElem?_getD, h2]

theorem pnLoop_eq (mask seed : List Nat) (h : seed ≠ []) (k : Nat) : ∀ i out,
    pnLoop mask k (pnState mask seed i) out = .ok (out ++ (List.range' i k).map (pnOut mask seed)) := by
  induction k with
  | zero => intro i out; simp [pnLoop]
  | succ k ih =>
    intro i out
    have hl := pnState_length mask h i
    have hne : pnState mask seed i ≠ [] := by
      intro hc; rw [hc] at hl; exact h (List.length_eq_zero_iff.1 hl.symm)
    rw [pnLoop, pyGet_last _ hne 0]
    simp only [bind, Except.bind]
    have := ih (i + 1) (out ++ [pnOut mask seed i])
    rw [pnState_succ] at this
    rw [pnNext] at this
    rw [hl]
    rw [List.range'_succ, List.map_cons]
    simp only [pnOut] at this ⊢
    rw [this]
    simp

theorem pnsequence_eq (mask seed : List Nat) (h : seed ≠ []) (hm : mask.length = seed.length) (N : Nat) :
    pnsequence seed.length seed mask N = .ok ((List.range N).map (pnOut mask seed)) := by
  have := pnLoop_eq mask seed h N 0 []
  simp only [pnsequence, ne_eq, not_true_eq_false, if_false]
  rw [if_neg (by omega), List.range_eq_range']
  exact this

theorem pnState_shift (mask : List Nat) {seed : List Nat} (h : seed ≠ []) (i j : Nat) (hj : j + 1 < seed.length) :
    (pnState mask seed (i + 1)).getD (j + 1) 0 = (pnState mask seed i).getD j 0 := by
  have hl := pnState_length mask h i
  rw [pnState_succ, pnNext]
  simp only [List.getD_eq_getElem?_getD, List.getElem?_cons_succ]
  rw [List.getElem?_dropLast, if_pos (by omega)]

/-- the register is a window of the output -/
theorem pnState_window (mask : List Nat) {seed : List Nat} (h : seed ≠ []) : ∀ (d i j : Nat), d + j + 1 = seed.length →
    (pnState mask seed i).getD j 0 = pnOut mask seed (i + d) := by
  intro d
  induction d with
  | zero =>
    intro i j hj
    rw [pnOut, Nat.add_zero, show seed.length - 1 = j by omega]
  | succ d ih =>
    intro i j hj
    rw [← pnState_shift mask h i j (by omega), ih (i + 1) (j + 1) (by omega)]
    congr 1; omega

theorem zipWith_sum_range (f : Nat → Nat → Nat) : ∀ (a b : List Nat), a.length = b.length →
    (List.zipWith f a b).sum = ∑ j ∈ Finset.range a.length, f (a.getD j 0) (b.getD j 0) := by
  intro a
  induction a with
  | nil => intro b _; simp
  | cons x a ih =>
    intro b h
    cases b with
    | nil => simp at h
    | cons y b =>
      rw [List.zipWith_cons_cons, List.sum_cons, ih b (by simpa using h), List.length_cons, Finset.sum_range_succ']
      simp [Nat.add_comm]

theorem pnOut_rec (mask : List Nat) {seed : List Nat} (h : seed ≠ []) (hm : mask.length = seed.length) (i : Nat) :
    pnOut mask seed (i + seed.length) =
      (∑ j ∈ Finset.range seed.length, (pnOut mask seed (i + seed.length - 1 - j) &&& mask.getD j 0)) % 2 := by
  have hl := pnState_length mask h i
  have hpos := List.length_pos_iff.2 h
  have h1 := pnState_window mask h (seed.length - 1) (i + 1) 0 (by omega)
  rw [show i + 1 + (seed.length - 1) = i + seed.length by omega] at h1
  rw [← h1, pnState_succ, pnNext]
  simp only [List.getD_cons_zero]
  rw [zipWith_sum_range _ _ _ (by omega), hl]
  congr 1
  apply Finset.sum_congr rfl
  intro j hj
  have := Finset.mem_range.1 hj
  rw [pnState_window mask h (seed.length - 1 - j) i j (by omega)]
  congr 2; omega

theorem pnOut_init (mask : List Nat) {seed : List Nat} (h : seed ≠ []) (i : Nat) (hi : i < seed.length) :
    pnOut mask seed i = seed.getD (seed.length - 1 - i) 0 := by
  have := pnState_window mask h i 0 (seed.length - 1 - i) (by omega)
  rw [Nat.zero_add] at this
  rw [← this]; rfl

theorem pnNext_bits {mask sr : List Nat} (h : ∀ x ∈ sr, x < 2) : ∀ x ∈ pnNext mask sr, x < 2 := by
  intro x hx
  simp only [pnNext, List.mem_cons] at hx
  rcases hx with rfl | hx
  · omega
  · exact h x (List.mem_of_mem_dropLast hx)

theorem pnState_bits {mask seed : List Nat} (h : ∀ x ∈ seed, x < 2) (i : Nat) : ∀ x ∈ pnState mask seed i, x < 2 := by
  induction i with
  | zero => exact h
  | succ i ih => rw [pnState_succ]; exact pnNext_bits ih

theorem getD_lt_two {l : List Nat} (h : ∀ x ∈ l, x < 2) (i : Nat) : l.getD i 0 < 2 := by
  rw [List.getD_eq_getElem?_getD]
  cases hi : l[i]? with
  | none => simp
  | some x => simpa using h x (List.mem_of_getElem? hi)

/-- If the last mask bit is 1, the update is injective on bit registers. -/
theorem pnNext_inj {mask a b : List Nat} (ha : a ≠ []) (hlab : a.length = b.length) (hm : mask.length = a.length)
    (hbits : ∀ x ∈ a, x < 2) (hbits' : ∀ x ∈ b, x < 2) (hlast : mask.getD (mask.length - 1) 0 = 1)
    (h : pnNext mask a = pnNext mask b) : a = b := by
  have hpos := List.length_pos_iff.2 ha
  unfold pnNext at h
  rw [List.cons.injEq] at h
  obtain ⟨h1, h2⟩ := h
  rw [zipWith_sum_range _ _ _ hm.symm, zipWith_sum_range _ _ _ (by omega), ← hlab] at h1
  have hinit : ∀ j, j < a.length - 1 → a.getD j 0 = b.getD j 0 := by
    intro j hj
    have := congrArg (fun l => l[j]?) h2
    simp only [List.getElem?_dropLast] at this
    rw [if_pos hj, if_pos (by omega)] at this
    simp [List.getD_eq_getElem?_getD, this]
  obtain ⟨n, hn⟩ : ∃ n, a.length = n + 1 := ⟨a.length - 1, by omega⟩
  rw [hn, Finset.sum_range_succ, Finset.sum_range_succ] at h1
  have hs : ∑ j ∈ Finset.range n, (a.getD j 0 &&& mask.getD j 0) = ∑ j ∈ Finset.range n, (b.getD j 0 &&& mask.getD j 0) := by
    apply Finset.sum_congr rfl
    intro j hj
    rw [hinit j (by have := Finset.mem_range.1 hj; omega)]
  have hml : mask.getD n 0 = 1 := by rw [← hlast]; congr 1; omega
  rw [hs, hml, Nat.and_one_is_mod, Nat.and_one_is_mod] at h1
  have hA := getD_lt_two hbits n
  have hB := getD_lt_two hbits' n
  have hl : a.getD n 0 = b.getD n 0 := by omega
  apply List.ext_getElem hlab
  intro j h3 h4
  have : a.getD j 0 = b.getD j 0 := by
    by_cases hj : j < a.length - 1
    · exact hinit j hj
    · rw [show j = n by omega]; exact hl
  simpa [List.getD_eq_getElem?_getD, h3, h4] using this

theorem pnNext_zero (mask : List Nat) (L : Nat) (hL : 0 < L) : pnNext mask (List.replicate L 0) = List.replicate L 0 := by
  have : (List.zipWith (· &&& ·) (List.replicate L 0) mask).sum = 0 := by
    have : ∀ (L : Nat) (mask : List Nat), (List.zipWith (· &&& ·) (List.replicate L 0) mask).sum = 0 := by
      intro L
      induction L with
      | zero => intro m; simp
      | succ L ih =>
        intro m
        cases m with
        | nil => simp
        | cons x m => rw [List.replicate_succ, List.zipWith_cons_cons, List.sum_cons, ih]; simp
    exact this L mask
  rw [pnNext, this]
  obtain ⟨n, rfl⟩ : ∃ n, L = n + 1 := ⟨L - 1, by omega⟩
  simp [List.replicate_succ]

/-- injectivity of the numeric value on bit lists of equal length -/
theorem bitarray2dec_inj {a b : List Nat} (hl : a.length = b.length) (ha : ∀ x ∈ a, x < 2) (hb : ∀ x ∈ b, x < 2)
    (h : bitarray2dec a = bitarray2dec b) : a = b := by
  rw [← toBits_bitarray2dec ha, ← toBits_bitarray2dec hb, hl, h]

theorem bitarray2dec_replicate_zero (L : Nat) : bitarray2dec (List.replicate L 0) = 0 := by
  rw [bitarray2dec_eq_sum, List.sum_eq_zero_iff]
  intro x hx
  obtain ⟨i, _, rfl⟩ := List.mem_map.1 hx
  rw [List.getD_eq_getElem?_getD, List.getElem?_replicate]
  split <;> simp

theorem pnState_period {mask seed : List Nat} (h : seed ≠ []) (hm : mask.length = seed.length)
    (hbits : ∀ x ∈ seed, x < 2) (hlast : mask.getD (mask.length - 1) 0 = 1) :
    ∃ p, 1 ≤ p ∧ p ≤ 2 ^ seed.length - 1 ∧ pnState mask seed p = seed := by
  have hpos := List.length_pos_iff.2 h
  have h2 : 2 ≤ 2 ^ seed.length := by
    calc 2 = 2 ^ 1 := rfl
      _ ≤ 2 ^ seed.length := Nat.pow_le_pow_right (by omega) hpos
  by_cases hz : seed = List.replicate seed.length 0
  · refine ⟨1, le_rfl, by omega, ?_⟩
    rw [pnState_succ]
    show pnNext mask seed = seed
    conv_rhs => rw [hz]
    conv_lhs => rw [hz]
    exact pnNext_zero mask _ hpos
  · -- injectivity cancels steps
    have hcancel : ∀ i j, i ≤ j → pnState mask seed i = pnState mask seed j → pnState mask seed (j - i) = seed := by
      intro i
      induction i with
      | zero => intro j _ he; exact he.symm
      | succ i ih =>
        intro j hij he
        obtain ⟨j, rfl⟩ : ∃ j', j = j' + 1 := ⟨j - 1, by omega⟩
        rw [pnState_succ, pnState_succ] at he
        have hl1 := pnState_length mask h i
        have hl2 := pnState_length mask h j
        have hne : pnState mask seed i ≠ [] := by
          intro hc; rw [hc] at hl1; exact h (List.length_eq_zero_iff.1 hl1.symm)
        have := pnNext_inj hne (by omega) (by omega) (pnState_bits hbits i) (pnState_bits hbits j) hlast he
        rw [show j + 1 - (i + 1) = j - i by omega]
        exact ih j (by omega) this
    have hnz : ∀ i, pnState mask seed i ≠ List.replicate seed.length 0 := by
      intro i
      induction i with
      | zero => exact hz
      | succ i ih =>
        intro hc
        apply ih
        have hl1 := pnState_length mask h i
        have hne : pnState mask seed i ≠ [] := by
          intro hc; rw [hc] at hl1; exact h (List.length_eq_zero_iff.1 hl1.symm)
        rw [pnState_succ, ← pnNext_zero mask _ hpos] at hc
        exact pnNext_inj hne (by simp [hl1]) (by omega) (pnState_bits hbits i) (by simp) hlast hc
    have hval : ∀ i, bitarray2dec (pnState mask seed i) ∈ Finset.Ico 1 (2 ^ seed.length) := by
      intro i
      have hb := pnState_bits (mask := mask) hbits i
      have h3 := bitarray2dec_lt hb
      rw [pnState_length mask h i] at h3
      refine Finset.mem_Ico.2 ⟨?_, h3⟩
      rcases Nat.eq_zero_or_pos (bitarray2dec (pnState mask seed i)) with h4 | h4
      · exfalso
        apply hnz i
        apply bitarray2dec_inj (by simp [pnState_length mask h i]) hb (by simp)
        rw [h4, bitarray2dec_replicate_zero]
      · exact h4
    obtain ⟨i, hi, j, hj, hij, he⟩ := Finset.exists_ne_map_eq_of_card_lt_of_maps_to
      (s := Finset.range (2 ^ seed.length)) (t := Finset.Ico 1 (2 ^ seed.length))
      (f := fun i => bitarray2dec (pnState mask seed i)) (by simp) (fun i _ => hval i)
    have he' : pnState mask seed i = pnState mask seed j :=
      bitarray2dec_inj (by rw [pnState_length mask h, pnState_length mask h]) (pnState_bits hbits i) (pnState_bits hbits j) he
    have hi' := Finset.mem_range.1 hi
    have hj' := Finset.mem_range.1 hj
    rcases Nat.lt_or_ge i j with hlt | hge
    · exact ⟨j - i, by omega, by omega, hcancel i j (by omega) he'⟩
    · exact ⟨i - j, by omega, by omega, hcancel j i hge he'.symm⟩

theorem pnOut_period {mask seed : List Nat} (p : Nat) (h : pnState mask seed p = seed) (i : Nat) :
    pnOut mask seed (i + p) = pnOut mask seed i := by
  unfold pnOut pnState
  rw [Function.iterate_add_apply]
  unfold pnState at h
  rw [h]

theorem and_xor_bit (a b m : Nat) (ha : a < 2) (hb : b < 2) :
    ((a ^^^ b) &&& m) % 2 = ((a &&& m) + (b &&& m)) % 2 := by
  have h : ∀ x m, x < 2 → x &&& m = x * (m % 2) := by
    intro x m hx
    rcases Nat.lt_or_ge x 1 with h | h
    · have : x = 0 := by omega
      simp [this]
    · have : x = 1 := by omega
      rw [this, Nat.and_comm, Nat.and_one_is_mod]; omega
  have hx : a ^^^ b < 2 := Nat.xor_lt_two_pow (n := 1) ha hb
  rw [h _ _ hx, h _ _ ha, h _ _ hb]
  have : m % 2 < 2 := Nat.mod_lt _ (by omega)
  have h1 : a = 0 ∨ a = 1 := by omega
  have h2 : b = 0 ∨ b = 1 := by omega
  rcases h1 with rfl | rfl <;> rcases h2 with rfl | rfl <;> simp <;> omega

theorem mod_xor (a b : Nat) : (a % 2) ^^^ (b % 2) = (a + b) % 2 := by
  have h1 : a % 2 = 0 ∨ a % 2 = 1 := by omega
  have h2 : b % 2 = 0 ∨ b % 2 = 1 := by omega
  rcases h1 with h1 | h1 <;> rcases h2 with h2 | h2 <;> rw [h1, h2] <;> simp <;> omega

theorem zipWith_and_xor (mask : List Nat) : ∀ (a b : List Nat), a.length = b.length → (∀ x ∈ a, x < 2) → (∀ x ∈ b, x < 2) →
    (List.zipWith (· &&& ·) (List.zipWith (· ^^^ ·) a b) mask).sum % 2 =
      ((List.zipWith (· &&& ·) a mask).sum + (List.zipWith (· &&& ·) b mask).sum) % 2 := by
  induction mask with
  | nil => intro a b _ _ _; simp
  | cons m mask ih =>
    intro a b hl ha hb
    cases a with
    | nil => cases b <;> simp_all
    | cons x a =>
      cases b with
      | nil => simp at hl
      | cons y b =>
        simp only [List.zipWith_cons_cons, List.sum_cons]
        have h1 := ih a b (by simpa using hl) (fun z hz => ha z (by simp [hz])) (fun z hz => hb z (by simp [hz]))
        have h2 := and_xor_bit x y m (ha x (by simp)) (hb y (by simp))
        omega

theorem pnNext_xor (mask a b : List Nat) (hl : a.length = b.length) (ha : ∀ x ∈ a, x < 2) (hb : ∀ x ∈ b, x < 2) :
    pnNext mask (List.zipWith (· ^^^ ·) a b) = List.zipWith (· ^^^ ·) (pnNext mask a) (pnNext mask b) := by
  simp only [pnNext, List.zipWith_cons_cons, mod_xor]
  rw [zipWith_and_xor mask a b hl ha hb, List.cons.injEq]
  refine ⟨rfl, ?_⟩
  simp [hl, List.dropLast_eq_take, List.take_zipWith]

theorem pnState_xor (mask a b : List Nat) (hne : a ≠ []) (hl : a.length = b.length) (ha : ∀ x ∈ a, x < 2)
    (hb : ∀ x ∈ b, x < 2) (i : Nat) :
    pnState mask (List.zipWith (· ^^^ ·) a b) i = List.zipWith (· ^^^ ·) (pnState mask a i) (pnState mask b i) := by
  have hne' : b ≠ [] := by intro hc; rw [hc] at hl; exact hne (List.length_eq_zero_iff.1 hl)
  induction i with
  | zero => rfl
  | succ i ih =>
    rw [pnState_succ, ih, pnNext_xor, pnState_succ, pnState_succ]
    · rw [pnState_length mask hne, pnState_length mask hne', hl]
    · exact pnState_bits ha i
    · exact pnState_bits hb i

end Verif
