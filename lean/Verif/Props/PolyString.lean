import Verif.Lemmas.GFPoly
/-
Property theorems for `poly_to_string` (C30).
-/
namespace Verif

/-- Exponents of the set bits, increasing. -/
def setBits (x : Nat) : List Nat := (List.range x).filter (fun i => x.testBit i)

/-- `x^i`, as text. -/
def monomial (i : Nat) : String := "x^" ++ toString i

/-- bits of `x` shifted by `i`, in increasing order -/
def bitsFrom : Nat → Nat → Nat → List Nat
  | 0, _, _ => []
  | f + 1, x, i => (if x % 2 = 1 then [i] else []) ++ bitsFrom f (x / 2) (i + 1)

theorem bitsFrom_eq : ∀ f x i, bitsFrom f x i = ((List.range f).filter (fun k => x.testBit k)).map (· + i) := by
  intro f
  induction f with
  | zero => intro x i; rfl
  | succ f ih =>
    intro x i
    rw [bitsFrom, ih, List.range_succ_eq_map, List.filter_cons, List.filter_map]
    have h1 : ((fun k => x.testBit k) ∘ Nat.succ) = fun k => (x / 2).testBit k := by
      funext k; simp [Nat.testBit_succ]
    rw [h1]
    have h0 : x.testBit 0 = decide (x % 2 = 1) := Nat.testBit_zero x
    by_cases h : x % 2 = 1
    · rw [h0]; simp [h]; intro k _ _; omega
    · rw [h0]; simp [h]; intro k _ _; omega

theorem setBits_eq_bitsFrom (x f : Nat) (hf : x ≤ f) : bitsFrom f x 0 = setBits x := by
  rw [bitsFrom_eq, setBits]
  simp only [Nat.add_zero, List.map_id']
  obtain ⟨d, rfl⟩ : ∃ d, f = x + d := ⟨f - x, by omega⟩
  rw [List.range_add, List.filter_append]
  conv_rhs => rw [← List.append_nil (List.filter _ _)]
  congr 1
  rw [List.filter_eq_nil_iff]
  intro k hk hb
  obtain ⟨j, _, rfl⟩ := List.mem_map.1 hk
  have := testBit_lt_self hb
  omega

/-- Text accumulated by the loop. -/
def polyText (l : List Nat) : List Char := l.flatMap (fun i => (monomial i).toList ++ [' ', '+', ' '])

theorem polyToStringLoop_spec : ∀ f x i s, x ≤ f →
    ∃ r, polyToStringLoop (f + 1) x i s = .ok r ∧ r.toList = s.toList ++ polyText (bitsFrom f x i) := by
  intro f
  induction f with
  | zero =>
    intro x i s hx
    have : x = 0 := by omega
    subst this
    exact ⟨s, by simp [polyToStringLoop], by simp [bitsFrom, polyText]⟩
  | succ f ih =>
    intro x i s hx
    rw [polyToStringLoop]
    by_cases h0 : x = 0
    · subst h0
      refine ⟨s, by simp, ?_⟩
      have : ∀ f i, polyText (bitsFrom f 0 i) = [] := by
        intro f
        induction f with
        | zero => intro i; rfl
        | succ f ih => intro i; rw [bitsFrom]; simpa using ih (i + 1)
      rw [this, List.append_nil]
    · rw [if_pos h0, Nat.shiftRight_eq_div_pow, Nat.pow_one]
      obtain ⟨r, h1, h2⟩ := ih (x / 2) (i + 1) (if x % 2 = 1 then s ++ "x^" ++ toString i ++ " + " else s) (by omega)
      refine ⟨r, h1, ?_⟩
      rw [h2, bitsFrom]
      by_cases hx2 : x % 2 = 1
      · simp [hx2, polyText, monomial]
      · simp [hx2]

theorem polyToString_toList (x : Nat) :
    ∃ s, polyToString x = .ok s ∧ s.toList = (polyText (setBits x)).take ((polyText (setBits x)).length - 2) := by
  obtain ⟨r, h1, h2⟩ := polyToStringLoop_spec x x 0 "" le_rfl
  rw [setBits_eq_bitsFrom x x le_rfl] at h2
  simp only [String.toList_empty, List.nil_append] at h2
  refine ⟨String.ofList (r.toList.take (r.length - 2)), by simp only [polyToString, h1, bind, Except.bind, pure, Except.pure], ?_⟩
  rw [String.toList_ofList, h2, ← String.length_toList, h2]

theorem polyText_intercalate (a : Nat) (l : List Nat) :
    polyText (a :: l) = (String.intercalate " + " ((a :: l).map monomial)).toList ++ [' ', '+', ' '] := by
  induction l generalizing a with
  | nil => simp [polyText]
  | cons b l ih =>
    have hc : polyText (a :: b :: l) = ((monomial a).toList ++ [' ', '+', ' ']) ++ polyText (b :: l) := by
      simp [polyText]
    rw [hc, ih, List.map_cons, List.map_cons, List.map_cons, String.intercalate_cons_cons]
    simp [monomial]

/-- C30. The string is the monomials x^i of the set bits in increasing order, separated by " + ", followed (for a
non-zero argument) by one space. -/
theorem C30_poly_to_string (x : Nat) :
    polyToString x = .ok (if x = 0 then "" else String.intercalate " + " ((setBits x).map monomial) ++ " ") := by
  obtain ⟨s, h1, h2⟩ := polyToString_toList x
  rw [h1]
  congr 1
  by_cases h0 : x = 0
  · subst h0
    rw [if_pos rfl]
    apply String.toList_inj.1
    rw [h2]; rfl
  · rw [if_neg h0]
    have hne : setBits x ≠ [] := by
      apply List.ne_nil_of_mem (a := Nat.log2 x)
      rw [setBits, List.mem_filter, List.mem_range]
      have := Nat.testBit_log2 h0
      exact ⟨testBit_lt_self this, this⟩
    obtain ⟨a, l, hal⟩ := List.exists_cons_of_ne_nil hne
    apply String.toList_inj.1
    rw [h2, hal, polyText_intercalate, String.toList_append]
    rw [List.length_append]
    simp only [List.length_cons, List.length_nil]
    rw [show (String.intercalate " + " (List.map monomial (a :: l))).toList.length + (0 + 1 + 1 + 1) - 2 =
      (String.intercalate " + " (List.map monomial (a :: l))).toList.length + 1 by omega]
    rw [List.take_length_add_append]; rfl

theorem polyText_inj : ∀ l l' : List Nat, polyText l = polyText l' → l = l' := by
  intro l
  induction l with
  | nil =>
    intro l' h
    cases l' with
    | nil => rfl
    | cons b l' => simp [polyText, monomial] at h
  | cons a l ih =>
    intro l' h
    cases l' with
    | nil => simp [polyText, monomial] at h
    | cons b l' =>
      simp only [polyText, List.flatMap_cons, monomial, String.toList_append, List.append_assoc] at h
      have h2 := List.append_cancel_left h
      have hd : ∀ n : Nat, (toString n).toList = Nat.toDigits 10 n := fun n => by
        rw [Nat.toString_eq_repr, Nat.toList_repr]
      rw [hd, hd] at h2
      have hns : ∀ n c, c ∈ Nat.toDigits 10 n → (fun c : Char => decide (c ≠ ' ')) c = true := by
        intro n c hc
        have := Nat.isDigit_of_mem_toDigits (by decide) (by decide) hc
        simp only [decide_eq_true_eq]
        rintro rfl
        revert this; decide
      have h3 := congrArg (List.takeWhile (fun c : Char => decide (c ≠ ' '))) h2
      rw [List.takeWhile_append_of_pos (hns a), List.takeWhile_append_of_pos (hns b)] at h3
      simp only [List.cons_append, List.takeWhile_cons, ne_eq, not_true_eq_false, decide_false, Bool.false_eq_true, if_false,
        List.append_nil] at h3
      have hab : a = b := by
        have := congrArg (fun l => Nat.ofDigitChars 10 l 0) h3
        simpa [Nat.ofDigitChars_ten_toDigits] using this
      subst hab
      have h4 := List.append_cancel_left h2
      have h5 := List.append_cancel_left h4
      rw [ih l' (by simpa only [polyText, monomial, String.toList_append, List.append_assoc] using h5)]

/-- C30. Distinct integers give distinct strings. -/
theorem C30_injective (x y : Nat) (h : polyToString x = polyToString y) : x = y := by
  have htext : ∀ z, ∃ s, polyToString z = .ok s ∧ (s = "" ↔ z = 0) ∧ (z ≠ 0 → s.toList ++ ['+', ' '] = polyText (setBits z)) := by
    intro z
    refine ⟨_, C30_poly_to_string z, ?_, ?_⟩
    · by_cases h0 : z = 0
      · simp [h0]
      · rw [if_neg h0]
        constructor
        · intro h; have := congrArg String.toList h; simp at this
        · intro h; exact absurd h h0
    · intro h0
      have hne : setBits z ≠ [] := by
        apply List.ne_nil_of_mem (a := Nat.log2 z)
        rw [setBits, List.mem_filter, List.mem_range]
        have := Nat.testBit_log2 h0
        exact ⟨testBit_lt_self this, this⟩
      obtain ⟨a, l, hal⟩ := List.exists_cons_of_ne_nil hne
      rw [if_neg h0, hal, polyText_intercalate]
      simp
  obtain ⟨s, h1, h2, h3⟩ := htext x
  obtain ⟨t, h4, h5, h6⟩ := htext y
  rw [h1, h4] at h
  cases h
  by_cases hx : x = 0
  · rw [hx, h5.1 (h2.2 hx)]
  · have hy : y ≠ 0 := fun hy => hx (h2.1 (h5.2 hy))
    have hb := polyText_inj _ _ ((h3 hx).symm.trans (h6 hy))
    apply Nat.eq_of_testBit_eq
    intro i
    have hm : ∀ z, z.testBit i = true ↔ i ∈ setBits z := by
      intro z
      rw [setBits, List.mem_filter, List.mem_range]
      exact ⟨fun h => ⟨testBit_lt_self h, h⟩, fun h => h.2⟩
    rw [Bool.eq_iff_iff, hm, hm, hb]

example : polyToString 37 = .ok "x^0 + x^2 + x^5 " := by rw [C30_poly_to_string]; decide +kernel

end Verif
