import Verif.Lemmas.Utilities
import Verif.Lemmas.Cache
import Mathlib.Tactic.IntervalCases
/-
Property theorems for commpy/utilities.py (integer part): C01–C06.
-/
namespace Verif

/-- C01. `dec2bitarray(n, w)` for `n < 2^w`: `w` bits, most significant first, converted back by `bitarray2dec`. -/
theorem C01_dec_bits_dec (w n : Nat) (h : n < 2 ^ w) :
    ∃ b, dec2bitarray n w = .ok b ∧ b.length = w ∧
      (∀ j, j < w → b[j]? = some (n / 2 ^ (w - 1 - j) % 2)) ∧ bitarray2dec b = n := by
  refine ⟨toBits w n, dec2bitarray_ok h, toBits_length w n, ?_, bitarray2dec_toBits h⟩
  intro j hj
  simp [toBits, hj]

example : (5 : Nat) < 2 ^ 8 ∧ dec2bitarray 5 8 = .ok [0, 0, 0, 0, 0, 1, 0, 1] := by decide

/-- C02. Bits → integer → bits is the identity, and the integer is the positional value. -/
theorem C02_bits_dec_bits (b : List Nat) (h : ∀ x ∈ b, x = 0 ∨ x = 1) :
    bitarray2dec b < 2 ^ b.length ∧ dec2bitarray (bitarray2dec b) b.length = .ok b ∧
      bitarray2dec b = ∑ i ∈ Finset.range b.length, b.getD i 0 * 2 ^ (b.length - 1 - i) := by
  have h' : ∀ x ∈ b, x < 2 := fun x hx => by rcases h x hx with e | e <;> omega
  refine ⟨bitarray2dec_lt h', ?_, ?_⟩
  · rw [dec2bitarray_ok (bitarray2dec_lt h'), toBits_bitarray2dec h']
  · rw [bitarray2dec_eq_sum]; rfl

example : ∀ x ∈ [1, 0, 1, 1], x = 0 ∨ x = 1 := by decide

/-- C03. Exact behaviour for all numbers: IndexError iff `n ≥ 2^(2w)`; otherwise position `j` holds the OR of bit
`w-1-j` and bit `2w-1-j` of `n` – numbers that do not fit in `w` bits are silently folded. -/
theorem C03_overflow (w n : Nat) :
    (2 ^ (2 * w) ≤ n ↔ dec2bitarray n w = .error .indexError) ∧
    (n < 2 ^ (2 * w) → ∃ b, dec2bitarray n w = .ok b ∧ b.length = w ∧
      ∀ j, j < w → b[j]? = some (if n.testBit (w - 1 - j) ∨ n.testBit (2 * w - 1 - j) then 1 else 0)) := by
  unfold dec2bitarray
  rw [decimal2bitarray_eq]
  constructor
  · by_cases h : n < 2 ^ (2 * w)
    · simp [h]
    · simp [h]; omega
  · intro h
    refine ⟨foldBits w n, by simp [h], by simp, ?_⟩
    intro j hj
    have e : w + (w - 1 - j) = 2 * w - 1 - j := by omega
    simp only [foldBits, List.getElem?_map, List.getElem?_range hj, Option.map_some, e]
    cases n.testBit (w - 1 - j) <;> cases n.testBit (2 * w - 1 - j) <;> rfl

/-- The folding is real: 133 "converted" to 7 bits gives the bits of 5. -/
example : dec2bitarray 133 7 = .ok [0, 0, 0, 0, 1, 0, 1] ∧ bitarray2dec [0, 0, 0, 0, 1, 0, 1] = 5 := by decide

/-- C04. Array input: concatenation of the element conversions, raising the first exception raised by an element. -/
theorem C04_array (ns : List Nat) (w : Nat) :
    dec2bitarrayArr ns w = (ns.mapM (fun n => dec2bitarray n w)).map List.flatten :=
  dec2bitarrayArr_eq ns w

example : dec2bitarrayArr [17, 12] 5 = .ok [1, 0, 0, 0, 1, 0, 1, 1, 0, 0] := by decide

/-- The result a fresh, cache-free `dec2bitarray` gives for one operation. -/
def pureOutput : CacheOp → Option (Py (List Nat))
  | .dec n w => some (dec2bitarray n w)
  | .decArr ns w => some (dec2bitarrayArr ns w)
  | .direct n w => some (decimal2bitarray n w)
  | .mutate _ _ _ => none

/-- Histories that do not call the memoised `decimal2bitarray` directly. -/
def noDirect : CacheOp → Prop
  | .direct _ _ => False
  | _ => True

/-- C05. For every cache size and every history of `dec2bitarray` calls and in-place mutations of returned arrays,
every call returns what the cache-free function returns. -/
theorem C05_cache_transparent (maxsize : Nat) (ops : List CacheOp) (h : ∀ op ∈ ops, noDirect op) :
    cacheRun maxsize CacheSt.init ops = ops.map pureOutput := by
  refine cacheRun_eq maxsize pureOutput noDirect (fun _ _ => rfl) (fun _ _ => rfl) (fun _ _ _ => rfl)
    (fun op hop => ?_) ops CacheSt.init CacheInv_init h
  cases op <;> simp_all [noDirect]

/-- C05, the caveat is real: after mutating an array obtained from `decimal2bitarray` itself, even
`dec2bitarray` returns wrong bits. -/
theorem C05_direct_refuted :
    ∃ ops, cacheRun 128 CacheSt.init ops ≠ ops.map pureOutput :=
  ⟨[.direct 1 2, .mutate 0 0 7, .dec 1 2], by decide⟩

example : ∀ op ∈ [CacheOp.dec 1 2, .mutate 0 0 7, .dec 1 2, .decArr [1, 2, 3] 2], noDirect op := by
  simp [noDirect]

/-- Number of positions where two lists differ (specification). -/
def diffCount : List Nat → List Nat → Nat
  | x :: a, y :: b => (if x = y then 0 else 1) + diffCount a b
  | _, _ => 0

theorem hammingDist_eq_diffCount (a b : List Nat) (hl : a.length = b.length)
    (ha : ∀ x ∈ a, x = 0 ∨ x = 1) (hb : ∀ x ∈ b, x = 0 ∨ x = 1) :
    hammingDist a b = .ok (diffCount a b) := by
  unfold hammingDist
  rw [if_pos hl]
  congr 1
  induction a generalizing b with
  | nil => cases b <;> simp [diffCount]
  | cons x a ih =>
    cases b with
    | nil => simp at hl
    | cons y b =>
      have := ih b (by simpa using hl) (fun z hz => ha z (by simp [hz])) (fun z hz => hb z (by simp [hz]))
      simp only [List.zipWith_cons_cons, List.sum_cons, diffCount, this]
      congr 1
      rcases ha x (by simp) with rfl | rfl <;> rcases hb y (by simp) with rfl | rfl <;> rfl

/-- C06. On bit arrays of equal length `hamming_dist` counts differing positions and is a metric. -/
theorem C06_hamming (a b c : List Nat) (hab : a.length = b.length) (hbc : b.length = c.length)
    (ha : ∀ x ∈ a, x = 0 ∨ x = 1) (hb : ∀ x ∈ b, x = 0 ∨ x = 1) (_hc : ∀ x ∈ c, x = 0 ∨ x = 1) :
    hammingDist a b = .ok (diffCount a b) ∧ hammingDist a b = hammingDist b a ∧
    diffCount a b ≤ a.length ∧ (diffCount a b = 0 ↔ a = b) ∧
    diffCount a c ≤ diffCount a b + diffCount b c := by
  refine ⟨hammingDist_eq_diffCount a b hab ha hb, ?_, ?_, ?_, ?_⟩
  · rw [hammingDist_eq_diffCount a b hab ha hb, hammingDist_eq_diffCount b a hab.symm hb ha]
    congr 1
    clear hbc ha hb _hc
    induction a generalizing b with
    | nil => cases b <;> simp [diffCount]
    | cons x a ih =>
      cases b with
      | nil => simp at hab
      | cons y b => simp only [diffCount, ih b (by simpa using hab), eq_comm]
  · clear hbc ha hb _hc
    induction a generalizing b with
    | nil => simp [diffCount]
    | cons x a ih =>
      cases b with
      | nil => simp [diffCount]
      | cons y b =>
        have := ih b (by simpa using hab)
        simp only [diffCount, List.length_cons]
        split <;> omega
  · clear hbc ha hb _hc
    induction a generalizing b with
    | nil => cases b <;> simp_all [diffCount]
    | cons x a ih =>
      cases b with
      | nil => simp at hab
      | cons y b =>
        have := ih b (by simpa using hab)
        simp only [diffCount, List.cons.injEq, ← this]
        split <;> simp_all
  · clear ha hb _hc
    induction a generalizing b c with
    | nil => simp [diffCount]
    | cons x a ih =>
      cases b with
      | nil => simp at hab
      | cons y b =>
        cases c with
        | nil => simp at hbc
        | cons z c =>
          have := ih b c (by simpa using hab) (by simpa using hbc)
          simp only [diffCount]
          split <;> split <;> split <;> omega

example : hammingDist [1, 0, 1] [1, 1, 0] = .ok 2 := by decide

end Verif
