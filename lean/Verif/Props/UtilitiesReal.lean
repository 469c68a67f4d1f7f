import Verif.Model.Utilities
import Verif.Lemmas.UtilitiesReal
import Mathlib.Tactic.Positivity
import Mathlib.Tactic.Ring
import Mathlib.Tactic.FieldSimp
import Mathlib.Tactic.Linarith
import Mathlib.Algebra.BigOperators.Group.List.Basic
import Mathlib.Algebra.Order.BigOperators.Group.List
/-
Property theorems for commpy/utilities.py (real / complex part): C07–C09.
-/
namespace Verif

/-- Σ (aᵢ - bᵢ)² (specification). -/
def sqDist : List ℝ → List ℝ → ℝ
  | x :: a, y :: b => (x - y) ^ 2 + sqDist a b
  | _, _ => 0

theorem euclidDist_eq (a b : List ℝ) (h : a.length = b.length) : euclidDist a b = .ok (sqDist a b) := by
  unfold euclidDist broadcast2
  rw [if_pos h]
  show Except.ok _ = _
  congr 1
  induction a generalizing b with
  | nil => cases b <;> simp [sqDist]
  | cons x a ih =>
    cases b with
    | nil => simp at h
    | cons y b =>
      simp only [List.zipWith_cons_cons, List.sum_cons, sqDist, ih b (by simpa using h)]
      ring

theorem sqDist_nonneg (a b : List ℝ) : 0 ≤ sqDist a b := by
  induction a generalizing b with
  | nil => simp [sqDist]
  | cons x a ih =>
    cases b with
    | nil => simp [sqDist]
    | cons y b => have := ih b; simp only [sqDist]; positivity

/-- C07. `euclid_dist` on real arrays of equal length: sum of squared differences, symmetric, non-negative, zero
exactly on equal arrays, translation invariant. -/
theorem C07_euclid (a b : List ℝ) (h : a.length = b.length) (c : ℝ) :
    euclidDist a b = .ok (sqDist a b) ∧ euclidDist a b = euclidDist b a ∧ 0 ≤ sqDist a b ∧
    (sqDist a b = 0 ↔ a = b) ∧ euclidDist (a.map (· + c)) (b.map (· + c)) = euclidDist a b := by
  refine ⟨euclidDist_eq a b h, ?_, sqDist_nonneg a b, ?_, ?_⟩
  · rw [euclidDist_eq a b h, euclidDist_eq b a h.symm]
    congr 1
    induction a generalizing b with
    | nil => cases b <;> simp [sqDist]
    | cons x a ih =>
      cases b with
      | nil => simp at h
      | cons y b => simp only [sqDist, ih b (by simpa using h)]; ring
  · induction a generalizing b with
    | nil => cases b <;> simp_all [sqDist]
    | cons x a ih =>
      cases b with
      | nil => simp at h
      | cons y b =>
        simp only [sqDist, List.cons.injEq, ← ih b (by simpa using h)]
        have := sqDist_nonneg a b
        constructor
        · intro e
          have h1 : (x - y) ^ 2 = 0 := by nlinarith [sq_nonneg (x - y)]
          exact ⟨by have := pow_eq_zero_iff (two_ne_zero) |>.1 h1; linarith, by nlinarith⟩
        · rintro ⟨rfl, e⟩; simp [e]
  · rw [euclidDist_eq a b h, euclidDist_eq _ _ (by simpa using h)]
    congr 1
    induction a generalizing b with
    | nil => cases b <;> simp [sqDist]
    | cons x a ih =>
      cases b with
      | nil => simp at h
      | cons y b => simp only [List.map_cons, sqDist, ih b (by simpa using h)]; ring

/-- C07, antipodal mapping: on `2b-1` mapped bits the squared Euclidean distance is 4 times the Hamming distance. -/
theorem C07_antipodal (a b : List Nat) (h : a.length = b.length)
    (ha : ∀ x ∈ a, x = 0 ∨ x = 1) (hb : ∀ x ∈ b, x = 0 ∨ x = 1) :
    ∃ d, hammingDist a b = .ok d ∧
      euclidDist (a.map (fun x : Nat => 2 * (x : ℝ) - 1)) (b.map (fun x : Nat => 2 * (x : ℝ) - 1)) = .ok (4 * (d : ℝ)) := by
  refine ⟨(List.zipWith (· ^^^ ·) a b).sum, by simp [hammingDist, h], ?_⟩
  rw [euclidDist_eq _ _ (by simpa using h)]
  congr 1
  induction a generalizing b with
  | nil => cases b <;> simp [sqDist]
  | cons x a ih =>
    cases b with
    | nil => simp at h
    | cons y b =>
      have := ih b (by simpa using h) (fun z hz => ha z (by simp [hz])) (fun z hz => hb z (by simp [hz]))
      simp only [List.map_cons, sqDist, List.zipWith_cons_cons, List.sum_cons, this]
      rcases ha x (by simp) with rfl | rfl <;> rcases hb y (by simp) with rfl | rfl <;> norm_num <;> ring

example : ([1, 2] : List ℝ).length = [3, 2.5].length ∧ sqDist [1, 2] [3, 2.5] = 4.25 := by
  constructor
  · rfl
  · norm_num [sqDist]

/-- C08. `upsample(x, n)`, n ≥ 1, whatever the uninitialised memory contained: n·len(x) samples, sample n·i is x[i],
all others are 0. -/
theorem C08_upsample (junk : Nat → ℂ) (x : List ℂ) (n : Nat) (hn : 1 ≤ n) :
    ∃ y, upsample junk x n = .ok y ∧ y.length = n * x.length ∧
      (∀ i (hi : i < x.length), y[n * i]? = some x[i]) ∧
      (∀ j, j < n * x.length → ¬ n ∣ j → y[j]? = some 0) := by
  obtain ⟨y, h1, h2, h3⟩ := upsample_spec junk x n hn
  refine ⟨y, h1, by rw [h2, Nat.mul_comm], ?_, ?_⟩
  · intro i hi
    rw [h3 _ (by rw [Nat.mul_comm]; exact Nat.mul_lt_mul_of_pos_right hi hn)]
    rw [if_pos (by simp), Nat.mul_div_cancel_left _ hn]
    simp [hi]
  · intro j hj hd
    rw [h3 j (by rw [Nat.mul_comm]; exact hj), if_neg (fun e => hd (Nat.dvd_of_mod_eq_zero e))]

/-- C08, hence decimating by `n` recovers `x`. -/
theorem C08_decimate (junk : Nat → ℂ) (x : List ℂ) (n : Nat) (hn : 1 ≤ n) :
    ∃ y, upsample junk x n = .ok y ∧ (strideIdx y.length 0 n).map (fun i => y.getD i 0) = x := by
  obtain ⟨y, h1, h2, h3, _⟩ := C08_upsample junk x n hn
  refine ⟨y, h1, ?_⟩
  rw [h2, Nat.mul_comm, strideIdx_full _ _ _ hn, List.map_map]
  apply List.ext_getElem (by simp)
  intro i hi1 hi2
  have := h3 i hi2
  simp only [List.getElem_map, List.getElem_range, Function.comp, Nat.zero_add, List.getD_eq_getElem?_getD,
    Nat.mul_comm i n, this, Option.getD_some]

/-- C08, `n = 0` raises ValueError. -/
theorem C08_zero (junk : Nat → ℂ) (x : List ℂ) : upsample junk x 0 = .error .valueError := rfl

example : (1 : Nat) ≤ 3 ∧ ([1, Complex.I] : List ℂ).length = 2 := by simp

theorem signalPower_ok {s : List ℂ} (h : s ≠ []) :
    signalPower s = .ok ((s.map (fun s => ‖s‖ ^ 2)).sum / s.length) := by
  simp [signalPower, h]

theorem sum_sq_nonneg (s : List ℂ) : 0 ≤ (s.map (fun s => ‖s‖ ^ 2)).sum := by
  induction s with
  | nil => simp
  | cons x s ih => simp only [List.map_cons, List.sum_cons]; positivity

theorem sum_sq_eq_zero (s : List ℂ) : (s.map (fun s => ‖s‖ ^ 2)).sum = 0 ↔ ∀ x ∈ s, x = 0 := by
  induction s with
  | nil => simp
  | cons x s ih =>
    have h1 := sum_sq_nonneg s
    have h2 : 0 ≤ ‖x‖ ^ 2 := by positivity
    simp only [List.map_cons, List.sum_cons, List.mem_cons, forall_eq_or_imp, ← ih]
    constructor
    · intro h
      have : ‖x‖ ^ 2 = 0 := by linarith
      exact ⟨by simpa using this, by linarith⟩
    · rintro ⟨rfl, h⟩; simp [h]

/-- C09. `signal_power` of a non-empty signal: mean squared magnitude, non-negative, zero exactly for the zero signal,
scales by |c|², invariant under permutations; an empty signal raises ValueError. -/
theorem C09_power (s : List ℂ) (hs : s ≠ []) (c : ℂ) :
    ∃ P, signalPower s = .ok P ∧ P * s.length = (s.map (fun z => z.re ^ 2 + z.im ^ 2)).sum ∧ 0 ≤ P ∧
      (P = 0 ↔ ∀ x ∈ s, x = 0) ∧ signalPower (s.map (c * ·)) = .ok (‖c‖ ^ 2 * P) ∧
      (∀ s', s.Perm s' → signalPower s' = .ok P) ∧ signalPower [] = .error .valueError := by
  have hl : (0 : ℝ) < s.length := by
    have := List.length_pos_iff.2 hs
    exact_mod_cast this
  refine ⟨_, signalPower_ok hs, ?_, ?_, ?_, ?_, ?_, by simp [signalPower]⟩
  · rw [div_mul_cancel₀ _ hl.ne']
    congr 1
    apply List.map_congr_left
    intro z _
    rw [Complex.sq_norm, Complex.normSq_apply]; ring
  · exact div_nonneg (sum_sq_nonneg s) hl.le
  · rw [div_eq_zero_iff, or_iff_left hl.ne', sum_sq_eq_zero]
  · rw [signalPower_ok (by simpa using hs)]
    congr 1
    have : ((s.map (c * ·)).map (fun s => ‖s‖ ^ 2)).sum = ‖c‖ ^ 2 * (s.map (fun s => ‖s‖ ^ 2)).sum := by
      rw [List.map_map, ← List.sum_map_mul_left]
      congr 1
      apply List.map_congr_left
      intro z _
      simp [mul_pow]
    rw [this, List.length_map, mul_div_assoc]
  · intro s' hp
    have hs' : s' ≠ [] := fun e => hs (by rw [e] at hp; exact hp.eq_nil)
    rw [signalPower_ok hs', (hp.map _).sum_eq, hp.length_eq]

theorem sum_eq_range_sum (y : List ℂ) (f : ℂ → ℝ) :
    (y.map f).sum = ∑ i ∈ Finset.range y.length, f (y.getD i 0) := by
  induction y using List.reverseRecOn with
  | nil => simp
  | append_singleton l a ih =>
    rw [List.map_append, List.sum_append, ih, List.length_append, List.length_singleton, Finset.sum_range_succ]
    congr 1
    · apply Finset.sum_congr rfl
      intro i hi
      have := Finset.mem_range.1 hi
      simp [List.getD_eq_getElem?_getD, List.getElem?_append_left this]
    · simp

theorem sum_range_mul_block (f : Nat → ℝ) (L n : Nat) (hn : 1 ≤ n) (h0 : ∀ j, ¬ n ∣ j → f j = 0) :
    ∑ i ∈ Finset.range (n * L), f i = ∑ i ∈ Finset.range L, f (n * i) := by
  induction L with
  | zero => simp
  | succ L ih =>
    rw [Nat.mul_succ, Finset.sum_range_add, ih, Finset.sum_range_succ]
    congr 1
    rw [Finset.sum_eq_single_of_mem 0 (by simp; omega)]
    · simp
    · intro j hj hj0
      apply h0
      intro hd
      have h1 : n ∣ j := (Nat.dvd_add_right (Dvd.intro L rfl)).1 hd
      have := Nat.le_of_dvd (by omega) h1
      have := Finset.mem_range.1 hj
      omega

/-- C09, upsampling by `n` divides the power by `n`. -/
theorem C09_upsample (junk : Nat → ℂ) (x : List ℂ) (n : Nat) (hn : 1 ≤ n) (hx : x ≠ []) :
    ∃ P y, signalPower x = .ok P ∧ upsample junk x n = .ok y ∧ signalPower y = .ok (P / n) := by
  obtain ⟨y, h1, h2, h3, h4⟩ := C08_upsample junk x n hn
  have hy : y ≠ [] := by
    have := List.length_pos_iff.2 hx
    rw [← List.length_pos_iff, h2]
    positivity
  refine ⟨_, y, signalPower_ok hx, h1, ?_⟩
  rw [signalPower_ok hy, sum_eq_range_sum, sum_eq_range_sum, h2]
  congr 1
  rw [Finset.sum_congr rfl (g := fun i => (if n ∣ i then ‖y.getD i 0‖ ^ 2 else 0)),
    sum_range_mul_block _ _ _ hn]
  · have : ∀ i ∈ Finset.range x.length, (if n ∣ n * i then ‖y.getD (n * i) 0‖ ^ 2 else 0) = ‖x.getD i 0‖ ^ 2 := by
      intro i hi
      have hi' := Finset.mem_range.1 hi
      rw [if_pos (Dvd.intro i rfl)]
      simp [List.getD_eq_getElem?_getD, h3 i hi', hi']
    rw [Finset.sum_congr rfl this]
    push_cast
    rw [div_div, mul_comm (n : ℝ)]
  · intro j hj; simp [hj]
  · intro j hj
    have hj' := Finset.mem_range.1 hj
    by_cases hd : n ∣ j
    · simp [hd]
    · simp [hd, List.getD_eq_getElem?_getD, h4 j hj' hd]

example : ([1, Complex.I] : List ℂ) ≠ [] := by simp

end Verif
