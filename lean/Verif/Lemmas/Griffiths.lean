import Mathlib.Algebra.BigOperators.Group.Finset.Basic
import Mathlib.Algebra.BigOperators.Ring.Finset
import Mathlib.Algebra.Order.BigOperators.Group.Finset
import Mathlib.Data.Real.Basic
import Mathlib.Algebra.BigOperators.Group.Finset.Piecewise
import Mathlib.Algebra.Order.BigOperators.Ring.Finset
import Mathlib.Tactic.Linarith
import Mathlib.Tactic.LinearCombination
import Mathlib.Tactic.Positivity
import Mathlib.Tactic.Ring
/-
Correlation inequality (Griffiths): sums of products of factors `A + B χ` with `A, B ≥ 0` and characters `χ` of a finite group.
-/
namespace Verif

/-- A ±1-valued character. -/
def IsSignChar {X : Type} [AddCommGroup X] (χ : X → ℝ) : Prop := (∀ x, χ x = 1 ∨ χ x = -1) ∧ ∀ x y, χ (x + y) = χ x * χ y

variable {X : Type} [AddCommGroup X] [Fintype X]

omit [Fintype X] in
theorem IsSignChar.mul {χ ψ : X → ℝ} (h1 : IsSignChar χ) (h2 : IsSignChar ψ) : IsSignChar (fun x => χ x * ψ x) := by
  refine ⟨fun x => ?_, fun x y => ?_⟩
  · rcases h1.1 x with a | a <;> rcases h2.1 x with b | b <;> simp [a, b]
  · simp only [h1.2, h2.2]; ring

omit [Fintype X] in
theorem IsSignChar.one : IsSignChar (fun _ : X => (1 : ℝ)) := ⟨fun _ => Or.inl rfl, fun _ _ => by ring⟩

omit [Fintype X] in
theorem IsSignChar.sq {χ : X → ℝ} (h : IsSignChar χ) (x : X) : χ x * χ x = 1 := by rcases h.1 x with a | a <;> simp [a]

theorem IsSignChar.sum_nonneg {χ : X → ℝ} (h : IsSignChar χ) : 0 ≤ ∑ x, χ x := by
  by_cases hx : ∃ a, χ a = -1
  · obtain ⟨a, ha⟩ := hx
    have h1 : ∑ x, χ (a + x) = ∑ x, χ x := Fintype.sum_equiv (Equiv.addLeft a) _ _ (fun x => rfl)
    have h2 : ∑ x, χ (a + x) = - ∑ x, χ x := by
      rw [← Finset.sum_neg_distrib]
      refine Finset.sum_congr rfl fun x _ => ?_
      rw [h.2, ha]; ring
    linarith
  · refine Finset.sum_nonneg fun x _ => ?_
    rcases h.1 x with a | a
    · rw [a]; norm_num
    · exact absurd ⟨x, a⟩ hx

theorem griffiths_nonneg {ι : Type} [DecidableEq ι] {A B : ι → ℝ} {χ : ι → X → ℝ} (s : Finset ι) (hA : ∀ k ∈ s, 0 ≤ A k) (hB : ∀ k ∈ s, 0 ≤ B k)
    (hχ : ∀ k ∈ s, IsSignChar (χ k)) : ∀ {ψ : X → ℝ}, IsSignChar ψ → 0 ≤ ∑ x, ψ x * ∏ k ∈ s, (A k + B k * χ k x) := by
  induction s using Finset.induction_on with
  | empty =>
    intro ψ hψ
    simpa using hψ.sum_nonneg
  | insert a s ha ih =>
    intro ψ hψ
    have ih' := @ih (fun k hk => hA k (Finset.mem_insert_of_mem hk)) (fun k hk => hB k (Finset.mem_insert_of_mem hk))
      (fun k hk => hχ k (Finset.mem_insert_of_mem hk))
    have e : ∑ x, ψ x * ∏ k ∈ insert a s, (A k + B k * χ k x) = A a * ∑ x, ψ x * ∏ k ∈ s, (A k + B k * χ k x) +
        B a * ∑ x, (ψ x * χ a x) * ∏ k ∈ s, (A k + B k * χ k x) := by
      rw [Finset.mul_sum, Finset.mul_sum, ← Finset.sum_add_distrib]
      refine Finset.sum_congr rfl fun x _ => ?_
      rw [Finset.prod_insert ha]; ring
    rw [e]
    exact add_nonneg (mul_nonneg (hA a (Finset.mem_insert_self ..)) (ih' hψ))
      (mul_nonneg (hB a (Finset.mem_insert_self ..)) (ih' (hψ.mul (hχ a (Finset.mem_insert_self ..)))))

/-- Strictness when one of the characters is `ψ` itself. -/
theorem griffiths_pos {ι : Type} [DecidableEq ι] {A B : ι → ℝ} {χ : ι → X → ℝ} (s : Finset ι) (hA : ∀ k ∈ s, 0 ≤ A k) (hB : ∀ k ∈ s, 0 ≤ B k)
    (hχ : ∀ k ∈ s, IsSignChar (χ k)) (hpos : ∀ k ∈ s, ∀ x, 0 < A k + B k * χ k x) {a : ι} (ha : a ∈ s) (hb : 0 < B a) :
    0 < ∑ x, χ a x * ∏ k ∈ s, (A k + B k * χ k x) := by
  have hs : s = insert a (s.erase a) := (Finset.insert_erase ha).symm
  have e : ∑ x, χ a x * ∏ k ∈ s, (A k + B k * χ k x) = A a * ∑ x, χ a x * ∏ k ∈ s.erase a, (A k + B k * χ k x) +
      B a * ∑ x, ∏ k ∈ s.erase a, (A k + B k * χ k x) := by
    rw [Finset.mul_sum, Finset.mul_sum, ← Finset.sum_add_distrib]
    refine Finset.sum_congr rfl fun x _ => ?_
    rw [← Finset.mul_prod_erase s _ ha]
    have := (hχ a ha).sq x
    linear_combination (B a * ∏ k ∈ s.erase a, (A k + B k * χ k x)) * this
  rw [e]
  have h1 := griffiths_nonneg (s.erase a) (fun k hk => hA k (Finset.mem_of_mem_erase hk)) (fun k hk => hB k (Finset.mem_of_mem_erase hk))
    (fun k hk => hχ k (Finset.mem_of_mem_erase hk)) (hχ a ha)
  have h2 : 0 < ∑ x : X, ∏ k ∈ s.erase a, (A k + B k * χ k x) :=
    Finset.sum_pos (fun x _ => Finset.prod_pos fun k hk => hpos k (Finset.mem_of_mem_erase hk) x) ⟨0, Finset.mem_univ _⟩
  have := mul_nonneg (hA a ha) h1
  have := mul_pos hb h2
  linarith

end Verif
