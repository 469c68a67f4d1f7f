import Verif.Spec.Turbo
import Mathlib.Algebra.BigOperators.Fin
/-
Sums over all the binary input sequences of a trellis, by recursion; independent of the decoder.
-/
namespace Verif

variable (w : Nat → Nat → Nat → ℝ) (next : Nat → Nat → Nat)

/-- Sum over all continuations of `m` steps from state `s` at time `τ`. -/
noncomputable def bsum : Nat → Nat → Nat → ℝ
  | 0, _, _ => 1
  | m + 1, τ, s => w τ s 0 * bsum m (τ + 1) (next s 0) + w τ s 1 * bsum m (τ + 1) (next s 1)

/-- The same over the continuations whose input at relative time `i` is `b`. -/
noncomputable def gsum (b : Nat) : Nat → Nat → Nat → Nat → ℝ
  | 0, _, _, _ => 0
  | m + 1, 0, τ, s => w τ s b * bsum w next m (τ + 1) (next s b)
  | m + 1, i + 1, τ, s => w τ s 0 * gsum b m i (τ + 1) (next s 0) + w τ s 1 * gsum b m i (τ + 1) (next s 1)

/-- Weight of a path. -/
noncomputable def pathProd {m : Nat} (τ s : Nat) (us : Fin m → Fin 2) : ℝ :=
  ∏ i : Fin m, w (τ + i) ((((List.ofFn us).take i).map Fin.val).foldl next s) (us i)

theorem pathProd_cons {m : Nat} (τ s : Nat) (u : Fin 2) (us : Fin m → Fin 2) :
    pathProd w next τ s (Fin.cons u us : Fin (m + 1) → Fin 2) = w τ s u * pathProd w next (τ + 1) (next s u) us := by
  unfold pathProd
  rw [Fin.prod_univ_succ]
  congr 1
  refine Finset.prod_congr rfl fun i _ => ?_
  rw [Fin.cons_succ, List.ofFn_succ]
  simp only [Fin.cons_zero, Fin.cons_succ, Fin.val_succ, List.take_succ_cons, List.map_cons, List.foldl_cons]
  rw [show τ + ((i : Nat) + 1) = τ + 1 + i by ring]

theorem sum_cons {m : Nat} (F : (Fin (m + 1) → Fin 2) → ℝ) :
    ∑ us, F us = ∑ us : Fin m → Fin 2, F (Fin.cons 0 us) + ∑ us : Fin m → Fin 2, F (Fin.cons 1 us) := by
  rw [← Equiv.sum_comp (Fin.consEquiv (fun _ => Fin 2)) F, Fintype.sum_prod_type, Fin.sum_univ_two]
  rfl

theorem bsum_eq : ∀ (m τ s : Nat), ∑ us : Fin m → Fin 2, pathProd w next τ s us = bsum w next m τ s := by
  intro m
  induction m with
  | zero => intro τ s; simp [pathProd, bsum]
  | succ m ih =>
    intro τ s
    rw [sum_cons]
    simp only [pathProd_cons, ← Finset.mul_sum, ih, bsum]
    simp

theorem gsum_eq (b : Fin 2) : ∀ (m τ s : Nat) (i : Fin m), ∑ us : Fin m → Fin 2 with us i = b, pathProd w next τ s us = gsum w next b m i τ s := by
  intro m
  induction m with
  | zero => intro τ s i; exact i.elim0
  | succ m ih =>
    intro τ s i
    rw [Finset.sum_filter, sum_cons]
    simp only [pathProd_cons]
    refine Fin.cases ?_ (fun i => ?_) i
    · simp only [Fin.cons_zero, Fin.val_zero, gsum]
      have hb : b = 0 ∨ b = 1 := by omega
      rcases hb with rfl | rfl
      · simp [← Finset.mul_sum, bsum_eq]
      · simp [← Finset.mul_sum, bsum_eq]
    · simp only [Fin.cons_succ, Fin.val_succ, gsum]
      have h := fun s => ih (τ + 1) s i
      simp only [Finset.sum_filter] at h
      rw [← h, ← h, Finset.mul_sum, Finset.mul_sum]
      congr 1
      · refine Finset.sum_congr rfl fun us _ => ?_
        split <;> simp
      · refine Finset.sum_congr rfl fun us _ => ?_
        split <;> simp

variable {w next}

theorem bsum_pos (S : Nat) (hw : ∀ τ s, s < S → ∀ u < 2, 0 < w τ s u) (hn : ∀ s < S, ∀ u < 2, next s u < S) :
    ∀ m τ s, s < S → 0 < bsum w next m τ s := by
  intro m
  induction m with
  | zero => intro τ s _; simp [bsum]
  | succ m ih =>
    intro τ s hs
    simp only [bsum]
    have h0 := mul_pos (hw τ s hs 0 (by omega)) (ih (τ + 1) _ (hn s hs 0 (by omega)))
    have h1 := mul_pos (hw τ s hs 1 (by omega)) (ih (τ + 1) _ (hn s hs 1 (by omega)))
    linarith

theorem gsum_pos (S : Nat) (hw : ∀ τ s, s < S → ∀ u < 2, 0 < w τ s u) (hn : ∀ s < S, ∀ u < 2, next s u < S) (b : Nat) (hb : b < 2) :
    ∀ m i τ s, i < m → s < S → 0 < gsum w next b m i τ s := by
  intro m
  induction m with
  | zero => intro i τ s hi; omega
  | succ m ih =>
    intro i τ s hi hs
    match i with
    | 0 =>
      simp only [gsum]
      exact mul_pos (hw τ s hs b hb) (bsum_pos S hw hn m _ _ (hn s hs b hb))
    | i + 1 =>
      simp only [gsum]
      have h0 := mul_pos (hw τ s hs 0 (by omega)) (ih i (τ + 1) _ (by omega) (hn s hs 0 (by omega)))
      have h1 := mul_pos (hw τ s hs 1 (by omega)) (ih i (τ + 1) _ (by omega) (hn s hs 1 (by omega)))
      linarith

end Verif
