import Verif.Model.LdpcDecode
import Mathlib.LinearAlgebra.Matrix.NonsingularInverse
import Mathlib.LinearAlgebra.Matrix.ToLin
import Mathlib.Data.ZMod.Basic
import Mathlib.LinearAlgebra.Span.Defs
import Mathlib.LinearAlgebra.Finsupp.LinearCombination
/-
A certificate that a sparse integer matrix is invertible (over the integers, or modulo `N`): unit vectors are derived one after the other from
combinations of the rows, all other entries of the combination being columns already derived.
-/
namespace Verif

/-- Sparse vectors: column and coefficient, columns may be repeated. -/
abbrev SVec := List (Nat × Int)

/-- Value of column `j`. -/
def SVec.at (v : SVec) (j : Nat) : Int := (v.map fun e => if e.1 = j then e.2 else 0).sum

/-- Add an entry. -/
def SVec.add1 (e : Nat × Int) : SVec → SVec
  | [] => [e]
  | f :: v => if f.1 = e.1 then (f.1, f.2 + e.2) :: v else f :: SVec.add1 e v

theorem SVec.add1_at (e : Nat × Int) (v : SVec) (j : Nat) : (SVec.add1 e v).at j = (if e.1 = j then e.2 else 0) + v.at j := by
  induction v with
  | nil => simp [SVec.add1, SVec.at]
  | cons f v ih =>
    unfold SVec.add1
    by_cases h : f.1 = e.1
    · rw [if_pos h]
      simp only [SVec.at, List.map_cons, List.sum_cons, h]
      split <;> ring
    · rw [if_neg h]
      have := ih
      simp only [SVec.at, List.map_cons, List.sum_cons] at this ⊢
      rw [this]; ring

/-- Add `k` times the 0/1 vector with the given columns, shifted down by `off` (columns below `off` are dropped). -/
def SVec.addRow (off : Nat) (k : Int) (ns : List Nat) (v : SVec) : SVec :=
  ns.foldl (fun v c => if off ≤ c then SVec.add1 (c - off, k) v else v) v

theorem SVec.addRow_at (off : Nat) (k : Int) {ns : List Nat} (hnd : ns.Nodup) (v : SVec) (j : Nat) :
    (SVec.addRow off k ns v).at j = (if off + j ∈ ns then k else 0) + v.at j := by
  induction ns generalizing v with
  | nil => simp [SVec.addRow]
  | cons c ns ih =>
    rw [List.nodup_cons] at hnd
    have : SVec.addRow off k (c :: ns) v = SVec.addRow off k ns (if off ≤ c then SVec.add1 (c - off, k) v else v) := rfl
    rw [this, ih hnd.2]
    by_cases hc : off + j = c
    · subst hc
      rw [if_neg hnd.1, if_pos (Nat.le_add_right _ _), SVec.add1_at]
      simp
    · have hm : (off + j ∈ c :: ns) ↔ off + j ∈ ns := by simp [hc]
      simp only [hm]
      congr 1
      by_cases ho : off ≤ c
      · rw [if_pos ho, SVec.add1_at, if_neg (by show ¬ c - off = j; omega), zero_add]
      · rw [if_neg ho]

/-- A combination of the rows. -/
def combine (off : Nat) (H : Checks) (cs : List (Int × Nat)) : SVec := cs.foldl (fun v e => SVec.addRow off e.1 (H.getD e.2 []) v) []

theorem combine_at (off : Nat) (H : Checks) (hnd : ∀ ns ∈ H, ns.Nodup) (cs : List (Int × Nat)) (j : Nat) :
    (combine off H cs).at j = (cs.map fun e => e.1 * (if off + j ∈ H.getD e.2 [] then 1 else 0)).sum := by
  have key : ∀ (cs : List (Int × Nat)) (v : SVec), (cs.foldl (fun v e => SVec.addRow off e.1 (H.getD e.2 []) v) v).at j =
      v.at j + (cs.map fun e => e.1 * (if off + j ∈ H.getD e.2 [] then 1 else 0)).sum := by
    intro cs
    induction cs with
    | nil => intro v; simp
    | cons e cs ih =>
      intro v
      have hn : (H.getD e.2 []).Nodup := by
        by_cases h : e.2 < H.length
        · rw [List.getD_eq_getElem _ _ h]; exact hnd _ (List.getElem_mem h)
        · rw [List.getD_eq_default _ _ (by omega)]; exact List.nodup_nil
      rw [List.foldl_cons, ih, SVec.addRow_at off e.1 hn]
      rw [List.map_cons, List.sum_cons]
      split <;> ring
  unfold combine
  rw [key]
  simp [SVec.at]

/-- One step: `cs` combines to a vector whose entries are 0 modulo `N`, or in known columns, or ±1 in column `j`. -/
def stepOk (N off : Nat) (H : Checks) (m known : Nat) (s : List (Int × Nat) × Nat) : Bool :=
  let v := combine off H s.1
  s.2 < m && s.1.all (fun e => e.2 < H.length) && v.all (fun e => e.2 % (N : Int) = 0 || known.testBit e.1 || e.1 = s.2) &&
    (let k := v.at s.2 % (N : Int); k = 1 || k = -1)

/-- The certificate: the set of known columns as the bits of a number. -/
def certOk (N off : Nat) (H : Checks) (m : Nat) : Nat → List (List (Int × Nat) × Nat) → Bool
  | known, [] => known = 2 ^ m - 1
  | known, s :: ss => stepOk N off H m known s && certOk N off H m (known ||| 2 ^ s.2) ss

/-- The matrix of the columns from `off` on. -/
def colsFrom (R : Type) [CommRing R] (off m : Nat) (H : Checks) : Matrix (Fin m) (Fin m) R := fun i j => if off + j ∈ H.getD i [] then 1 else 0

theorem SVec.at_eq_zero {v : SVec} {j : Nat} (h : ∀ e ∈ v, e.1 = j → e.2 = 0) : v.at j = 0 := by
  apply List.sum_eq_zero
  intro x hx
  obtain ⟨e, he, rfl⟩ := List.mem_map.1 hx
  split
  · exact h e he ‹_›
  · rfl

theorem SVec.cast_at {R : Type} [CommRing R] (N : Nat) (hN : (N : R) = 0) {v : SVec} {j : Nat} (h : ∀ e ∈ v, e.1 = j → e.2 % (N : Int) = 0) :
    ((v.at j : Int) : R) = 0 := by
  have : (N : Int) ∣ v.at j := by
    apply List.dvd_sum
    intro x hx
    obtain ⟨e, he, rfl⟩ := List.mem_map.1 hx
    split
    · exact Int.dvd_of_emod_eq_zero (h e he ‹_›)
    · exact dvd_zero _
  obtain ⟨q, hq⟩ := this
  rw [hq]
  push_cast
  rw [hN, zero_mul]

theorem span_of_cert {R : Type} [CommRing R] (N : Nat) (hN : (N : R) = 0) (off m : Nat) (H : Checks) (hl : H.length = m) (hnd : ∀ ns ∈ H, ns.Nodup) :
    ∀ (cert : List (List (Int × Nat) × Nat)) (known : Nat),
      (∀ j : Fin m, known.testBit j = true → (Pi.single j 1 : Fin m → R) ∈ Submodule.span R (Set.range (colsFrom R off m H))) →
      certOk N off H m known cert = true → ∀ j : Fin m, (Pi.single j 1 : Fin m → R) ∈ Submodule.span R (Set.range (colsFrom R off m H)) := by
  intro cert
  induction cert with
  | nil =>
    intro known hk hc j
    simp only [certOk, decide_eq_true_eq] at hc
    refine hk j ?_
    rw [hc, Nat.testBit_two_pow_sub_one]
    simp
  | cons s ss ih =>
    intro known hk hc
    simp only [certOk, Bool.and_eq_true] at hc
    obtain ⟨hs, hc⟩ := hc
    refine ih _ ?_ hc
    intro j hj
    rw [Nat.testBit_or, Bool.or_eq_true] at hj
    rcases hj with hj | hj
    · exact hk j hj
    rw [Nat.testBit_two_pow, decide_eq_true_eq] at hj
    -- the new column
    simp only [stepOk, Bool.and_eq_true, decide_eq_true_eq, List.all_eq_true, Bool.or_eq_true] at hs
    obtain ⟨⟨⟨hjm, hidx⟩, hent⟩, hunit⟩ := hs
    set v := combine off H s.1 with hv
    set w : Fin m → R := fun c => ((v.at c : Int) : R) with hw
    have hwspan : w ∈ Submodule.span R (Set.range (colsFrom R off m H)) := by
      have : w = (s.1.map fun e => ((e.1 : Int) : R) • (fun c : Fin m => if off + (c : Nat) ∈ H.getD e.2 [] then (1 : R) else 0)).sum := by
        funext c
        rw [hw]
        simp only
        rw [hv, combine_at off H hnd]
        have : ∀ l : List (Int × Nat), (((l.map fun e => e.1 * (if off + (c : Nat) ∈ H.getD e.2 [] then 1 else 0)).sum : Int) : R) =
            (l.map fun e => ((e.1 : Int) : R) • (fun c : Fin m => if off + (c : Nat) ∈ H.getD e.2 [] then (1 : R) else 0)).sum c := by
          intro l
          induction l with
          | nil => simp
          | cons e l ih =>
            rw [List.map_cons, List.sum_cons, List.map_cons, List.sum_cons, Int.cast_add, ih]
            simp only [Pi.add_apply, Pi.smul_apply, smul_eq_mul]
            split <;> simp
        exact this s.1
      rw [this]
      apply list_sum_mem
      intro x hx
      obtain ⟨e, he, rfl⟩ := List.mem_map.1 hx
      refine Submodule.smul_mem _ _ (Submodule.subset_span ⟨⟨e.2, by rw [← hl]; exact hidx e he⟩, ?_⟩)
      funext c
      rfl
    -- all columns but the new one
    have hrest : ∀ c : Fin m, (c : Nat) ≠ s.2 → w c • (Pi.single c 1 : Fin m → R) ∈ Submodule.span R (Set.range (colsFrom R off m H)) := by
      intro c hcs
      by_cases hkc : known.testBit c = true
      · exact Submodule.smul_mem _ _ (hk c hkc)
      · have : w c = 0 := by
          refine SVec.cast_at N hN ?_
          intro e he hec
          rcases hent e he with (h | h) | h
          · exact h
          · rw [hec] at h; exact absurd h hkc
          · rw [hec] at h; exact absurd h hcs
        rw [this, zero_smul]
        exact Submodule.zero_mem _
    have hsum : w = ∑ c, w c • (Pi.single c 1 : Fin m → R) := by
      funext c
      rw [Finset.sum_apply]
      simp [Pi.single_apply]
    have hj' : (j : Nat) = s.2 := hj.symm
    have hu : w j • (Pi.single j 1 : Fin m → R) ∈ Submodule.span R (Set.range (colsFrom R off m H)) := by
      have : w j • (Pi.single j 1 : Fin m → R) = w - ∑ c ∈ Finset.univ.erase j, w c • (Pi.single c 1 : Fin m → R) := by
        rw [eq_sub_iff_add_eq, Finset.add_sum_erase _ (fun c => w c • (Pi.single c 1 : Fin m → R)) (Finset.mem_univ j)]
        exact hsum.symm
      rw [this]
      refine Submodule.sub_mem _ hwspan (Submodule.sum_mem _ ?_)
      intro c hc
      rw [Finset.mem_erase] at hc
      exact hrest c (fun h => hc.1 (Fin.ext (h.trans hj'.symm)))
    have hcong : w j = ((v.at s.2 % (N : Int) : Int) : R) := by
      rw [hw]
      simp only
      rw [hj']
      conv_lhs => rw [← Int.mul_ediv_add_emod (v.at s.2) (N : Int)]
      push_cast
      rw [hN, zero_mul, zero_add]
    rw [hcong] at hu
    rcases hunit with h | h
    · rw [h] at hu
      simpa using hu
    · rw [h] at hu
      have := Submodule.neg_mem _ hu
      simpa using this

/-- A certificate makes the determinant a unit. -/
theorem isUnit_of_cert {R : Type} [CommRing R] (N : Nat) (hN : (N : R) = 0) (off m : Nat) (H : Checks) (hl : H.length = m)
    (hnd : ∀ ns ∈ H, ns.Nodup) (cert : List (List (Int × Nat) × Nat)) (h : certOk N off H m 0 cert = true) : IsUnit (colsFrom R off m H).det := by
  have hs := span_of_cert (R := R) N hN off m H hl hnd cert 0 (by simp) h
  have : ∀ j : Fin m, ∃ c : Fin m → R, ∑ i, c i • colsFrom R off m H i = Pi.single j 1 := by
    intro j
    exact (Submodule.mem_span_range_iff_exists_fun R).1 (hs j)
  choose L hL using this
  have hmul : Matrix.of L * colsFrom R off m H = 1 := by
    ext j k
    rw [Matrix.mul_apply]
    have := congrFun (hL j) k
    rw [Finset.sum_apply] at this
    simp only [Pi.smul_apply, smul_eq_mul] at this
    simp only [Matrix.of_apply]
    rw [this, Matrix.one_apply, Pi.single_apply]
    simp only [eq_comm]
  have hd := congrArg Matrix.det hmul
  rw [Matrix.det_mul, Matrix.det_one] at hd
  exact IsUnit.of_mul_eq_one _ (by rw [mul_comm]; exact hd)

end Verif
