import Verif.Model.UtilitiesReal
import Verif.Lemmas.Lists
namespace Verif

theorem strideIdx_full (L n s : Nat) (hs : s < n) :
    strideIdx (L * n) s n = (List.range L).map (fun j => s + j * n) := by
  unfold strideIdx
  have : (L * n - s + n - 1) / n = L := by
    cases L with
    | zero =>
      rw [Nat.div_eq_of_lt]; omega
    | succ L =>
      have h2 : (L + 1) * n = L * n + n := Nat.succ_mul L n
      have h1 : (L + 1) * n - s + n - 1 = n * (L + 1) + (n - 1 - s) := by
        rw [Nat.mul_comm n]; omega
      rw [h1, Nat.mul_add_div (by omega), Nat.div_eq_of_lt (by omega)]
  rw [this]

theorem strideAssign_spec {α : Type} (y : List α) (L n s : Nat) (vals : List α) (hs : s < n)
    (hy : y.length = L * n) (hv : vals.length = L) :
    ∃ y', strideAssign y s n vals = .ok y' ∧ y'.length = L * n ∧
      ∀ i, i < L * n → y'[i]? = if i % n = s then vals[i / n]? else y[i]? := by
  have hidx := strideIdx_full L n s hs
  refine ⟨(((List.range L).map (fun j => s + j * n)).zip vals).foldl (fun y p => y.set p.1 p.2) y, ?_, ?_, ?_⟩
  · unfold strideAssign
    rw [if_neg (by omega), hy, hidx]
    simp [hv]
  · rw [foldl_set_length, hy]
  · intro i hi
    have hdm := Nat.div_add_mod i n
    have hq : i / n < L := Nat.div_lt_of_lt_mul (by rw [Nat.mul_comm]; exact hi)
    have hfst : (((List.range L).map (fun j => s + j * n)).zip vals).map Prod.fst =
        (List.range L).map (fun j => s + j * n) := by
      rw [List.map_fst_zip]; simp [hv]
    split
    · rename_i h
      rw [List.getElem?_eq_getElem (l := vals) (i := i / n) (by omega)]
      apply foldl_set_mem
      · rw [hfst]
        refine (List.nodup_range).map ?_
        intro a b hab
        simp only at hab
        have : a * n = b * n := by omega
        exact Nat.eq_of_mul_eq_mul_right (by omega) this
      · rw [List.mem_iff_getElem]
        refine ⟨i / n, by simp [hv, hq], ?_⟩
        simp only [List.getElem_zip, List.getElem_map, List.getElem_range]
        congr 1
        rw [Nat.mul_comm]; omega
      · omega
    · rename_i h
      apply foldl_set_notMem
      rw [hfst]
      simp only [List.mem_map, List.mem_range, not_exists, not_and]
      intro j hj he
      apply h
      rw [← he, Nat.add_mul_mod_self_right, Nat.mod_eq_of_lt hs]

theorem upsample_loop (x : List ℂ) (n : Nat) (hn : 1 ≤ n) : ∀ k, k ≤ n - 1 → ∀ y : List ℂ, y.length = x.length * n →
    ∃ y', (List.range' 1 k).foldlM (m := Except PyErr) (fun y i => strideAssign y i n (List.replicate x.length 0)) y = .ok y' ∧
      y'.length = x.length * n ∧
      ∀ i, i < x.length * n → y'[i]? = if i % n ≠ 0 ∧ i % n ≤ k then some 0 else y[i]? := by
  intro k
  induction k with
  | zero =>
    intro _ y hy
    refine ⟨y, rfl, hy, fun i _ => ?_⟩
    rw [if_neg (by omega)]
  | succ k ih =>
    intro hk y hy
    obtain ⟨y1, h1, h2, h3⟩ := ih (by omega) y hy
    obtain ⟨y2, h4, h5, h6⟩ := strideAssign_spec y1 x.length n (1 + k) (List.replicate x.length 0)
      (by omega) h2 (by simp)
    refine ⟨y2, ?_, h5, ?_⟩
    · rw [List.range'_1_concat, List.foldlM_append, h1]
      simp only [bind, Except.bind, List.foldlM_cons, List.foldlM_nil]
      rw [h4]; rfl
    · intro i hi
      rw [h6 i hi, h3 i hi]
      have hq : i / n < x.length := Nat.div_lt_of_lt_mul (by rw [Nat.mul_comm]; exact hi)
      by_cases c : i % n = 1 + k
      · rw [if_pos c, if_pos ⟨by omega, by omega⟩]
        simp [hq]
      · rw [if_neg c]
        by_cases d : i % n ≠ 0 ∧ i % n ≤ k
        · rw [if_pos d, if_pos ⟨d.1, by omega⟩]
        · rw [if_neg d, if_neg (by omega)]

theorem upsample_spec (junk : Nat → ℂ) (x : List ℂ) (n : Nat) (hn : 1 ≤ n) :
    ∃ y, upsample junk x n = .ok y ∧ y.length = x.length * n ∧
      ∀ i, i < x.length * n → y[i]? = if i % n = 0 then x[i / n]? else some 0 := by
  obtain ⟨y1, h1, h2, h3⟩ := strideAssign_spec ((List.range (x.length * n)).map junk) x.length n 0 x (by omega)
    (by simp) rfl
  obtain ⟨y2, h4, h5, h6⟩ := upsample_loop x n hn (n - 1) le_rfl y1 h2
  refine ⟨y2, ?_, h5, ?_⟩
  · simp only [upsample, h1, bind, Except.bind]
    exact h4
  · intro i hi
    rw [h6 i hi, h3 i hi]
    have : i % n < n := Nat.mod_lt _ (by omega)
    split <;> split <;> first | rfl | omega

end Verif
