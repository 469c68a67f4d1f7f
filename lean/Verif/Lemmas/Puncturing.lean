import Verif.Model.Puncturing
import Verif.Lemmas.Lists
/- Helper lemmas for puncturing: the index `idx - shift*N` of the code always denotes position `idx mod N`. -/
namespace Verif

/-- value of `shift` at the beginning of iteration `idx` -/
def shiftAt (N idx : Nat) : Nat := (idx + N - 1) / N

theorem shiftAt_zero {N : Nat} (hN : 0 < N) : shiftAt N 0 = 0 := by
  unfold shiftAt; rw [Nat.div_eq_of_lt]; omega

theorem shiftAt_eq {N : Nat} (hN : 0 < N) (idx : Nat) :
    shiftAt N idx = if idx % N = 0 then idx / N else idx / N + 1 := by
  unfold shiftAt
  have h := Nat.div_add_mod idx N
  have h2 := Nat.mod_lt idx hN
  split
  · rename_i h0
    have : idx + N - 1 = N * (idx / N) + (N - 1) := by omega
    rw [this, Nat.mul_add_div hN, Nat.div_eq_of_lt (show N - 1 < N by omega)]; omega
  · have : idx + N - 1 = N * (idx / N + 1) + (idx % N - 1) := by rw [Nat.mul_succ]; omega
    rw [this, Nat.mul_add_div hN, Nat.div_eq_of_lt (show idx % N - 1 < N by omega)]

theorem shiftAt_succ {N : Nat} (hN : 0 < N) (idx : Nat) :
    shiftAt N (idx + 1) = if idx % N = 0 then shiftAt N idx + 1 else shiftAt N idx := by
  have e : shiftAt N (idx + 1) = idx / N + 1 := by
    unfold shiftAt
    rw [show idx + 1 + N - 1 = idx + N by omega, Nat.add_div_right _ hN]
  rw [e, shiftAt_eq hN]
  split <;> rfl

theorem pyGet_punct {v : List Nat} (hv : v ≠ []) (idx : Nat) :
    pyGet v ((idx : Int) - (shiftAt v.length idx : Int) * (v.length : Int)) = .ok (v.getD (idx % v.length) 0) := by
  have hN : 0 < v.length := List.length_pos_iff.2 hv
  have hlt := Nat.mod_lt idx hN
  have hd := Nat.div_add_mod idx v.length
  have hfin : v.getD (idx % v.length) 0 = v[idx % v.length] := by
    simp [List.getD_eq_getElem?_getD, hlt]
  rw [hfin, shiftAt_eq hN]
  have hc : (idx : Int) = (v.length : Int) * ((idx / v.length : Nat) : Int) + ((idx % v.length : Nat) : Int) := by
    exact_mod_cast hd.symm
  split
  · rename_i h0
    have : (idx : Int) - ((idx / v.length : Nat) : Int) * (v.length : Int) = ((idx % v.length : Nat) : Int) := by
      rw [Int.mul_comm]; omega
    rw [this, pyGet_ok hlt]
  · rename_i h0
    have : (idx : Int) - ((idx / v.length + 1 : Nat) : Int) * (v.length : Int)
        = ((idx % v.length : Nat) : Int) - (v.length : Int) := by
      rw [Int.mul_comm]; push_cast; rw [Int.mul_add]; push_cast at hc; omega
    rw [this]
    unfold pyGet pyIdx
    rw [if_neg (by omega), if_pos (by omega)]
    have h3 : ((((idx % v.length : Nat) : Int) - (v.length : Int)) + (v.length : Int)).toNat = idx % v.length := by omega
    rw [h3]
    simp [hlt]

theorem puncturingStep_eq {α : Type} {v : List Nat} (hv : v ≠ []) (idx : Nat) (x : α) (out : List α) :
    puncturingStep v (shiftAt v.length idx, out) (x, idx) =
      .ok (shiftAt v.length (idx + 1), if v.getD (idx % v.length) 0 = 1 then out ++ [x] else out) := by
  have hN : 0 < v.length := List.length_pos_iff.2 hv
  simp only [puncturingStep, pyGet_punct hv, bind, Except.bind, pure, Except.pure, shiftAt_succ hN]
  split <;> rfl

/-- The items of `m`, numbered from `k`, whose position modulo the pattern length is marked 1. -/
def punctKeepFrom {α : Type} (v : List Nat) : Nat → List α → List α
  | _, [] => []
  | k, x :: m => if v.getD (k % v.length) 0 = 1 then x :: punctKeepFrom v (k + 1) m else punctKeepFrom v (k + 1) m

theorem puncturing_loop {α : Type} {v : List Nat} (hv : v ≠ []) : ∀ (m : List α) (k : Nat) (out : List α),
    (m.zipIdx k).foldlM (puncturingStep v) (shiftAt v.length k, out) =
      .ok (shiftAt v.length (k + m.length), out ++ punctKeepFrom v k m) := by
  intro m
  induction m with
  | nil => intro k out; simp [punctKeepFrom, pure, Except.pure]
  | cons x m ih =>
    intro k out
    rw [List.zipIdx_cons, List.foldlM_cons, puncturingStep_eq hv]
    simp only [bind, Except.bind]
    rw [ih]
    have : k + 1 + m.length = k + (m.length + 1) := by omega
    simp only [punctKeepFrom, List.length_cons, this]
    split <;> simp

theorem puncturing_eq {α : Type} {v : List Nat} (hv : v ≠ []) (m : List α) :
    puncturing m v = .ok (punctKeepFrom v 0 m) := by
  have := puncturing_loop hv m 0 []
  rw [shiftAt_zero (List.length_pos_iff.2 hv)] at this
  simp only [puncturing, this, bind, Except.bind, pure, Except.pure, List.nil_append]

/-- number of marked positions below `i` -/
def markedBelow (v : List Nat) : Nat → Nat
  | 0 => 0
  | i + 1 => markedBelow v i + (if v.getD (i % v.length) 0 = 1 then 1 else 0)

theorem markedBelow_le (v : List Nat) (i : Nat) : markedBelow v i ≤ i := by
  induction i with
  | zero => simp [markedBelow]
  | succ i ih => simp only [markedBelow]; split <;> omega

theorem markedBelow_mono (v : List Nat) {i j : Nat} (h : i ≤ j) : markedBelow v i ≤ markedBelow v j := by
  induction j with
  | zero => simp_all
  | succ j ih =>
    rcases Nat.lt_or_ge i (j + 1) with h1 | h1
    · have := ih (by omega); simp only [markedBelow]; omega
    · have : i = j + 1 := by omega
      rw [this]

/-- the array after `i` iterations of `depuncturing` -/
def depunctPrefix {α : Type} (zero : α) (p : List α) (v : List Nat) (L i : Nat) : List α :=
  (List.range L).map (fun j => if j < i ∧ v.getD (j % v.length) 0 = 1 then p.getD (markedBelow v j) zero else zero)

theorem depuncturing_loop {α : Type} (zero : α) {v : List Nat} (hv : v ≠ []) (p : List α) (L : Nat) :
    ∀ i, i ≤ L → markedBelow v i ≤ p.length →
    (List.range i).foldlM (depuncturingStep p v) (0, 0, List.replicate L zero) =
      .ok (shiftAt v.length i, i - markedBelow v i, depunctPrefix zero p v L i) := by
  have hN : 0 < v.length := List.length_pos_iff.2 hv
  intro i
  induction i with
  | zero =>
    intro _ _
    simp only [List.range_zero, List.foldlM_nil, shiftAt_zero hN, pure, Except.pure, markedBelow]
    congr 3
    apply List.ext_getElem <;> simp [depunctPrefix]
  | succ i ih =>
    intro hi hm
    have hm' : markedBelow v i ≤ p.length := le_trans (markedBelow_mono v (Nat.le_succ i)) hm
    rw [List.range_succ, List.foldlM_append, ih (by omega) hm']
    simp only [bind, Except.bind, List.foldlM_cons, List.foldlM_nil, pure, Except.pure, depuncturingStep, pyGet_punct hv]
    have hle := markedBelow_le v i
    by_cases hb : v.getD (i % v.length) 0 = 1
    · simp only [markedBelow, if_pos hb] at hm
      have hx : (i : Int) - ((i - markedBelow v i : Nat) : Int) = (markedBelow v i : Int) := by omega
      rw [if_pos hb, hx, pyGet_ok (by omega)]
      simp only
      rw [pySet_ok _ (by simp [depunctPrefix]; omega)]
      have hset : (depunctPrefix zero p v L i).set i (p[markedBelow v i]'(by omega)) = depunctPrefix zero p v L (i + 1) := by
        apply List.ext_getElem (by simp [depunctPrefix])
        intro j h1 h2
        rw [List.getElem_set]
        simp only [depunctPrefix, List.getElem_map, List.getElem_range]
        by_cases hij : i = j
        · subst hij
          have hlt : markedBelow v i < p.length := by omega
          rw [if_pos rfl, if_pos ⟨by omega, hb⟩]
          simp [List.getD_eq_getElem?_getD, hlt]
        · rw [if_neg hij]
          congr 1
          simp only [eq_iff_iff]
          constructor <;> rintro ⟨a, b⟩ <;> exact ⟨by omega, b⟩
      simp only [hset, markedBelow, if_pos hb, shiftAt_succ hN]
      have : i + 1 - (markedBelow v i + 1) = i - markedBelow v i := by omega
      rw [this]
      split <;> rfl
    · rw [if_neg hb]
      have hset : depunctPrefix zero p v L i = depunctPrefix zero p v L (i + 1) := by
        apply List.map_congr_left
        intro j hj
        congr 1
        simp only [eq_iff_iff]
        constructor
        · rintro ⟨a, b⟩; exact ⟨by omega, b⟩
        · rintro ⟨a, b⟩
          refine ⟨?_, b⟩
          rcases Nat.lt_or_ge j i with h | h
          · exact h
          · have : j = i := by omega
            rw [this] at b; exact absurd b hb
      simp only [markedBelow, if_neg hb, shiftAt_succ hN, ← hset]
      have : i + 1 - (markedBelow v i + 0) = i - markedBelow v i + 1 := by omega
      rw [this]
      split <;> rfl

theorem depuncturing_eq {α : Type} (zero : α) {v : List Nat} (hv : v ≠ []) (p : List α) (L : Nat)
    (h : markedBelow v L ≤ p.length) : depuncturing zero p v L = .ok (depunctPrefix zero p v L L) := by
  simp only [depuncturing, depuncturing_loop zero hv p L L le_rfl h, bind, Except.bind, pure, Except.pure]

theorem depuncturingStep_indexError {α : Type} {v : List Nat} (hv : v ≠ []) (p : List α) (i : Nat) (d : List α)
    (hm : markedBelow v i = p.length) (hb : v.getD (i % v.length) 0 = 1) :
    depuncturingStep p v (shiftAt v.length i, i - markedBelow v i, d) i = .error .indexError := by
  have hle := markedBelow_le v i
  have hx : (i : Int) - ((i - markedBelow v i : Nat) : Int) = (markedBelow v i : Int) := by omega
  simp only [depuncturingStep, pyGet_punct hv, bind, Except.bind, if_pos hb, hx]
  rw [pyGet_out (by omega)]

theorem depuncturing_error {α : Type} (zero : α) {v : List Nat} (hv : v ≠ []) (p : List α) (L : Nat)
    (h : p.length < markedBelow v L) : depuncturing zero p v L = .error .indexError := by
  -- first iteration at which the supply is exhausted
  have hex : ∃ i, i < L ∧ markedBelow v i = p.length ∧ v.getD (i % v.length) 0 = 1 := by
    clear zero
    induction L with
    | zero => simp [markedBelow] at h
    | succ L ih =>
      by_cases hL : p.length < markedBelow v L
      · obtain ⟨i, h1, h2⟩ := ih hL
        exact ⟨i, by omega, h2⟩
      · simp only [markedBelow] at h
        split at h
        · rename_i hb; exact ⟨L, by omega, by omega, hb⟩
        · omega
  obtain ⟨i, hi, hm, hb⟩ := hex
  have hr : List.range L = List.range i ++ i :: (List.range' (i + 1) (L - i - 1)) := by
    have := List.range'_append_1 (s := 0) (m := i) (n := L - i)
    rw [List.range_eq_range', List.range_eq_range', ← List.range'_succ, show L - i - 1 + 1 = L - i by omega]
    rw [Nat.zero_add] at this
    rw [this]; congr 1; omega
  rw [depuncturing, hr, List.foldlM_append, depuncturing_loop zero hv p L i (by omega) (by omega)]
  simp only [bind, Except.bind, List.foldlM_cons]
  rw [depuncturingStep_indexError hv p i _ hm hb]

theorem punctKeepFrom_length {α : Type} (v : List Nat) (m : List α) (k : Nat) :
    markedBelow v k + (punctKeepFrom v k m).length = markedBelow v (k + m.length) := by
  induction m generalizing k with
  | nil => simp [punctKeepFrom]
  | cons x m ih =>
    have := ih (k + 1)
    rw [List.length_cons, show k + (m.length + 1) = k + 1 + m.length by omega, ← this]
    simp only [markedBelow, punctKeepFrom]
    split <;> (simp; try omega)

theorem punctKeepFrom_getElem? {α : Type} (v : List Nat) (m : List α) (k j : Nat) (hj : j < m.length)
    (hb : v.getD ((k + j) % v.length) 0 = 1) :
    (punctKeepFrom v k m)[markedBelow v (k + j) - markedBelow v k]? = m[j]? := by
  induction m generalizing k j with
  | nil => simp at hj
  | cons x m ih =>
    cases j with
    | zero => simp_all [punctKeepFrom]
    | succ j =>
      have h1 := ih (k + 1) j (by simpa using hj) (by rw [show k + 1 + j = k + (j + 1) by omega]; exact hb)
      have h2 : markedBelow v (k + 1) ≤ markedBelow v (k + 1 + j) := markedBelow_mono v (by omega)
      rw [show k + (j + 1) = k + 1 + j by omega, List.getElem?_cons_succ, ← h1]
      simp only [markedBelow, punctKeepFrom] at h2 ⊢
      split
      · rename_i hk
        rw [if_pos hk] at h2
        rw [show markedBelow v (k + 1 + j) - markedBelow v k = (markedBelow v (k + 1 + j) - (markedBelow v k + 1)) + 1 by omega,
          List.getElem?_cons_succ]
      · simp

end Verif
