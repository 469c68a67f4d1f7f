import Verif.Props.Mimo
import Mathlib.Tactic.LinearCombination
/-
C69: K-best detection.
-/
namespace Verif

open Finset

/-- Partial metric of the coordinates `k..N-1`. -/
noncomputable def partTot (r : Nat → Nat → ℂ) (yt : Nat → ℂ) (N k : Nat) (x : Nat → ℂ) : ℝ :=
  ∑ i ∈ Ico k N, ‖yt i - ∑ j ∈ Ico i N, r i j * x j‖ ^ 2

/-- Invariant of a candidate when coordinates `k..N-1` are decided. -/
structure KInv (r : Nat → Nat → ℂ) (yt : Nat → ℂ) (c : List ℂ) (N k : Nat) (a : KCand) : Prop where
  mem : ∀ i, k ≤ i → i < N → a.x i ∈ c
  d : ∀ i < k, a.d i = yt i - ∑ j ∈ Ico k N, r i j * a.x j
  tot : a.tot = partTot r yt N k a.x

theorem partTot_congr {r : Nat → Nat → ℂ} {yt : Nat → ℂ} {N k : Nat} {x x' : Nat → ℂ} (h : ∀ i, k ≤ i → i < N → x i = x' i) :
    partTot r yt N k x = partTot r yt N k x' := by
  unfold partTot
  apply sum_congr rfl
  intro i hi
  rw [mem_Ico] at hi
  congr 3
  apply sum_congr rfl
  intro j hj
  rw [mem_Ico] at hj
  rw [h j (by omega) (by omega)]

theorem partTot_succ {r : Nat → Nat → ℂ} {yt : Nat → ℂ} {N k : Nat} (hk : k < N) (x : Nat → ℂ) :
    partTot r yt N k x = ‖yt k - ∑ j ∈ Ico k N, r k j * x j‖ ^ 2 + partTot r yt N (k + 1) x := by
  unfold partTot
  rw [sum_eq_sum_Ico_succ_bot hk]

/-- The candidate with the interference of the new coordinate removed. -/
noncomputable def kFinish (r : Nat → Nat → ℂ) (coor : Nat) (s : ℂ) (a : KCand) : KCand :=
  { a with d := fun i => if i < coor then a.d i - r i coor * s else a.d i }

theorem kinv_step {r : Nat → Nat → ℂ} {yt : Nat → ℂ} {c : List ℂ} {N k : Nat} (hk : k < N) {a : KCand} (ha : KInv r yt c N (k + 1) a)
    {s : ℂ} (hs : s ∈ c) : KInv r yt c N k (kFinish r k s (kExtend r k s a)) := by
  have hsum : ∀ i, ∑ j ∈ Ico (k + 1) N, r i j * Function.update a.x k s j = ∑ j ∈ Ico (k + 1) N, r i j * a.x j := by
    intro i
    apply sum_congr rfl
    intro j hj
    rw [mem_Ico] at hj
    rw [Function.update_of_ne (by omega)]
  constructor
  · intro i h1 h2
    simp only [kFinish, kExtend]
    by_cases h : i = k
    · rw [h, Function.update_self]; exact hs
    · rw [Function.update_of_ne h]; exact ha.mem i (by omega) h2
  · intro i hi
    simp only [kFinish, kExtend]
    rw [if_pos hi, Function.update_of_ne (by omega), ha.d i (by omega), sum_eq_sum_Ico_succ_bot hk, hsum, Function.update_self]
    ring
  · simp only [kFinish, kExtend]
    rw [partTot_succ hk, sum_eq_sum_Ico_succ_bot hk, hsum, Function.update_self, Function.update_self,
      partTot_congr (x' := a.x) (fun i h1 h2 => Function.update_of_ne (by omega) _ _), ← ha.tot, ha.d k (by omega), add_comm]
    congr 3
    ring

/-- All hypotheses of one step. -/
noncomputable def kHyps (r : Nat → Nat → ℂ) (c : List ℂ) (cands : List KCand) (coor : Nat) : List (KCand × ℂ) :=
  c.flatMap fun s => cands.map fun a => (kExtend r coor s a, s)

theorem kHyps_length (r : Nat → Nat → ℂ) (c : List ℂ) (cands : List KCand) (coor : Nat) :
    (kHyps r c cands coor).length = c.length * cands.length := by
  unfold kHyps
  induction c with
  | nil => simp
  | cons s c ih => rw [List.flatMap_cons, List.length_append, ih, List.length_map, List.length_cons, Nat.succ_mul, Nat.add_comm]

theorem kStep_eq (argsort : List ℝ → List Nat) (r : Nat → Nat → ℂ) (c : List ℂ) (K : Nat) (cands : List KCand) (coor : Nat) :
    kStep argsort r c K cands coor =
      ((argsort ((kHyps r c cands coor).map fun p => p.1.tot)).take (min (c.length * cands.length) K)).map fun j =>
        kFinish r coor ((kHyps r c cands coor).getD j (⟨fun _ => 0, fun _ => 0, 0⟩, 0)).2
          ((kHyps r c cands coor).getD j (⟨fun _ => 0, fun _ => 0, 0⟩, 0)).1 := by
  rw [← kHyps_length r c cands coor]
  rfl

/-- The list of hypotheses has the finish as a survivor list. -/
theorem kStep_mem {argsort : List ℝ → List Nat} (hsort : ∀ l, IsArgsort l (argsort l)) {r : Nat → Nat → ℂ} {c : List ℂ} {K : Nat}
    {cands : List KCand} {coor : Nat} {b : KCand} (hb : b ∈ kStep argsort r c K cands coor) :
    ∃ s ∈ c, ∃ a ∈ cands, b = kFinish r coor s (kExtend r coor s a) := by
  rw [kStep_eq] at hb
  obtain ⟨j, hj, rfl⟩ := List.mem_map.1 hb
  have hj2 := (hsort _).1.mem_iff.1 (List.mem_of_mem_take hj)
  rw [List.mem_range, List.length_map] at hj2
  rw [List.getD_eq_getElem _ _ hj2]
  have hm := List.getElem_mem hj2
  generalize (kHyps r c cands coor)[j] = p at hm ⊢
  unfold kHyps at hm
  obtain ⟨s, hs, hp⟩ := List.mem_flatMap.1 hm
  obtain ⟨a, ha, rfl⟩ := List.mem_map.1 hp
  exact ⟨s, hs, a, ha, rfl⟩

theorem kStep_length {argsort : List ℝ → List Nat} (hsort : ∀ l, IsArgsort l (argsort l)) (r : Nat → Nat → ℂ) (c : List ℂ) (K : Nat)
    (cands : List KCand) (coor : Nat) : (kStep argsort r c K cands coor).length = min (c.length * cands.length) K := by
  rw [kStep_eq, List.length_map, List.length_take, (hsort _).1.length_eq, List.length_range, List.length_map, kHyps_length]
  omega

/-- Without truncation, every hypothesis survives. -/
theorem kStep_complete {argsort : List ℝ → List Nat} (hsort : ∀ l, IsArgsort l (argsort l)) {r : Nat → Nat → ℂ} {c : List ℂ} {K : Nat}
    {cands : List KCand} {coor : Nat} (hK : c.length * cands.length ≤ K) {s : ℂ} (hs : s ∈ c) {a : KCand} (ha : a ∈ cands) :
    kFinish r coor s (kExtend r coor s a) ∈ kStep argsort r c K cands coor := by
  rw [kStep_eq, Nat.min_eq_left hK, List.take_of_length_le
    (by rw [(hsort _).1.length_eq, List.length_range, List.length_map, kHyps_length])]
  have hm : (kExtend r coor s a, s) ∈ kHyps r c cands coor :=
    List.mem_flatMap.2 ⟨s, hs, List.mem_map.2 ⟨a, ha, rfl⟩⟩
  obtain ⟨j, hj, he⟩ := List.mem_iff_getElem.1 hm
  refine List.mem_map.2 ⟨j, (hsort _).1.mem_iff.2 ?_, ?_⟩
  · rw [List.mem_range, List.length_map]; exact hj
  · rw [List.getD_eq_getElem _ _ hj, he]

/-- The first survivor is the best hypothesis. -/
theorem kStep_head {argsort : List ℝ → List Nat} (hsort : ∀ l, IsArgsort l (argsort l)) {r : Nat → Nat → ℂ} {c : List ℂ} {K : Nat}
    {cands : List KCand} {coor : Nat} {b : KCand} {t : List KCand} (hb : kStep argsort r c K cands coor = b :: t) {s : ℂ} (hs : s ∈ c)
    {a : KCand} (ha : a ∈ cands) : b.tot ≤ (kExtend r coor s a).tot := by
  set tots := (kHyps r c cands coor).map fun p => p.1.tot with htots
  obtain ⟨hperm, hsorted⟩ := hsort tots
  rw [kStep_eq, ← htots] at hb
  have hm : (kExtend r coor s a, s) ∈ kHyps r c cands coor :=
    List.mem_flatMap.2 ⟨s, hs, List.mem_map.2 ⟨a, ha, rfl⟩⟩
  obtain ⟨j, hj, he⟩ := List.mem_iff_getElem.1 hm
  have hjo : j ∈ argsort tots := hperm.mem_iff.2 (by rw [List.mem_range, htots, List.length_map]; exact hj)
  have hget : ∀ i < (kHyps r c cands coor).length,
      tots.getD i 0 = ((kHyps r c cands coor).getD i (⟨fun _ => 0, fun _ => 0, 0⟩, 0)).1.tot := by
    intro i hi
    rw [List.getD_eq_getElem _ _ (by rw [htots, List.length_map]; exact hi), List.getD_eq_getElem _ _ hi]
    simp only [htots, List.getElem_map]
  match ho : argsort tots, hjo, hb, hsorted with
  | [], h, _, _ => cases h
  | j0 :: o, hjo, hb, hsorted =>
    have hj0 : j0 < (kHyps r c cands coor).length := by
      have : j0 ∈ argsort tots := by rw [ho]; simp
      have := hperm.mem_iff.1 this
      rwa [List.mem_range, htots, List.length_map] at this
    have hle : tots.getD j0 0 ≤ tots.getD j 0 := by
      rw [List.map_cons, List.pairwise_cons] at hsorted
      rcases List.mem_cons.1 hjo with h | h
      · rw [h]
      · exact hsorted.1 _ (List.mem_map.2 ⟨j, h, rfl⟩)
    rw [hget _ hj0, hget _ hj, List.getD_eq_getElem (n := j) _ _ hj, he] at hle
    cases hn : min (c.length * cands.length) K with
    | zero => rw [hn] at hb; cases hb
    | succ n =>
      rw [hn, List.take_succ_cons, List.map_cons] at hb
      injection hb with h1 h2
      rw [← h1]
      exact hle

theorem kLoop_inv {argsort : List ℝ → List Nat} (hsort : ∀ l, IsArgsort l (argsort l)) {r : Nat → Nat → ℂ} {yt : Nat → ℂ} {c : List ℂ}
    {K N : Nat} : ∀ (k : Nat), k ≤ N → ∀ {cands : List KCand}, (∀ a ∈ cands, KInv r yt c N k a) →
    ∀ b ∈ kLoop argsort r c K k cands, KInv r yt c N 0 b := by
  intro k
  induction k with
  | zero => intro _ cands h b hb; exact h b hb
  | succ k ih =>
    intro hk cands h b hb
    refine ih (by omega) ?_ b hb
    intro b hb
    obtain ⟨s, hs, a, ha, rfl⟩ := kStep_mem hsort hb
    exact kinv_step (by omega) (h a ha) hs

theorem kLoop_length {argsort : List ℝ → List Nat} (hsort : ∀ l, IsArgsort l (argsort l)) {r : Nat → Nat → ℂ} {c : List ℂ}
    {K : Nat} (hc : c ≠ []) (hK : 1 ≤ K) : ∀ (k : Nat) (cands : List KCand), cands ≠ [] → kLoop argsort r c K k cands ≠ [] := by
  intro k
  induction k with
  | zero => intro cands h; exact h
  | succ k ih =>
    intro cands h
    apply ih
    rw [← List.length_pos_iff, kStep_length hsort]
    have := Nat.mul_pos (List.length_pos_iff.2 hc) (List.length_pos_iff.2 h)
    omega

/-! ### The factorisation -/

theorem sq_norm_sub (a b : ℂ) : ‖a - b‖ ^ 2 = ‖a‖ ^ 2 + ‖b‖ ^ 2 - 2 * ((starRingEnd ℂ) b * a).re := by
  rw [← Complex.normSq_eq_norm_sq, ← Complex.normSq_eq_norm_sq, ← Complex.normSq_eq_norm_sq, Complex.normSq_sub]
  congr 2
  rw [mul_comm]

/-- Rotation by the orthonormal factor preserves distances up to a constant. -/
theorem qr_distance {rows cols : Nat} {h q r : Nat → Nat → ℂ} (hqr : IsQR rows cols h q r) (y : Nat → ℂ) :
    ∃ C : ℝ, ∀ x : List ℂ, x.length = cols → sqErr rows y h x =
      partTot r (fun k => ∑ i ∈ range rows, (starRingEnd ℂ) (q i k) * y i) cols 0 (fun j => x.getD j 0) + C := by
  refine ⟨∑ i ∈ range rows, ‖y i‖ ^ 2 - ∑ k ∈ range cols, ‖∑ i ∈ range rows, (starRingEnd ℂ) (q i k) * y i‖ ^ 2, ?_⟩
  intro x hx
  set yt : Nat → ℂ := fun k => ∑ i ∈ range rows, (starRingEnd ℂ) (q i k) * y i with hyt
  set v : Nat → ℂ := fun k => ∑ j ∈ range cols, r k j * x.getD j 0 with hv
  have hpart : partTot r yt cols 0 (fun j => x.getD j 0) = ∑ k ∈ range cols, ‖yt k - v k‖ ^ 2 := by
    unfold partTot
    rw [← range_eq_Ico]
    apply sum_congr rfl
    intro k hk
    rw [mem_range] at hk
    congr 3
    rw [hv]
    simp only []
    rw [range_eq_Ico, ← sum_Ico_consecutive _ (Nat.zero_le k) hk.le]
    rw [sum_eq_zero (s := Ico 0 k), zero_add]
    intro j hj
    rw [mem_Ico] at hj
    rw [hqr.tri k hk j hj.2, zero_mul]
  have hhx : ∀ i < rows, ∑ j ∈ range x.length, h i j * x.getD j 0 = ∑ k ∈ range cols, q i k * v k := by
    intro i hi
    rw [hx]
    have : ∀ j ∈ range cols, h i j * x.getD j 0 = ∑ k ∈ range cols, q i k * (r k j * x.getD j 0) := by
      intro j hj
      rw [hqr.fact i hi j (mem_range.1 hj), sum_mul]
      exact sum_congr rfl fun k _ => by ring
    rw [sum_congr rfl this, sum_comm]
    exact sum_congr rfl fun k _ => by rw [hv, mul_sum]
  have hs1 : sqErr rows y h x = ∑ i ∈ range rows, ‖y i - ∑ k ∈ range cols, q i k * v k‖ ^ 2 := by
    unfold sqErr
    exact sum_congr rfl fun i hi => by rw [hhx i (mem_range.1 hi)]
  -- energy of `q v`
  have hE : ∑ i ∈ range rows, ‖∑ k ∈ range cols, q i k * v k‖ ^ 2 = ∑ k ∈ range cols, ‖v k‖ ^ 2 := by
    have hc : ((∑ i ∈ range rows, ‖∑ k ∈ range cols, q i k * v k‖ ^ 2 : ℝ) : ℂ) = ((∑ k ∈ range cols, ‖v k‖ ^ 2 : ℝ) : ℂ) := by
      push_cast
      have h1 : ∀ i ∈ range rows, ((‖∑ k ∈ range cols, q i k * v k‖ : ℝ) : ℂ) ^ 2 =
          ∑ a ∈ range cols, ∑ b ∈ range cols, (starRingEnd ℂ) (q i a) * q i b * ((starRingEnd ℂ) (v a) * v b) := by
        intro i _
        rw [← Complex.conj_mul', map_sum, sum_mul_sum]
        refine sum_congr rfl fun a _ => sum_congr rfl fun b _ => ?_
        rw [map_mul]; ring
      rw [sum_congr rfl h1, sum_comm]
      refine sum_congr rfl fun a ha => ?_
      rw [sum_comm]
      have h2 : ∀ b ∈ range cols, ∑ i ∈ range rows, (starRingEnd ℂ) (q i a) * q i b * ((starRingEnd ℂ) (v a) * v b) =
          (if a = b then 1 else 0) * ((starRingEnd ℂ) (v a) * v b) := by
        intro b hb
        rw [← sum_mul, hqr.orth a (mem_range.1 ha) b (mem_range.1 hb)]
      rw [sum_congr rfl h2, sum_eq_single a]
      · rw [if_pos rfl, one_mul, Complex.conj_mul']
      · intro b _ hb
        rw [if_neg (Ne.symm hb), zero_mul]
      · intro hn
        exact absurd ha hn
    exact_mod_cast hc
  -- inner products
  have hI : ∑ i ∈ range rows, ((starRingEnd ℂ) (∑ k ∈ range cols, q i k * v k) * y i).re =
      ∑ k ∈ range cols, ((starRingEnd ℂ) (v k) * yt k).re := by
    rw [← Complex.re_sum, ← Complex.re_sum]
    congr 1
    have h1 : ∀ i ∈ range rows, (starRingEnd ℂ) (∑ k ∈ range cols, q i k * v k) * y i =
        ∑ k ∈ range cols, (starRingEnd ℂ) (v k) * ((starRingEnd ℂ) (q i k) * y i) := by
      intro i _
      rw [map_sum, sum_mul]
      exact sum_congr rfl fun k _ => by rw [map_mul]; ring
    rw [sum_congr rfl h1, sum_comm]
    exact sum_congr rfl fun k _ => by rw [hyt, mul_sum]
  rw [hs1, hpart]
  simp only [sq_norm_sub, sum_sub_distrib, sum_add_distrib, ← mul_sum]
  rw [hE, hI]
  ring

/-! ### The property -/

theorem kCands_inv {argsort : List ℝ → List Nat} (hsort : ∀ l, IsArgsort l (argsort l)) (qr : (Nat → Nat → ℂ) × (Nat → Nat → ℂ))
    (junk : Nat → ℂ) (rows cols : Nat) (y : Nat → ℂ) (c : List ℂ) (K : Nat) :
    ∀ a ∈ kCands argsort qr junk rows cols y c K,
      KInv qr.2 (fun k => ∑ i ∈ range rows, (starRingEnd ℂ) (qr.1 i k) * y i) c cols 0 a := by
  unfold kCands
  simp only [list_sum_finset]
  refine kLoop_inv hsort cols le_rfl ?_
  intro a ha
  rw [List.mem_singleton] at ha
  subst ha
  constructor
  · intro i h1 h2; omega
  · intro i _; simp
  · simp [partTot]

theorem kvec {c : List ℂ} {a : KCand} {cols : Nat} (h : ∀ i, 0 ≤ i → i < cols → a.x i ∈ c) :
    IsVector c cols ((List.range cols).map a.x) := by
  refine ⟨by simp, ?_⟩
  intro z hz
  obtain ⟨i, hi, rfl⟩ := List.mem_map.1 hz
  exact h i (Nat.zero_le _) (List.mem_range.1 hi)

theorem kvec_getD {x : Nat → ℂ} {cols i : Nat} (hi : i < cols) : ((List.range cols).map x).getD i 0 = x i := by
  rw [List.getD_eq_getElem _ _ (by simpa using hi)]
  simp

section
variable {argsort : List ℝ → List Nat} {qr : (Nat → Nat → ℂ) → (Nat → Nat → ℂ) × (Nat → Nat → ℂ)} {rows cols : Nat} {h : Nat → Nat → ℂ}
  {c : List ℂ} {K : Nat}

theorem kbest_hard (hsort : ∀ l, IsArgsort l (argsort l)) (hrc : cols ≤ rows) (hc : c ≠ []) (hK : 1 ≤ K) (junk y : Nat → ℂ) (nv : ℝ)
    (demode : List ℂ → List Nat) : ∃ a t, kCands argsort (qr h) junk rows cols y c K = a :: t ∧
    kbest argsort qr junk rows cols y h c K nv "hard" demode = .ok (.inl ((List.range cols).map a.x)) := by
  have hne : kCands argsort (qr h) junk rows cols y c K ≠ [] := kLoop_length hsort hc hK _ _ (by simp)
  match hk : kCands argsort (qr h) junk rows cols y c K, hne with
  | a :: t, _ =>
    refine ⟨a, t, rfl, ?_⟩
    unfold kbest
    rw [if_neg (by omega), if_neg hc, if_pos rfl, hk]

/-- C69. Whatever the number `K ≥ 1` of kept candidates, the hard output is a vector of constellation points. -/
theorem C69_valid (hsort : ∀ l, IsArgsort l (argsort l)) (hrc : cols ≤ rows) (hc : c ≠ []) (hK : 1 ≤ K) (junk y : Nat → ℂ) (nv : ℝ)
    (demode : List ℂ → List Nat) :
    ∃ x, kbest argsort qr junk rows cols y h c K nv "hard" demode = .ok (.inl x) ∧ IsVector c cols x := by
  obtain ⟨a, t, ha, he⟩ := kbest_hard (qr := qr) (h := h) hsort hrc hc hK junk y nv demode
  exact ⟨_, he, kvec (kCands_inv hsort (qr h) junk rows cols y c K a (by rw [ha]; simp)).mem⟩

/-- C69. The accumulated metric of every candidate is its true squared distance, up to a constant common to all vectors, provided the
QR routine keeps its contract. -/
theorem C69_metric (hsort : ∀ l, IsArgsort l (argsort l)) (hqr : IsQR rows cols h (qr h).1 (qr h).2) (junk y : Nat → ℂ) :
    ∃ C : ℝ, ∀ a ∈ kCands argsort (qr h) junk rows cols y c K, a.tot + C = sqErr rows y h ((List.range cols).map a.x) := by
  obtain ⟨C, hC⟩ := qr_distance hqr y
  refine ⟨C, fun a ha => ?_⟩
  rw [hC _ (by simp), (kCands_inv hsort (qr h) junk rows cols y c K a ha).tot]
  congr 1
  exact partTot_congr fun i _ hi => (kvec_getD hi).symm

/-- C69. For every `K ≥ 1`, no change of the first entry brings the hard output closer to the received vector. -/
theorem C69_first_entry (hsort : ∀ l, IsArgsort l (argsort l)) (hqr : IsQR rows cols h (qr h).1 (qr h).2) (hrc : cols ≤ rows)
    (hcols : 1 ≤ cols) (hc : c ≠ []) (hK : 1 ≤ K) (junk y : Nat → ℂ) (nv : ℝ) (demode : List ℂ → List Nat) :
    ∃ z x, kbest argsort qr junk rows cols y h c K nv "hard" demode = .ok (.inl (z :: x)) ∧
      ∀ s ∈ c, sqErr rows y h (z :: x) ≤ sqErr rows y h (s :: x) := by
  obtain ⟨a, t, ha, he⟩ := kbest_hard (qr := qr) (h := h) hsort hrc hc hK junk y nv demode
  obtain ⟨n, rfl⟩ : ∃ n, cols = n + 1 := ⟨cols - 1, by omega⟩
  refine ⟨a.x 0, (List.range n).map fun i => a.x (i + 1), ?_, ?_⟩
  · rw [he, List.range_succ_eq_map, List.map_cons, List.map_map]
    rfl
  · intro s hs
    obtain ⟨C, hC⟩ := qr_distance hqr y
    set yt : Nat → ℂ := fun k => ∑ i ∈ range rows, (starRingEnd ℂ) ((qr h).1 i k) * y i with hyt
    have hinv := kCands_inv hsort (qr h) junk rows (n + 1) y c K a (by rw [ha]; simp)
    -- the last step
    have hlast : ∃ cands, kCands argsort (qr h) junk rows (n + 1) y c K = kStep argsort (qr h).2 c K cands 0 ∧
        ∀ b ∈ cands, KInv (qr h).2 yt c (n + 1) 1 b := by
      have gen : ∀ (k : Nat) (cands : List KCand), k + 1 ≤ n + 1 → (∀ b ∈ cands, KInv (qr h).2 yt c (n + 1) (k + 1) b) →
          ∃ cands', kLoop argsort (qr h).2 c K (k + 1) cands = kStep argsort (qr h).2 c K cands' 0 ∧
            ∀ b ∈ cands', KInv (qr h).2 yt c (n + 1) 1 b := by
        intro k
        induction k with
        | zero => intro cands _ hi; exact ⟨cands, rfl, hi⟩
        | succ k ih =>
          intro cands hk hi
          refine ih (kStep argsort (qr h).2 c K cands (k + 1)) (by omega) ?_
          intro b hb
          obtain ⟨s, hs, a, ha, rfl⟩ := kStep_mem hsort hb
          exact kinv_step (by omega) (hi a ha) hs
      unfold kCands
      simp only [list_sum_finset]
      refine gen n _ le_rfl ?_
      intro b hb
      rw [List.mem_singleton] at hb
      subst hb
      exact ⟨fun i h1 h2 => by omega, fun i _ => by simp [hyt], by simp [partTot]⟩
    obtain ⟨cands, hk, hci⟩ := hlast
    have hmem : a ∈ kStep argsort (qr h).2 c K cands 0 := by rw [← hk, ha]; simp
    obtain ⟨s0, hs0, b, hb, hab⟩ := kStep_mem hsort hmem
    have hle := kStep_head hsort (hk.symm.trans ha) hs hb
    have h1 := (kinv_step (k := 0) (by omega) (hci b hb) hs).tot
    have h2 : (kFinish (qr h).2 0 s (kExtend (qr h).2 0 s b)).tot = (kExtend (qr h).2 0 s b).tot := rfl
    rw [h2] at h1
    rw [h1, hinv.tot] at hle
    rw [hC _ (by simp), hC _ (by simp)]
    refine add_le_add (le_trans (le_of_eq (partTot_congr ?_)) (hle.trans (le_of_eq (partTot_congr ?_)))) le_rfl
    · intro i _ hi
      cases i with
      | zero => rfl
      | succ i => rw [List.getD_cons_succ, kvec_getD (by omega)]
    · intro i _ hi
      cases i with
      | zero => simp [kFinish, kExtend]
      | succ i =>
        rw [List.getD_cons_succ, kvec_getD (by omega), hab]
        simp [kFinish, kExtend]

/-- C69. With `K ≥ m^(n-1)` kept candidates the hard output is a maximum likelihood decision. -/
theorem C69_ml (hsort : ∀ l, IsArgsort l (argsort l)) (hqr : IsQR rows cols h (qr h).1 (qr h).2) (hrc : cols ≤ rows) (hc : c ≠ [])
    (hK : c.length ^ (cols - 1) ≤ K) (junk y : Nat → ℂ) (nv : ℝ) (demode : List ℂ → List Nat) :
    ∃ x, kbest argsort qr junk rows cols y h c K nv "hard" demode = .ok (.inl x) ∧ IsML rows cols y h c x := by
  have hpos : 0 < c.length := List.length_pos_iff.2 hc
  have hK1 : 1 ≤ K := le_trans (Nat.pow_pos hpos) hK
  obtain ⟨a, t, ha, he⟩ := kbest_hard (qr := qr) (h := h) hsort hrc hc hK1 junk y nv demode
  have hinv := kCands_inv hsort (qr h) junk rows cols y c K a (by rw [ha]; simp)
  refine ⟨_, he, kvec hinv.mem, ?_⟩
  intro x' hx'
  rcases Nat.eq_zero_or_pos cols with h0 | hcp
  · subst h0
    have : x' = [] := List.length_eq_zero_iff.1 hx'.1
    rw [this]
    exact le_of_eq rfl
  obtain ⟨C, hC⟩ := qr_distance hqr y
  set yt : Nat → ℂ := fun k => ∑ i ∈ range rows, (starRingEnd ℂ) ((qr h).1 i k) * y i with hyt
  obtain ⟨n, rfl⟩ : ∃ n, cols = n + 1 := ⟨cols - 1, by omega⟩
  have hmin : ∀ b ∈ (kCands argsort (qr h) junk rows (n + 1) y c K).head?, KInv (qr h).2 yt c (n + 1) 0 b →
      b.tot ≤ partTot (qr h).2 yt (n + 1) 0 (fun j => x'.getD j 0) := by
    unfold kCands
    simp only [list_sum_finset]
    -- strengthen with the invariant of the candidates at level 1
    have gen : ∀ (k : Nat) (cands : List KCand), k + 1 ≤ n + 1 → (∀ b ∈ cands, KInv (qr h).2 yt c (n + 1) (k + 1) b) →
        cands.length ≤ c.length ^ (n + 1 - (k + 1)) →
        (∃ b ∈ cands, ∀ i, k + 1 ≤ i → i < n + 1 → b.x i = x'.getD i 0) →
        ∀ b ∈ (kLoop argsort (qr h).2 c K (k + 1) cands).head?,
          b.tot ≤ partTot (qr h).2 yt (n + 1) 0 (fun j => x'.getD j 0) := by
      have hxm : ∀ i < n + 1, x'.getD i 0 ∈ c := by
        intro i hi
        rw [List.getD_eq_getElem _ _ (by rw [hx'.1]; exact hi)]
        exact hx'.2 _ (List.getElem_mem _)
      intro k
      induction k with
      | zero =>
        intro cands _ hi _ hex b hb
        obtain ⟨a0, ha0, hax⟩ := hex
        match hs : kStep argsort (qr h).2 c K cands 0 with
        | [] =>
          have : kLoop argsort (qr h).2 c K (0 + 1) cands = [] := hs
          rw [this] at hb
          cases hb
        | b0 :: t0 =>
          have : kLoop argsort (qr h).2 c K (0 + 1) cands = b0 :: t0 := hs
          rw [this] at hb
          obtain rfl : b0 = b := by simpa using hb
          have hle := kStep_head hsort hs (hxm 0 (by omega)) ha0
          refine hle.trans (le_of_eq ?_)
          have h1 := (kinv_step (k := 0) (by omega) (hi a0 ha0) (hxm 0 (by omega))).tot
          refine Eq.trans h1 (partTot_congr ?_)
          intro i _ hin
          simp only [kFinish, kExtend]
          by_cases h : i = 0
          · rw [h, Function.update_self]
          · rw [Function.update_of_ne h]; exact hax i (by omega) hin
      | succ k ih =>
        intro cands hk hi hlen hex
        have hle : c.length * cands.length ≤ c.length ^ (n + 1 - (k + 1)) := by
          calc c.length * cands.length ≤ c.length * c.length ^ (n + 1 - (k + 1 + 1)) := Nat.mul_le_mul_left _ hlen
            _ = c.length ^ (n + 1 - (k + 1)) := by rw [← pow_succ']; congr 1; omega
        have hle2 : c.length ^ (n + 1 - (k + 1)) ≤ c.length ^ (n + 1 - 1) := Nat.pow_le_pow_right hpos (by omega)
        refine ih (kStep argsort (qr h).2 c K cands (k + 1)) (by omega) ?_ ?_ ?_
        · intro b hb
          obtain ⟨s, hs, a, ha, rfl⟩ := kStep_mem hsort hb
          exact kinv_step (by omega) (hi a ha) hs
        · rw [kStep_length hsort]; omega
        · obtain ⟨a0, ha0, hax⟩ := hex
          refine ⟨_, kStep_complete hsort (by omega) (hxm (k + 1) (by omega)) ha0, ?_⟩
          intro i h1 h2
          simp only [kFinish, kExtend]
          by_cases h : i = k + 1
          · rw [h, Function.update_self]
          · rw [Function.update_of_ne h]; exact hax i (by omega) h2
    intro b hb _
    refine gen n _ le_rfl ?_ (by simp) ⟨_, List.mem_singleton.2 rfl, fun i h1 h2 => by omega⟩ b hb
    intro b hb
    rw [List.mem_singleton] at hb
    subst hb
    exact ⟨fun i h1 h2 => by omega, fun i _ => by simp [hyt], by simp [partTot]⟩
  have hm := hmin a (by rw [ha]; simp) hinv
  rw [hC _ (by simp), hC _ hx'.1]
  refine add_le_add (le_trans (le_of_eq ?_) hm) le_rfl
  rw [hinv.tot]
  exact partTot_congr fun i _ hi => kvec_getD hi

/-- C69. More columns than rows, or an unknown output type, raise ValueError. -/
theorem C69_refused (junk y : Nat → ℂ) (nv : ℝ) (out : String) (demode : List ℂ → List Nat) :
    (rows < cols → kbest argsort qr junk rows cols y h c K nv out demode = .error .valueError) ∧
    (c ≠ [] → out ≠ "hard" → out ≠ "soft" → kbest argsort qr junk rows cols y h c K nv out demode = .error .valueError) := by
  constructor
  · intro hlt
    unfold kbest
    rw [if_pos hlt]
  · intro hc h1 h2
    unfold kbest
    split
    · rfl
    · simp only [if_neg h1, if_neg h2, if_neg hc]

end

/-- A sorting routine meeting the contract. -/
noncomputable def someArgsort (l : List ℝ) : List Nat :=
  (List.range l.length).mergeSort fun i j => decide (l.getD i 0 ≤ l.getD j 0)

theorem someArgsort_spec (l : List ℝ) : IsArgsort l (someArgsort l) := by
  refine ⟨List.mergeSort_perm _ _, ?_⟩
  rw [List.pairwise_map]
  have h := List.pairwise_mergeSort (le := fun i j => decide (l.getD i 0 ≤ l.getD j 0))
    (fun a b c h1 h2 => by simp only [decide_eq_true_eq] at *; exact h1.trans h2)
    (fun a b => by simp only [Bool.or_eq_true, decide_eq_true_eq]; exact le_total _ _) (List.range l.length)
  exact h.imp fun h => by simpa using h

/-- The hypotheses of `C69_ml` are met by a 3 × 2 channel with BPSK symbols and `K = 2`. -/
example : ∃ x, kbest someArgsort (fun h => (fun i j => if i = j then 1 else 0, h)) (fun _ => 7) 3 2 (fun i => (i : ℂ) - 1)
    (fun i j => if i < 2 then (if i ≤ j then 2 else 0) else 0) [1, -1] 2 1 "hard" (fun _ => []) = .ok (.inl x) ∧
    IsML 3 2 (fun i => (i : ℂ) - 1) (fun i j => if i < 2 then (if i ≤ j then 2 else 0) else 0) [1, -1] x := by
  refine C69_ml someArgsort_spec ?_ (by norm_num) (by simp) (by norm_num) _ _ _ _
  constructor
  · intro i hi j hj
    interval_cases i <;> interval_cases j <;> norm_num [sum_range_succ]
  · intro a ha b hb
    interval_cases a <;> interval_cases b <;> norm_num [sum_range_succ]
  · intro i hi j hj
    interval_cases i <;> interval_cases j <;> norm_num

end Verif
