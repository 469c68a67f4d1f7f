import Verif.Props.Kbest
import Verif.Props.MaxLog
/-
C149: soft outputs of `kbest` when no candidate is dropped.
-/
namespace Verif
open Finset

/-- Squared distances of all the vectors of constellation points whose word has value `v` at position `k`. -/
def vecDist (rows n : Nat) (y : Nat → ℂ) (h : Nat → Nat → ℂ) (c : List ℂ) (word : List ℂ → List Nat) (k v : Nat) : Set ℝ :=
  {d | ∃ x, IsVector c n x ∧ (word x).getD k 0 = v ∧ d = sqErr rows y h x}

section
variable {argsort : List ℝ → List Nat} {qr : (Nat → Nat → ℂ) → (Nat → Nat → ℂ) × (Nat → Nat → ℂ)} {rows cols : Nat} {h : Nat → Nat → ℂ} {c : List ℂ} {K : Nat}

/-- With room for all of them, every vector is among the candidates. -/
theorem kCands_complete (hsort : ∀ l, IsArgsort l (argsort l)) (q : (Nat → Nat → ℂ) × (Nat → Nat → ℂ)) (hc : c ≠ []) (hK : c.length ^ cols ≤ K) (junk y : Nat → ℂ) {x : List ℂ}
    (hx : IsVector c cols x) : ∃ a ∈ kCands argsort q junk rows cols y c K, (List.range cols).map a.x = x := by
  have hpos : 0 < c.length := List.length_pos_iff.2 hc
  have hxm : ∀ i < cols, x.getD i 0 ∈ c := by
    intro i hi
    rw [List.getD_eq_getElem _ _ (by rw [hx.1]; exact hi)]
    exact hx.2 _ (List.getElem_mem _)
  have gen : ∀ (k : Nat) (cands : List KCand), k ≤ cols → cands.length ≤ c.length ^ (cols - k) → (∃ b ∈ cands, ∀ i, k ≤ i → i < cols → b.x i = x.getD i 0) →
      ∃ b ∈ kLoop argsort q.2 c K k cands, ∀ i < cols, b.x i = x.getD i 0 := by
    intro k
    induction k with
    | zero =>
      intro cands _ _ hex
      obtain ⟨b, hb, hbx⟩ := hex
      exact ⟨b, hb, fun i hi => hbx i (Nat.zero_le _) hi⟩
    | succ k ih =>
      intro cands hk hlen hex
      have hle : c.length * cands.length ≤ c.length ^ (cols - k) := by
        calc c.length * cands.length ≤ c.length * c.length ^ (cols - (k + 1)) := Nat.mul_le_mul_left _ hlen
          _ = c.length ^ (cols - k) := by rw [← pow_succ']; congr 1; omega
      have hle2 : c.length ^ (cols - k) ≤ c.length ^ cols := Nat.pow_le_pow_right hpos (by omega)
      refine ih (kStep argsort q.2 c K cands k) (by omega) ?_ ?_
      · rw [kStep_length hsort]; omega
      · obtain ⟨a0, ha0, hax⟩ := hex
        refine ⟨_, kStep_complete hsort (by omega) (hxm k (by omega)) ha0, ?_⟩
        intro i h1 h2
        simp only [kFinish, kExtend]
        by_cases h : i = k
        · rw [h, Function.update_self]
        · rw [Function.update_of_ne h]; exact hax i (by omega) h2
  unfold kCands
  obtain ⟨b, hb, hbx⟩ := gen cols _ le_rfl (by simp) ⟨_, List.mem_singleton.2 rfl, fun i h1 h2 => by omega⟩
  refine ⟨b, hb, List.ext_getElem (by simp [hx.1]) fun i h1 h2 => ?_⟩
  have hi : i < cols := by simpa using h1
  rw [List.getElem_map, List.getElem_range, hbx i hi, List.getD_eq_getElem _ _ h2]

/-- C149: with `K ≥ len(constellation) ** nb_tx`, every soft output of `kbest` is the difference between the smallest squared distance of ALL vectors with bit 1 and of ALL
vectors with bit 0, over twice the noise variance (`±∞` if the bit is constant): whatever the QR routine returns, in whatever order ties are sorted. -/
theorem C149_values (hsort : ∀ l, IsArgsort l (argsort l)) (hrc : cols ≤ rows) (hc : c ≠ []) (hK : c.length ^ cols ≤ K) (junk y : Nat → ℂ) {nv : ℝ} (hnv : 0 < nv) {nb : Nat}
    {word : List ℂ → List Nat} (hw : ∀ x, IsVector c cols x → (word x).length = nb) {demode : List ℂ → List Nat}
    (hdem : ∀ xs : List (List ℂ), (∀ x ∈ xs, IsVector c cols x) → demode xs.flatten = (xs.map word).flatten) :
    ∃ llr, kbest argsort qr junk rows cols y h c K nv "soft" demode = .ok (.inr llr) ∧ llr.length = nb ∧ ∀ k < nb,
      (∀ d0 d1, IsLeast (vecDist rows cols y h c word k 0) d0 → IsLeast (vecDist rows cols y h c word k 1) d1 → llr.getD k 0 = (((d1 - d0) / (2 * nv) : ℝ) : EReal)) ∧
      ((vecDist rows cols y h c word k 0).Nonempty → vecDist rows cols y h c word k 1 = ∅ → llr.getD k 0 = ⊤) ∧
      (vecDist rows cols y h c word k 0 = ∅ → (vecDist rows cols y h c word k 1).Nonempty → llr.getD k 0 = ⊥) := by
  have hpos : 0 < c.length := List.length_pos_iff.2 hc
  have hK1 : 1 ≤ K := le_trans (Nat.pow_pos hpos) hK
  set pts := (kCands argsort (qr h) junk rows cols y c K).map fun a => (List.range cols).map a.x with hpts
  have hvec : ∀ x ∈ pts, IsVector c cols x := by
    intro x hx
    obtain ⟨a, ha, rfl⟩ := List.mem_map.1 hx
    exact kvec (kCands_inv hsort (qr h) junk rows cols y c K a ha).mem
  have hne : pts ≠ [] := by
    rw [hpts, Ne, List.map_eq_nil_iff]
    exact kLoop_length hsort hc hK1 _ _ (by simp)
  have hset : ∀ k v, candDist rows y h pts (pts.map word) k v = vecDist rows cols y h c word k v := by
    intro k v
    ext d
    constructor
    · rintro ⟨p, hp, h1, h2⟩
      rw [List.getD_eq_getElem (pts.map word) [] (show p < (pts.map word).length by rw [List.length_map]; exact hp), List.getElem_map] at h1
      rw [List.getD_eq_getElem _ _ hp] at h2
      exact ⟨pts[p], hvec _ (List.getElem_mem _), h1, h2⟩
    · rintro ⟨x, hx, h1, h2⟩
      obtain ⟨a, ha, hax⟩ := kCands_complete (rows := rows) hsort (qr h) hc hK junk y hx
      obtain ⟨p, hp, hpx⟩ := List.mem_iff_getElem.1 (show x ∈ pts from List.mem_map.2 ⟨a, ha, hax⟩)
      refine ⟨p, hp, ?_, ?_⟩
      · rw [List.getD_eq_getElem (pts.map word) [] (show p < (pts.map word).length by rw [List.length_map]; exact hp), List.getElem_map, hpx]; exact h1
      · rw [List.getD_eq_getElem _ _ hp, hpx]; exact h2
  obtain ⟨llr, h1, h2, h3⟩ := C72_values (rows := rows) (y := y) (h := h) (points := pts) (words := pts.map word) (nb := nb) (demode := demode) hne (by simp)
    (by intro w hw'; obtain ⟨x, hx, rfl⟩ := List.mem_map.1 hw'; exact hw x (hvec x hx)) (hdem pts hvec) hnv
  refine ⟨llr, ?_, h2, fun k hk => ?_⟩
  · unfold kbest
    rw [if_neg (by omega), if_neg hc, if_neg (by decide), if_pos rfl]
    rw [h1]
    rfl
  · rw [← hset k 0, ← hset k 1]
    exact h3 k hk

/-- C149, decisions: then a value above 0 means that every nearest vector has bit 0 there, a value below 0 that every nearest vector has bit 1. -/
theorem C149_sign (hsort : ∀ l, IsArgsort l (argsort l)) (hrc : cols ≤ rows) (hc : c ≠ []) (hK : c.length ^ cols ≤ K) (junk y : Nat → ℂ) {nv : ℝ} (hnv : 0 < nv) {nb : Nat}
    {word : List ℂ → List Nat} (hw : ∀ x, IsVector c cols x → (word x).length = nb) (hbits : ∀ x, IsVector c cols x → ∀ b ∈ word x, b = 0 ∨ b = 1) {demode : List ℂ → List Nat}
    (hdem : ∀ xs : List (List ℂ), (∀ x ∈ xs, IsVector c cols x) → demode xs.flatten = (xs.map word).flatten) :
    ∃ llr, kbest argsort qr junk rows cols y h c K nv "soft" demode = .ok (.inr llr) ∧ llr.length = nb ∧ ∀ x, IsML rows cols y h c x → ∀ k < nb,
      (0 < llr.getD k 0 → (word x).getD k 0 = 0) ∧ (llr.getD k 0 < 0 → (word x).getD k 0 = 1) := by
  have hpos : 0 < c.length := List.length_pos_iff.2 hc
  have hK1 : 1 ≤ K := le_trans (Nat.pow_pos hpos) hK
  set pts := (kCands argsort (qr h) junk rows cols y c K).map fun a => (List.range cols).map a.x with hpts
  have hvec : ∀ x ∈ pts, IsVector c cols x := by
    intro x hx
    obtain ⟨a, ha, rfl⟩ := List.mem_map.1 hx
    exact kvec (kCands_inv hsort (qr h) junk rows cols y c K a ha).mem
  have hne : pts ≠ [] := by
    rw [hpts, Ne, List.map_eq_nil_iff]
    exact kLoop_length hsort hc hK1 _ _ (by simp)
  obtain ⟨llr, h1, h2, h3⟩ := C72_sign (rows := rows) (y := y) (h := h) (points := pts) (words := pts.map word) (nb := nb) (demode := demode) hne (by simp)
    (by intro w hw'; obtain ⟨x, hx, rfl⟩ := List.mem_map.1 hw'; exact hw x (hvec x hx))
    (by intro w hw'; obtain ⟨x, hx, rfl⟩ := List.mem_map.1 hw'; exact hbits x (hvec x hx)) (hdem pts hvec) hnv
  refine ⟨llr, ?_, h2, fun x hx k hk => ?_⟩
  · unfold kbest
    rw [if_neg (by omega), if_neg hc, if_neg (by decide), if_pos rfl]
    rw [h1]
    rfl
  · obtain ⟨a, ha, hax⟩ := kCands_complete (rows := rows) hsort (qr h) hc hK junk y hx.1
    obtain ⟨p, hp, hpx⟩ := List.mem_iff_getElem.1 (show x ∈ pts from List.mem_map.2 ⟨a, ha, hax⟩)
    have h4 := h3 k hk p hp fun p' hp' => by
      rw [List.getD_eq_getElem _ _ hp, List.getD_eq_getElem _ _ hp', hpx]
      exact hx.2 _ (hvec _ (List.getElem_mem _))
    rw [List.getD_eq_getElem (pts.map word) [] (show p < (pts.map word).length by rw [List.length_map]; exact hp), List.getElem_map, hpx] at h4
    exact h4

end

/-- Two antennas, BPSK, 4 candidates; the QR routine may return anything. -/
example (qr : (Nat → Nat → ℂ) → (Nat → Nat → ℂ) × (Nat → Nat → ℂ)) : ∃ llr,
    kbest someArgsort qr (fun _ => 7) 2 2 (fun _ => 1) (fun i j => if i = j then 1 else 0) [1, -1] 4 2 "soft" (fun l => l.map fun z => if z = 1 then 0 else 1) = .ok (.inr llr) ∧ llr.length = 2 ∧
      llr.getD 0 0 = ((1 : ℝ) : EReal) ∧ llr.getD 1 0 = ((1 : ℝ) : EReal) := by
  obtain ⟨llr, h1, h2, h3⟩ := C149_values (argsort := someArgsort) (qr := qr) (rows := 2) (cols := 2) (c := [1, -1]) (K := 4) (h := fun i j => if i = j then 1 else 0) (nb := 2) (nv := 2)
    (word := fun x => x.map fun z => if z = 1 then 0 else 1) (demode := fun l => l.map fun z => if z = 1 then 0 else 1) someArgsort_spec le_rfl (by simp) (by norm_num) (fun _ => 7) (fun _ => 1) (by norm_num)
    (by intro x hx; simpa using hx.1) (by intro xs _; rw [List.map_flatten])
  have hn : (-1 : ℂ) ≠ 1 := by norm_num
  have four : ∀ x, IsVector [1, -1] 2 x → x = [1, 1] ∨ x = [1, -1] ∨ x = [-1, 1] ∨ x = [-1, -1] := by
    intro x hx
    match x, hx.1, hx.2 with
    | [a, b], _, hm =>
      have ha := hm a (by simp)
      have hb := hm b (by simp)
      simp only [List.mem_cons, List.not_mem_nil, or_false] at ha hb
      rcases ha with rfl | rfl <;> rcases hb with rfl | rfl <;> simp
  have dist : ∀ a b : ℂ, sqErr 2 (fun _ => 1) (fun i j => if i = j then 1 else 0) [a, b] = ‖1 - a‖ ^ 2 + ‖1 - b‖ ^ 2 := by
    intro a b
    simp [sqErr, sum_range_succ]
  have hv : ∀ a b : ℂ, a ∈ [(1 : ℂ), -1] → b ∈ [(1 : ℂ), -1] → IsVector [1, -1] 2 [a, b] := by
    intro a b ha hb
    refine ⟨rfl, fun z hz => ?_⟩
    simp only [List.mem_cons, List.not_mem_nil, or_false] at hz
    rcases hz with rfl | rfl
    · exact ha
    · exact hb
  have l0 : ∀ k < 2, IsLeast (vecDist 2 2 (fun _ => 1) (fun i j => if i = j then 1 else 0) [1, -1] (fun x => x.map fun z => if z = 1 then 0 else 1) k 0) 0 := by
    intro k hk
    refine ⟨⟨[1, 1], hv _ _ (by simp) (by simp), by interval_cases k <;> simp, by rw [dist]; simp⟩, ?_⟩
    rintro d ⟨x, -, -, rfl⟩
    unfold sqErr
    positivity
  have l1 : ∀ k < 2, IsLeast (vecDist 2 2 (fun _ => 1) (fun i j => if i = j then 1 else 0) [1, -1] (fun x => x.map fun z => if z = 1 then 0 else 1) k 1) 4 := by
    intro k hk
    constructor
    · interval_cases k
      · exact ⟨[-1, 1], hv _ _ (by simp) (by simp), by simp [hn], by rw [dist]; norm_num⟩
      · exact ⟨[1, -1], hv _ _ (by simp) (by simp), by simp [hn], by rw [dist]; norm_num⟩
    · rintro d ⟨x, hx, hk1, rfl⟩
      rcases four x hx with rfl | rfl | rfl | rfl <;> rw [dist] <;> interval_cases k <;> first | (exfalso; revert hk1; norm_num [hn]; done) | norm_num
  refine ⟨llr, h1, h2, ?_, ?_⟩
  · rw [(h3 0 (by norm_num)).1 0 4 (l0 0 (by norm_num)) (l1 0 (by norm_num))]; norm_num
  · rw [(h3 1 (by norm_num)).1 0 4 (l0 1 (by norm_num)) (l1 1 (by norm_num))]; norm_num

end Verif
