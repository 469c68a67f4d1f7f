import Verif.Spec.SpaFloat
import Verif.Props.LdpcCorrectEx
import Verif.Props.LdpcSpc
/-
C121: sum-product decoding in double precision when the LLRs are large.
-/
namespace Verif

variable {D : SpaFloats} {T : ℝ}

/-- The model with exact functions is the exact model of `Model/LdpcDecode`. -/
theorem spaDecodeF_exact (nanSign : NanSigns) (oneLeft : Py (List (List Bool × List (Option ℝ)))) (H : Checks) (nv n : Nat) (llrs : List ℝ)
    (hnv : 0 < nv) (hl : llrs.length = nv) :
    bpDecode nanSign oneLeft .spa H nv n llrs =
      .ok ([((spaDecodeF ⟨id, Real.tanh, logProd, Real.artanh⟩ (nanSign 0) H nv n llrs).1,
        (spaDecodeF ⟨id, Real.tanh, logProd, Real.artanh⟩ (nanSign 0) H nv n llrs).2.1)],
        (spaDecodeF ⟨id, Real.tanh, logProd, Real.artanh⟩ (nanSign 0) H nv n llrs).2.2) := by
  set D : SpaFloats := ⟨id, Real.tanh, logProd, Real.artanh⟩ with hD
  have hne : llrs ≠ [] := by rintro rfl; simp at hl; omega
  have hrow : ∀ ns x v, spaRowF D ns x v = spaRow ns x v := by
    intro ns x v
    unfold spaRowF spaRow
    rcases ns.mapM x with _ | xs
    · rfl
    rcases x v with _ | xv
    · rfl
    simp only [hD, id]
    have e1 : ∀ l : List ℝ, (if (0 : ℝ) ∈ l then 0 else logProd l) = logProd l := by
      intro l
      by_cases h : (0 : ℝ) ∈ l
      · rw [if_pos h, logProd, if_pos h]
      · rw [if_neg h]
    rw [e1]
    have e2 : ∀ y, atanhClipF D y = atanhClip y := by
      intro y
      unfold atanhClipF atanhClip
      simp only [hD, id, mul_comm]
    rw [← hD, e2]
  have htot : ∀ llr m v, totalLlrF D H llr m v = totalLlr H llr m v := by
    intro llr m v
    unfold totalLlrF totalLlr sumMsgF nanSum
    simp only [hD, id]
    congr 2
    funext xs
    rw [List.sum_eq_foldl]
  have hiter : ∀ ns llr k st, bpIter ns .spa H llr k st = .ok (spaIterF D ns H llr k st) := by
    intro ns llr k st
    unfold bpIter spaIterF
    simp only [checkUpdate]
    show Except.ok _ = _
    congr 1
    have h1 : (fun c v => spaRow (H.getD c []) (st.msg c) v) = fun c v => spaRowF D (H.getD c []) (st.msg c) v := by
      funext c v; rw [hrow]
    rw [h1]
    have h2 : totalLlr H llr (fun c v => spaRowF D (H.getD c []) (st.msg c) v) = totalLlrF D H llr (fun c v => spaRowF D (H.getD c []) (st.msg c) v) := by
      funext v; rw [htot]
    rw [h2]
    rfl
  have hloop : ∀ ns llr n k st, bpLoop ns .spa H llr n k st = .ok (spaLoopF D ns H llr n k st) := by
    intro ns llr n
    induction n with
    | zero => intro k st; rfl
    | succ n ih =>
      intro k st
      simp only [bpLoop, spaLoopF]
      by_cases hs : syndromeOk H st.dec = true
      · rw [if_pos hs, if_pos hs]
      · rw [if_neg hs, if_neg hs, hiter]
        exact ih _ _
  rw [bpDecode_eq nanSign oneLeft .spa H nv _ 1 llrs hnv (by omega) hne]
  simp only [List.range_one, List.mapM_cons, List.mapM_nil, Nat.zero_mul, List.drop_zero, bpBlock, hloop]
  rw [List.take_of_length_le (by simp [hl])]
  rfl

/-! ### The saturated regime -/

theorem sign_cast_int (x : ℝ) : ∃ j : ℤ, (SignType.sign x : ℝ) = j ∧ |j| ≤ 1 := by
  rcases lt_trichotomy x 0 with h | h | h
  · exact ⟨-1, by rw [sign_neg h]; simp, by norm_num⟩
  · exact ⟨0, by rw [h]; simp, by norm_num⟩
  · exact ⟨1, by rw [sign_pos h]; simp, by norm_num⟩

theorem prod_sign_int (l : List Nat) (x : Nat → ℝ) : ∃ j : ℤ, (l.map (fun u => (SignType.sign (x u) : ℝ))).prod = j ∧ |j| ≤ 1 := by
  induction l with
  | nil => exact ⟨1, by simp, by norm_num⟩
  | cons a l ih =>
    obtain ⟨j, h1, h2⟩ := ih
    obtain ⟨i, h3, h4⟩ := sign_cast_int (x a)
    refine ⟨i * j, ?_, ?_⟩
    · rw [List.map_cons, List.prod_cons, h1, h3]; push_cast; ring
    · rw [abs_mul]
      calc |i| * |j| ≤ 1 * 1 := mul_le_mul h4 h2 (abs_nonneg _) (by norm_num)
        _ = 1 := by norm_num

theorem voteRule_int (ns : List Nat) (x : Nat → ℝ) (v : Nat) : ∃ j : ℤ, voteRule ns x v = 500 * j ∧ |j| ≤ 1 := by
  obtain ⟨j, h1, h2⟩ := prod_sign_int (ns.filter (fun u => u ≠ v)) x
  exact ⟨j, by unfold voteRule; rw [h1], h2⟩

theorem sum_vote_int (l : List Nat) (f : Nat → ℝ) (h : ∀ c ∈ l, ∃ j : ℤ, f c = 500 * j ∧ |j| ≤ 1) :
    ∃ j : ℤ, (l.map f).sum = 500 * j ∧ |j| ≤ l.length := by
  induction l with
  | nil => exact ⟨0, by simp, by simp⟩
  | cons c l ih =>
    obtain ⟨j, h1, h2⟩ := ih fun c hc => h c (List.mem_cons_of_mem _ hc)
    obtain ⟨i, h3, h4⟩ := h c (by simp)
    refine ⟨i + j, ?_, ?_⟩
    · rw [List.map_cons, List.sum_cons, h1, h3]; push_cast; ring
    · rw [List.length_cons]
      push_cast
      have := abs_add_le i j
      linarith

theorem bpMsgs_vote (H : Checks) (llr : Nat → ℝ) (k c v : Nat) :
    ∃ j : ℤ, bpMsgs voteRule H llr k c v = llr v + 500 * j ∧ |j| ≤ (checksOf H v).length := by
  cases k with
  | zero => exact ⟨0, by simp [bpMsgs], by simp⟩
  | succ k =>
    obtain ⟨j, h1, h2⟩ := sum_vote_int ((List.range H.length).filter (fun c' => v ∈ H.getD c' [] ∧ c' ≠ c))
      (fun c' => voteRule (H.getD c' []) (bpMsgs voteRule H llr k c') v) (fun c _ => voteRule_int _ _ _)
    refine ⟨j, by simp only [bpMsgs]; rw [h1], h2.trans ?_⟩
    have : ((List.range H.length).filter (fun c' => decide (v ∈ H.getD c' [] ∧ c' ≠ c))).length ≤ (checksOf H v).length := by
      unfold checksOf
      rw [← List.countP_eq_length_filter, ← List.countP_eq_length_filter]
      apply List.countP_mono_left
      intro a _ ha
      simp only [decide_eq_true_eq] at ha ⊢
      exact ha.1
    exact_mod_cast this

theorem bpTotal_vote (H : Checks) (llr : Nat → ℝ) (k v : Nat) :
    ∃ j : ℤ, bpTotal voteRule H llr k v = llr v + 500 * j ∧ |j| ≤ (checksOf H v).length := by
  cases k with
  | zero => exact ⟨0, by simp [bpTotal], by simp⟩
  | succ k =>
    obtain ⟨j, h1, h2⟩ := sum_vote_int (checksOf H v)
      (fun c' => voteRule (H.getD c' []) (bpMsgs voteRule H llr k c') v) (fun c _ => voteRule_int _ _ _)
    exact ⟨j, by simp only [bpTotal]; unfold checksOf at h1; rw [h1], h2⟩

/-- A value `x + 500 j` with `x` in the admissible range stays large. -/
theorem vote_large {x : ℝ} {j : ℤ} {a : ℝ} (h1 : a ≤ |x|) (h2 : |x| ≤ 500 - a) : a ≤ |x + 500 * j| := by
  rcases eq_or_ne j 0 with rfl | hj
  · simpa using h1
  · have h3 : (1 : ℝ) ≤ |(j : ℝ)| := by exact_mod_cast Int.one_le_abs hj
    have h4 : |(500 : ℝ) * j| ≤ |x + 500 * j| + |x| := by
      calc |(500 : ℝ) * j| = |(x + 500 * j) - x| := by ring_nf
        _ ≤ |x + 500 * j| + |x| := abs_sub _ _
    rw [abs_mul] at h4
    norm_num at h4
    linarith

theorem tanh_saturated (hD : Saturating D T) (hT : 1 ≤ T) {y z : ℝ} (h1 : 2 * T + 1 ≤ |y|) (h2 : |y| ≤ 10 ^ 9) (hz : |z - y| ≤ 1 / 10 ^ 6) :
    D.tanh (D.fl (z * (1 / 2))) = (SignType.sign y : ℝ) := by
  have hpos : ∀ y z : ℝ, 2 * T + 1 ≤ y → y ≤ 10 ^ 9 → |z - y| ≤ 1 / 10 ^ 6 → |D.fl (z * (1 / 2)) - z * (1 / 2)| ≤ 1 / 4 := by
    intro y z h1 h2 hz
    rw [abs_le] at hz
    have hp : 0 < z * (1 / 2) := by linarith
    have := hD.fl_err (z * (1 / 2)) (by rw [abs_of_pos hp]; linarith) (by
      rw [abs_of_pos hp]
      calc z * (1 / 2) ≤ 10 ^ 9 := by linarith
        _ ≤ 2 ^ 100 := by norm_num)
    refine this.trans ?_
    rw [abs_of_pos hp, div_le_iff₀ (by positivity)]
    calc z * (1 / 2) ≤ 10 ^ 9 := by linarith
      _ ≤ 1 / 4 * 2 ^ 53 := by norm_num
  have hneg : ∀ y z : ℝ, 2 * T + 1 ≤ -y → -y ≤ 10 ^ 9 → |z - y| ≤ 1 / 10 ^ 6 → |D.fl (z * (1 / 2)) - z * (1 / 2)| ≤ 1 / 4 := by
    intro y z h1 h2 hz
    rw [abs_le] at hz
    have hp : z * (1 / 2) < 0 := by linarith
    have := hD.fl_err (z * (1 / 2)) (by rw [abs_of_neg hp]; linarith) (by
      rw [abs_of_neg hp]
      calc -(z * (1 / 2)) ≤ 10 ^ 9 := by linarith
        _ ≤ 2 ^ 100 := by norm_num)
    refine this.trans ?_
    rw [abs_of_neg hp, div_le_iff₀ (by positivity)]
    calc -(z * (1 / 2)) ≤ 10 ^ 9 := by linarith
      _ ≤ 1 / 4 * 2 ^ 53 := by norm_num
  rcases le_total 0 y with h | h
  · rw [abs_of_nonneg h] at h1 h2
    have h3 := abs_le.1 (hpos y z h1 h2 hz)
    have h4 := abs_le.1 hz
    rw [sign_pos (by linarith), hD.tanh_pos _ (by linarith)]; simp
  · rw [abs_of_nonpos h] at h1 h2
    have h3 := abs_le.1 (hneg y z h1 h2 hz)
    have h4 := abs_le.1 hz
    rw [sign_neg (by linarith), hD.tanh_neg _ (by linarith)]; simp

/-- One saturated check node. -/
theorem spaRowF_vote (hD : Saturating D T) (hT : 1 ≤ T) {ns : List Nat} (hnd : ns.Nodup) (x : Nat → Option ℝ) (z y : Nat → ℝ)
    (hx : ∀ u ∈ ns, x u = some (z u)) (hz : ∀ u ∈ ns, |z u - y u| ≤ 1 / 10 ^ 6)
    (h1 : ∀ u ∈ ns, 2 * T + 1 ≤ |y u|) (h2 : ∀ u ∈ ns, |y u| ≤ 10 ^ 9) {v : Nat} (hv : v ∈ ns) :
    spaRowF D ns x v = some (voteRule ns y v) := by
  have ht : ∀ u ∈ ns, D.tanh (D.fl (z u * (1 / 2))) = (SignType.sign (y u) : ℝ) := fun u hu => tanh_saturated hD hT (h1 u hu) (h2 u hu) (hz u hu)
  have hs : ∀ u ∈ ns, (SignType.sign (y u) : ℝ) = 1 ∨ (SignType.sign (y u) : ℝ) = -1 := by
    intro u hu
    have := h1 u hu
    rcases lt_trichotomy (y u) 0 with h | h | h
    · right; rw [sign_neg h]; simp
    · rw [h] at this; simp at this; linarith
    · left; rw [sign_pos h]; simp
  unfold spaRowF
  rw [mapM_some ns x z hx, hx v hv]
  simp only [List.map_map]
  have hm : ns.map ((fun y => D.tanh (D.fl (y * (1 / 2)))) ∘ z) = ns.map (fun u => (SignType.sign (y u) : ℝ)) :=
    List.map_congr_left fun u hu => ht u hu
  rw [hm, ht v hv]
  have h0 : (0 : ℝ) ∉ ns.map (fun u => (SignType.sign (y u) : ℝ)) := by
    intro h
    obtain ⟨u, hu, he⟩ := List.mem_map.1 h
    rcases hs u hu with h | h <;> rw [h] at he <;> norm_num at he
  have hv0 : (SignType.sign (y v) : ℝ) ≠ 0 := by rcases hs v hv with h | h <;> rw [h] <;> norm_num
  rw [if_neg h0, if_neg hv0, hD.prod_signs _ (by
    intro a ha
    obtain ⟨u, hu, rfl⟩ := List.mem_map.1 ha
    exact hs u hu)]
  congr 1
  rw [prod_factor hnd hv]
  set P := ((ns.filter (fun u => u ≠ v)).map (fun u => (SignType.sign (y u) : ℝ))).prod with hP
  have hPs : P = 1 ∨ P = -1 := by
    rw [hP]
    have : ∀ l : List Nat, (∀ u ∈ l, u ∈ ns) → (l.map (fun u => (SignType.sign (y u) : ℝ))).prod = 1 ∨
        (l.map (fun u => (SignType.sign (y u) : ℝ))).prod = -1 := by
      intro l
      induction l with
      | nil => intro _; left; simp
      | cons a l ih =>
        intro h
        rw [List.map_cons, List.prod_cons]
        rcases ih fun u hu => h u (List.mem_cons_of_mem _ hu) with e | e <;> rcases hs a (h a (by simp)) with e' | e' <;> rw [e, e'] <;> norm_num
    exact this _ fun u hu => (List.mem_filter.1 hu).1
  have f1 : D.fl 1 = 1 := by simpa using hD.fl_int 1 (by norm_num)
  have f2 : D.fl (-1) = -1 := by simpa using hD.fl_int (-1) (by norm_num)
  have hvote : voteRule ns y v = 500 * P := rfl
  rw [hvote]
  unfold atanhClipF llrMax
  rcases hs v hv with e | e <;> rcases hPs with e' | e' <;> rw [e, e'] <;> norm_num [f1, f2]

theorem sumMsgF_vote (hD : Saturating D T) (l : List Nat) (hl : l.length ≤ 10 ^ 6) (m : Nat → Option ℝ) (f : Nat → ℝ) (hm : ∀ c ∈ l, m c = some (f c))
    (h : ∀ c ∈ l, ∃ j : ℤ, f c = 500 * j ∧ |j| ≤ 1) : sumMsgF D (l.map m) = some (l.map f).sum := by
  unfold sumMsgF
  rw [mapM_some (l.map m) id (fun o => o.getD 0) (by
    intro o ho
    obtain ⟨c, hc, rfl⟩ := List.mem_map.1 ho
    rw [hm c hc]; rfl)]
  simp only [Option.map_some, List.map_map]
  have e : l.map ((fun o => o.getD 0) ∘ m) = l.map f := List.map_congr_left fun c hc => by simp [hm c hc]
  rw [e]
  congr 1
  have gen : ∀ (l : List Nat) (s : ℝ) (i : ℤ), s = 500 * i → |i| + l.length ≤ 10 ^ 6 → (∀ c ∈ l, ∃ j : ℤ, f c = 500 * j ∧ |j| ≤ 1) →
      (l.map f).foldl (fun s x => D.fl (s + x)) s = s + (l.map f).sum := by
    intro l
    induction l with
    | nil => intro s i _ _ _; simp
    | cons c l ih =>
      intro s i hs hb h
      obtain ⟨j, h1, h2⟩ := h c (by simp)
      rw [List.length_cons] at hb
      push_cast at hb
      have h3 : |i + j| ≤ |i| + 1 := (abs_add_le i j).trans (by linarith)
      have hfl : D.fl (s + f c) = s + f c := by
        have := hD.fl_int (500 * (i + j)) (by
          rw [abs_mul]
          norm_num
          linarith [Int.natCast_nonneg l.length])
        rw [hs, h1]
        push_cast at this
        rw [← mul_add]
        exact this
      simp only [List.map_cons, List.foldl_cons, List.sum_cons]
      rw [hfl, ih (s + f c) (i + j) (by rw [hs, h1]; push_cast; ring) (by linarith) (fun c hc => h c (List.mem_cons_of_mem _ hc))]
      ring
  have := gen l 0 0 (by simp) (by simpa using (by exact_mod_cast hl)) h
  rw [this, zero_add]

/-- What the decoder knows after `k` iterations. -/
structure VoteState (H : Checks) (nv : Nat) (llr : Nat → ℝ) (k : Nat) (st : BpState) : Prop where
  msg : ∀ c v, BpEdge H c v → ∃ z, st.msg c v = some z ∧ |z - bpMsgs voteRule H llr k c v| ≤ 1 / 10 ^ 6
  dec : ∀ v < nv, st.dec v = decide (bpTotal voteRule H llr k v < 0)
  out : ∀ v < nv, ∃ z, st.out v = some z ∧ |z - bpTotal voteRule H llr k v| ≤ 1 / 10 ^ 6

/-- Rounding a value close to `x + 500 j` with at most a million votes. -/
theorem fl_close (hD : Saturating D T) {x : ℝ} (h1 : 1 ≤ |x|) (h2 : |x| ≤ 10 ^ 9) : |D.fl x - x| ≤ 1 / (4 * 10 ^ 6) := by
  refine (hD.fl_err x h1 (h2.trans (by norm_num))).trans ?_
  rw [div_le_iff₀ (by positivity)]
  refine h2.trans ?_
  norm_num

theorem vote_bound {x : ℝ} {j : ℤ} {d : Nat} (hd : d ≤ 10 ^ 6) (hx : |x| ≤ 500) (hj : |j| ≤ d) : |x + 500 * j| ≤ 10 ^ 9 - 1 := by
  have h1 : |(j : ℝ)| ≤ 10 ^ 6 := by
    have : |j| ≤ 10 ^ 6 := hj.trans (by exact_mod_cast hd)
    exact_mod_cast this
  calc |x + 500 * j| ≤ |x| + |500 * (j : ℝ)| := abs_add_le _ _
    _ = |x| + 500 * |(j : ℝ)| := by rw [abs_mul]; norm_num
    _ ≤ 10 ^ 9 - 1 := by linarith

theorem vote_step (hD : Saturating D T) (hT : 1 ≤ T) (ns : Nat → Nat → Bool) {H : Checks} {nv : Nat} (hH : GoodChecks H nv)
    (hdeg : ∀ v < nv, (checksOf H v).length ≤ 10 ^ 6) {llr : Nat → ℝ} (hlo : ∀ v < nv, 2 * T + 1 ≤ |llr v|) (hhi : ∀ v < nv, |llr v| ≤ 499 - 2 * T)
    {k : Nat} {st : BpState} (h : VoteState H nv llr k st) : VoteState H nv llr (k + 1) (spaIterF D ns H llr k st) := by
  have hx5 : ∀ v < nv, |llr v| ≤ 500 := fun v hv => (hhi v hv).trans (by linarith)
  have hmlo : ∀ k c, ∀ v < nv, 2 * T + 1 ≤ |bpMsgs voteRule H llr k c v| ∧ |bpMsgs voteRule H llr k c v| ≤ 10 ^ 9 - 1 := by
    intro k c v hv
    obtain ⟨j, e, hj⟩ := bpMsgs_vote H llr k c v
    rw [e]
    exact ⟨vote_large (hlo v hv) (by have := hhi v hv; linarith), vote_bound (hdeg v hv) (hx5 v hv) hj⟩
  have htlo : ∀ k, ∀ v < nv, 2 * T + 1 ≤ |bpTotal voteRule H llr k v| ∧ |bpTotal voteRule H llr k v| ≤ 10 ^ 9 - 1 := by
    intro k v hv
    obtain ⟨j, e, hj⟩ := bpTotal_vote H llr k v
    rw [e]
    exact ⟨vote_large (hlo v hv) (by have := hhi v hv; linarith), vote_bound (hdeg v hv) (hx5 v hv) hj⟩
  have hrow : ∀ c v, BpEdge H c v → spaRowF D (H.getD c []) (st.msg c) v = some (voteRule (H.getD c []) (bpMsgs voteRule H llr k c) v) := by
    intro c v he
    have hm := getD_mem he.1
    have hex : ∀ u ∈ H.getD c [], ∃ z, st.msg c u = some z ∧ |z - bpMsgs voteRule H llr k c u| ≤ 1 / 10 ^ 6 := fun u hu => h.msg c u ⟨he.1, hu⟩
    choose! z hz1 hz2 using hex
    exact spaRowF_vote hD hT (hH _ hm).1 (st.msg c) z _ hz1 hz2 (fun u hu => (hmlo k c u ((hH _ hm).2 u hu)).1)
      (fun u hu => (hmlo k c u ((hH _ hm).2 u hu)).2.trans (by linarith)) he.2
  have htot : ∀ v < nv, ∃ t, totalLlrF D H llr (fun c v => spaRowF D (H.getD c []) (st.msg c) v) v = some t ∧
      |t - bpTotal voteRule H llr (k + 1) v| ≤ 1 / (4 * 10 ^ 6) := by
    intro v hv
    unfold totalLlrF
    rw [sumMsgF_vote hD (checksOf H v) (hdeg v hv) (fun c => spaRowF D (H.getD c []) (st.msg c) v)
      (fun c => voteRule (H.getD c []) (bpMsgs voteRule H llr k c) v) (fun c hc => hrow c v (mem_checksOf.1 hc)) (fun c _ => voteRule_int _ _ _)]
    refine ⟨_, rfl, ?_⟩
    have e : ((checksOf H v).map fun c => voteRule (H.getD c []) (bpMsgs voteRule H llr k c) v).sum + llr v = bpTotal voteRule H llr (k + 1) v := by
      simp only [bpTotal, checksOf]; ring
    dsimp only
    rw [e]
    exact fl_close hD ((by linarith : (1 : ℝ) ≤ 2 * T + 1).trans (htlo (k + 1) v hv).1) ((htlo (k + 1) v hv).2.trans (by linarith))
  refine ⟨?_, ?_, ?_⟩
  · intro c v he
    have hv : v < nv := (hH _ (getD_mem he.1)).2 v he.2
    obtain ⟨t, h1, h2⟩ := htot v hv
    simp only [spaIterF]
    rw [h1, hrow c v he]
    refine ⟨_, rfl, ?_⟩
    have e := bpMsgs_succ voteRule H llr k c v he
    have h3 := hmlo (k + 1) c v hv
    set a := voteRule (H.getD c []) (bpMsgs voteRule H llr k c) v
    have h4 : |(-a + t) - bpMsgs voteRule H llr (k + 1) c v| ≤ 1 / (4 * 10 ^ 6) := by
      rw [e]
      have : -a + t - (-a + bpTotal voteRule H llr (k + 1) v) = t - bpTotal voteRule H llr (k + 1) v := by ring
      rw [this]; exact h2
    have h5 : 1 ≤ |-a + t| := by
      have := abs_sub_abs_le_abs_sub (bpMsgs voteRule H llr (k + 1) c v) (-a + t)
      rw [abs_sub_comm] at this
      have h6 : (1 : ℝ) / (4 * 10 ^ 6) ≤ 1 := by norm_num
      linarith [h3.1]
    have h6 : |-a + t| ≤ 10 ^ 9 := by
      have := abs_sub_abs_le_abs_sub (-a + t) (bpMsgs voteRule H llr (k + 1) c v)
      have h7 : (1 : ℝ) / (4 * 10 ^ 6) ≤ 1 := by norm_num
      linarith [h3.2]
    have h7 := fl_close hD h5 h6
    calc |D.fl (-a + t) - bpMsgs voteRule H llr (k + 1) c v|
        = |(D.fl (-a + t) - (-a + t)) + ((-a + t) - bpMsgs voteRule H llr (k + 1) c v)| := by ring_nf
      _ ≤ _ := abs_add_le _ _
      _ ≤ 1 / (4 * 10 ^ 6) + 1 / (4 * 10 ^ 6) := add_le_add h7 h4
      _ ≤ 1 / 10 ^ 6 := by norm_num
  · intro v hv
    obtain ⟨t, h1, h2⟩ := htot v hv
    simp only [spaIterF]
    rw [h1]
    simp only [signBit]
    congr 1
    have h3 := (htlo (k + 1) v hv).1
    have h4 : (1 : ℝ) / (4 * 10 ^ 6) ≤ 1 := by norm_num
    rw [abs_le] at h2
    rcases le_total 0 (bpTotal voteRule H llr (k + 1) v) with h | h
    · rw [abs_of_nonneg h] at h3
      simp only [eq_iff_iff]
      constructor <;> intro <;> linarith
    · rw [abs_of_nonpos h] at h3
      simp only [eq_iff_iff]
      constructor <;> intro <;> linarith
  · intro v hv
    obtain ⟨t, h1, h2⟩ := htot v hv
    exact ⟨t, h1, h2.trans (by norm_num)⟩

theorem checksHold_congr {H : Checks} {nv : Nat} (hH : GoodChecks H nv) {d d' : Nat → Bool} (h : ∀ v < nv, d v = d' v) : ChecksHold H d ↔ ChecksHold H d' := by
  unfold ChecksHold
  refine forall₂_congr fun ns hns => ?_
  rw [List.countP_congr]
  intro v hv
  rw [h v ((hH ns hns).2 v hv)]

theorem vote_loop (hD : Saturating D T) (hT : 1 ≤ T) (ns : Nat → Nat → Bool) {H : Checks} {nv : Nat} (hH : GoodChecks H nv)
    (hdeg : ∀ v < nv, (checksOf H v).length ≤ 10 ^ 6) {llr : Nat → ℝ} (hlo : ∀ v < nv, 2 * T + 1 ≤ |llr v|) (hhi : ∀ v < nv, |llr v| ≤ 499 - 2 * T) :
    ∀ n k st, VoteState H nv llr k st → (∀ j < k, ¬ ChecksHold H (fun v => bpTotal voteRule H llr j v < 0)) →
      ∃ K, StopsAt voteRule H llr (k + n) K ∧ VoteState H nv llr K (spaLoopF D ns H llr n k st) := by
  intro n
  induction n with
  | zero =>
    intro k st h hj
    exact ⟨k, ⟨le_rfl, Or.inl rfl, hj⟩, h⟩
  | succ n ih =>
    intro k st h hj
    have hd := checksHold_congr hH (d := st.dec) (d' := fun v => decide (bpTotal voteRule H llr k v < 0)) h.dec
    by_cases hs : syndromeOk H st.dec = true
    · refine ⟨k, ⟨by omega, Or.inr (hd.1 ((syndromeOk_iff _ _).1 hs)), hj⟩, ?_⟩
      simp only [spaLoopF]
      rw [if_pos hs]
      exact h
    · obtain ⟨K, h1, h2⟩ := ih (k + 1) (spaIterF D ns H llr k st) (vote_step hD hT ns hH hdeg hlo hhi h) (by
        intro j hjk
        rcases Nat.lt_succ_iff_lt_or_eq.1 hjk with h' | rfl
        · exact hj j h'
        · intro hc
          exact hs ((syndromeOk_iff _ _).2 (hd.2 hc)))
      refine ⟨K, by rw [show k + (n + 1) = k + 1 + n by omega]; exact h1, ?_⟩
      simp only [spaLoopF]
      rw [if_neg hs]
      exact h2

/-- C121: in double precision, sum-product decoding of LLRs whose magnitudes are at least `2 T + 1` (and at most `499 - 2 T`) is a vote: every
check tells each of its bits, with weight 500 whatever the LLRs, the parity of the signs of the others; the LLRs of the channel only break ties. -/
theorem C121_vote (hD : Saturating D T) (hT : 1 ≤ T) (ns : Nat → Nat → Bool) (H : Checks) (nv n : Nat) (llrs : List ℝ) (hl : llrs.length = nv)
    (hH : GoodChecks H nv) (hdeg : ∀ v < nv, (checksOf H v).length ≤ 10 ^ 6) (hlo : ∀ x ∈ llrs, 2 * T + 1 ≤ |x|) (hhi : ∀ x ∈ llrs, |x| ≤ 499 - 2 * T) :
    ∃ K out, StopsAt voteRule H (fun v => llrs.getD v 0) n K ∧
      spaDecodeF D ns H nv n llrs = ((List.range nv).map (fun v => decide (bpTotal voteRule H (fun v => llrs.getD v 0) K v < 0)), out, llrs) ∧
      out.length = nv ∧ ∀ v < nv, ∃ z, out[v]? = some (some z) ∧ |z - bpTotal voteRule H (fun v => llrs.getD v 0) K v| ≤ 1 / 10 ^ 6 := by
  have hclip : llrs.map (clipR llrMax) = llrs := by
    conv_rhs => rw [← List.map_id llrs]
    refine List.map_congr_left fun x hx => ?_
    have := abs_le.1 (hhi x hx)
    unfold clipR llrMax
    rw [min_eq_right (by linarith), max_eq_right (by linarith)]; rfl
  have hget : ∀ v < nv, llrs.getD v 0 ∈ llrs := by
    intro v hv
    rw [List.getD_eq_getElem _ _ (by omega)]
    exact List.getElem_mem _
  obtain ⟨K, h1, h2⟩ := vote_loop hD hT ns hH hdeg (fun v hv => hlo _ (hget v hv)) (fun v hv => hhi _ (hget v hv)) n 0
    (bpInit (fun v => llrs.getD v 0))
    ⟨fun c v _ => ⟨_, rfl, by simp [bpMsgs]⟩, fun v _ => rfl, fun v _ => ⟨_, rfl, by simp [bpTotal]⟩⟩ (by omega)
  rw [Nat.zero_add] at h1
  refine ⟨K, (List.range nv).map (spaLoopF D ns H (fun v => llrs.getD v 0) n 0 (bpInit (fun v => llrs.getD v 0))).out, h1, ?_, by simp, ?_⟩
  · unfold spaDecodeF
    simp only [hclip]
    congr 1
    exact List.map_congr_left fun v hv => h2.dec v (List.mem_range.1 hv)
  · intro v hv
    obtain ⟨z, e, hz⟩ := h2.out v hv
    exact ⟨z, by rw [List.getElem?_map, List.getElem?_range hv, Option.map_some, e], hz⟩


/-- C121: one iteration of the real (double-precision) sum-product decoder corrects every set `E` of sign errors, whatever the magnitudes in
the saturated range, if at every other bit at most half of the checks, and at every bit of `E` fewer than half of the checks, contain another error. -/
theorem C121_pattern (hD : Saturating D T) (hT : 1 ≤ T) (ns : Nat → Nat → Bool) (H : Checks) (nv n : Nat) (llrs : List ℝ) (hl : llrs.length = nv)
    (hH : GoodChecks H nv) (hdeg : ∀ v < nv, (checksOf H v).length ≤ 10 ^ 6) (hlo : ∀ x ∈ llrs, 2 * T + 1 ≤ |x|) (hhi : ∀ x ∈ llrs, |x| ≤ 499 - 2 * T)
    (w : Nat → Bool) (hw : ChecksHold H w) (hn : 1 ≤ n) (E : Finset Nat) (hgood : ∀ v < nv, v ∉ E → decide (llrs.getD v 0 < 0) = w v)
    (hout : ∀ v < nv, v ∉ E → 2 * hitChecks H E v ≤ (checksOf H v).length)
    (hin : ∀ v < nv, v ∈ E → 2 * hitChecks H E v < (checksOf H v).length) :
    ∃ out arr, spaDecodeF D ns H nv n llrs = ((List.range nv).map w, out, arr) := by
  obtain ⟨K, out, hK, hdec, -⟩ := C121_vote hD hT ns H nv n llrs hl hH hdeg hlo hhi
  rw [hdec]
  have hget : ∀ v < nv, llrs.getD v 0 ∈ llrs := by
    intro v hv
    rw [List.getD_eq_getElem _ _ (by omega)]
    exact List.getElem_mem _
  set llr : Nat → ℝ := fun v => llrs.getD v 0 with hllr
  set y : Nat → ℝ := fun v => flipSign w v * llr v with hy
  have hyg : ∀ v < nv, v ∉ E → 0 < y v := by
    intro v hv hE
    have h1 := hgood v hv hE
    have h2 := hlo _ (hget v hv)
    show 0 < flipSign w v * llrs.getD v 0
    unfold flipSign
    rw [← h1]
    by_cases hneg : llrs.getD v 0 < 0
    · simp only [hneg, decide_true, if_true]
      linarith
    · simp only [hneg, decide_false, Bool.false_eq_true, if_false, one_mul]
      rw [abs_of_nonneg (not_lt.1 hneg)] at h2
      linarith
  have hy5 : ∀ v < nv, -499 ≤ y v := by
    intro v hv
    have h2 := hhi _ (hget v hv)
    have : |y v| ≤ 499 := by
      show |flipSign w v * llrs.getD v 0| ≤ 499
      rw [abs_mul, abs_flipSign, one_mul]; linarith
    exact (abs_le.1 this).1
  have hrule : ∀ c v, BpEdge H c v → voteRule (H.getD c []) llr v = flipSign w v * voteRule (H.getD c []) y v := by
    intro c v he
    have hm := getD_mem he.1
    unfold voteRule
    have e1 : ∀ u, (SignType.sign (llr u) : ℝ) = flipSign w u * (SignType.sign (y u) : ℝ) := by
      intro u
      rw [hy]
      dsimp only
      rw [sign_mul]
      push_cast
      rw [sign_flipSign, ← mul_assoc, flipSign_mul_self, one_mul]
    simp only [e1]
    rw [List.prod_map_mul, prod_others w (hH _ hm).1 (hw _ hm) he.2]
    ring
  have h1 : ∀ v < nv, decide (bpTotal voteRule H llr 1 v < 0) = w v := by
    intro v hv
    have hsum := sum_ge_count (checksOf H v) (fun c => ∃ u ∈ H.getD c [], u ≠ v ∧ u ∈ E) (fun c => voteRule (H.getD c []) y v) 500 500
      (by
        intro c _ _
        unfold voteRule
        have := (abs_le.1 (abs_prod_signs_le ((H.getD c []).filter (fun u => u ≠ v)) y)).1
        linarith)
      (by
        intro c hc hno
        rw [mem_checksOf] at hc
        have hm := getD_mem hc.1
        unfold voteRule
        rw [prod_signs_one]
        · norm_num
        · intro u hu
          simp only [List.mem_filter, decide_eq_true_eq] at hu
          exact hyg u ((hH _ hm).2 u hu.1) (fun hE => hno ⟨u, hu.1, hu.2, hE⟩))
    have e : bpTotal voteRule H llr 1 v = flipSign w v * (y v + ((checksOf H v).map fun c => voteRule (H.getD c []) y v).sum) := by
      have : ((checksOf H v).map fun c => voteRule (H.getD c []) llr v) = (checksOf H v).map fun c => flipSign w v * voteRule (H.getD c []) y v :=
        List.map_congr_left fun c hc => hrule c v (mem_checksOf.1 hc)
      rw [mul_add, ← List.sum_map_mul_left, ← this]
      show llr v + _ = flipSign w v * (flipSign w v * llr v) + _
      rw [← mul_assoc, flipSign_mul_self, one_mul]
      rfl
    refine decide_flip e ?_
    change (((checksOf H v).length : ℝ) - hitChecks H E v) * 500 - hitChecks H E v * 500 ≤ _ at hsum
    by_cases hE : v ∈ E
    · have h2 : (2 : ℝ) * hitChecks H E v + 1 ≤ (checksOf H v).length := by exact_mod_cast hin v hv hE
      have := hy5 v hv
      linarith
    · have h2 : (2 : ℝ) * hitChecks H E v ≤ (checksOf H v).length := by exact_mod_cast hout v hv hE
      have := hyg v hv hE
      linarith
  have h0 : ChecksHold H (fun v => bpTotal voteRule H llr 0 v < 0) → ∀ v < nv, decide (bpTotal voteRule H llr 0 v < 0) = w v := by
    intro hch
    by_contra hcon
    push Not at hcon
    obtain ⟨v, hv, hne⟩ := hcon
    have inE : ∀ u < nv, decide (bpTotal voteRule H llr 0 u < 0) ≠ w u → u ∈ E := by
      intro u hu hne
      by_contra hE
      exact hne (hgood u hu hE)
    have hE := inE v hv hne
    have hit : hitChecks H E v = (checksOf H v).length := by
      unfold hitChecks
      rw [List.countP_eq_length]
      intro c hc
      rw [mem_checksOf] at hc
      have hm := getD_mem hc.1
      obtain ⟨u, hu, huv, hd⟩ := differ_check hH hw hch hm hc.2 hne
      simp only [decide_eq_true_eq]
      exact ⟨u, hu, huv, inE u ((hH _ hm).2 u hu) hd⟩
    have h2 := hin v hv hE
    omega
  have hfin : ∀ v < nv, decide (bpTotal voteRule H llr K v < 0) = w v := by
    obtain ⟨k1, k2, k3⟩ := hK
    have hch1 : ChecksHold H (fun v => bpTotal voteRule H llr 1 v < 0) := (checksHold_congr hH h1).2 hw
    rcases Nat.eq_zero_or_pos K with rfl | hKp
    · rcases k2 with k2 | k2
      · omega
      · exact h0 k2
    · have : K = 1 := by
        by_contra hne
        exact k3 1 (by omega) hch1
      subst this
      exact h1
  have e : (List.range nv).map (fun v => decide (bpTotal voteRule H llr K v < 0)) = (List.range nv).map w :=
    List.map_congr_left fun v hv => hfin v (List.mem_range.1 hv)
  rw [e]
  exact ⟨_, _, rfl⟩

/-- C121: codes without cycles of length 4 in which every bit is in at least `2 e` checks: `e` sign errors are corrected by the first iteration
of the double-precision sum-product decoder, whatever the magnitudes in the saturated range. -/
theorem C121_errors (hD : Saturating D T) (hT : 1 ≤ T) (ns : Nat → Nat → Bool) (H : Checks) (nv n e : Nat) (llrs : List ℝ) (hl : llrs.length = nv)
    (hH : GoodChecks H nv) (hg : NoFourCycle H) (hcol : ∀ v < nv, 2 * e ≤ (checksOf H v).length)
    (hdeg : ∀ v < nv, (checksOf H v).length ≤ 10 ^ 6) (hlo : ∀ x ∈ llrs, 2 * T + 1 ≤ |x|) (hhi : ∀ x ∈ llrs, |x| ≤ 499 - 2 * T)
    (w : Nat → Bool) (hw : ChecksHold H w) (hn : 1 ≤ n)
    (herr : ((List.range nv).filter (fun v => decide (llrs.getD v 0 < 0) ≠ w v)).length ≤ e) :
    ∃ out arr, spaDecodeF D ns H nv n llrs = ((List.range nv).map w, out, arr) := by
  classical
  set E : Finset Nat := ((List.range nv).filter (fun v => decide (llrs.getD v 0 < 0) ≠ w v)).toFinset with hE
  have hcard : E.card ≤ e := (List.toFinset_card_le _).trans herr
  refine C121_pattern hD hT ns H nv n llrs hl hH hdeg hlo hhi w hw hn E ?_ ?_ ?_
  · intro v hv hnE
    by_contra hne
    exact hnE (by rw [hE, List.mem_toFinset, List.mem_filter]; exact ⟨List.mem_range.2 hv, by simpa using hne⟩)
  · intro v hv hnE
    have h1 := hitChecks_le hg E v
    rw [Finset.erase_eq_of_notMem hnE] at h1
    have := hcol v hv
    omega
  · intro v hv hvE
    have h1 := hitChecks_le hg E v
    rw [Finset.card_erase_of_mem hvE] at h1
    have h3 : 0 < E.card := Finset.card_pos.2 ⟨v, hvE⟩
    have := hcol v hv
    omega

/-- C121: the exact a posteriori LLRs of C90 are not what double precision returns.  One parity check, LLRs 100, 100, -100 (the third bit is probably
1, the word has odd parity): the posterior LLRs of the first bits are positive and that of the third negative, but the decoder
returns the word 1, 1, 0 with LLRs -400, -400, 400. -/
theorem C121_posterior_refuted (hD : Saturating D T) (hT : 1 ≤ T) (hT2 : T ≤ 49) (ns : Nat → Nat → Bool) :
    (∃ a b c : ℝ, spaDecodeF D ns [[0, 1, 2]] 3 1 [100, 100, -100] = ([true, true, false], [some a, some b, some c], [100, 100, -100]) ∧
      |a + 400| ≤ 1 / 10 ^ 6 ∧ |b + 400| ≤ 1 / 10 ^ 6 ∧ |c - 400| ≤ 1 / 10 ^ 6) ∧
    0 < posteriorLlr [0, 1, 2] (fun v => [100, 100, -100].getD v 0) 0 ∧ 0 < posteriorLlr [0, 1, 2] (fun v => [100, 100, -100].getD v 0) 1 ∧
    posteriorLlr [0, 1, 2] (fun v => [100, 100, -100].getD v 0) 2 < 0 := by
  constructor
  · obtain ⟨K, out, ⟨k1, k2, k3⟩, hdec, hlen, hval⟩ := C121_vote hD hT ns [[0, 1, 2]] 3 1 [100, 100, -100] rfl (sorted_good (by decide)) (by decide)
      (by
        intro x hx
        simp only [List.mem_cons, List.not_mem_nil, or_false] at hx
        rcases hx with rfl | rfl | rfl <;> norm_num <;> linarith)
      (by
        intro x hx
        simp only [List.mem_cons, List.not_mem_nil, or_false] at hx
        rcases hx with rfl | rfl | rfl <;> norm_num <;> linarith)
    have hodd : ¬ ChecksHold [[0, 1, 2]] (fun v => bpTotal voteRule [[0, 1, 2]] (fun v => ([100, 100, -100] : List ℝ).getD v 0) 0 v < 0) := by
      intro h
      have := h [0, 1, 2] (by simp)
      simp only [bpTotal] at this
      norm_num [List.countP_cons] at this
    have hK : K = 1 := by
      rcases Nat.eq_zero_or_pos K with rfl | h
      · rcases k2 with k2 | k2
        · omega
        · exact absurd k2 hodd
      · omega
    subst hK
    have p : (SignType.sign (100 : ℝ) : ℝ) = 1 := by rw [sign_pos (by norm_num)]; simp
    have m : (SignType.sign (-100 : ℝ) : ℝ) = -1 := by rw [sign_neg (by norm_num)]; simp
    have t0 : bpTotal voteRule [[0, 1, 2]] (fun v => ([100, 100, -100] : List ℝ).getD v 0) 1 0 = -400 := by
      simp [bpTotal, bpMsgs, voteRule, List.filter_cons, p, m]; norm_num
    have t1 : bpTotal voteRule [[0, 1, 2]] (fun v => ([100, 100, -100] : List ℝ).getD v 0) 1 1 = -400 := by
      simp [bpTotal, bpMsgs, voteRule, List.filter_cons, p, m]; norm_num
    have t2 : bpTotal voteRule [[0, 1, 2]] (fun v => ([100, 100, -100] : List ℝ).getD v 0) 1 2 = 400 := by
      simp [bpTotal, bpMsgs, voteRule, List.filter_cons, p, m]; norm_num
    obtain ⟨a, ha, ha'⟩ := hval 0 (by norm_num)
    obtain ⟨b, hb, hb'⟩ := hval 1 (by norm_num)
    obtain ⟨c, hc, hc'⟩ := hval 2 (by norm_num)
    rw [t0] at ha'
    rw [t1] at hb'
    rw [t2] at hc'
    refine ⟨a, b, c, ?_, by simpa using ha', by simpa using hb', hc'⟩
    rw [hdec]
    have ho : out = [some a, some b, some c] := by
      apply List.ext_getElem?
      intro i
      rcases i with _ | _ | _ | i
      · exact ha
      · exact hb
      · exact hc
      · rw [List.getElem?_eq_none (by omega), List.getElem?_eq_none (by simp)]
    rw [ho]
    congr 1
    simp only [List.range, List.range.loop, List.map_cons, List.map_nil, t0, t1, t2]
    norm_num
  · have hlt : Real.tanh 50 * Real.tanh 50 < Real.tanh 50 := by
      have h0 : 0 < Real.tanh 50 := by
        rw [Real.tanh_eq_sinh_div_cosh]
        exact div_pos (Real.sinh_pos_iff.2 (by norm_num)) (Real.cosh_pos _)
      have h1 := (abs_lt.1 (abs_tanh_lt 50)).2
      nlinarith
    have h0 : 0 < Real.tanh 50 := by
      rw [Real.tanh_eq_sinh_div_cosh]
      exact div_pos (Real.sinh_pos_iff.2 (by norm_num)) (Real.cosh_pos _)
    have h1 := (abs_lt.1 (abs_tanh_lt 50)).2
    have key : 2 * Real.artanh (Real.tanh 50 * Real.tanh 50) < 100 := by
      have e : Real.artanh (Real.tanh 50) = 50 := Real.artanh_tanh 50
      have : Real.artanh (Real.tanh 50 * Real.tanh 50) < Real.artanh (Real.tanh 50) := by
        apply Real.strictMonoOn_artanh
        · exact ⟨by nlinarith, by nlinarith⟩
        · exact ⟨by linarith, h1⟩
        · exact hlt
      linarith
    refine ⟨?_, ?_, ?_⟩
    · rw [posteriorLlr_eq (by decide) (by decide) (by decide)]
      have : ((([0, 1, 2] : List Nat).filter (fun u => u ≠ 0)).map (fun u => Real.tanh (([100, 100, -100] : List ℝ).getD u 0 / 2))).prod =
          -(Real.tanh 50 * Real.tanh 50) := by
        simp [List.filter_cons]
        rw [neg_div, Real.tanh_neg]; norm_num
      rw [this, artanh_odd]
      simp
      linarith
    · rw [posteriorLlr_eq (by decide) (by decide) (by decide)]
      have : ((([0, 1, 2] : List Nat).filter (fun u => u ≠ 1)).map (fun u => Real.tanh (([100, 100, -100] : List ℝ).getD u 0 / 2))).prod =
          -(Real.tanh 50 * Real.tanh 50) := by
        simp [List.filter_cons]
        rw [neg_div, Real.tanh_neg]; norm_num
      rw [this, artanh_odd]
      simp
      linarith
    · rw [posteriorLlr_eq (by decide) (by decide) (by decide)]
      have : ((([0, 1, 2] : List Nat).filter (fun u => u ≠ 2)).map (fun u => Real.tanh (([100, 100, -100] : List ℝ).getD u 0 / 2))).prod =
          Real.tanh 50 * Real.tanh 50 := by
        simp [List.filter_cons]
        norm_num
      rw [this]
      simp
      linarith

/-- Non-vacuity: functions that satisfy the contract (here with exact sums and products, and `tanh` cut off at 22). -/
noncomputable def cutFloats : SpaFloats :=
  ⟨id, fun x => if 22 ≤ x then 1 else if x ≤ -22 then -1 else Real.tanh x, List.prod, Real.artanh⟩

theorem cutFloats_saturating : Saturating cutFloats 22 where
  fl_int _ _ := rfl
  fl_err x _ _ := by
    simp [cutFloats]
    positivity
  tanh_pos x h := by simp [cutFloats, h]
  tanh_neg x h := by
    have : ¬ (22 : ℝ) ≤ x := by linarith
    simp [cutFloats, this, h]
  prod_signs _ _ := rfl

/-- Non-vacuity: an error in bit 4 of a word of the code `k4Checks`, LLRs of different magnitudes. -/
example (ns : Nat → Nat → Bool) :
    ∃ out arr, spaDecodeF cutFloats ns k4Checks 6 3 [-50, -450, 60, -70, -400, 45] = ([true, true, false, true, false, false], out, arr) := by
  have := C121_errors cutFloats_saturating (by norm_num) ns k4Checks 6 3 1 [-50, -450, 60, -70, -400, 45] rfl k4_good k4_girth (by decide) (by decide)
    (by
      intro x hx
      simp only [List.mem_cons, List.not_mem_nil, or_false] at hx
      rcases hx with rfl | rfl | rfl | rfl | rfl | rfl <;> norm_num)
    (by
      intro x hx
      simp only [List.mem_cons, List.not_mem_nil, or_false] at hx
      rcases hx with rfl | rfl | rfl | rfl | rfl | rfl <;> norm_num)
    (fun v => decide (v = 0 ∨ v = 1 ∨ v = 3)) k4_word (by norm_num) (by
      have e : (List.range 6).filter (fun v => decide (([-50, -450, 60, -70, -400, 45] : List ℝ).getD v 0 < 0) ≠ decide (v = 0 ∨ v = 1 ∨ v = 3)) = [4] := by
        norm_num [List.range, List.range.loop]
      rw [e]; rfl)
  exact this

end Verif
