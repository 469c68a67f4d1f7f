import Verif.Props.Convcode
import Verif.Props.Interleavers
import Verif.Model.Turbo
import Verif.Spec.Turbo
import Verif.Lemmas.UtilitiesReal
/-
C50: `turbo_encode` (/repo/commpy/channelcoding/turbo.py:14-59).
-/
namespace Verif

theorem runOut_getD (t : Trellis) {j : Nat} (hj : j < t.n) : ∀ (us : List Nat) (s i : Nat), i < us.length →
    (t.runOut s us).getD (j + i * t.n) 0 = (toBits t.n (t.out (t.runState s (us.take i)) (us.getD i 0))).getD j 0 := by
  intro us
  induction us with
  | nil => intro s i hi; simp at hi
  | cons u us ih =>
    intro s i hi
    rcases i with _ | i
    · rw [Trellis.runOut, List.getD_append _ _ _ _ (by simpa using hj)]
      simp [Trellis.runState]
    · rw [Trellis.runOut, List.getD_append_right _ _ _ _ (by simp; nlinarith),
        show j + (i + 1) * t.n - (toBits t.n (t.out s u)).length = j + i * t.n by simp [Nat.add_mul]; omega, ih _ _ (by simpa using hi)]
      simp [Trellis.runState]

theorem outputs_append (t : Trellis) (j : Nat) (us vs : List Nat) : (t.outputs j (us ++ vs)).take us.length = t.outputs j us := by
  refine List.ext_getElem (by simp [Trellis.outputs]) fun i h1 h2 => ?_
  have hi : i < us.length := by simpa [Trellis.outputs] using h2
  simp only [Trellis.outputs, List.getElem_take, List.getElem_map, List.getElem_range]
  rw [List.take_append_of_le_length (by omega), List.getD_append _ _ _ _ hi]

theorem stride2_eq (l : List Nat) (s m : Nat) (hs : s < 2) (hl : l.length = 2 * m) :
    stride2 s l = (List.range m).map (fun i => l.getD (s + i * 2) 0) := by
  unfold stride2 strideIdx
  rw [List.map_map, show (l.length - s + 2 - 1) / 2 = m by omega]
  rfl

theorem filter_odd (m : Nat) : (List.range (2 * m)).filter (fun i => decide ([0, 1].getD (i % [0, 1].length) 0 = 1)) =
    (List.range m).map (fun i => 1 + i * 2) := by
  induction m with
  | zero => rfl
  | succ m ih =>
    rw [show 2 * (m + 1) = 2 * m + 1 + 1 by ring, List.range_succ, List.range_succ, List.filter_append, List.filter_append, ih,
      List.range_succ, List.map_append]
    have e1 : (2 * m) % 2 = 0 := by omega
    have e2 : (2 * m + 1) % 2 = 1 := by omega
    simp [e1, e2]
    omega

theorem punct_odd (l : List Nat) (m : Nat) (hl : l.length = 2 * m) :
    punctSelected [0, 1] l = (List.range m).map (fun i => l.getD (1 + i * 2) 0) := by
  unfold punctSelected
  rw [hl, filter_odd, List.map_map]
  rfl

/-- The bits fed to the encoder by `conv_encode(msg, trellis, 'rsc')`. -/
def turboInput (t : Trellis) (msg : List Nat) : List Nat := if t.rsc then msg else msg ++ List.replicate t.M 0

theorem encInput_turbo {t : Trellis} (hk : t.k = 1) (msg : List Nat) :
    (encInput t msg "rsc").1 = turboInput t msg ∧ (encInput t msg "rsc").2 = msg.length + t.M := by
  rw [encInput_fst, encInput_snd]
  unfold turboInput
  by_cases hr : t.rsc = true <;> simp [hr, hk, Nat.mod_one]

theorem run_turbo {t : Trellis} (h : t.WF) (hk : t.k = 1) (hn : t.n = 2) {outLen : Nat → Nat} {msg : List Nat} (hb : ∀ b ∈ msg, b < 2)
    (ho : outLen (msg.length + t.M) = 2 * (msg.length + t.M)) :
    ∃ s out, convEncodeRun outLen t msg "rsc" = .ok (s, out) ∧ out.length = 2 * (msg.length + t.M) ∧
      ∀ j < 2, (List.range (msg.length + t.M)).map (fun i => out.getD (j + i * 2) 0) =
        t.outputs j (turboInput t msg) ++ List.replicate (msg.length + t.M - (turboInput t msg).length) 0 := by
  obtain ⟨e1, e2⟩ := encInput_turbo hk msg
  have hlen : (turboInput t msg).length ≤ msg.length + t.M := by unfold turboInput; split <;> simp
  have hm := convEncodeRun_main h (outLen := outLen) hb (term := "rsc") (by simp) (by rw [e1, e2, ho, hk, hn, Nat.div_one]; omega)
  rw [e1, e2, ho, hk, hn, Nat.div_one, inSyms_one] at hm
  refine ⟨t.runState 0 (turboInput t msg), _, hm, ?_, ?_⟩
  · rw [List.length_append, Trellis.runOut_length, List.length_replicate, hn]; omega
  · intro j hj
    refine List.ext_getElem (by simp [Trellis.outputs]; omega) fun i h1 h2 => ?_
    have hi : i < msg.length + t.M := by simpa using h1
    simp only [List.getElem_map, List.getElem_range]
    by_cases hiu : i < (turboInput t msg).length
    · rw [List.getD_append _ _ _ _ (by rw [Trellis.runOut_length, hn]; omega), List.getElem_append_left (by simpa [Trellis.outputs] using hiu)]
      have := runOut_getD t (by omega : j < t.n) (turboInput t msg) 0 i hiu
      rw [hn] at this
      rw [this]
      simp [Trellis.outputs, hn]
    · rw [List.getD_append_right _ _ _ _ (by rw [Trellis.runOut_length, hn]; omega), List.getElem_append_right (by simp [Trellis.outputs]; omega)]
      rw [List.getD_eq_getElem _ _ (by rw [List.length_replicate, Trellis.runOut_length, hn]; omega)]
      simp

theorem systematic_outputs {t : Trellis} (h : t.WF) (hk : t.k = 1) (hs : t.Systematic) {us : List Nat} (hb : ∀ b ∈ us, b < 2) :
    t.outputs 0 us = us := by
  refine List.ext_getElem (by simp [Trellis.outputs]) fun i h1 h2 => ?_
  simp only [Trellis.outputs, List.getElem_map, List.getElem_range]
  rw [hs, List.getD_eq_getElem _ _ h2]
  · exact h.runState_lt (by positivity) fun u hu => by rw [hk]; exact hb u (List.mem_of_mem_take hu)
  · rw [List.getD_eq_getElem _ _ h2]; exact hb _ (List.getElem_mem _)

theorem pySlice_neg (l : List Nat) (m M : Nat) (hM : 0 < M) (hl : l.length = m + M) : pySlice l 0 (-(M : Int)) = l.take m := by
  unfold pySlice pyBound
  rw [if_neg (show ¬ (0 : Int) ≤ -(M : Int) by omega), if_pos (le_refl (0 : Int)), hl,
    show (-(M : Int) + ((m + M : Nat) : Int)).toNat = m by omega]
  simp

/-- C50, what holds, for every message, every permutation and every pair of well-formed systematic trellises with one input bit,
two output bits and some memory: the first stream is the message, the second the parity bits of the message, and the third starts
with the parity bits of the interleaved message; but it goes on up to length `2 L + M` (with zeros for recursive trellises). -/
theorem C50_streams_partial {t1 t2 : Trellis} (h1 : t1.WF) (h2 : t2.WF) (hk1 : t1.k = 1) (hk2 : t2.k = 1) (hn1 : t1.n = 2) (hn2 : t2.n = 2)
    (hM1 : 0 < t1.M) (hM2 : 0 < t2.M) (hs : t1.Systematic) {msg : List Nat} (hb : ∀ b ∈ msg, b < 2)
    {p : List Nat} (hp : p.Perm (List.range msg.length)) {outLen1 outLen2 : Nat → Nat}
    (ho1 : outLen1 (msg.length + t1.M) = 2 * (msg.length + t1.M)) (ho2 : outLen2 (msg.length + t2.M) = 2 * (msg.length + t2.M)) :
    ∃ third, turboEncode outLen1 outLen2 t1 t2 p msg = .ok (msg, t1.outputs 1 msg, third) ∧
      third.take msg.length = t2.outputs 1 (p.map (fun i => msg.getD i 0)) ∧ third.length = 2 * msg.length + t2.M ∧
      (t2.rsc = true → third.drop msg.length = List.replicate (msg.length + t2.M) 0) := by
  obtain ⟨s1, out1, r1, l1, g1⟩ := run_turbo h1 hk1 hn1 hb ho1
  have hpl : p.length = msg.length := by simpa using hp.length_eq
  have hin1 : ∃ z, turboInput t1 msg = msg ++ List.replicate z 0 ∧ z ≤ t1.M := by
    unfold turboInput
    by_cases hr : t1.rsc = true
    · exact ⟨0, by simp [hr], by omega⟩
    · exact ⟨t1.M, by simp [hr], le_rfl⟩
  obtain ⟨z1, hz1, hz1'⟩ := hin1
  have hbin : ∀ b ∈ turboInput t1 msg, b < 2 := by
    rw [hz1]
    intro b hbm
    rcases List.mem_append.1 hbm with hbm | hbm
    · exact hb b hbm
    · have := List.eq_of_mem_replicate hbm; omega
  have hsys : stride2 0 out1 = msg ++ List.replicate t1.M 0 := by
    rw [stride2_eq _ 0 _ (by omega) l1, g1 0 (by omega), systematic_outputs h1 hk1 hs hbin, hz1, List.append_assoc, List.replicate_append_replicate]
    congr 2
    simp
    omega
  have hns : (stride2 1 out1).take msg.length = t1.outputs 1 msg := by
    rw [stride2_eq _ 1 _ (by omega) l1, g1 1 (by omega), List.take_append_of_le_length (by rw [hz1]; simp [Trellis.outputs]), hz1, outputs_append]
  have hnsl : (stride2 1 out1).length = msg.length + t1.M := by rw [stride2_eq _ 1 _ (by omega) l1]; simp
  set im := p.map (fun i => msg.getD i 0) with him
  have himl : im.length = msg.length := by simp [him, hpl]
  have himb : ∀ b ∈ im, b < 2 := by
    intro b hbm
    rw [him, List.mem_map] at hbm
    obtain ⟨i, hi, rfl⟩ := hbm
    have := perm_lt hp hi
    rw [List.getD_eq_getElem _ _ this]
    exact hb _ (List.getElem_mem _)
  have hil : interlv p (msg ++ List.replicate t1.M 0) = .ok im := by
    rw [interlv_ok 0 hp (by simp), him]
    congr 1
    refine List.map_congr_left fun i hi => ?_
    rw [List.getD_append _ _ _ _ (perm_lt hp hi)]
  obtain ⟨s2, out2, r2, l2, g2⟩ := run_turbo h2 hk2 hn2 himb (outLen := outLen2) (by rw [himl]; exact ho2)
  have hin2 : ∃ z, turboInput t2 im = im ++ List.replicate z 0 ∧ z ≤ t2.M ∧ (t2.rsc = true → z = 0) := by
    unfold turboInput
    by_cases hr : t2.rsc = true
    · exact ⟨0, by simp [hr], by omega, fun _ => rfl⟩
    · exact ⟨t2.M, by simp [hr], le_rfl, fun h => absurd h hr⟩
  obtain ⟨z2, hz2, hz2', hz2''⟩ := hin2
  have hc1 : convEncode outLen1 t1 msg "rsc" none = .ok out1 := by rw [convEncode_none (by omega) (by omega), r1]; rfl
  have hc2' : convEncode outLen2 t2 im "rsc" none = .ok out2 := by rw [convEncode_none (by omega) (by omega), r2]; rfl
  have hc2 := (C36_puncture_partial (by omega) (by omega) outLen2 im "rsc" [0, 1] [] (by simp) out2 hc2').1
  have hps : punctSelected [0, 1] out2 = t2.outputs 1 im ++ (t2.outputs 1 (turboInput t2 im)).drop im.length ++ List.replicate (im.length + t2.M - (turboInput t2 im).length) 0 := by
    rw [punct_odd _ _ l2, g2 1 (by omega), ← outputs_append t2 1 im (List.replicate z2 0), ← hz2, List.take_append_drop]
  have hpsl : (punctSelected [0, 1] out2).length = im.length + t2.M := by rw [punct_odd _ _ l2]; simp
  refine ⟨(punctSelected [0, 1] out2 ++ List.replicate (out2.length - (punctSelected [0, 1] out2).length) 0).take (2 * msg.length + t2.M), ?_, ?_, ?_, ?_⟩
  · unfold turboEncode
    simp only [hc1, bind, Except.bind, hsys, hil, hc2, pure, Except.pure]
    rw [pySlice_neg _ msg.length _ hM1 (by simp), pySlice_neg _ msg.length _ hM1 hnsl, hns,
      pySlice_neg _ (2 * msg.length + t2.M) _ hM2 (by rw [List.length_append, hpsl, List.length_replicate, l2, himl]; omega)]
    simp
  · rw [List.take_take, min_eq_left (by omega), hps, List.append_assoc, List.append_assoc, List.take_append_of_le_length (by simp [Trellis.outputs, himl]),
      List.take_of_length_le (by simp [Trellis.outputs, himl])]
  · rw [List.length_take, List.length_append, hpsl, List.length_replicate, l2, himl]; omega
  · intro hr
    have hz := hz2'' hr
    subst hz
    rw [hpsl, hps, hz2]
    simp only [List.replicate_zero, List.append_nil]
    rw [List.drop_of_length_le (l := t2.outputs 1 im) (by simp [Trellis.outputs]), List.append_nil, List.append_assoc, List.replicate_append_replicate,
      List.take_append, List.drop_append]
    rw [List.drop_of_length_le (by simp [Trellis.outputs, himl])]
    simp [Trellis.outputs, himl, l2]
    omega

/-- C50: without memory (`M = 0`) the slices `[0:-0]` are empty: whatever the message, the systematic and first parity streams of a
successful call are empty. -/
theorem C50_memoryless {t1 t2 : Trellis} (hM : t1.M = 0) {msg p : List Nat} {outLen1 outLen2 : Nat → Nat} {r : List Nat × List Nat × List Nat}
    (hr : turboEncode outLen1 outLen2 t1 t2 p msg = .ok r) : r.1 = [] ∧ r.2.1 = [] := by
  unfold turboEncode at hr
  cases h1 : convEncode outLen1 t1 msg "rsc" none with
  | error e => simp [h1, bind, Except.bind] at hr
  | ok a =>
    simp only [h1, bind, Except.bind] at hr
    cases h2 : interlv p (stride2 0 a) with
    | error e => simp [h2] at hr
    | ok b =>
      simp only [h2] at hr
      cases h3 : convEncode outLen2 t2 b "rsc" (some [[0, 1]]) with
      | error e => simp [h3] at hr
      | ok c =>
        simp only [h3, hM, pure, Except.pure, Except.ok.injEq] at hr
        subst hr
        simp [pySlice, pyBound]

/-- The recursive systematic trellis with feedback 5 and generator 7 (memory 2), as built by `Trellis(array([2]), array([[1, 7]]),
5, 'rsc')`. -/
def turboTrellis : Trellis := ⟨1, 2, 2, true, [[0, 2], [2, 0], [1, 3], [3, 1]], [[0, 3], [0, 3], [1, 2], [1, 2]]⟩

example : mkTrellisLegacy 2 [1, 7] 5 true = .ok turboTrellis := by decide +kernel

theorem turboTrellis_WF : turboTrellis.WF := by
  refine ⟨by decide, by decide, by decide, ?_, ?_⟩ <;> decide

theorem turboTrellis_systematic : turboTrellis.Systematic := by unfold Trellis.Systematic; decide

/-- C50 as stated is false: the third stream is longer than the message. -/
theorem C50_length_refuted : ∃ msg p third, turboEncode (· * 2) (· * 2) turboTrellis turboTrellis p msg = .ok (msg, turboTrellis.outputs 1 msg, third) ∧
    third.length ≠ msg.length :=
  ⟨[1, 0, 1], [2, 0, 1], [1, 0, 1, 0, 0, 0, 0, 0], by decide +kernel, by decide⟩

/-- The hypotheses of C50 are met. -/
example : turboTrellis.k = 1 ∧ turboTrellis.n = 2 ∧ 0 < turboTrellis.M ∧ [2, 0, 1].Perm (List.range [1, 0, 1].length) :=
  ⟨rfl, rfl, by decide, by decide⟩

end Verif
