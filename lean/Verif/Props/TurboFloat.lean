import Verif.Lemmas.TurboFloat
import Verif.Lemmas.TurboBranch
import Verif.Props.TurboRoundtrip
/-
C122: turbo decoding in double precision (/repo/commpy/channelcoding/turbo.py:62-333) at high signal-to-noise ratio.
-/
namespace Verif

variable {D : MapFloats} (hD : DoubleLike D)

include hD in
theorem branch_right {c0 c1 : Nat} {r0 r1 σ2 δ : ℝ} (hs : HighSnr δ σ2) (h0 : |r0 - bpskAmp c0| ≤ δ) (h1 : |r1 - bpskAmp c1| ≤ δ) :
    ∃ G, branchProbF D c0 c1 (.fin r0) (.fin r1) (.fin σ2) = .fin G ∧ 1 / 2 ^ 600 ≤ G ∧ G ≤ 4 := by
  have hδ := hs.small
  have hσ0 : 0 < σ2 := lt_of_lt_of_le (by positivity) hs.lo
  obtain ⟨q, e, q1, q2⟩ := branch_arg hD (show |r0 - bpskAmp c0| ≤ 5 / 2 by linarith) (show |r1 - bpskAmp c1| ≤ 5 / 2 by linarith) hs.lo hs.hi
  have hx : (r0 - bpskAmp c0) ^ 2 ≤ δ ^ 2 := by rw [← sq_abs]; exact pow_le_pow_left₀ (abs_nonneg _) h0 2
  have hy : (r1 - bpskAmp c1) ^ 2 ≤ δ ^ 2 := by rw [← sq_abs]; exact pow_le_pow_left₀ (abs_nonneg _) h1 2
  have hN : ((r0 - bpskAmp c0) ^ 2 + (r1 - bpskAmp c1) ^ 2) / σ2 ≤ 600 := by
    rw [div_le_iff₀ hσ0]
    have := hs.noise
    linarith
  have hN0 : 0 ≤ ((r0 - bpskAmp c0) ^ 2 + (r1 - bpskAmp c1) ^ 2) / σ2 := by positivity
  rw [neg_div] at q1 q2
  obtain ⟨G, eG, g1, g2⟩ := hD.exp_range q (by linarith) (by linarith)
  exact ⟨G, e.trans eG, g1, g2⟩

theorem amp_far {a b : Nat} (ha : a < 2) (hb : b < 2) (hab : a ≠ b) {r δ : ℝ} (hδ : δ ≤ 1 / 2) (h : |r - bpskAmp a| ≤ δ) :
    (9 / 4 : ℝ) ≤ (r - bpskAmp b) ^ 2 ∧ |r - bpskAmp b| ≤ 5 / 2 := by
  obtain ⟨h1, h2⟩ := abs_le.1 h
  have : a = 0 ∧ b = 1 ∨ a = 1 ∧ b = 0 := by omega
  rcases this with ⟨rfl, rfl⟩ | ⟨rfl, rfl⟩ <;> norm_num [bpskAmp] at h1 h2 ⊢ <;> constructor <;> first | nlinarith | (rw [abs_le]; constructor <;> linarith)

theorem amp_near {a b : Nat} (ha : a < 2) (hb : b < 2) {r δ : ℝ} (hδ : δ ≤ 1 / 2) (h : |r - bpskAmp a| ≤ δ) : |r - bpskAmp b| ≤ 5 / 2 := by
  by_cases hab : a = b
  · subst hab; linarith
  · exact (amp_far ha hb hab hδ h).2

include hD in
theorem branch_wrong {a0 a1 c0 c1 : Nat} (ha0 : a0 < 2) (ha1 : a1 < 2) (hc0 : c0 < 2) (hc1 : c1 < 2) (hne : ¬ (c0 = a0 ∧ c1 = a1))
    {r0 r1 σ2 δ : ℝ} (hs : HighSnr δ σ2) (h0 : |r0 - bpskAmp a0| ≤ δ) (h1 : |r1 - bpskAmp a1| ≤ δ) :
    branchProbF D c0 c1 (.fin r0) (.fin r1) (.fin σ2) = .fin 0 := by
  have hσ0 : 0 < σ2 := lt_of_lt_of_le (by positivity) hs.lo
  obtain ⟨q, e, q1, q2⟩ := branch_arg hD (amp_near ha0 hc0 hs.small h0) (amp_near ha1 hc1 hs.small h1) hs.lo hs.hi
  have hsum : (9 / 4 : ℝ) ≤ (r0 - bpskAmp c0) ^ 2 + (r1 - bpskAmp c1) ^ 2 := by
    by_cases hc : c0 = a0
    · have := (amp_far ha1 hc1 (fun hh => hne ⟨hc, hh.symm⟩) hs.small h1).1
      linarith [sq_nonneg (r0 - bpskAmp c0)]
    · have := (amp_far ha0 hc0 (fun hh => hc hh.symm) hs.small h0).1
      linarith [sq_nonneg (r1 - bpskAmp c1)]
  have hN : 1800 ≤ ((r0 - bpskAmp c0) ^ 2 + (r1 - bpskAmp c1) ^ 2) / σ2 := by
    rw [le_div_iff₀ hσ0]
    have := hs.hi
    linarith
  rw [neg_div] at q2
  rw [e]
  exact hD.exp_under q (by linarith)

include hD in
theorem add_zero_left {x y : ℝ} (h : D.rnd x = .fin y) : flAdd D (.fin 0) (.fin y) = .fin y := by
  simp only [flAdd, zero_add]
  exact hD.rnd_rnd _ _ h

include hD in
theorem add_zero_right {x y : ℝ} (h : D.rnd x = .fin y) : flAdd D (.fin y) (.fin 0) = .fin y := by
  simp only [flAdd, add_zero]
  exact hD.rnd_rnd _ _ h

include hD in
theorem mul_zero_left (x : ℝ) : flMul D (.fin 0) (.fin x) = .fin 0 := by
  simp only [flMul, zero_mul]
  exact hD.rnd_zero

include hD in
theorem mul_zero_right (x : ℝ) : flMul D (.fin x) (.fin 0) = .fin 0 := by
  simp only [flMul, mul_zero]
  exact hD.rnd_zero

include hD in
/-- A product of metrics that does not underflow. -/
theorem mul3_pos {a g p : ℝ} (ha : 1 / 2 ^ 22 ≤ a) (ha' : a ≤ 4) (hg : 1 / 2 ^ 600 ≤ g) (hg' : g ≤ 4) (hp : 1 / 2 ^ 22 ≤ p) (hp' : p ≤ 4) :
    ∃ W, flMul D (flMul D (.fin a) (.fin g)) (.fin p) = .fin W ∧ D.rnd W = .fin W ∧ 1 / 2 ^ 700 ≤ W ∧ W ≤ 2 ^ 10 := by
  have e600 : (0 : ℝ) < 1 / 2 ^ 600 := by positivity
  have e1000 : (1 : ℝ) / 2 ^ 1000 = 1 / 2 ^ 600 / 2 ^ 200 / 2 ^ 200 := by rw [div_div, div_div, ← pow_add, ← pow_add]
  have e700 : (1 : ℝ) / 2 ^ 700 = 1 / 2 ^ 600 / 2 ^ 100 := by rw [div_div, ← pow_add]
  have hbig : (256 : ℝ) ≤ 2 ^ 1000 := le_trans (by norm_num) one_le_big
  rw [e700]
  set E : ℝ := 1 / 2 ^ 600 with hE
  clear_value E
  have s1 : E / 2 ^ 22 ≤ a * g := by
    calc E / 2 ^ 22 = 1 / 2 ^ 22 * E := by ring
      _ ≤ a * g := mul_le_mul ha hg e600.le (le_trans (by positivity) ha)
  have s2 : a * g ≤ 16 := by
    calc a * g ≤ 4 * 4 := mul_le_mul ha' hg' (e600.le.trans hg) (by norm_num)
      _ = 16 := by norm_num
  have t1 : (1 : ℝ) / 2 ^ 1000 ≤ E / 2 ^ 22 := by
    rw [e1000]
    have : E / 2 ^ 200 ≤ E / 2 ^ 22 := div_le_div_of_nonneg_left e600.le (by norm_num) (by norm_num)
    refine le_trans ?_ this
    exact div_le_self (by positivity) (by norm_num)
  obtain ⟨x, ex, x1, x2⟩ := rnd_pos hD (t1.trans s1) ((s2.trans (by norm_num)).trans hbig)
  have u1 : E / 2 ^ 45 ≤ x * p := by
    calc E / 2 ^ 45 = (E / 2 ^ 22 / 2) * (1 / 2 ^ 22) := by ring
      _ ≤ x * p := mul_le_mul (by linarith) hp (by positivity) (le_trans (by positivity) (show E / 2 ^ 22 / 2 ≤ x by linarith))
  have hp0 : 0 ≤ p := le_trans (by positivity) hp
  have u2 : x * p ≤ 128 := by
    calc x * p ≤ 32 * 4 := mul_le_mul (by linarith) hp' hp0 (by norm_num)
      _ = 128 := by norm_num
  have t2 : (1 : ℝ) / 2 ^ 1000 ≤ E / 2 ^ 45 := by
    rw [e1000]
    have : E / 2 ^ 200 ≤ E / 2 ^ 45 := div_le_div_of_nonneg_left e600.le (by norm_num) (by norm_num)
    refine le_trans ?_ this
    exact div_le_self (by positivity) (by norm_num)
  obtain ⟨W, eW, w1, w2⟩ := rnd_pos hD (t2.trans u1) ((u2.trans (by norm_num)).trans hbig)
  refine ⟨W, by simp only [flMul, ex, eW], hD.rnd_rnd _ _ eW, ?_, ?_⟩
  · have : E / 2 ^ 100 ≤ E / 2 ^ 45 / 2 := by
      rw [div_div]
      exact div_le_div_of_nonneg_left e600.le (by norm_num) (by norm_num)
    linarith
  · norm_num
    linarith

include hD in
/-- Normalisation of a column whose entries are all 0 or `W`. -/
theorem normalise_flags {S : Nat} (hS : S ≤ 2 ^ 20) (B : Nat → Bool) {s0 : Nat} (hs0 : s0 < S) (hB : B s0 = true) {W : ℝ}
    (h1 : 1 / 2 ^ 700 ≤ W) (h2 : W ≤ 2 ^ 10) :
    ∃ v, 1 / 2 ^ 22 ≤ v ∧ v ≤ 4 ∧ normaliseF D ((List.range S).map (fun s => Fl.fin (if B s then W else 0))) =
      (List.range S).map (fun s => Fl.fin (if B s then v else 0)) := by
  have e1000 : (1 : ℝ) / 2 ^ 1000 ≤ 1 / 2 ^ 700 := div_le_div_of_nonneg_left zero_le_one (by positivity) (pow_le_pow_right₀ (by norm_num) (by norm_num))
  have hW0 : 0 < W := lt_of_lt_of_le (by positivity) h1
  have hW9 : W ≤ 2 ^ 900 := h2.trans (pow_le_pow_right₀ (by norm_num) (by norm_num))
  have hbig : (10 : ℝ) ^ 9 ≤ 2 ^ 1000 := one_le_big
  obtain ⟨y, ey, hy⟩ := hD.sum_err ((List.range S).map (fun s => if B s then W else 0)) (by simpa using hS) (by
    intro x hx
    obtain ⟨s, -, rfl⟩ := List.mem_map.1 hx
    by_cases hb : B s = true
    · rw [if_pos hb]; exact .inr ⟨e1000.trans h1, hW9⟩
    · rw [if_neg hb]; exact .inl rfl)
  have hsum1 : W ≤ ((List.range S).map (fun s => if B s then W else 0)).sum := by
    have : (if B s0 then W else 0) ≤ ((List.range S).map (fun s => if B s then W else 0)).sum := by
      refine List.single_le_sum ?_ _ (List.mem_map.2 ⟨s0, List.mem_range.2 hs0, rfl⟩)
      intro x hx
      obtain ⟨s, -, rfl⟩ := List.mem_map.1 hx
      by_cases hb : B s = true
      · rw [if_pos hb]; exact hW0.le
      · rw [if_neg hb]
    rwa [if_pos hB] at this
  have hsum2 : ((List.range S).map (fun s => if B s then W else 0)).sum ≤ 2 ^ 20 * W := by
    have h3 : ((List.range S).map (fun s => if B s then W else 0)).sum ≤ ((List.range S).map (fun s => if B s then W else 0)).length • W := by
      refine List.sum_le_card_nsmul _ _ ?_
      intro x hx
      obtain ⟨s, -, rfl⟩ := List.mem_map.1 hx
      by_cases hb : B s = true
      · rw [if_pos hb]
      · rw [if_neg hb]; exact hW0.le
    refine h3.trans ?_
    rw [nsmul_eq_mul]
    refine mul_le_mul_of_nonneg_right ?_ hW0.le
    simp only [List.length_map, List.length_range]
    exact_mod_cast hS
  set Z := ((List.range S).map (fun s => if B s then W else 0)).sum with hZ
  obtain ⟨y1, y2⟩ := abs_le.1 hy
  have Y1 : W * (999 / 1000) ≤ y := by
    have : Z / 2 ^ 20 ≤ Z / 1000 := div_le_div_of_nonneg_left (by linarith) (by norm_num) (by norm_num)
    linarith
  have Y2 : y ≤ 2 ^ 20 * W * (1001 / 1000) := by
    have : Z / 2 ^ 20 ≤ Z / 1000 := div_le_div_of_nonneg_left (by linarith) (by norm_num) (by norm_num)
    linarith
  have hy0 : 0 < y := lt_of_lt_of_le (by positivity) Y1
  have R1 : 1 / 2 ^ 20 * (1000 / 1001) ≤ W / y := by
    rw [le_div_iff₀ hy0]
    calc 1 / 2 ^ 20 * (1000 / 1001) * y ≤ 1 / 2 ^ 20 * (1000 / 1001) * (2 ^ 20 * W * (1001 / 1000)) := mul_le_mul_of_nonneg_left Y2 (by positivity)
      _ = W := by ring
  have R2 : W / y ≤ 1001 / 1000 := by
    rw [div_le_iff₀ hy0]
    linarith
  have small : (1 : ℝ) / 2 ^ 1000 ≤ 1 / 2 ^ 20 * (1000 / 1001) := small_le.trans (by norm_num)
  obtain ⟨v, ev, v1, v2⟩ := rnd_pos hD (small.trans R1) ((R2.trans (by norm_num)).trans hbig)
  refine ⟨v, by linarith, by linarith, ?_⟩
  unfold normaliseF
  have ey' : D.sum ((List.range S).map (fun s => Fl.fin (if B s then W else 0))) = .fin y := by
    rw [← ey, List.map_map]; rfl
  rw [ey', List.map_map]
  refine List.map_congr_left fun s _ => ?_
  simp only [Function.comp, flDiv, if_neg hy0.ne']
  by_cases hb : B s = true
  · rw [if_pos hb, if_pos hb, ev]
  · rw [if_neg hb, if_neg hb, zero_div, hD.rnd_zero]

/-- The state of the encoder. -/
def encState (t : Trellis) (us : List Nat) (τ : Nat) : Nat := t.runState 0 (us.take τ)

variable {t : Trellis} (h : t.WF) (hk : t.k = 1) (hn : 2 ≤ t.n) (hs : t.Systematic) (hM : t.M ≤ 20)
  {us : List Nat} {L : Nat} (hL : us.length = L) (hb : ∀ b ∈ us, b < 2)

include hL in
theorem encState_succ {τ : Nat} (hτ : τ < L) : encState t us (τ + 1) = t.next (encState t us τ) (us.getD τ 0) := by
  unfold encState
  rw [List.take_succ, List.getElem?_eq_getElem (by omega)]
  simp only [Option.toList_some]
  rw [Trellis.runState, List.foldl_append, List.getD_eq_getElem _ _ (by omega)]
  rfl

include hL hb in
theorem us_lt (τ : Nat) : us.getD τ 0 < 2 := by
  by_cases hτ : τ < us.length
  · rw [List.getD_eq_getElem _ _ hτ]; exact hb _ (List.getElem_mem _)
  · rw [List.getD_eq_default _ _ (by omega)]; omega

include h hk hL hb in
theorem encState_lt {τ : Nat} (hτ : τ ≤ L) : encState t us τ < 2 ^ t.M := by
  induction τ with
  | zero => simp [encState, Trellis.runState]
  | succ τ ih =>
    rw [encState_succ hL (by omega)]
    exact h.next_lt (ih (by omega)) (by rw [hk]; exact us_lt hL hb τ)

theorem out_bit_lt (t : Trellis) (s u j : Nat) : (toBits t.n (t.out s u)).getD j 0 < 2 := by
  by_cases hj : j < (toBits t.n (t.out s u)).length
  · rw [List.getD_eq_getElem _ _ hj]; exact toBits_lt_two (List.getElem_mem _)
  · rw [List.getD_eq_default _ _ (by omega)]; omega

include hL in
theorem outputs_getD {τ : Nat} (hτ : τ < L) (j : Nat) :
    (t.outputs j us).getD τ 0 = (toBits t.n (t.out (encState t us τ) (us.getD τ 0))).getD j 0 := by
  unfold Trellis.outputs
  rw [hL, getD_map_range' _ _ hτ]
  rfl

/-- A branch that agrees with what was sent at time `τ`. -/
def agrees (t : Trellis) (us : List Nat) (τ s u : Nat) : Bool :=
  decide (u = us.getD τ 0 ∧ (toBits t.n (t.out s u)).getD 1 0 = (t.outputs 1 us).getD τ 0)

include hD hs hL hb in
theorem gam_sat {ys yp : List ℝ} {δ σ2 : ℝ} (hsnr : HighSnr δ σ2) (hy : ys.length = L) (hyp : L ≤ yp.length)
    (h1 : ∀ i < L, |ys.getD i 0 - bpskAmp (us.getD i 0)| ≤ δ) (h2 : ∀ i < L, |yp.getD i 0 - bpskAmp ((t.outputs 1 us).getD i 0)| ≤ δ)
    {τ : Nat} (hτ : τ < L) : ∃ G, 1 / 2 ^ 600 ≤ G ∧ G ≤ 4 ∧ ∀ s < 2 ^ t.M, ∀ u < 2,
      gamF D t (.fin σ2) (ys.map Fl.fin) (yp.map Fl.fin) τ s u = .fin (if agrees t us τ s u then G else 0) := by
  obtain ⟨G, eG, g1, g2⟩ := branch_right hD hsnr (h1 τ hτ) (h2 τ hτ)
  refine ⟨G, g1, g2, fun s hs' u hu => ?_⟩
  have hc : (t.outputs 1 us).getD τ 0 < 2 := by rw [outputs_getD hL hτ]; exact out_bit_lt ..
  have e1 : (ys.map Fl.fin).getD τ .nan = .fin (ys.getD τ 0) := by
    rw [List.getD_eq_getElem _ _ (by simp; omega), List.getElem_map, List.getD_eq_getElem _ _ (by omega)]
  have e2 : (yp.map Fl.fin).getD τ .nan = .fin (yp.getD τ 0) := by
    rw [List.getD_eq_getElem _ _ (by simp; omega), List.getElem_map, List.getD_eq_getElem _ _ (by omega)]
  unfold gamF
  rw [e1, e2, hs s hs' u hu]
  by_cases ha : agrees t us τ s u = true
  · rw [if_pos ha]
    obtain ⟨hu', hc'⟩ := of_decide_eq_true ha
    rw [hc', hu', eG]
  · rw [if_neg ha]
    refine branch_wrong hD (us_lt hL hb τ) hc hu (out_bit_lt ..) ?_ hsnr (h1 τ hτ) (h2 τ hτ)
    intro hh
    exact ha (decide_eq_true hh)

/-- The a priori LLR is 0, or an infinity of the right sign. -/
def GoodPrior (b : Nat) (l : Fl) : Prop := l = .fin 0 ∨ (b = 1 ∧ l = .inf) ∨ (b = 0 ∧ l = .ninf)

include hD in
theorem pri_sat {lint : List Fl} {τ b : Nat} (hb2 : b < 2) (hg : GoodPrior b (lint.getD τ .nan)) :
    (∃ P, priF D lint τ b = .fin P ∧ 1 / 2 ^ 22 ≤ P ∧ P ≤ 4) ∧ ∀ u, ∃ Q, priF D lint τ u = .fin Q := by
  have key : ∃ p q : ℝ, flDiv D (.fin 1) (flAdd D (.fin 1) (flExp D (lint.getD τ .nan))) = .fin p ∧ flSub D (.fin 1) (.fin p) = .fin q ∧
      (b = 0 → 1 / 2 ^ 22 ≤ p ∧ p ≤ 4) ∧ (b = 1 → 1 / 2 ^ 22 ≤ q ∧ q ≤ 4) := by
    rcases hg with e | ⟨rfl, e⟩ | ⟨rfl, e⟩
    · obtain ⟨a, ea, ha⟩ := rnd_crude hD (x := 1 + 1) (by norm_num)
      obtain ⟨a1, a2⟩ := abs_le.1 ha
      norm_num at a1 a2
      have ha0 : 0 < a := by linarith
      have hp1 : 1 / a ≤ 51 / 100 := by rw [div_le_iff₀ ha0]; linarith
      have hp2 : 49 / 100 ≤ 1 / a := by rw [le_div_iff₀ ha0]; linarith
      obtain ⟨p, ep, hp⟩ := rnd_crude hD (x := 1 / a) (by rw [abs_of_pos (by positivity)]; linarith)
      rw [abs_of_pos (show 0 < 1 / a by positivity)] at hp
      obtain ⟨p1, p2⟩ := abs_le.1 hp
      obtain ⟨q, eq, hq⟩ := rnd_crude hD (x := 1 + -p) (by rw [abs_le]; constructor <;> linarith)
      have hq' : |1 + -p| ≤ 1 := by rw [abs_le]; constructor <;> linarith
      obtain ⟨q1, q2⟩ := abs_le.1 hq
      refine ⟨p, q, ?_, ?_, fun _ => ⟨by linarith, by linarith⟩, fun _ => ⟨by linarith, by linarith⟩⟩
      · rw [e]
        simp only [flExp, hD.exp_zero, flAdd, ea, flDiv, if_neg ha0.ne', ep]
      · simp only [flSub, flNeg, flAdd, eq]
    · obtain ⟨q, eq, hq⟩ := rnd_crude hD (x := 1 + -0) (by norm_num)
      obtain ⟨q1, q2⟩ := abs_le.1 hq
      norm_num at q1 q2
      refine ⟨0, q, ?_, ?_, fun hh => absurd hh (by norm_num), fun _ => ⟨by linarith, by linarith⟩⟩
      · rw [e]
        simp only [flExp, flAdd, flDiv]
      · simp only [flSub, flNeg, flAdd, eq]
    · obtain ⟨a, ea, ha⟩ := rnd_crude hD (x := 1 + 0) (by norm_num)
      obtain ⟨a1, a2⟩ := abs_le.1 ha
      norm_num at a1 a2
      have ha0 : 0 < a := by linarith
      have hp1 : 1 / a ≤ 101 / 100 := by rw [div_le_iff₀ ha0]; linarith
      have hp2 : 99 / 100 ≤ 1 / a := by rw [le_div_iff₀ ha0]; linarith
      obtain ⟨p, ep, hp⟩ := rnd_crude hD (x := 1 / a) (by rw [abs_of_pos (by positivity)]; linarith)
      rw [abs_of_pos (show 0 < 1 / a by positivity)] at hp
      obtain ⟨p1, p2⟩ := abs_le.1 hp
      obtain ⟨q, eq, -⟩ := rnd_crude hD (x := 1 + -p) (by rw [abs_le]; constructor <;> linarith)
      refine ⟨p, q, ?_, ?_, fun _ => ⟨by linarith, by linarith⟩, fun hh => absurd hh (by norm_num)⟩
      · rw [e]
        simp only [flExp, flAdd, ea, flDiv, if_neg ha0.ne', ep]
      · simp only [flSub, flNeg, flAdd, eq]
  obtain ⟨p, q, e1, e2, h0, h1⟩ := key
  have f0 : priF D lint τ 0 = .fin p := by simp only [priF, e1, if_true]
  have f1 : ∀ u, u ≠ 0 → priF D lint τ u = .fin q := by
    intro u hu
    simp only [priF, e1, if_neg hu, e2]
  refine ⟨?_, fun u => ?_⟩
  · have : b = 0 ∨ b = 1 := by omega
    rcases this with rfl | rfl
    · exact ⟨p, f0, h0 rfl⟩
    · exact ⟨q, f1 1 (by norm_num), h1 rfl⟩
  · by_cases hu : u = 0
    · subst hu; exact ⟨p, f0⟩
    · exact ⟨q, f1 u hu⟩

theorem getD_fin_range {S : Nat} (F : Nat → ℝ) {s : Nat} (hs : s < S) : ((List.range S).map (fun s => Fl.fin (F s))).getD s .nan = .fin (F s) := by
  rw [List.getD_eq_getElem _ _ (by simpa using hs)]
  simp

/-- Backward metrics: equal on the states that can still explain what follows, among them the state of the encoder, and 0 elsewhere. -/
def BackSat (t : Trellis) (us : List Nat) (τ : Nat) (b : List Fl) : Prop :=
  ∃ (v : ℝ) (B : Nat → Bool), 1 / 2 ^ 22 ≤ v ∧ v ≤ 4 ∧ B (encState t us τ) = true ∧ b = (List.range (2 ^ t.M)).map (fun s => Fl.fin (if B s then v else 0))

/-- Forward metrics: only the state of the encoder. -/
def FwdSat (t : Trellis) (us : List Nat) (τ : Nat) (f : List Fl) : Prop :=
  ∃ v : ℝ, 1 / 2 ^ 22 ≤ v ∧ v ≤ 4 ∧ f = (List.range (2 ^ t.M)).map (fun s => Fl.fin (if s = encState t us τ then v else 0))

include hM in
theorem states_le : 2 ^ t.M ≤ 2 ^ 20 := Nat.pow_le_pow_right (by norm_num) hM

include hD h hk hn hs hM hL hb in
theorem back_sat {ys yp : List ℝ} {lint : List Fl} {δ σ2 : ℝ} (hsnr : HighSnr δ σ2) (hy : ys.length = L) (hyp : L ≤ yp.length)
    (h1 : ∀ i < L, |ys.getD i 0 - bpskAmp (us.getD i 0)| ≤ δ) (h2 : ∀ i < L, |yp.getD i 0 - bpskAmp ((t.outputs 1 us).getD i 0)| ≤ δ)
    {τ : Nat} (hτ : τ < L) (hg : GoodPrior (us.getD τ 0) (lint.getD τ .nan)) {b : List Fl} (hbs : BackSat t us (τ + 1) b) :
    BackSat t us τ (normaliseF D ((List.range (2 ^ t.M)).map (cellF D t (.fin σ2) (ys.map Fl.fin) (yp.map Fl.fin) lint τ b))) := by
  obtain ⟨v, B, v1, v2, hB, rfl⟩ := hbs
  obtain ⟨G, g1, g2, hG⟩ := gam_sat hD hs hL hb hsnr hy hyp h1 h2 hτ
  have hut := us_lt hL hb τ
  obtain ⟨⟨P, eP, p1, p2⟩, hQ⟩ := pri_sat hD hut hg
  obtain ⟨W, eW, rW, w1, w2⟩ := mul3_pos hD v1 v2 g1 g2 p1 p2
  have hnx : ∀ s < 2 ^ t.M, ∀ u < 2, t.next s u < 2 ^ t.M := fun s hs u hu => h.next_lt hs (by rw [hk]; omega)
  have hterm : ∀ s < 2 ^ t.M, ∀ u < 2, flMul D (flMul D (((List.range (2 ^ t.M)).map (fun s => Fl.fin (if B s then v else 0))).getD (t.next s u) .nan)
      (gamF D t (.fin σ2) (ys.map Fl.fin) (yp.map Fl.fin) τ s u)) (priF D lint τ u) =
      .fin (if B (t.next s u) && agrees t us τ s u then W else 0) := by
    intro s hs' u hu
    rw [getD_fin_range _ (hnx s hs' u hu), hG s hs' u hu]
    obtain ⟨Q, eQ⟩ := hQ u
    by_cases ha : agrees t us τ s u = true
    · have hu' : u = us.getD τ 0 := (of_decide_eq_true ha).1
      by_cases hB' : B (t.next s u) = true
      · rw [hB', ha, if_pos rfl, if_pos rfl, if_pos (by rfl), hu', eP, eW]
      · rw [if_neg hB', if_pos ha, if_neg (by simp [hB']), mul_zero_left hD, eQ, mul_zero_left hD]
    · have ha' : agrees t us τ s u = false := by simpa using ha
      rw [ha', Bool.and_false]
      simp only [Bool.false_eq_true, if_false]
      rw [mul_zero_right hD, eQ, mul_zero_left hD]
  have hcell : ∀ s < 2 ^ t.M, cellF D t (.fin σ2) (ys.map Fl.fin) (yp.map Fl.fin) lint τ ((List.range (2 ^ t.M)).map (fun s => Fl.fin (if B s then v else 0))) s =
      .fin (if B (t.next s (us.getD τ 0)) && agrees t us τ s (us.getD τ 0) then W else 0) := by
    intro s hs'
    unfold cellF
    rw [hterm s hs' 0 (by norm_num), hterm s hs' 1 (by norm_num)]
    have hother : ∀ u, u ≠ us.getD τ 0 → agrees t us τ s u = false := by
      intro u hu
      simp only [agrees, decide_eq_false_iff_not]
      intro hh
      exact hu hh.1
    have hrW : ∀ c : Bool, D.rnd (if c then W else 0) = .fin (if c then W else 0) := by
      intro c
      cases c
      · exact hD.rnd_zero
      · exact rW
    have : us.getD τ 0 = 0 ∨ us.getD τ 0 = 1 := by omega
    rcases this with e | e
    · rw [hother 1 (by rw [e]; norm_num), e, Bool.and_false, if_neg (by simp : ¬ (false = true)), add_zero_left hD (hrW _), add_zero_right hD (hrW _)]
    · rw [hother 0 (by rw [e]; norm_num), e, Bool.and_false, if_neg (by simp : ¬ (false = true)), add_zero_left hD hD.rnd_zero, add_zero_left hD (hrW _)]
  have hst := encState_lt h hk hL hb hτ.le
  have hcol : (List.range (2 ^ t.M)).map (cellF D t (.fin σ2) (ys.map Fl.fin) (yp.map Fl.fin) lint τ ((List.range (2 ^ t.M)).map (fun s => Fl.fin (if B s then v else 0)))) =
      (List.range (2 ^ t.M)).map (fun s => Fl.fin (if B (t.next s (us.getD τ 0)) && agrees t us τ s (us.getD τ 0) then W else 0)) :=
    List.map_congr_left fun s hs' => hcell s (List.mem_range.1 hs')
  have htrue : (B (t.next (encState t us τ) (us.getD τ 0)) && agrees t us τ (encState t us τ) (us.getD τ 0)) = true := by
    rw [← encState_succ hL hτ, hB, Bool.true_and]
    simp only [agrees, decide_eq_true_eq, true_and]
    rw [outputs_getD hL hτ]
  obtain ⟨v', a1, a2, a3⟩ := normalise_flags hD (states_le hM) (fun s => B (t.next s (us.getD τ 0)) && agrees t us τ s (us.getD τ 0)) hst htrue w1 w2
  exact ⟨v', _, a1, a2, htrue, by rw [hcol]; exact a3⟩

include hD h hk hn hs hM hL hb in
theorem fwd_sat {ys yp : List ℝ} {lint : List Fl} {δ σ2 : ℝ} (hsnr : HighSnr δ σ2) (hy : ys.length = L) (hyp : L ≤ yp.length)
    (h1 : ∀ i < L, |ys.getD i 0 - bpskAmp (us.getD i 0)| ≤ δ) (h2 : ∀ i < L, |yp.getD i 0 - bpskAmp ((t.outputs 1 us).getD i 0)| ≤ δ)
    {τ : Nat} (hτ : τ < L) (hg : GoodPrior (us.getD τ 0) (lint.getD τ .nan)) {b f : List Fl} (hbs : BackSat t us (τ + 1) b) (hfs : FwdSat t us τ f) :
    ∃ X Y, 1 / 2 ^ 700 ≤ X ∧ X ≤ 2 ^ 10 ∧ 0 < Y ∧
      (pairsF t).foldl (fcellF D t (.fin σ2) (ys.map Fl.fin) (yp.map Fl.fin) lint b f τ) (List.replicate (2 ^ t.M) (.fin 0), [.fin 0, .fin 0]) =
        ((List.range (2 ^ t.M)).map (fun s => Fl.fin (if s = encState t us (τ + 1) then X else 0)),
          [.fin (if us.getD τ 0 = 0 then Y else 0), .fin (if us.getD τ 0 = 1 then Y else 0)]) := by
  obtain ⟨v, B, v1, v2, hB, rfl⟩ := hbs
  obtain ⟨φ, f1, f2, rfl⟩ := hfs
  obtain ⟨G, g1, g2, hG⟩ := gam_sat hD hs hL hb hsnr hy hyp h1 h2 hτ
  have hut := us_lt hL hb τ
  obtain ⟨⟨P, eP, p1, p2⟩, hQ⟩ := pri_sat hD hut hg
  obtain ⟨X, eX, rX, x1, x2⟩ := mul3_pos hD f1 f2 g1 g2 p1 p2
  obtain ⟨Y, eY, rY, y1, y2⟩ := mul3_pos hD f1 f2 g1 g2 v1 v2
  have hY0 : 0 < Y := lt_of_lt_of_le (by positivity) y1
  have hnx : ∀ s < 2 ^ t.M, ∀ u < 2, t.next s u < 2 ^ t.M := fun s hs u hu => h.next_lt hs (by rw [hk]; omega)
  have hst := encState_lt h hk hL hb hτ.le
  have hsucc := encState_succ (t := t) hL hτ
  have hagree : agrees t us τ (encState t us τ) (us.getD τ 0) = true := by
    simp only [agrees, decide_eq_true_eq, true_and]
    rw [outputs_getD hL hτ]
  set bl := (List.range (2 ^ t.M)).map (fun s => Fl.fin (if B s then v else 0)) with hbl
  set fl := (List.range (2 ^ t.M)).map (fun s => Fl.fin (if s = encState t us τ then φ else 0)) with hfl
  -- the products
  have hprod : ∀ s < 2 ^ t.M, ∀ u < 2, (s, u) ≠ (encState t us τ, us.getD τ 0) →
      flMul D (fl.getD s .nan) (gamF D t (.fin σ2) (ys.map Fl.fin) (yp.map Fl.fin) τ s u) = .fin 0 := by
    intro s hs' u hu hne
    rw [hfl, getD_fin_range _ hs', hG s hs' u hu]
    by_cases hse : s = encState t us τ
    · have ha : agrees t us τ s u = false := by
        simp only [agrees, decide_eq_false_iff_not]
        rintro ⟨hu', -⟩
        exact hne (by rw [hse, hu'])
      rw [ha]
      simp only [Bool.false_eq_true, if_false]
      exact mul_zero_right hD _
    · rw [if_neg hse]
      exact mul_zero_left hD _
  have key : ∀ sus : List (Nat × Nat), (∀ su ∈ sus, su.1 < 2 ^ t.M ∧ su.2 < 2) → sus.Nodup → ∀ c : Bool,
      (c = true → (encState t us τ, us.getD τ 0) ∉ sus) →
      sus.foldl (fcellF D t (.fin σ2) (ys.map Fl.fin) (yp.map Fl.fin) lint bl fl τ)
        ((List.range (2 ^ t.M)).map (fun s => Fl.fin (if c = true ∧ s = encState t us (τ + 1) then X else 0)),
          [.fin (if c = true ∧ us.getD τ 0 = 0 then Y else 0), .fin (if c = true ∧ us.getD τ 0 = 1 then Y else 0)]) =
        ((List.range (2 ^ t.M)).map (fun s => Fl.fin (if (c = true ∨ (encState t us τ, us.getD τ 0) ∈ sus) ∧ s = encState t us (τ + 1) then X else 0)),
          [.fin (if (c = true ∨ (encState t us τ, us.getD τ 0) ∈ sus) ∧ us.getD τ 0 = 0 then Y else 0),
            .fin (if (c = true ∨ (encState t us τ, us.getD τ 0) ∈ sus) ∧ us.getD τ 0 = 1 then Y else 0)]) := by
    intro sus
    induction sus with
    | nil => intro _ _ c _; simp
    | cons su sus ih =>
      intro hmem hnd c hc
      obtain ⟨s, u⟩ := su
      obtain ⟨hs', hu⟩ := hmem (s, u) (by simp)
      simp only at hs' hu
      rw [List.nodup_cons] at hnd
      rw [List.foldl_cons]
      have hold : ((List.range (2 ^ t.M)).map (fun s => Fl.fin (if c = true ∧ s = encState t us (τ + 1) then X else 0))).getD (t.next s u) .nan =
          .fin (if c = true ∧ t.next s u = encState t us (τ + 1) then X else 0) := getD_fin_range _ (hnx s hs' u hu)
      by_cases heq : (s, u) = (encState t us τ, us.getD τ 0)
      · have hcf : c = false := by
          cases c
          · rfl
          · exact absurd (heq ▸ List.mem_cons_self) (hc rfl)
        subst hcf
        obtain ⟨rfl, rfl⟩ := Prod.mk.injEq .. ▸ heq
        have hstep : fcellF D t (.fin σ2) (ys.map Fl.fin) (yp.map Fl.fin) lint bl fl τ
            ((List.range (2 ^ t.M)).map (fun s => Fl.fin (if false = true ∧ s = encState t us (τ + 1) then X else 0)),
              [.fin (if false = true ∧ us.getD τ 0 = 0 then Y else 0), .fin (if false = true ∧ us.getD τ 0 = 1 then Y else 0)])
            (encState t us τ, us.getD τ 0) =
            ((List.range (2 ^ t.M)).map (fun s => Fl.fin (if true = true ∧ s = encState t us (τ + 1) then X else 0)),
              [.fin (if true = true ∧ us.getD τ 0 = 0 then Y else 0), .fin (if true = true ∧ us.getD τ 0 = 1 then Y else 0)]) := by
          have eX' : flMul D (flMul D (fl.getD (encState t us τ) .nan) (gamF D t (.fin σ2) (ys.map Fl.fin) (yp.map Fl.fin) τ (encState t us τ) (us.getD τ 0)))
              (priF D lint τ (us.getD τ 0)) = .fin X := by
            rw [hfl, getD_fin_range _ hst, hG _ hst _ hut, hagree, if_pos rfl, if_pos rfl, eP, eX]
          have eY' : flMul D (flMul D (fl.getD (encState t us τ) .nan) (gamF D t (.fin σ2) (ys.map Fl.fin) (yp.map Fl.fin) τ (encState t us τ) (us.getD τ 0)))
              (bl.getD (t.next (encState t us τ) (us.getD τ 0)) .nan) = .fin Y := by
            rw [hfl, getD_fin_range _ hst, hG _ hst _ hut, hagree, if_pos rfl, if_pos rfl, hbl, getD_fin_range _ (hnx _ hst _ hut), ← hsucc, hB, if_pos rfl, eY]
          simp only [fcellF]
          rw [eX', eY', hold]
          simp only [Bool.false_eq_true, false_and, if_false, true_and]
          rw [add_zero_left hD rX]
          congr 1
          · rw [← hsucc]
            refine List.ext_getElem (by simp) fun i hi1 hi2 => ?_
            rw [List.getElem_set]
            simp only [List.getElem_map, List.getElem_range]
            by_cases hi : encState t us (τ + 1) = i
            · rw [if_pos hi, if_pos hi.symm]
            · rw [if_neg hi, if_neg (fun hh => hi hh.symm)]
          · have : us.getD τ 0 = 0 ∨ us.getD τ 0 = 1 := by omega
            rcases this with e | e
            · rw [e]
              simp [add_zero_left hD rY]
            · rw [e]
              simp [add_zero_left hD rY]
        rw [hstep, ih (fun su hsu => hmem su (List.mem_cons_of_mem _ hsu)) hnd.2 true (fun _ => hnd.1)]
        simp
      · have hstep : fcellF D t (.fin σ2) (ys.map Fl.fin) (yp.map Fl.fin) lint bl fl τ
            ((List.range (2 ^ t.M)).map (fun s => Fl.fin (if c = true ∧ s = encState t us (τ + 1) then X else 0)),
              [.fin (if c = true ∧ us.getD τ 0 = 0 then Y else 0), .fin (if c = true ∧ us.getD τ 0 = 1 then Y else 0)]) (s, u) =
            ((List.range (2 ^ t.M)).map (fun s => Fl.fin (if c = true ∧ s = encState t us (τ + 1) then X else 0)),
              [.fin (if c = true ∧ us.getD τ 0 = 0 then Y else 0), .fin (if c = true ∧ us.getD τ 0 = 1 then Y else 0)]) := by
          obtain ⟨Q, eQ⟩ := hQ u
          simp only [fcellF]
          rw [hprod s hs' u hu heq, eQ, mul_zero_left hD, hold, hbl, getD_fin_range _ (hnx s hs' u hu), mul_zero_left hD]
          have hrX : ∀ q : Prop, ∀ [Decidable q], D.rnd (if q then X else 0) = .fin (if q then X else 0) := by
            intro q _
            by_cases hq : q
            · rw [if_pos hq]; exact rX
            · rw [if_neg hq]; exact hD.rnd_zero
          have hrY : ∀ q : Prop, ∀ [Decidable q], D.rnd (if q then Y else 0) = .fin (if q then Y else 0) := by
            intro q _
            by_cases hq : q
            · rw [if_pos hq]; exact rY
            · rw [if_neg hq]; exact hD.rnd_zero
          rw [add_zero_right hD (hrX _)]
          congr 1
          · refine List.ext_getElem (by simp) fun i hi1 hi2 => ?_
            rw [List.getElem_set]
            simp only [List.getElem_map, List.getElem_range]
            by_cases hi : t.next s u = i
            · rw [if_pos hi, hi]
            · rw [if_neg hi]
          · have : u = 0 ∨ u = 1 := by omega
            rcases this with rfl | rfl
            · show [flAdd D (.fin (if c = true ∧ us.getD τ 0 = 0 then Y else 0)) (.fin 0), _] = _
              rw [add_zero_right hD (hrY _)]
            · show [_, flAdd D (.fin (if c = true ∧ us.getD τ 0 = 1 then Y else 0)) (.fin 0)] = _
              rw [add_zero_right hD (hrY _)]
        rw [hstep, ih (fun su hsu => hmem su (List.mem_cons_of_mem _ hsu)) hnd.2 c (fun hh hm => hc hh (List.mem_cons_of_mem _ hm))]
        have hiff : (encState t us τ, us.getD τ 0) ∈ (s, u) :: sus ↔ (encState t us τ, us.getD τ 0) ∈ sus := by
          rw [List.mem_cons]
          exact ⟨fun hh => hh.resolve_left (fun e => heq e.symm), .inr⟩
        simp only [hiff]
  have hkey := key (pairsF t) (fun su hsu => mem_pairsF.1 hsu) nodup_pairsF false (fun hh => absurd hh (by simp))
  have hin : (encState t us τ, us.getD τ 0) ∈ pairsF t := mem_pairsF.2 ⟨hst, hut⟩
  simp only [Bool.false_eq_true, false_and, if_false, hin, or_true, true_and] at hkey
  refine ⟨X, Y, x1, x2, hY0, ?_⟩
  rw [← hkey]
  congr 2
  refine List.ext_getElem (by simp) fun i hi1 hi2 => ?_
  simp

include hD h hk hn hs hM hL hb in
/-- `map_decode` when all wrong branches underflow: infinite LLRs with the right signs. -/
theorem mapDecodeF_sat {ys yp : List ℝ} {lint : List Fl} {δ σ2 : ℝ} (hsnr : HighSnr δ σ2) (hy : ys.length = L) (hyp : L ≤ yp.length) (hl : lint.length = L)
    (h1 : ∀ i < L, |ys.getD i 0 - bpskAmp (us.getD i 0)| ≤ δ) (h2 : ∀ i < L, |yp.getD i 0 - bpskAmp ((t.outputs 1 us).getD i 0)| ≤ δ)
    (hg : ∀ i < L, GoodPrior (us.getD i 0) (lint.getD i .nan)) (mode : String) :
    mapDecodeF D t (.fin σ2) (ys.map Fl.fin) (yp.map Fl.fin) lint mode =
      .ok ((List.range L).map (fun i => if us.getD i 0 = 1 then .inf else .ninf), (List.range L).map (fun i => if mode = "decode" then us.getD i 0 else 0)) := by
  classical
  have hS0 : 0 < 2 ^ t.M := by positivity
  rw [mapDecodeF_ok (D := D) (σ2 := .fin σ2) h hk hn (ys := ys.map Fl.fin) (yp := yp.map Fl.fin) (by simpa using hy) (by simpa using hyp) hl mode (FwdSat t us)
    (fun i => if us.getD i 0 = 1 then .inf else .ninf) (BackSat t us)
    ⟨1, fun _ => true, by norm_num, by norm_num, rfl, by simp⟩
    (fun τ hτ b _ hq => back_sat hD h hk hn hs hM hL hb hsnr hy hyp h1 h2 hτ (hg τ hτ) hq)
    ⟨1, by norm_num, by norm_num, by
      refine List.ext_getElem (by simp) fun i hi1 hi2 => ?_
      rw [List.getElem_set]
      simp only [List.getElem_map, List.getElem_range, List.getElem_replicate, encState, List.take_zero, Trellis.runState, List.foldl_nil]
      by_cases hi : 0 = i
      · rw [if_pos hi, if_pos hi.symm]
      · rw [if_neg hi, if_neg (fun hh => hi hh.symm)]⟩
    (fun τ hτ b f _ _ hq hp r hr => by
      obtain ⟨X, Y, x1, x2, hY, e⟩ := fwd_sat hD h hk hn hs hM hL hb hsnr hy hyp h1 h2 hτ (hg τ hτ) hq hp
      rw [e] at hr
      subst hr
      refine ⟨?_, ?_⟩
      · have hlt := encState_lt h hk hL hb (show τ + 1 ≤ L by omega)
        obtain ⟨v, v1, v2, v3⟩ := normalise_flags hD (states_le hM) (fun s => decide (s = encState t us (τ + 1))) hlt (by simp) x1 x2
        refine ⟨v, v1, v2, ?_⟩
        simpa using v3
      · have hut := us_lt hL hb τ
        have : us.getD τ 0 = 0 ∨ us.getD τ 0 = 1 := by omega
        have hgg := hg τ hτ
        rcases this with e0 | e0
        · rw [e0] at hgg ⊢
          simp only [List.getD_cons_succ, List.getD_cons_zero, if_true, zero_ne_one, if_false, flDiv, if_neg hY.ne', zero_div, hD.rnd_zero, flLog]
          rcases hgg with e1 | ⟨e2, -⟩ | ⟨-, e1⟩
          · rw [e1]; rfl
          · exact absurd e2 (by norm_num)
          · rw [e1]; rfl
        · rw [e0] at hgg ⊢
          simp only [List.getD_cons_succ, List.getD_cons_zero, if_true, one_ne_zero, if_false, flDiv, if_neg hY.ne', if_pos hY, flLog]
          rcases hgg with e1 | ⟨-, e1⟩ | ⟨e2, -⟩
          · rw [e1]; rfl
          · rw [e1]; rfl
          · exact absurd e2 (by norm_num))]
  congr 2
  refine List.map_congr_left fun i hi => ?_
  have hut := us_lt hL hb i
  have : us.getD i 0 = 0 ∨ us.getD i 0 = 1 := by omega
  rcases this with e0 | e0 <;> rw [e0] <;> simp [Fl.Pos]

theorem npZip_range {α β γ : Type} (F : α → β → γ) (f : Nat → α) (g : Nat → β) (L : Nat) :
    npZip F ((List.range L).map f) ((List.range L).map g) = .ok ((List.range L).map (fun i => F (f i) (g i))) := by
  unfold npZip
  rw [if_pos (by simp)]
  congr 1
  refine List.ext_getElem (by simp) fun i h1 h2 => ?_
  simp

theorem interlv_range {α : Type} {L : Nat} {p : List Nat} (hp : p.Perm (List.range L)) (f : Nat → α) (d : α) :
    interlv p ((List.range L).map f) = .ok ((List.range L).map (fun j => f (p.getD j 0))) := by
  have hpl : p.length = L := by simpa using hp.length_eq
  rw [interlv_ok d hp (by simp)]
  congr 1
  refine List.ext_getElem (by simp [hpl]) fun i h1 h2 => ?_
  have hi : i < p.length := by simpa using h1
  have hlt := perm_lt hp (List.getElem_mem hi)
  rw [List.getElem_map, getD_map_range' _ _ hlt]
  simp only [List.getElem_map, List.getElem_range]
  rw [List.getD_eq_getElem _ _ hi]

theorem list_eq_range {α : Type} (l : List α) (d : α) : l = (List.range l.length).map (fun i => l.getD i d) := by
  refine List.ext_getElem (by simp) fun i h1 h2 => ?_
  rw [List.getElem_map, List.getElem_range, List.getD_eq_getElem _ _ h1]

section turbo

variable {msg : List Nat} {p : List Nat} (hmL : msg.length = L) (hmb : ∀ b ∈ msg, b < 2) (hp : p.Perm (List.range L))
  {ys yp1 yp2 : List ℝ} {δ σ2 : ℝ}

include h hk hn hp in
/-- An iteration that starts with LLRs that are nan. -/
theorem turboIterF_nan (hy : ys.length = L) (hy1 : L ≤ yp1.length) (hy2 : L ≤ yp2.length) (N i : Nat) (o : Option (List Nat)) :
    turboIterF D t (.fin σ2) (ys.map Fl.fin) ((p.map (fun i => ys.getD i 0)).map Fl.fin) (yp1.map Fl.fin) (yp2.map Fl.fin) p N
      ((List.range L).map (fun _ => Fl.nan), o) i = .ok ((List.range L).map (fun _ => Fl.nan), some ((List.range L).map (fun _ => 0))) := by
  have hpl : p.length = L := by simpa using hp.length_eq
  have a1 := mapDecodeF_nan (D := D) (σ2 := .fin σ2) h hk hn (ys := ys.map Fl.fin) (yp := yp1.map Fl.fin) (lint := (List.range L).map (fun _ => Fl.nan))
    (by simpa using hy) (by simpa using hy1) (by simp) "compute" (fun τ hτ => getD_map_range' _ _ hτ)
  have a2 := npZip_range (flSub D) (fun _ => Fl.nan) (fun _ => Fl.nan) L
  have a3 := interlv_range hp (fun _ => Fl.nan) Fl.nan
  have a4 := mapDecodeF_nan (D := D) (σ2 := .fin σ2) h hk hn (ys := (p.map (fun i => ys.getD i 0)).map Fl.fin) (yp := yp2.map Fl.fin)
    (lint := (List.range L).map (fun _ => Fl.nan)) (by simp [hpl]) (by simpa using hy2) (by simp) (if i + 1 = N then "decode" else "compute")
    (fun τ hτ => getD_map_range' _ _ hτ)
  have a5 := deinterlv_range (Fl.fin 0) hp (fun _ => Fl.nan)
  have e : flSub D .nan .nan = .nan := rfl
  simp only [e] at a2
  simp only [turboIterF, a1, a2, a3, a4, a5, bind, Except.bind, pure, Except.pure]

include hD h hk hn hs hM hmL hmb hp in
/-- The first iteration: right decisions, and LLRs that are nan afterwards. -/
theorem turboIterF_first (hsnr : HighSnr δ σ2) (hy : ys.length = L) (hy1 : L ≤ yp1.length) (hy2 : L ≤ yp2.length)
    (h1 : ∀ i < L, |ys.getD i 0 - bpskAmp (msg.getD i 0)| ≤ δ)
    (h2 : ∀ i < L, |yp1.getD i 0 - bpskAmp ((t.outputs 1 msg).getD i 0)| ≤ δ)
    (h3 : ∀ i < L, |yp2.getD i 0 - bpskAmp ((t.outputs 1 (p.map fun i => msg.getD i 0)).getD i 0)| ≤ δ) (N : Nat) (o : Option (List Nat)) :
    turboIterF D t (.fin σ2) (ys.map Fl.fin) ((p.map (fun i => ys.getD i 0)).map Fl.fin) (yp1.map Fl.fin) (yp2.map Fl.fin) p N
      ((List.replicate ys.length 0).map Fl.fin, o) 0 =
      .ok ((List.range L).map (fun _ => Fl.nan), some ((List.range L).map (fun j => if 1 = N then msg.getD (p.getD j 0) 0 else 0))) := by
  have hpl : p.length = L := by simpa using hp.length_eq
  have hplt : ∀ j < L, p.getD j 0 < L := by
    intro j hj
    rw [List.getD_eq_getElem _ _ (by omega)]
    exact perm_lt hp (List.getElem_mem _)
  have hz : (List.replicate ys.length (0 : ℝ)).map Fl.fin = (List.range L).map (fun _ => Fl.fin 0) := by
    rw [hy, List.map_replicate]; simp
  set im := p.map fun i => msg.getD i 0 with him
  have himL : im.length = L := by simp [him, hpl]
  have himd : ∀ j < L, im.getD j 0 = msg.getD (p.getD j 0) 0 := by
    intro j hj
    rw [him, List.getD_eq_getElem _ _ (by simp; omega), List.getElem_map, List.getD_eq_getElem p _ (by omega)]
  have himb : ∀ b ∈ im, b < 2 := by
    intro b hbm
    rw [him, List.mem_map] at hbm
    obtain ⟨i, hi, rfl⟩ := hbm
    exact us_lt hmL hmb i
  have a1 := mapDecodeF_sat hD h hk hn hs hM hmL hmb hsnr hy hy1 (lint := (List.range L).map (fun _ => Fl.fin 0)) (by simp) h1 h2
    (fun i hi => .inl (getD_map_range' _ _ hi)) "compute"
  have a2 := npZip_range (flSub D) (fun i => if msg.getD i 0 = 1 then Fl.inf else .ninf) (fun _ => Fl.fin 0) L
  have e2 : (fun i => flSub D (if msg.getD i 0 = 1 then Fl.inf else .ninf) (Fl.fin 0)) = (fun i => if msg.getD i 0 = 1 then Fl.inf else .ninf) := by
    funext i
    by_cases e : msg.getD i 0 = 1
    · rw [if_pos e]; rfl
    · rw [if_neg e]; rfl
  rw [e2] at a2
  have a3 := interlv_range hp (fun i => if msg.getD i 0 = 1 then Fl.inf else .ninf) Fl.nan
  have a4 := mapDecodeF_sat hD h hk hn hs hM himL himb hsnr (ys := p.map (fun i => ys.getD i 0)) (yp := yp2) (by simp [hpl]) hy2
    (lint := (List.range L).map (fun j => if msg.getD (p.getD j 0) 0 = 1 then Fl.inf else .ninf)) (by simp)
    (by
      intro j hj
      rw [himd j hj, List.getD_eq_getElem _ _ (by simp; omega), List.getElem_map, ← List.getD_eq_getElem p 0 (by omega)]
      exact h1 _ (hplt j hj)) h3
    (by
      intro j hj
      rw [getD_map_range' _ _ hj, himd j hj]
      have := us_lt hmL hmb (p.getD j 0)
      have h01 : msg.getD (p.getD j 0) 0 = 0 ∨ msg.getD (p.getD j 0) 0 = 1 := by omega
      rcases h01 with e | e
      · rw [e]; exact .inr (.inr ⟨rfl, rfl⟩)
      · rw [e]; exact .inr (.inl ⟨rfl, rfl⟩)) (if 0 + 1 = N then "decode" else "compute")
  have eim : (List.range L).map (fun i => if im.getD i 0 = 1 then Fl.inf else .ninf) =
      (List.range L).map (fun j => if msg.getD (p.getD j 0) 0 = 1 then Fl.inf else .ninf) :=
    List.map_congr_left fun j hj => by rw [himd j (List.mem_range.1 hj)]
  rw [eim] at a4
  have a5 := npZip_range (flSub D) (fun j => if msg.getD (p.getD j 0) 0 = 1 then Fl.inf else .ninf)
    (fun j => if msg.getD (p.getD j 0) 0 = 1 then Fl.inf else .ninf) L
  have e5 : (fun j => flSub D (if msg.getD (p.getD j 0) 0 = 1 then Fl.inf else .ninf) (if msg.getD (p.getD j 0) 0 = 1 then Fl.inf else .ninf)) =
      (fun _ => Fl.nan) := by
    funext j
    by_cases e : msg.getD (p.getD j 0) 0 = 1
    · rw [if_pos e]; rfl
    · rw [if_neg e]; rfl
  rw [e5] at a5
  have a6 := deinterlv_range (Fl.fin 0) hp (fun _ => Fl.nan)
  rw [hz]
  simp only [turboIterF, a1, a2, a3, a4, a5, a6, bind, Except.bind, pure, Except.pure]
  congr 3
  refine List.map_congr_left fun j hj => ?_
  rw [himd j (List.mem_range.1 hj)]
  by_cases hN : 1 = N
  · simp [hN]
  · simp [hN]

include hD h hk hn hs hM hmL hmb hp in
/-- C122: at high SNR (all symbols received within `δ` of what was sent) one iteration of `turbo_decode` in double precision returns the message,
but two or more iterations return zeros only, whatever the message. -/
theorem C122_turbo (hsnr : HighSnr δ σ2) (hy : ys.length = L) (hy1 : L ≤ yp1.length) (hy2 : L ≤ yp2.length)
    (h1 : ∀ i < L, |ys.getD i 0 - bpskAmp (msg.getD i 0)| ≤ δ)
    (h2 : ∀ i < L, |yp1.getD i 0 - bpskAmp ((t.outputs 1 msg).getD i 0)| ≤ δ)
    (h3 : ∀ i < L, |yp2.getD i 0 - bpskAmp ((t.outputs 1 (p.map fun i => msg.getD i 0)).getD i 0)| ≤ δ) (N : Int) (hN : 1 ≤ N) :
    turboDecodeF D t σ2 ys yp1 yp2 N p none = .ok (if N = 1 then msg else List.replicate L 0) := by
  have hpl : p.length = L := by simpa using hp.length_eq
  have hit : interlv p (ys.map Fl.fin) = .ok ((p.map (fun i => ys.getD i 0)).map Fl.fin) := by
    rw [interlv_ok (Fl.fin 0) hp (x := ys.map Fl.fin) (by simp [hy]), List.map_map]
    congr 1
    refine List.map_congr_left fun i hi => ?_
    have := perm_lt hp hi
    simp only [Function.comp]
    rw [List.getD_eq_getElem _ _ (by simp; omega), List.getElem_map, List.getD_eq_getElem _ _ (by omega)]
  obtain ⟨n, rfl⟩ : ∃ n : Nat, N = (n : Int) + 1 := ⟨(N - 1).toNat, by omega⟩
  have hfirst := turboIterF_first hD h hk hn hs hM hmL hmb hp hsnr hy hy1 hy2 h1 h2 h3 (n + 1) none
  have key : ∀ m, (List.range (m + 1)).foldlM (turboIterF D t (.fin σ2) (ys.map Fl.fin) ((p.map (fun i => ys.getD i 0)).map Fl.fin) (yp1.map Fl.fin) (yp2.map Fl.fin) p (n + 1))
      ((List.replicate ys.length 0).map Fl.fin, none) = .ok ((List.range L).map (fun _ => Fl.nan),
        some ((List.range L).map (fun j => if m = 0 then (if 1 = n + 1 then msg.getD (p.getD j 0) 0 else 0) else 0))) := by
    intro m
    induction m with
    | zero =>
      show ([0].foldlM _ _ : Py _) = _
      rw [List.foldlM_cons, hfirst]
      rfl
    | succ m ih =>
      rw [List.range_succ, List.foldlM_append, ih]
      show ([m + 1].foldlM _ _ : Py _) = _
      rw [List.foldlM_cons, turboIterF_nan h hk hn hp hy hy1 hy2]
      simp [bind, Except.bind, pure, Except.pure]
  have hk2 := key n
  have e : ((n : Int) + 1).toNat = n + 1 := by omega
  simp only [turboDecodeF, hit, bind, Except.bind, Option.getD_none, e, hk2]
  rw [deinterlv_range 0 hp]
  congr 1
  by_cases hn0 : n = 0
  · subst hn0
    simp only [Nat.zero_add, if_true]
    rw [if_pos (by norm_num)]
    conv_rhs => rw [list_eq_range msg 0, hmL]
    refine List.map_congr_left fun i hi => ?_
    rw [(getD_idxOf hp (List.mem_range.1 hi)).2]
  · simp only [if_neg hn0]
    rw [if_neg (by omega)]
    simp

end turbo

end Verif
