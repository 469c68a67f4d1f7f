import Verif.Props.MaxLog
import Verif.Props.ModemSoft
/-
C107: the max-log soft output against exact log-likelihood ratios, and against `Modem.demodulate(..., 'soft')`.
-/
namespace Verif

section
variable {rows nb : Nat} {y : Nat → ℂ} {h : Nat → Nat → ℂ} {points : List (List ℂ)} {words : List (List Nat)} {nv : ℝ}
  {demode : List ℂ → List Nat}

/-- The candidates whose word has value `v` at position `k`. -/
def candSet (points : List (List ℂ)) (words : List (List Nat)) (k v : Nat) : Finset Nat :=
  (Finset.range points.length).filter fun p => (words.getD p []).getD k 0 = v

/-- Specification: total likelihood of these candidates, Gaussian noise of variance `nv` per real dimension. -/
noncomputable def candMass (rows : Nat) (y : Nat → ℂ) (h : Nat → Nat → ℂ) (nv : ℝ) (points : List (List ℂ)) (words : List (List Nat))
    (k v : Nat) : ℝ :=
  ∑ p ∈ candSet points words k v, Real.exp (-sqErr rows y h (points.getD p []) / (2 * nv))

theorem candMass_bounds {k v : Nat} {d : ℝ} (hnv : 0 < nv) (hd : IsLeast (candDist rows y h points words k v) d) :
    -d / (2 * nv) ≤ Real.log (candMass rows y h nv points words k v) ∧
      Real.log (candMass rows y h nv points words k v) ≤ -d / (2 * nv) + Real.log (candSet points words k v).card := by
  obtain ⟨⟨p, hp, hb, rfl⟩, hmin⟩ := hd
  have hmem : p ∈ candSet points words k v := by rw [candSet, Finset.mem_filter, Finset.mem_range]; exact ⟨hp, hb⟩
  have hcard : (0 : ℝ) < (candSet points words k v).card := by exact_mod_cast Finset.card_pos.2 ⟨p, hmem⟩
  have hlow : Real.exp (-sqErr rows y h (points.getD p []) / (2 * nv)) ≤ candMass rows y h nv points words k v :=
    Finset.single_le_sum (f := fun p => Real.exp (-sqErr rows y h (points.getD p []) / (2 * nv)))
      (fun _ _ => (Real.exp_pos _).le) hmem
  have hpos : 0 < candMass rows y h nv points words k v := lt_of_lt_of_le (Real.exp_pos _) hlow
  constructor
  · rw [Real.le_log_iff_exp_le hpos]; exact hlow
  · rw [Real.log_le_iff_le_exp hpos, Real.exp_add, Real.exp_log hcard, mul_comm, ← nsmul_eq_mul]
    apply Finset.sum_le_card_nsmul
    intro q hq
    rw [candSet, Finset.mem_filter, Finset.mem_range] at hq
    apply Real.exp_le_exp.2
    apply div_le_div_of_nonneg_right _ (by positivity)
    exact neg_le_neg (hmin ⟨q, hq.1, hq.2, rfl⟩)

theorem candDist_nonempty {k v : Nat} (hn : (candSet points words k v).Nonempty) : (candDist rows y h points words k v).Nonempty := by
  obtain ⟨p, hp⟩ := hn
  rw [candSet, Finset.mem_filter, Finset.mem_range] at hp
  exact ⟨_, p, hp.1, hp.2, rfl⟩

/-- C107. When both values of a bit occur among the candidates, the value returned by `max_log_approx` differs from the exact
log-likelihood ratio `log P(bit = 0) / P(bit = 1)` over the candidates (Gaussian noise of variance `nv` per real dimension) by at most
the logarithm of a number of candidates. -/
theorem C107_gap (hp : points ≠ []) (hlen : words.length = points.length) (hw : ∀ w ∈ words, w.length = nb)
    (hdem : demode points.flatten = words.flatten) (hnv : 0 < nv) :
    ∃ llr, maxLogApprox rows y h nv points demode = .ok llr ∧ llr.length = nb ∧ ∀ k < nb,
      (candSet points words k 0).Nonempty → (candSet points words k 1).Nonempty → ∃ r : ℝ, llr.getD k 0 = (r : EReal) ∧
        Real.log (candMass rows y h nv points words k 0 / candMass rows y h nv points words k 1) -
          Real.log (candSet points words k 0).card ≤ r ∧
        r ≤ Real.log (candMass rows y h nv points words k 0 / candMass rows y h nv points words k 1) +
          Real.log (candSet points words k 1).card := by
  obtain ⟨llr, he, hl, hv⟩ := C72_values (rows := rows) (y := y) (h := h) hp hlen hw hdem hnv
  refine ⟨llr, he, hl, fun k hk h0 h1 => ?_⟩
  obtain ⟨d0, hd0⟩ := finite_cands rows y h points words k 0 (candDist_nonempty h0)
  obtain ⟨d1, hd1⟩ := finite_cands rows y h points words k 1 (candDist_nonempty h1)
  obtain ⟨a0, b0⟩ := candMass_bounds hnv hd0
  obtain ⟨a1, b1⟩ := candMass_bounds hnv hd1
  have p0 : 0 < candMass rows y h nv points words k 0 := Finset.sum_pos (fun _ _ => Real.exp_pos _) h0
  have p1 : 0 < candMass rows y h nv points words k 1 := Finset.sum_pos (fun _ _ => Real.exp_pos _) h1
  refine ⟨_, (hv k hk).1 d0 d1 hd0 hd1, ?_⟩
  rw [Real.log_div p0.ne' p1.ne']
  have e : (d1 - d0) / (2 * nv) = -d0 / (2 * nv) - -d1 / (2 * nv) := by ring
  rw [e]
  constructor <;> linarith
end

theorem toBits_getD_testBit {w l j : Nat} (hj : j < w) : (toBits w l).getD j 0 = (l.testBit (w - 1 - j)).toNat := by
  rw [toBits_getD hj, Nat.testBit_eq_decide_div_mod_eq]
  rcases Nat.mod_two_eq_zero_or_one (l / 2 ^ (w - 1 - j)) with h | h <;> simp [h]

/-- Half of the labels have a given bit set. -/
theorem half_labels {w j : Nat} (hj : j < w) {b : Nat} (hb : b < 2) :
    ((Finset.range (2 ^ w)).filter fun l => (toBits w l).getD j 0 = b).card = 2 ^ (w - 1) := by
  have hflip : ((Finset.range (2 ^ w)).filter fun l => (toBits w l).getD j 0 = 0).card =
      ((Finset.range (2 ^ w)).filter fun l => ¬ (toBits w l).getD j 0 = 0).card := by
    have hx : ∀ l < 2 ^ w, l ^^^ 2 ^ (w - 1 - j) < 2 ^ w := fun l hl =>
      Nat.xor_lt_two_pow hl (Nat.pow_lt_pow_right (by norm_num) (by omega))
    have ht : ∀ l, (l ^^^ 2 ^ (w - 1 - j)).testBit (w - 1 - j) = !l.testBit (w - 1 - j) := by
      intro l; rw [Nat.testBit_xor, Nat.testBit_two_pow_self]; simp
    refine Finset.card_bij (fun l _ => l ^^^ 2 ^ (w - 1 - j)) ?_ ?_ ?_
    · intro l hl
      simp only [Finset.mem_filter, Finset.mem_range, toBits_getD_testBit hj, ht] at hl ⊢
      refine ⟨hx l hl.1, ?_⟩
      have := hl.2
      cases hh : l.testBit (w - 1 - j) <;> simp_all
    · intro a _ b _ hab
      have := congrArg (· ^^^ 2 ^ (w - 1 - j)) hab
      simpa [Nat.xor_xor_cancel_right] using this
    · intro l hl
      simp only [Finset.mem_filter, Finset.mem_range, toBits_getD_testBit hj] at hl
      refine ⟨l ^^^ 2 ^ (w - 1 - j), ?_, Nat.xor_xor_cancel_right _ _⟩
      simp only [Finset.mem_filter, Finset.mem_range, toBits_getD_testBit hj, ht]
      refine ⟨hx l hl.1, ?_⟩
      have := hl.2
      cases hh : l.testBit (w - 1 - j) <;> simp_all
  have hsum := Finset.card_filter_add_card_filter_not (s := Finset.range (2 ^ w)) (fun l => (toBits w l).getD j 0 = 0)
  rw [Finset.card_range] at hsum
  have h2 : 2 ^ w = 2 * 2 ^ (w - 1) := by rw [← pow_succ']; congr 1; omega
  have hone : ((Finset.range (2 ^ w)).filter fun l => (toBits w l).getD j 0 = 1) =
      (Finset.range (2 ^ w)).filter fun l => ¬ (toBits w l).getD j 0 = 0 := by
    apply Finset.filter_congr
    intro l _
    rw [toBits_getD hj]; omega
  have : b = 0 ∨ b = 1 := by omega
  rcases this with rfl | rfl
  · omega
  · rw [hone]; omega

/-- C107. One antenna, unit gain, all points of the constellation as candidates, `demode` the hard demodulation of the same modem:
the value of `max_log_approx` with noise variance `nv` is the value of `demodulate(..., 'soft')` with noise variance `2 nv` with the
opposite sign, up to `log(m/2)` (`m` the number of points). -/
theorem C107_siso {s : Modem} (hs : s.Consistent) (hd : s.constellation.Nodup) (y : ℂ) {nv : ℝ} (hnv : 0 < nv)
    {demode : List ℂ → List Nat} (hdem : ∀ ys, demodulate s ys "hard" 0 = .ok (.bits (demode ys))) :
    ∃ L llr, demodulate s [y] "soft" (2 * nv) = .ok (.llrs L) ∧ L.length = s.nbits ∧
      maxLogApprox 1 (fun _ => y) (fun _ _ => 1) nv (s.constellation.map fun c => [c]) demode = .ok llr ∧ llr.length = s.nbits ∧
      ∀ k < s.nbits, ∃ r : ℝ, llr.getD k 0 = (r : EReal) ∧ |r + L.getD k 0| ≤ Real.log ((s.m : ℝ) / 2) := by
  set points := s.constellation.map fun c => [c] with hpts
  set words := (List.range s.m).map (toBits s.nbits) with hwords
  have hpl : points.length = s.m := by rw [hpts, List.length_map, hs.size]
  have hflat : points.flatten = s.constellation := by
    rw [hpts]; induction s.constellation with
    | nil => rfl
    | cons a l ih => simp [ih]
  have hd1 : demode points.flatten = words.flatten := by
    have h1 := hdem s.constellation
    unfold demodulate at h1
    rw [if_pos rfl, demodHard_ok hs] at h1
    simp only [bind, Except.bind, pure, Except.pure, Except.map] at h1
    injection h1 with h1
    injection h1 with h1
    have e : s.constellation.map (nearestIdx s) = List.range s.m := by
      apply List.ext_getElem (by rw [List.length_map, List.length_range, hs.size])
      intro l h2 h3
      have hl : l < s.constellation.length := by simpa using h2
      rw [List.getElem_map, List.getElem_range]
      obtain ⟨h4, h5⟩ := nearestIdx_spec hs s.constellation[l]
      have h6 := h5 _ (List.getElem_mem hl)
      rw [sub_self, norm_zero, norm_le_zero_iff, sub_eq_zero] at h6
      exact ((List.Nodup.getElem_inj_iff hd).1 h6).symm
    rw [hflat, ← h1, e, hwords, ← List.flatMap_def]
  obtain ⟨L, hL, hLl, hLv⟩ := C67_llr hs [y] (v := 2 * nv) (by positivity)
  have hm0 : s.m ≠ 0 := by rw [hs.pow]; exact (Nat.two_pow_pos _).ne'
  obtain ⟨llr, he, hl, hv⟩ := C107_gap (rows := 1) (nb := s.nbits) (y := fun _ => y) (h := fun _ _ => 1) (points := points)
    (words := words) (nv := nv) (demode := demode) (by intro e; rw [e] at hpl; exact hm0 hpl.symm)
    (by rw [hwords, List.length_map, List.length_range, hpl])
    (by intro w hw; obtain ⟨l, -, rfl⟩ := List.mem_map.1 hw; exact toBits_length _ _) hd1 hnv
  refine ⟨L, llr, hL, by simpa using hLl, he, hl, fun k hk => ?_⟩
  have hset : ∀ v, candSet points words k v = (Finset.range (2 ^ s.nbits)).filter fun l => (toBits s.nbits l).getD k 0 = v := by
    intro v
    rw [candSet, hpl, hs.pow]
    apply Finset.filter_congr
    intro l hl
    have : words.getD l [] = toBits s.nbits l := by
      rw [hwords, List.getD_eq_getElem _ _ (by rw [List.length_map, List.length_range, hs.pow]; exact Finset.mem_range.1 hl)]
      simp
    rw [this]
  have hcard : ∀ v < 2, (candSet points words k v).card = 2 ^ (s.nbits - 1) := by
    intro v hv; rw [hset, half_labels hk hv]
  have hmass : ∀ v, candMass 1 (fun _ => y) (fun _ _ => 1) nv points words k v = likelihood s y (2 * nv) k v := by
    intro v
    unfold candMass likelihood
    rw [hset, hs.pow]
    apply Finset.sum_congr rfl
    intro l hl
    have hl' : l < s.constellation.length := by
      rw [← hs.size, hs.pow]; exact Finset.mem_range.1 (Finset.mem_filter.1 hl).1
    have : points.getD l [] = [s.constellation.getD l 0] := by
      rw [hpts, List.getD_eq_getElem _ _ (by simpa using hl'), List.getElem_map, List.getD_eq_getElem _ _ hl']
    rw [this]
    simp [sqErr]
  have hpos := Nat.two_pow_pos (s.nbits - 1)
  obtain ⟨r, hr, h1, h2⟩ := hv k hk (Finset.card_pos.1 (by rw [hcard 0 (by norm_num)]; exact hpos))
    (Finset.card_pos.1 (by rw [hcard 1 (by norm_num)]; exact hpos))
  refine ⟨r, hr, ?_⟩
  have hLk : L.getD k 0 = Real.log (likelihood s y (2 * nv) k 1 / likelihood s y (2 * nv) k 0) := by
    have := hLv 0 (by simp) k hk
    rw [Nat.zero_mul, Nat.zero_add] at this
    rw [List.getD_eq_getElem?_getD, this]; rfl
  have hhalf : ((2 ^ (s.nbits - 1) : Nat) : ℝ) = (s.m : ℝ) / 2 := by
    have : s.m = 2 * 2 ^ (s.nbits - 1) := by rw [hs.pow, ← pow_succ']; congr 1; omega
    rw [this]; push_cast; ring
  rw [hcard 0 (by norm_num), hmass, hmass, hhalf] at h1
  rw [hcard 1 (by norm_num), hmass, hmass, hhalf] at h2
  rw [hLk, ← inv_div, Real.log_inv, abs_le]
  constructor <;> linarith

/-- C107, the sign: a soft demodulator output beyond `log(m/2)` has the opposite sign in `max_log_approx`. -/
theorem C107_opposite {s : Modem} (hs : s.Consistent) (hd : s.constellation.Nodup) (y : ℂ) {nv : ℝ} (hnv : 0 < nv)
    {demode : List ℂ → List Nat} (hdem : ∀ ys, demodulate s ys "hard" 0 = .ok (.bits (demode ys))) :
    ∃ L llr, demodulate s [y] "soft" (2 * nv) = .ok (.llrs L) ∧
      maxLogApprox 1 (fun _ => y) (fun _ _ => 1) nv (s.constellation.map fun c => [c]) demode = .ok llr ∧
      ∀ k < s.nbits, (Real.log ((s.m : ℝ) / 2) < L.getD k 0 → llr.getD k 0 < 0) ∧
        (L.getD k 0 < -Real.log ((s.m : ℝ) / 2) → 0 < llr.getD k 0) := by
  obtain ⟨L, llr, h1, -, h2, -, h3⟩ := C107_siso hs hd y hnv hdem
  refine ⟨L, llr, h1, h2, fun k hk => ?_⟩
  obtain ⟨r, hr, hb⟩ := h3 k hk
  rw [abs_le] at hb
  rw [hr]
  constructor
  · intro h; exact EReal.coe_neg'.2 (by linarith)
  · intro h; exact EReal.coe_pos.2 (by linarith)

/-- C107, refuted as stated: the soft outputs of `demodulate` and of `max_log_approx` do not follow the same convention.  With two
points `a`, `b` (labels 0 and 1), every observation and the same noise variance, `demodulate` returns minus twice the value of
`max_log_approx`. -/
theorem C107_convention_refuted {a b : ℂ} {s : Modem} (hs : s.Consistent) (hc : s.constellation = [a, b]) (y : ℂ) {v : ℝ} (hv : 0 < v)
    {demode : List ℂ → List Nat} (hdem : demode [a, b] = [0, 1]) :
    ∃ r : ℝ, maxLogApprox 1 (fun _ => y) (fun _ _ => 1) v [[a], [b]] demode = .ok [(r : EReal)] ∧
      demodulate s [y] "soft" v = .ok (.llrs [-2 * r]) ∧ r = (‖y - b‖ ^ 2 - ‖y - a‖ ^ 2) / (2 * v) := by
  have hm : s.m = 2 := by rw [hs.size, hc]; rfl
  have hn : s.nbits = 1 := by
    have := hs.pow
    rw [hm] at this
    exact (Nat.pow_right_injective (le_refl 2) (by simpa using this)).symm
  refine ⟨(‖y - b‖ ^ 2 - ‖y - a‖ ^ 2) / (2 * v), ?_, ?_, rfl⟩
  · obtain ⟨llr, he, hl, hvv⟩ := C72_values (rows := 1) (nb := 1) (y := fun _ => y) (h := fun _ _ => 1) (points := [[a], [b]])
      (words := [[0], [1]]) (nv := v) (demode := demode) (by simp) rfl (by simp) (by simpa using hdem) hv
    have h0 : candDist 1 (fun _ => y) (fun _ _ => 1) [[a], [b]] [[0], [1]] 0 0 = {‖y - a‖ ^ 2} := by
      ext d
      simp only [candDist, Set.mem_setOf_eq, Set.mem_singleton_iff]
      constructor
      · rintro ⟨p, hp, hw, rfl⟩
        have : p = 0 ∨ p = 1 := by simp at hp; omega
        rcases this with rfl | rfl
        · simp [sqErr]
        · simp at hw
      · rintro rfl; exact ⟨0, by simp, by simp, by simp [sqErr]⟩
    have h1 : candDist 1 (fun _ => y) (fun _ _ => 1) [[a], [b]] [[0], [1]] 0 1 = {‖y - b‖ ^ 2} := by
      ext d
      simp only [candDist, Set.mem_setOf_eq, Set.mem_singleton_iff]
      constructor
      · rintro ⟨p, hp, hw, rfl⟩
        have : p = 0 ∨ p = 1 := by simp at hp; omega
        rcases this with rfl | rfl
        · simp at hw
        · simp [sqErr]
      · rintro rfl; exact ⟨1, by simp, by simp, by simp [sqErr]⟩
    have h2 := (hvv 0 (by norm_num)).1 (‖y - a‖ ^ 2) (‖y - b‖ ^ 2) (by rw [h0]; exact isLeast_singleton) (by rw [h1]; exact isLeast_singleton)
    rw [he]
    match llr, hl with
    | [x], _ => simp only [List.getD_cons_zero] at h2; rw [h2]
  · obtain ⟨L, h1, h2, h3⟩ := C67_llr hs [y] ‹0 < v›
    have h4 := h3 0 (by simp) 0 (by rw [hn]; norm_num)
    rw [h1]
    rw [hn] at h2
    have l0 : likelihood s y v 0 0 = Real.exp (-‖y - a‖ ^ 2 / v) := by
      unfold likelihood
      rw [hm, hn, show (Finset.range 2).filter (fun l => (toBits 1 l).getD 0 0 = 0) = {0} by decide, Finset.sum_singleton, hc]; rfl
    have l1 : likelihood s y v 0 1 = Real.exp (-‖y - b‖ ^ 2 / v) := by
      unfold likelihood
      rw [hm, hn, show (Finset.range 2).filter (fun l => (toBits 1 l).getD 0 0 = 1) = {1} by decide, Finset.sum_singleton, hc]; rfl
    match L, h2 with
    | [x], _ =>
      simp only [Nat.zero_mul, Nat.zero_add, List.getElem?_cons_zero, List.getElem_cons_zero, Option.some.injEq] at h4
      rw [h4, l0, l1, ← Real.exp_sub, Real.log_exp]
      congr 3
      field_simp
      ring

/-- The two-point modem `[1, -1]` meets the hypotheses; for `y = 1`, noise variance 1: `max_log_approx` gives 2, `demodulate` -4. -/
example : ∃ s : Modem, s.Consistent ∧ s.constellation = [1, -1] ∧ s.constellation.Nodup ∧
    ∃ demode : List ℂ → List Nat, (∀ ys, demodulate s ys "hard" 0 = .ok (.bits (demode ys))) ∧
    maxLogApprox 1 (fun _ => 1) (fun _ _ => 1) 1 [[1], [-1]] demode = .ok [((2 : ℝ) : EReal)] ∧
      demodulate s [1] "soft" 1 = .ok (.llrs [-4]) := by
  have hs : Modem.Consistent ⟨[1, -1], 1, 2, 1⟩ := ⟨rfl, rfl, by norm_num⟩
  have hd : ([1, -1] : List ℂ).Nodup := by simp; intro h; have := congrArg Complex.re h; norm_num at this
  refine ⟨⟨[1, -1], 1, 2, 1⟩, hs, rfl, hd,
    fun ys => (ys.map (nearestIdx ⟨[1, -1], 1, 2, 1⟩)).flatMap (toBits 1), fun ys => ?_, ?_⟩
  · unfold demodulate; rw [if_pos rfl, demodHard_ok hs]; rfl
  · have hdem : ([(1 : ℂ), -1].map (nearestIdx ⟨[1, -1], 1, 2, 1⟩)).flatMap (toBits 1) = [0, 1] := by
      have e : ∀ l, (hl : l < 2) → nearestIdx ⟨[1, -1], 1, 2, 1⟩ (([1, -1] : List ℂ)[l]'hl) = l := by
        intro l hl
        obtain ⟨h4, h5⟩ := nearestIdx_spec hs (([1, -1] : List ℂ)[l]'hl)
        have h6 := h5 _ (List.getElem_mem (l := [1, -1]) hl)
        rw [sub_self, norm_zero, norm_le_zero_iff, sub_eq_zero] at h6
        exact ((List.Nodup.getElem_inj_iff hd).1 h6).symm
      have e0 := e 0 (by norm_num)
      have e1 := e 1 (by norm_num)
      simp only [List.getElem_cons_zero, List.getElem_cons_succ] at e0 e1
      rw [List.map_cons, List.map_cons, e0, e1]; rfl
    obtain ⟨r, h1, h2, h3⟩ := C107_convention_refuted (a := 1) (b := -1) hs rfl 1 (v := 1) (by norm_num)
      (demode := fun ys => (ys.map (nearestIdx ⟨[1, -1], 1, 2, 1⟩)).flatMap (toBits 1)) hdem
    have : r = 2 := by rw [h3]; norm_num
    subst this
    refine ⟨h1, ?_⟩
    rw [h2]; norm_num

end Verif
