import Verif.Props.TurboFloat
import Mathlib.Analysis.Complex.ExponentialBounds
/-
C122, end to end: encoder, BPSK without noise, decoder in double precision; and an arithmetic that meets the contract.
-/
namespace Verif

/-- C122: a noiseless round trip in double precision, for every code, message, permutation and small noise variance: right after one iteration,
all zeros after more; with exact arithmetic the message comes back (C92). -/
theorem C122_roundtrip {D : MapFloats} (hD : DoubleLike D) {M f g0 g1 : Nat} (hM : 0 < M) (hM20 : M ≤ 20) (hf1 : 2 ^ M ≤ f) (hf2 : f < 2 ^ (M + 1))
    (hg0 : g0 < 2 ^ (M + 1)) (hg1 : g1 < 2 ^ (M + 1)) {v : NNReal} (hv1 : 1 / 2 ^ 900 ≤ (v : ℝ)) (hv2 : (v : ℝ) ≤ 1 / 800) {msg : List Nat}
    (hb : ∀ b ∈ msg, b < 2) {p : List Nat} (hp : p.Perm (List.range msg.length)) {outLen : Nat → Nat}
    (ho : outLen (msg.length + M) = 2 * (msg.length + M)) {n : Int} (hn : 1 ≤ n) :
    ∃ t s p1 p2, mkTrellisLegacy M [g0, g1] f true = .ok t ∧ turboEncode outLen outLen t t p msg = .ok (s, p1, p2) ∧
      turboDecode t v (s.map bpskAmp) (p1.map bpskAmp) (p2.map bpskAmp) n p none = .ok msg ∧
      turboDecodeF D t v (s.map bpskAmp) (p1.map bpskAmp) (p2.map bpskAmp) n p none = .ok (if n = 1 then msg else List.replicate msg.length 0) := by
  obtain ⟨t, e, hw, hl, hs, hk, hn2, hM', -⟩ := C92_trellis hM hf1 hf2 hg0 hg1
  have hv : 0 < v := by
    have : (0 : ℝ) < v := lt_of_lt_of_le (by positivity) hv1
    exact_mod_cast this
  obtain ⟨s', p1', p2', e1', e2'⟩ := C92_roundtrip_trellis (outLen := outLen) hw hk hl hs hv hn2 (by omega) hb hp (by rw [hM']; exact ho) hn
  refine ⟨t, s', p1', p2', e, e1', e2', ?_⟩
  obtain ⟨third, e1, e2, e3, -⟩ := C50_streams_partial (outLen1 := outLen) (outLen2 := outLen) hw hw hk hk hn2 hn2 (by omega) (by omega) hs hb hp (by rw [hM']; exact ho) (by rw [hM']; exact ho)
  rw [e1] at e1'
  simp only [Except.ok.injEq, Prod.mk.injEq] at e1'
  obtain ⟨rfl, rfl, rfl⟩ := e1'
  have hpl : p.length = msg.length := by simpa using hp.length_eq
  refine C122_turbo hD hw hk (by omega) hs (by omega) rfl hb hp (δ := 0) ⟨by norm_num, by have := v.2; norm_num, hv1, hv2⟩ (by simp) (by simp [Trellis.outputs])
    (by simp [e3]; omega) ?_ ?_ ?_ n hn
  · intro i hi
    rw [List.getD_eq_getElem (msg.map bpskAmp) _ (by simpa using hi), List.getElem_map, List.getD_eq_getElem _ _ hi]
    simp
  · intro i hi
    have hol : (t.outputs 1 msg).length = msg.length := by simp [Trellis.outputs]
    rw [List.getD_eq_getElem ((t.outputs 1 msg).map bpskAmp) _ (by simpa [hol] using hi), List.getElem_map, ← List.getD_eq_getElem (t.outputs 1 msg) 0 (by omega)]
    simp
  · intro i hi
    have : third[i]'(by omega) = (t.outputs 1 (p.map fun i => msg.getD i 0)).getD i 0 := by
      rw [← e2, List.getD_eq_getElem _ _ (by rw [List.length_take]; omega), List.getElem_take]
    rw [List.getD_eq_getElem (third.map bpskAmp) _ (by simp; omega), List.getElem_map, this]
    simp

/-- An arithmetic that meets the contract: exact, except that `exp` underflows. -/
noncomputable def underflowFloats : MapFloats where
  rnd := Fl.fin
  exp x := if x ≤ -746 then .fin 0 else .fin (Real.exp x)
  log x := .fin (Real.log x)
  sum l := .fin ((l.map (fun a => match a with | .fin x => x | _ => 0)).sum)

theorem underflowFloats_ok : DoubleLike underflowFloats where
  rnd_err x _ := ⟨x, rfl, by simp; positivity⟩
  rnd_zero := rfl
  rnd_rnd _ _ _ := rfl
  exp_zero := by
    show (if (0 : ℝ) ≤ -746 then Fl.fin 0 else .fin (Real.exp 0)) = .fin 1
    rw [if_neg (by norm_num), Real.exp_zero]
  exp_under x hx := if_pos hx
  exp_range x h1 h2 := by
    refine ⟨Real.exp x, if_neg (by linarith), ?_, ?_⟩
    · have h3 : Real.exp (-400) ≤ Real.exp x := Real.exp_le_exp.2 h1
      have h4 : Real.exp 400 ≤ 2 ^ 600 := by
        have a : Real.exp 2 ≤ 2 ^ 3 := by
          have b := Real.exp_one_lt_d9
          have c : Real.exp 2 = Real.exp 1 * Real.exp 1 := by rw [← Real.exp_add]; norm_num
          rw [c]
          nlinarith [Real.exp_pos 1]
        have : Real.exp 400 = Real.exp 2 ^ 200 := by rw [← Real.exp_nat_mul]; norm_num
        rw [this]
        calc Real.exp 2 ^ 200 ≤ (2 ^ 3) ^ 200 := pow_le_pow_left₀ (Real.exp_pos _).le a _
          _ = 2 ^ 600 := by rw [← pow_mul]
      refine le_trans ?_ h3
      rw [Real.exp_neg, one_div]
      exact inv_anti₀ (Real.exp_pos _) h4
    · have h3 : Real.exp x ≤ Real.exp 1 := Real.exp_le_exp.2 h2
      have := Real.exp_one_lt_d9
      linarith
  sum_err l _ h := by
    refine ⟨l.sum, ?_, ?_⟩
    · show Fl.fin _ = Fl.fin _
      rw [List.map_map]
      congr 2
      conv_rhs => rw [← List.map_id l]
      rfl
    · have : 0 ≤ l.sum := List.sum_nonneg fun x hx => by
        rcases h x hx with e | ⟨e, -⟩
        · exact e.ge
        · exact le_trans (by positivity) e
      simp
      positivity

/-- C122, the property as stated is false: with the (7, 5) code of the module, a noiseless frame and noise variance 1/1000, eight iterations in
double precision lose the message. -/
theorem C122_roundtrip_refuted {D : MapFloats} (hD : DoubleLike D) : ∃ s p1 p2, turboEncode (· * 2) (· * 2) turboTrellis turboTrellis [2, 0, 1] [1, 0, 1] = .ok (s, p1, p2) ∧
    turboDecode turboTrellis (1 / 1000) (s.map bpskAmp) (p1.map bpskAmp) (p2.map bpskAmp) 8 [2, 0, 1] none = .ok [1, 0, 1] ∧
    turboDecodeF D turboTrellis (1 / 1000) (s.map bpskAmp) (p1.map bpskAmp) (p2.map bpskAmp) 8 [2, 0, 1] none = .ok [0, 0, 0] := by
  obtain ⟨t, s, p1, p2, e, e1, e2, e3⟩ := C122_roundtrip hD (M := 2) (f := 5) (g0 := 1) (g1 := 7) (by norm_num) (by norm_num) (by norm_num) (by norm_num) (by norm_num)
    (by norm_num) (v := 1 / 1000) (by
      have : (1 : ℝ) / 2 ^ 900 ≤ 1 / 2 ^ 10 := one_div_le_one_div_of_le (by positivity) (pow_le_pow_right₀ (by norm_num) (by norm_num))
      refine this.trans ?_
      norm_num) (by norm_num) (msg := [1, 0, 1]) (by decide) (p := [2, 0, 1]) (by decide) (outLen := (· * 2)) (by norm_num) (n := 8) (by norm_num)
  have e' : mkTrellisLegacy 2 [1, 7] 5 true = .ok turboTrellis := by decide +kernel
  rw [e'] at e
  cases e
  refine ⟨s, p1, p2, e1, ?_, ?_⟩
  · simpa using e2
  · rw [if_neg (by norm_num)] at e3
    simpa using e3

/-- The hypotheses of C122 are met, with noise. -/
example : turboDecodeF underflowFloats turboTrellis (1 / 1000) [1.25, -0.5, 1] [0.9, 1, 1.1] [1, -1, 0.75, 7] 1 [2, 0, 1] none = .ok [1, 0, 1] ∧
    turboDecodeF underflowFloats turboTrellis (1 / 1000) [1.25, -0.5, 1] [0.9, 1, 1.1] [1, -1, 0.75, 7] 2 [2, 0, 1] none = .ok [0, 0, 0] := by
  have o1 : turboTrellis.outputs 1 [1, 0, 1] = [1, 1, 1] := by decide
  have o2 : turboTrellis.outputs 1 ([2, 0, 1].map fun i => [1, 0, 1].getD i 0) = [1, 0, 1] := by decide
  have cases3 : ∀ i < 3, i = 0 ∨ i = 1 ∨ i = 2 := by omega
  have key : ∀ N : Int, 1 ≤ N → turboDecodeF underflowFloats turboTrellis (1 / 1000) [1.25, -0.5, 1] [0.9, 1, 1.1] [1, -1, 0.75, 7] N [2, 0, 1] none =
      .ok (if N = 1 then [1, 0, 1] else List.replicate 3 0) := by
    intro N hN
    refine C122_turbo underflowFloats_ok turboTrellis_WF rfl (by decide) turboTrellis_systematic (by decide) (L := 3) rfl (by decide) (by decide) (δ := 1 / 2)
      ⟨by norm_num, by norm_num, ?_, by norm_num⟩ rfl (by simp) (by simp) ?_ ?_ ?_ N hN
    · have : (1 : ℝ) / 2 ^ 900 ≤ 1 / 2 ^ 10 := one_div_le_one_div_of_le (by positivity) (pow_le_pow_right₀ (by norm_num) (by norm_num))
      exact this.trans (by norm_num)
    · intro i hi; rcases cases3 i hi with rfl | rfl | rfl <;> norm_num [bpskAmp, abs_le]
    · rw [o1]; intro i hi; rcases cases3 i hi with rfl | rfl | rfl <;> norm_num [bpskAmp, abs_le]
    · rw [o2]; intro i hi; rcases cases3 i hi with rfl | rfl | rfl <;> norm_num [bpskAmp, abs_le]
  exact ⟨by simpa using key 1 le_rfl, by simpa using key 2 (by norm_num)⟩

end Verif
