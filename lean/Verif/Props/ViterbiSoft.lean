import Verif.Lemmas.ViterbiErasure
/-
C40 for soft decisions.
-/
namespace Verif

/-- C40 with soft decisions: decoding error-free LLRs of a continuous encoding returns the message, for every balanced
trellis with distinct outputs, every memory, every message of whole groups and every traceback depth that fits (the
padding LLRs are 0 and do not influence the decision). -/
theorem C40_continuous_soft {t : Trellis} (h : t.Balanced) (hn : 0 < t.n)
    (hdist : ∀ s < 2 ^ t.M, ∀ u < 2 ^ t.k, ∀ v < 2 ^ t.k, t.out s u = t.out s v → u = v)
    {outLen : Nat → Nat} {msg : List Nat} (hb : ∀ b ∈ msg, b < 2) {N : Nat} (hN : msg.length = N * t.k)
    (hout : outLen (N * t.k) = N * t.n) (jk : VitJunk ℝ) {tb : Nat} (htb : 2 ≤ tb) (htb2 : tb ≤ N + t.M / t.k)
    (hB : t.k = 1 ∨ (t.M / t.k - 1) * t.k ≤ tb) :
    ∃ c, convEncode outLen t msg "cont" none = .ok c ∧ c.length = N * t.n ∧
      ∀ llr : List ℝ, llr.length = c.length → (∀ i < c.length, c.getD i 0 = 1 ∧ 0 < llr.getD i 0 ∨
        c.getD i 0 = 0 ∧ llr.getD i 0 < 0) →
      viterbiDecode "soft" t jk (N * t.k) tb llr = .ok (msg, llr) := by
  have hk := h.wf.k_pos
  refine ⟨_, convEncode_cont h.wf hn hb hN hout, ?_, ?_⟩
  · rw [Trellis.runOut_length, inSyms_length, hN, Nat.mul_div_cancel _ hk]
  intro llr hl hs
  have hro : (t.runOut 0 (inSyms t.k msg)).length = N * t.n := by
    rw [Trellis.runOut_length, inSyms_length, hN, Nat.mul_div_cancel _ hk]
  have hin : IsInput t N (inSyms t.k msg) := by
    refine ⟨by rw [inSyms_length, hN, Nat.mul_div_cancel _ hk], ?_⟩
    exact inSyms_lt hb _
  have := viterbiSoft_errorfree h jk htb htb2 hB hin (llr := llr) (by rw [hl, hro]) ?_ ?_
  · rw [this, flatMap_inSyms hk hb hN]
  · intro i hi
    rcases hs i (by rw [hro]; exact hi) with ⟨h1, h2⟩ | ⟨h1, h2⟩
    · exact ⟨fun _ => h1, fun h3 => absurd h2 (not_lt.2 h3.le)⟩
    · exact ⟨fun h3 => absurd h2 (not_lt.2 h3.le), fun _ => h1⟩
  · intro j hj s hs' u hu v hv hne
    have hne' : toBits t.n (t.out s u) ≠ toBits t.n (t.out s v) := by
      intro e
      exact hne (hdist s hs' u hu v hv (toBits_inj (h.wf.out_lt hs' hu) (h.wf.out_lt hs' hv) e))
    by_contra hc
    apply hne'
    apply List.ext_getElem (by simp)
    intro p h1 h2
    rw [toBits_length] at h1
    by_contra hx
    apply hc
    refine ⟨p, h1, ?_, ?_⟩
    · have hb' : j * t.n + p < N * t.n := by
        calc j * t.n + p < (j + 1) * t.n := by rw [Nat.succ_mul]; omega
          _ ≤ N * t.n := Nat.mul_le_mul_right _ hj
      rcases hs _ (by rw [hro]; exact hb') with ⟨-, h3⟩ | ⟨-, h3⟩
      · exact h3.ne'
      · exact h3.ne
    · rw [List.getD_eq_getElem _ _ (by simpa using h1), List.getD_eq_getElem _ _ (by simpa using h1)]
      exact hx

end Verif
