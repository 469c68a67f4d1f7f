import Verif.Props.LinksMetrics
import Mathlib.Tactic.Push
/-
C94: a link that transmits without error is reported without error.
-/
namespace Verif

variable {σ Sym V G C : Type}

/-- From every world that satisfies `Inv`, a transmission of `n` bits succeeds, the decoded array starts with the message, and
`Inv` holds afterwards. -/
def Link.ErrorFree (lk : Link σ Sym V G C) (bufLen : Nat → Nat) (junk : σ → Nat → ℝ) (n : Nat) (Inv : σ → Prop) : Prop :=
  ∀ w, Inv w → ∃ msg d w', lk.send bufLen junk n w = .ok (msg, d, w') ∧ msg.length = n ∧ (∀ a ∈ msg, a = 0 ∨ a = 1) ∧
    n ≤ d.length ∧ (∀ i < n, d.getD i 0 = ((msg.getD i 0 : Int) : ℝ)) ∧ Inv w'

theorem bitErrors_zero {n : Nat} {msg : List Int} {d : List ℝ} (h : ∀ i < n, d.getD i 0 = ((msg.getD i 0 : Int) : ℝ)) :
    bitErrors n msg d = 0 := by
  unfold bitErrors
  rw [Finset.card_eq_zero, Finset.filter_eq_empty_iff]
  intro i hi
  rw [Finset.mem_range] at hi
  simp only [ne_eq, not_not]
  exact (h i hi).symm

theorem recovered_bit {msg : List Int} {d : List ℝ} (hb : ∀ a ∈ msg, a = 0 ∨ a = 1)
    (h : ∀ i < msg.length, d.getD i 0 = ((msg.getD i 0 : Int) : ℝ)) : ∀ i < msg.length, d.getD i 0 = 0 ∨ d.getD i 0 = 1 := by
  intro i hi
  rw [h i hi, List.getD_eq_getElem _ _ hi]
  rcases hb _ (List.getElem_mem hi) with e | e <;> simp [e]

theorem chunk_errorFree {lk : Link σ Sym V G C} {bufLen : Nat → Nat} {junk : σ → Nat → ℝ} {n : Nat} {Inv : σ → Prop}
    (h : lk.ErrorFree bufLen junk n Inv) {w : σ} (hw : Inv w) : ∃ w', lk.Chunk bufLen junk n w 0 w' ∧ Inv w' := by
  obtain ⟨msg, d, w', h1, h2, h3, h4, h5, h6⟩ := h w hw
  refine ⟨w', ?_, h6⟩
  subst h2
  show lk.chunkErrors bufLen junk msg.length w = _
  simp only [Link.chunkErrors, bind, Except.bind, h1, C81_errors msg d h3 h4 (recovered_bit h3 h5), bitErrors_zero h5]
  rfl

theorem sent_zeros {P : σ → Int → σ → Prop} {Inv : σ → Prop} (h : ∀ w, Inv w → ∃ w', P w 0 w' ∧ Inv w') :
    ∀ (m : Nat) (w : σ), Inv w → ∃ w', Sent P w (List.replicate m 0) w' ∧ Inv w' := by
  intro m
  induction m with
  | zero => exact fun w hw => ⟨w, .nil _, hw⟩
  | succ m ih =>
    intro w hw
    obtain ⟨w1, h1, h2⟩ := h w hw
    obtain ⟨w2, h3, h4⟩ := ih w1 h2
    exact ⟨w2, .cons h1 h3, h4⟩

/-- C94, `link_performance`: if the link transmits chunks without error at the first SNR, the simulation succeeds and all the
ratios are 0 (the later SNRs are not simulated). -/
theorem C94_performance (lk : Link σ Sym V G C) (bufLen : ℚ → Nat → Nat) (junk : σ → Nat → ℝ) (fuel : Nat) (snr : ℝ) (rest : List ℝ)
    (sendMax errMin : Int) (sc : Option Int) (rate : ℚ) (w w1 : σ) (Inv : σ → Prop)
    (hB : 0 < lk.bitsPerSymbol) (hT : 0 < lk.nbTx) (hr : 0 < rate) (hf : sendMax.toNat ≤ fuel) (hs : 1 ≤ sendMax) (he : 1 ≤ errMin)
    (hset : lk.setSnr w snr rate lk.Es = .ok w1) (hw1 : Inv w1)
    (hfree : ∀ n, 0 < n → WholeVectors rate (lk.bitsPerSymbol * lk.nbTx) n →
      (∀ m : Nat, 0 < m → WholeVectors rate (lk.bitsPerSymbol * lk.nbTx) m → (m : Int) ≤ sc.getD errMin → m ≤ n) →
      lk.ErrorFree (bufLen rate) junk n Inv) :
    ∃ w', lk.performance bufLen junk fuel (snr :: rest) sendMax errMin sc rate w = .ok (List.replicate (rest.length + 1) 0, w') ∧
      Inv w' := by
  obtain ⟨d, hd, hpos, hwv, hmax, -⟩ := C80_chunk (B := lk.bitsPerSymbol) (T := lk.nbTx) hB hT hr (sc.getD errMin)
  set chunk := linkChunk d (sc.getD errMin) with hchunk
  have hE := hfree chunk hpos hwv hmax
  -- number of chunks: the least m with sendMax ≤ m * chunk
  set m := (sendMax.toNat + chunk - 1) / chunk with hm
  have hcm : sendMax.toNat ≤ m * chunk := by
    have := Nat.div_add_mod (sendMax.toNat + chunk - 1) chunk
    have h2 := Nat.mod_lt (sendMax.toNat + chunk - 1) hpos
    rw [← hm, Nat.mul_comm] at this
    omega
  have hcm2 : (m - 1) * chunk < sendMax.toNat := by
    have := Nat.div_mul_le_self (sendMax.toNat + chunk - 1) chunk
    rw [← hm] at this
    rw [Nat.sub_mul]
    omega
  have hm0 : 0 < m := by
    rcases Nat.eq_zero_or_pos m with h0 | h0
    · rw [h0] at hcm; omega
    · exact h0
  obtain ⟨w', h1, h2⟩ := sent_zeros (fun w hw => chunk_errorFree hE hw) m w1 hw1
  refine ⟨w', ?_, h2⟩
  have hper : ∀ r, lk.snrLoop (bufLen rate) junk chunk sendMax errMin rate fuel (snr :: rest) w = r →
      lk.performance bufLen junk fuel (snr :: rest) sendMax errMin sc rate w = r := by
    intro r hr'
    rw [← hr']
    simp only [Link.performance, hd]
    rfl
  apply hper
  rw [snrLoop_spec lk (bufLen rate) junk chunk hpos sendMax errMin rate fuel hf]
  have e0 : ((List.replicate m (0 : Int)).sum : Int) = 0 := by simp
  have := SnrRun.stop (setSnr := fun w snr w1 => lk.setSnr w snr rate lk.Es = .ok w1) (Chunk := lk.Chunk (bufLen rate) junk chunk)
    (chunk := chunk) (sendMax := sendMax) (errMin := errMin) (snr := snr) (rest := rest) (w := w) (w1 := w1) (w2 := w')
    (es := List.replicate m 0) hset ⟨h1, by simp; omega, Or.inl ?_, ?_⟩ (by rw [e0]; omega)
  · rw [e0] at this
    simpa [List.replicate_succ] using this
  · rw [List.length_replicate]
    have : (sendMax.toNat : Int) ≤ ((m * chunk : Nat) : Int) := by exact_mod_cast hcm
    push_cast at this
    omega
  · intro j hj
    rw [List.length_replicate] at hj
    constructor
    · have hjc : j * chunk ≤ (m - 1) * chunk := Nat.mul_le_mul_right _ (by omega)
      have : ((j * chunk : Nat) : Int) < sendMax.toNat := by exact_mod_cast lt_of_le_of_lt hjc hcm2
      push_cast at this
      omega
    · rw [List.take_replicate]; simp; omega

theorem chunkErr_zero {msg : List Int} {d : List ℝ} {chunk k : Nat} (hl : msg.length = chunk * k) (hb : ∀ a ∈ msg, a = 0 ∨ a = 1)
    (hd : chunk * k ≤ d.length) (h : ∀ i < chunk * k, d.getD i 0 = ((msg.getD i 0 : Int) : ℝ)) {i : Nat} (hi : i < k) :
    chunkErr msg d chunk i = .ok 0 := by
  have hci : chunk * i + chunk ≤ chunk * k := by
    calc chunk * i + chunk = chunk * (i + 1) := by ring
      _ ≤ chunk * k := Nat.mul_le_mul_left _ hi
  set m := (msg.drop (chunk * i)).take chunk with hm
  set dd := (d.drop (chunk * i)).take chunk with hdd
  have hml : m.length = chunk := by simp [hm]; omega
  have hdl : dd.length = chunk := by simp [hdd]; omega
  have hmb : ∀ a ∈ m, a = 0 ∨ a = 1 := fun a ha => hb a (List.mem_of_mem_drop (List.mem_of_mem_take ha))
  have hrec : ∀ j < m.length, dd.getD j 0 = ((m.getD j 0 : Int) : ℝ) := by
    intro j hj
    rw [hml] at hj
    have := h (chunk * i + j) (by omega)
    simp only [hm, hdd, List.getD_eq_getElem?_getD, List.getElem?_take, if_pos hj, List.getElem?_drop]
    simpa [List.getD_eq_getElem?_getD] using this
  have := C81_errors m dd hmb (by omega) (recovered_bit hmb hrec)
  rw [bitErrors_zero hrec] at this
  simp only [countErrors] at this
  rw [List.take_of_length_le (by omega)] at this
  exact this

/-- C94, `link_performance_full_metrics`: if the link transmits without error at the first SNR, the report contains no errors:
ratio 0, `tx_max` transmissions of `k` chunks each, and rows of zeros for the SNRs that are not simulated. -/
theorem C94_metrics (lk : Link σ Sym V G C) (bufLen : ℚ → Nat → Nat) (junk : σ → Nat → ℝ) (snr : ℝ) (rest : List ℝ)
    (txMax : Nat) (errMin : Int) (sc : Option Int) (rate : ℚ) (k : Nat) (stop : Bool) (w w1 : σ) (Inv : σ → Prop)
    (hB : 0 < lk.bitsPerSymbol) (hT : 0 < lk.nbTx) (hr : 0 < rate) (htx : 1 ≤ txMax) (he : 1 ≤ errMin)
    (hset : lk.setSnr w snr rate lk.Es = .ok w1) (hw1 : Inv w1)
    (hfree : ∀ n, 0 < n → WholeVectors rate (lk.bitsPerSymbol * lk.nbTx) n →
      (∀ m : Nat, 0 < m → WholeVectors rate (lk.bitsPerSymbol * lk.nbTx) m → (m : Int) ≤ sc.getD errMin → m ≤ n) →
      lk.ErrorFree (bufLen rate) junk (n * k) Inv) :
    ∃ w', lk.fullMetrics bufLen junk (snr :: rest) txMax errMin sc rate k stop w =
      .ok (⟨some 0, List.replicate txMax 0, List.replicate txMax 0, List.replicate txMax (k : Int)⟩ ::
        List.replicate rest.length (zeroRow txMax), w') ∧ Inv w' := by
  obtain ⟨d, hd, hpos, hwv, hmax, -⟩ := C80_chunk (B := lk.bitsPerSymbol) (T := lk.nbTx) hB hT hr (sc.getD errMin)
  set chunk := linkChunk d (sc.getD errMin) with hchunk
  have hE := hfree chunk hpos hwv hmax
  have htxs : ∀ w, Inv w → ∃ w', lk.Tx (bufLen rate) junk chunk k w (List.replicate k 0) w' ∧ Inv w' := by
    intro w hw
    obtain ⟨msg, dec, w', h1, h2, h3, h4, h5, h6⟩ := hE w hw
    refine ⟨w', ⟨msg, dec, h1, by simp, ?_⟩, h6⟩
    intro i hi
    rw [chunkErr_zero h2 h3 h4 h5 hi]
    simp
  have hsent : ∀ (m : Nat) (w : σ), Inv w → ∃ w', Sent (lk.Tx (bufLen rate) junk chunk k) w (List.replicate m (List.replicate k 0)) w' ∧ Inv w' := by
    intro m
    induction m with
    | zero => exact fun w hw => ⟨w, .nil _, hw⟩
    | succ m ih =>
      intro w hw
      obtain ⟨w1, h1, h2⟩ := htxs w hw
      obtain ⟨w2, h3, h4⟩ := ih w1 h2
      exact ⟨w2, .cons h1 h3, h4⟩
  obtain ⟨w', h1, h2⟩ := hsent txMax w1 hw1
  refine ⟨w', ?_, h2⟩
  have hz : ∀ m : Nat, ((List.replicate m (List.replicate k (0 : Int))).flatten).sum = 0 := by
    intro m; simp
  simp only [Link.fullMetrics, hd]
  show lk.metricsLoop (bufLen rate) junk chunk k txMax errMin stop rate (snr :: rest) w = _
  rw [metricsLoop_spec]
  refine MetricsRun.last (w1 := w1) (ess := List.replicate txMax (List.replicate k 0)) hset ⟨h1, by simp, Or.inl (by simp), ?_⟩
    (by rw [hz]; omega) ?_
  · intro j hj _
    rw [List.take_replicate, hz]; omega
  · refine ⟨?_, ?_, ?_, ?_⟩
    · rw [hz]
      simp
      omega
    · simp [padZero]
    · simp [padZero]
    · simp [padZero]

end Verif
