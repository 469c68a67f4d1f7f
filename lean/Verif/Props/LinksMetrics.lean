import Verif.Props.Links
/-
C82: `link_performance_full_metrics` (/repo/commpy/links.py:155-267).
-/
namespace Verif

variable {σ Sym V G C : Type}

/-- One transmission of `k` chunks of `chunk` bits; `es` are the errors of its chunks. -/
def Link.Tx (lk : Link σ Sym V G C) (bufLen : Nat → Nat) (junk : σ → Nat → ℝ) (chunk k : Nat) (w : σ) (es : List Int) (w' : σ) : Prop :=
  ∃ msg d, lk.send bufLen junk (chunk * k) w = .ok (msg, d, w') ∧ es.length = k ∧
    ∀ i < k, chunkErr msg d chunk i = .ok (es.getD i 0)

theorem countChunks_spec (msg : List Int) (d : List ℝ) (chunk : Nat) : ∀ (k : Nat) (r : Int × Int),
    countChunks msg d chunk k = .ok r ↔ ∃ es : List Int, es.length = k ∧ (∀ i < k, chunkErr msg d chunk i = .ok (es.getD i 0)) ∧
      r = (es.sum, ((es.countP (fun e => 0 < e) : Nat) : Int)) := by
  intro k
  induction k with
  | zero =>
    intro r
    constructor
    · intro h
      cases h
      exact ⟨[], rfl, by simp, by simp⟩
    · rintro ⟨es, h1, -, rfl⟩
      rw [List.length_eq_zero_iff.1 h1]
      rfl
  | succ k ih =>
    intro r
    have hstep : countChunks msg d chunk (k + 1) = (countChunks msg d chunk k >>= (fun (st : Int × Int) =>
        chunkErr msg d chunk k >>= (fun e => pure (st.1 + e, st.2 + if 0 < e then 1 else 0)))) := by
      simp only [countChunks]
      rw [List.range_succ, List.foldlM_append]
      simp only [List.foldlM_cons, List.foldlM_nil]
      congr 1
      funext st
      simp only [bind, Except.bind]
      rcases chunkErr msg d chunk k with er | e <;> rfl
    rw [hstep]
    constructor
    · intro h
      rcases hc : countChunks msg d chunk k with er | st
      · rw [hc] at h; cases h
      rw [hc] at h
      simp only [bind, Except.bind] at h
      rcases he : chunkErr msg d chunk k with er | e
      · rw [he] at h; cases h
      rw [he] at h
      cases h
      obtain ⟨es, h1, h2, rfl⟩ := (ih st).1 hc
      refine ⟨es ++ [e], by simp [h1], ?_, ?_⟩
      · intro i hi
        rcases Nat.lt_succ_iff_lt_or_eq.1 hi with hi | rfl
        · rw [List.getD_append _ _ _ _ (by omega)]
          exact h2 i hi
        · rw [List.getD_append_right _ _ _ _ (by omega), h1]
          simpa using he
      · simp only [List.sum_append, List.sum_singleton, List.countP_append]
        by_cases hp : 0 < e
        · simp [hp]
        · simp [hp]
    · rintro ⟨es, h1, h2, rfl⟩
      obtain ⟨es', e, rfl⟩ : ∃ es' e, es = es' ++ [e] :=
        ⟨es.dropLast, es.getLast (by intro h; simp [h] at h1), (List.dropLast_append_getLast _).symm⟩
      have h1' : es'.length = k := by simpa using h1
      have hk : chunkErr msg d chunk k = .ok e := by
        rw [h2 k (by omega), List.getD_append_right _ _ _ _ (by omega), h1']
        simp
      rw [(ih _).2 ⟨es', h1', fun i hi => by rw [h2 i (by omega), List.getD_append _ _ _ _ (by omega)], rfl⟩]
      simp only [bind, Except.bind]
      rw [hk]
      simp only [List.sum_append, List.sum_singleton, List.countP_append]
      by_cases hp : 0 < e
      · simp [hp, pure, Except.pure]
      · simp [hp, pure, Except.pure]

theorem set_mid {pre : List Int} {r t : Nat} (ht : pre.length = t) (e : Int) :
    (pre ++ List.replicate (r + 1) 0).set t ((pre ++ List.replicate (r + 1) 0).getD t 0 + e) = (pre ++ [e]) ++ List.replicate r 0 := by
  subst ht
  rw [List.getD_append_right _ _ _ _ le_rfl, List.set_append_right _ _ le_rfl, List.replicate_succ]
  simp

theorem txLoop_spec (lk : Link σ Sym V G C) (bufLen : Nat → Nat) (junk : σ → Nat → ℝ) (chunk k : Nat) (errMin : Int) (stop : Bool) :
    ∀ (r t : Nat) (pre cnt loss : List Int) (w : σ) (st : TxState) (w' : σ), pre.length = t → cnt.length = t →
      lk.txLoop bufLen junk chunk k errMin stop (List.range' t r)
        { bitErr := pre ++ List.replicate r 0, chunkLoss := loss, chunkCount := cnt ++ List.replicate r 0, total := t } w = .ok (st, w') →
      ∃ ess : List (List Int), Sent (lk.Tx bufLen junk chunk k) w ess w' ∧ ess.length ≤ r ∧
        st.bitErr = pre ++ ess.map List.sum ++ List.replicate (r - ess.length) 0 ∧
        st.chunkCount = cnt ++ ess.map (fun _ => (k : Int)) ++ List.replicate (r - ess.length) 0 ∧ st.total = t + ess.length ∧
        (ess.length = r ∨ stop = true ∧ errMin < pre.sum + ess.flatten.sum) ∧
        ∀ j < ess.length, stop = true → pre.sum + (ess.take j).flatten.sum ≤ errMin := by
  intro r
  induction r with
  | zero =>
    intro t pre cnt loss w st w' hp hc h
    simp only [List.range'_zero, Link.txLoop] at h
    cases h
    exact ⟨[], .nil _, by simp, by simp, by simp, by simp, Or.inl rfl, by simp⟩
  | succ r ih =>
    intro t pre cnt loss w st w' hp hc h
    rw [List.range'_succ] at h
    simp only [Link.txLoop] at h
    have hsum : (pre ++ List.replicate (r + 1) (0 : Int)).sum = pre.sum := by simp
    rw [hsum] at h
    by_cases hst : stop = true ∧ errMin < pre.sum
    · rw [if_pos hst] at h
      cases h
      exact ⟨[], .nil _, by simp, by simp, by simp, by simp, Or.inr (by simpa using hst), by simp⟩
    · rw [if_neg hst] at h
      simp only [bind, Except.bind] at h
      rcases hs : lk.send bufLen junk (chunk * k) w with er | ⟨msg, d, w1⟩
      · rw [hs] at h; cases h
      rw [hs] at h
      simp only at h
      rcases hcc : countChunks msg d chunk k with er | ⟨e, l⟩
      · rw [hcc] at h; cases h
      rw [hcc] at h
      simp only at h
      obtain ⟨es, he1, he2, he3⟩ := (countChunks_spec msg d chunk k (e, l)).1 hcc
      have hee : e = es.sum := by
        have := congrArg Prod.fst he3
        simpa using this
      rw [set_mid hp, set_mid hc] at h
      obtain ⟨ess, h1, h2, h3, h4, h5, h6, h7⟩ := ih (t + 1) (pre ++ [e]) (cnt ++ [(k : Int)]) _ w1 st w' (by simp [hp]) (by simp [hc]) h
      refine ⟨es :: ess, .cons ⟨msg, d, hs, he1, he2⟩ h1, by simpa using h2, ?_, ?_, ?_, ?_, ?_⟩
      · rw [h3]; simp [hee]
      · rw [h4]; simp
      · rw [h5, List.length_cons]; omega
      · rcases h6 with h6 | ⟨h6, h6'⟩
        · left; simp [h6]
        · right
          refine ⟨h6, ?_⟩
          simp only [List.sum_append, List.sum_singleton, hee] at h6'
          rw [List.flatten_cons, List.sum_append]
          linarith
      · intro j hj hstop
        rcases j with _ | j
        · have : ¬ errMin < pre.sum := fun hlt => hst ⟨hstop, hlt⟩
          simp only [List.take_zero, List.flatten_nil, List.sum_nil, add_zero]
          omega
        · have := h7 j (by simpa using hj) hstop
          simp only [List.sum_append, List.sum_singleton, hee] at this
          rw [List.take_succ_cons, List.flatten_cons, List.sum_append]
          linarith

theorem txLoop_complete (lk : Link σ Sym V G C) (bufLen : Nat → Nat) (junk : σ → Nat → ℝ) (chunk k : Nat) (errMin : Int) (stop : Bool) :
    ∀ (ess : List (List Int)) (r t : Nat) (pre cnt loss : List Int) (w w' : σ), pre.length = t → cnt.length = t →
      Sent (lk.Tx bufLen junk chunk k) w ess w' → ess.length ≤ r →
      (ess.length = r ∨ stop = true ∧ errMin < pre.sum + ess.flatten.sum) →
      (∀ j < ess.length, stop = true → pre.sum + (ess.take j).flatten.sum ≤ errMin) →
      ∃ loss', lk.txLoop bufLen junk chunk k errMin stop (List.range' t r)
        { bitErr := pre ++ List.replicate r 0, chunkLoss := loss, chunkCount := cnt ++ List.replicate r 0, total := t } w =
        .ok ({ bitErr := pre ++ ess.map List.sum ++ List.replicate (r - ess.length) 0, chunkLoss := loss',
               chunkCount := cnt ++ ess.map (fun _ => (k : Int)) ++ List.replicate (r - ess.length) 0, total := t + ess.length }, w') := by
  intro ess
  induction ess with
  | nil =>
    intro r t pre cnt loss w w' hp hc hs _ hend _
    cases hs
    refine ⟨loss, ?_⟩
    rcases r with _ | r
    · simp [Link.txLoop]
    · rw [List.range'_succ]
      simp only [Link.txLoop]
      rw [if_pos (by rcases hend with h | h
                     · simp at h
                     · simpa using h)]
      simp
  | cons es ess ih =>
    intro r t pre cnt loss w w' hp hc hs hle hend hj
    rcases r with _ | r
    · simp at hle
    rcases hs with _ | ⟨⟨msg, d, hsend, he1, he2⟩, hrest⟩
    rw [List.range'_succ]
    simp only [Link.txLoop]
    have hsum : (pre ++ List.replicate (r + 1) (0 : Int)).sum = pre.sum := by simp
    rw [hsum, if_neg (by
      rintro ⟨h1, h2⟩
      have := hj 0 (by simp) h1
      simp at this
      omega)]
    simp only [bind, Except.bind]
    rw [hsend]
    simp only
    rw [(countChunks_spec msg d chunk k _).2 ⟨es, he1, he2, rfl⟩]
    simp only
    rw [set_mid hp, set_mid hc]
    obtain ⟨loss', hr⟩ := ih r (t + 1) (pre ++ [es.sum]) (cnt ++ [(k : Int)]) (loss.set t (loss.getD t 0 + (es.countP (fun e => 0 < e) : Nat)))
      _ w' (by simp [hp]) (by simp [hc]) hrest (by simpa using hle) (by
        rcases hend with h | ⟨h1, h2⟩
        · left; simpa using h
        · right
          refine ⟨h1, ?_⟩
          rw [List.flatten_cons, List.sum_append] at h2
          simp only [List.sum_append, List.sum_singleton]
          linarith) (by
        intro j hjl hstop
        have := hj (j + 1) (by simpa using hjl) hstop
        rw [List.take_succ_cons, List.flatten_cons, List.sum_append] at this
        simp only [List.sum_append, List.sum_singleton]
        linarith)
    refine ⟨loss', ?_⟩
    rw [hr]
    simp [Nat.add_assoc, Nat.add_comm 1]

/-- What a row really contains. -/
def ActualRow (chunk k txMax : Nat) (ess : List (List Int)) (row : MetricsRow) : Prop :=
  row.ber = (if ess.length * chunk = 0 then none else some ((ess.flatten.sum : ℚ) / (ess.length * chunk : Nat))) ∧
  row.be = padZero txMax (ess.map List.sum) ∧
  row.ce = padZero txMax (ess.map (fun es => if 0 < es.sum then 1 else 0)) ∧
  row.nc = padZero txMax (ess.map (fun _ => (k : Int)))

theorem sum_map_flatten (ess : List (List Int)) : (ess.map List.sum).sum = ess.flatten.sum := by
  rw [List.sum_flatten]

theorem metricsLoop_spec (lk : Link σ Sym V G C) (bufLen : Nat → Nat) (junk : σ → Nat → ℝ) (chunk k txMax : Nat)
    (errMin : Int) (stop : Bool) (rate : ℚ) :
    ∀ (snrs : List ℝ) (w : σ) (rows : List MetricsRow) (w' : σ),
      lk.metricsLoop bufLen junk chunk k txMax errMin stop rate snrs w = .ok (rows, w') ↔
      MetricsRun (fun w snr w1 => lk.setSnr w snr rate lk.Es = .ok w1) (lk.Tx bufLen junk chunk k) (ActualRow chunk k txMax)
        txMax errMin stop snrs w rows w' := by
  have hbitsum : ∀ ess : List (List Int), ess.length ≤ txMax → (padZero txMax (ess.map List.sum)).sum = ess.flatten.sum := by
    intro ess _
    rw [padZero, List.sum_append, sum_map_flatten]; simp
  have rowEq : ∀ (ess : List (List Int)) (loss : List Int), ess.length ≤ txMax →
      ActualRow chunk k txMax ess (metricsRow chunk ⟨padZero txMax (ess.map List.sum), loss, padZero txMax (ess.map (fun _ => (k : Int))), ess.length⟩) := by
    intro ess loss hle
    refine ⟨?_, rfl, ?_, rfl⟩
    · simp only [metricsRow]
      rw [hbitsum ess hle]
    · simp only [metricsRow, padZero, List.map_append, List.map_map, List.map_replicate, List.length_map]
      congr 1
  have rowUniq : ∀ (ess : List (List Int)) r1 r2, ActualRow chunk k txMax ess r1 → ActualRow chunk k txMax ess r2 → r1 = r2 := by
    rintro ess ⟨a, b, c, d⟩ ⟨a', b', c', d'⟩ ⟨h1, h2, h3, h4⟩ ⟨h1', h2', h3', h4'⟩
    simp only at *
    subst h1 h2 h3 h4 h1' h2' h3' h4'
    rfl
  intro snrs
  induction snrs with
  | nil =>
    intro w rows w'
    simp only [Link.metricsLoop]
    constructor
    · intro h; cases h; exact .nil w
    · intro h; cases h; rfl
  | cons snr rest ih =>
    intro w rows w'
    simp only [Link.metricsLoop]
    constructor
    · intro h
      simp only [bind, Except.bind] at h
      rcases hset : lk.setSnr w snr rate lk.Es with er | w1
      · rw [hset] at h; cases h
      rw [hset] at h
      simp only at h
      generalize hl : lk.txLoop bufLen junk chunk k errMin stop (List.range txMax) _ w1 = tl at h
      rcases tl with er | ⟨st, w2⟩
      · cases h
      simp only at h
      rw [List.range_eq_range'] at hl
      obtain ⟨ess, h1, h2, h3, h4, h5, h6, h7⟩ := txLoop_spec lk bufLen junk chunk k errMin stop txMax 0 [] []
        (List.replicate txMax 0) w1 st w2 rfl rfl hl
      simp only [List.nil_append, List.sum_nil, zero_add] at h3 h4 h5 h6 h7
      have hst : st = { bitErr := padZero txMax (ess.map List.sum), chunkLoss := st.chunkLoss, chunkCount := padZero txMax (ess.map (fun _ => (k : Int))), total := ess.length } := by
        rcases st with ⟨a, b, c, d⟩
        simp only at h3 h4 h5
        simp only [padZero, List.length_map, h3, h4, h5]
      have hone : OneSnrTx (lk.Tx bufLen junk chunk k) txMax errMin stop w1 ess w2 := ⟨h1, h2, h6, h7⟩
      have hrow := rowEq ess st.chunkLoss h2
      rw [← hst] at hrow
      have hbs : st.bitErr.sum = ess.flatten.sum := by rw [hst]; exact hbitsum ess h2
      rw [hbs] at h
      by_cases hb : ess.flatten.sum < errMin
      · rw [if_pos hb] at h
        cases h
        exact .last hset hone hb hrow
      · rw [if_neg hb] at h
        rcases hr : lk.metricsLoop bufLen junk chunk k txMax errMin stop rate rest w2 with er | ⟨rs, w3⟩
        · rw [hr] at h; cases h
        rw [hr] at h
        cases h
        exact .go hset hone (not_lt.1 hb) hrow ((ih _ _ _).1 hr)
    · intro h
      have run : ∀ {w1 w2 ess row}, OneSnrTx (lk.Tx bufLen junk chunk k) txMax errMin stop w1 ess w2 → ActualRow chunk k txMax ess row →
          ∃ st, lk.txLoop bufLen junk chunk k errMin stop (List.range txMax)
            { bitErr := List.replicate txMax 0, chunkLoss := List.replicate txMax 0, chunkCount := List.replicate txMax 0, total := 0 } w1 =
              .ok (st, w2) ∧ st.bitErr.sum = ess.flatten.sum ∧ metricsRow chunk st = row := by
        rintro w1 w2 ess row ⟨h1, h2, h6, h7⟩ hrow
        obtain ⟨loss', hr⟩ := txLoop_complete lk bufLen junk chunk k errMin stop ess txMax 0 [] [] (List.replicate txMax 0) w1 w2 rfl rfl h1 h2
          (by simpa using h6) (by simpa using h7)
        rw [List.range_eq_range']
        simp only [List.nil_append, zero_add] at hr
        refine ⟨_, hr, ?_, ?_⟩
        · have := hbitsum ess h2
          simpa [padZero] using this
        · have := rowEq ess loss' h2
          simp only [padZero, List.length_map] at this
          exact rowUniq ess _ _ this hrow
      cases h with
      | last hset hone hlt hrow =>
        obtain ⟨st, r1, r2, r3⟩ := run hone hrow
        simp only [bind, Except.bind]
        rw [hset]
        simp only
        rw [r1]
        simp only
        rw [r2, r3, if_pos hlt]
      | go hset hone hge hrow hrest =>
        obtain ⟨st, r1, r2, r3⟩ := run hone hrow
        simp only [bind, Except.bind]
        rw [hset]
        simp only
        rw [r1]
        simp only
        rw [r2, r3, if_neg (not_lt.2 hge), (ih _ _ _).2 hrest]
        rfl

theorem MetricsRun.mono {setSnr : σ → ℝ → σ → Prop} {Tx : σ → List Int → σ → Prop} {R R' : List (List Int) → MetricsRow → Prop}
    {txMax : Nat} {errMin : Int} {stop : Bool} {snrs : List ℝ} {w w' : σ} {rows : List MetricsRow}
    (hR : ∀ ess row, (∃ w w', Sent Tx w ess w') → R ess row → R' ess row)
    (h : MetricsRun setSnr Tx R txMax errMin stop snrs w rows w') : MetricsRun setSnr Tx R' txMax errMin stop snrs w rows w' := by
  induction h with
  | nil => exact .nil _
  | last h1 h2 h3 h4 => exact .last h1 h2 h3 (hR _ _ ⟨_, _, h2.1⟩ h4)
  | go h1 h2 h3 h4 _ ih => exact .go h1 h2 h3 (hR _ _ ⟨_, _, h2.1⟩ h4) ih

/-- C82, restricted to one chunk per transmission (the default): the four arrays contain what the documentation says.  The
full statement, with any number of chunks per transmission, is refuted below. -/
theorem C82_metrics_partial (lk : Link σ Sym V G C) (bufLen : ℚ → Nat → Nat) (junk : σ → Nat → ℝ) (snrs : List ℝ)
    (txMax : Nat) (errMin : Int) (sc : Option Int) (rate : ℚ) (stop : Bool) (w w' : σ) (rows : List MetricsRow)
    (hB : 0 < lk.bitsPerSymbol) (hT : 0 < lk.nbTx) (hr : 0 < rate) :
    ∃ d, linkDivider lk.bitsPerSymbol lk.nbTx rate = .ok d ∧
    (lk.fullMetrics bufLen junk snrs txMax errMin sc rate 1 stop w = .ok (rows, w') ↔
      MetricsRun (fun w snr w1 => lk.setSnr w snr rate lk.Es = .ok w1)
        (lk.Tx (bufLen rate) junk (linkChunk d (sc.getD errMin)) 1) (GoodRow (linkChunk d (sc.getD errMin)) 1 txMax)
        txMax errMin stop snrs w rows w') := by
  obtain ⟨d, hd, hpos, -⟩ := C80_chunk (B := lk.bitsPerSymbol) (T := lk.nbTx) hB hT hr (sc.getD errMin)
  refine ⟨d, hd, ?_⟩
  simp only [Link.fullMetrics, hd]
  refine (metricsLoop_spec lk (bufLen rate) junk _ 1 txMax errMin stop rate snrs w rows w').trans ?_
  have one : ∀ {w ess w'}, Sent (lk.Tx (bufLen rate) junk (linkChunk d (sc.getD errMin)) 1) w ess w' → ∀ es ∈ ess, es.length = 1 := by
    intro w ess w' h
    induction h with
    | nil => simp
    | cons h1 _ ih =>
      obtain ⟨-, -, -, hl, -⟩ := h1
      intro es hes
      rcases List.mem_cons.1 hes with rfl | hes
      · exact hl
      · exact ih es hes
  have hce : ∀ ess : List (List Int), (∀ es ∈ ess, es.length = 1) →
      ess.map (fun es => if 0 < es.sum then (1 : Int) else 0) = ess.map (fun es => ((es.countP (fun e => 0 < e) : Nat) : Int)) := by
    intro ess hl
    refine List.map_congr_left fun es hes => ?_
    obtain ⟨e, rfl⟩ := List.length_eq_one_iff.1 (hl es hes)
    by_cases hp : 0 < e <;> simp [hp]
  constructor
  · refine MetricsRun.mono ?_
    rintro ess row ⟨w1, w2, hs⟩ ⟨h1, h2, h3, h4⟩
    exact ⟨by rw [h1, Nat.mul_one], h2, by rw [h3, hce ess (one hs)], h4⟩
  · refine MetricsRun.mono ?_
    rintro ess row ⟨w1, w2, hs⟩ ⟨h1, h2, h3, h4⟩
    exact ⟨by rw [h1, Nat.mul_one], h2, by rw [h3, hce ess (one hs)], h4⟩

/-- C82, any number of chunks per transmission: bit errors, chunk counts, stopping rule and order of the simulation are as
documented; the reported ratio is the number of chunks per transmission times the true ratio, and the chunk errors are
capped at 1 (`ActualRow`). -/
theorem C82_actual_partial (lk : Link σ Sym V G C) (bufLen : ℚ → Nat → Nat) (junk : σ → Nat → ℝ) (snrs : List ℝ)
    (txMax : Nat) (errMin : Int) (sc : Option Int) (rate : ℚ) (k : Nat) (stop : Bool) (w w' : σ) (rows : List MetricsRow)
    (hB : 0 < lk.bitsPerSymbol) (hT : 0 < lk.nbTx) (hr : 0 < rate) :
    ∃ d, linkDivider lk.bitsPerSymbol lk.nbTx rate = .ok d ∧
    (lk.fullMetrics bufLen junk snrs txMax errMin sc rate k stop w = .ok (rows, w') ↔
      MetricsRun (fun w snr w1 => lk.setSnr w snr rate lk.Es = .ok w1)
        (lk.Tx (bufLen rate) junk (linkChunk d (sc.getD errMin)) k) (ActualRow (linkChunk d (sc.getD errMin)) k txMax)
        txMax errMin stop snrs w rows w') := by
  obtain ⟨d, hd, -, -⟩ := C80_chunk (B := lk.bitsPerSymbol) (T := lk.nbTx) hB hT hr (sc.getD errMin)
  refine ⟨d, hd, ?_⟩
  simp only [Link.fullMetrics, hd]
  exact metricsLoop_spec lk (bufLen rate) junk _ k txMax errMin stop rate snrs w rows w'

/-- C82: what is counted for chunk `i` is the number of positions of that chunk (bits `chunk * i` to `chunk * (i + 1)`) where
message and decoded bits differ. -/
theorem C82_chunk_errors (msg : List Int) (d : List ℝ) (chunk i : Nat) (hm : ∀ a ∈ msg, a = 0 ∨ a = 1) (hd : ∀ x ∈ d, x = 0 ∨ x = 1)
    (h1 : chunk * i + chunk ≤ msg.length) (h2 : chunk * i + chunk ≤ d.length) :
    chunkErr msg d chunk i = .ok (((Finset.range chunk).filter
      (fun j => (msg.getD (chunk * i + j) 0 : ℝ) ≠ d.getD (chunk * i + j) 0)).card : Int) := by
  have hdl : chunk ≤ (d.drop (chunk * i)).length := by simp; omega
  have key := C81_errors ((msg.drop (chunk * i)).take chunk) (d.drop (chunk * i))
    (fun a ha => hm a (List.mem_of_mem_drop (List.mem_of_mem_take ha)))
    (by simp; omega) (by
      intro j hj
      have hj' : j < chunk := by
        rw [List.length_take] at hj
        omega
      rw [List.getD_eq_getElem _ _ (by omega)]
      exact hd _ (List.mem_of_mem_drop (List.getElem_mem _)))
  have hl : ((msg.drop (chunk * i)).take chunk).length = chunk := by simp; omega
  simp only [countErrors, hl] at key
  simp only [chunkErr]
  rw [key]
  unfold bitErrors
  congr 3
  refine Finset.filter_congr fun j hj => ?_
  rw [Finset.mem_range] at hj
  have e1 : ((msg.drop (chunk * i)).take chunk).getD j 0 = msg.getD (chunk * i + j) 0 := by
    simp [List.getD_eq_getElem?_getD, List.getElem?_take, List.getElem?_drop, hj]
  have e2 : (d.drop (chunk * i)).getD j 0 = d.getD (chunk * i + j) 0 := by
    simp [List.getD_eq_getElem?_getD, List.getElem?_drop]
  rw [e1, e2]

/-- A link that sends zeros and decodes ones: every bit is wrong. -/
def wrongLink : Link Unit (List Int) Unit Unit Unit where
  bitsPerSymbol := 1
  nbTx := 1
  Es := 1
  constellation := ()
  isMimo := false
  setSnr := fun w _ _ _ => .ok w
  choice := fun w n => (List.replicate n 0, w)
  modulate := fun m => .ok m
  propagate := fun w s => .ok (s.map (fun _ => ()), w)
  gains := fun _ => []
  noiseStd := fun _ => 1
  receive := fun _ _ _ _ => .ok [1]
  receiveAll := fun out _ _ _ => .ok (out.map (fun _ => 1))
  decoder := defaultDecoder

theorem wrongLink_tx (bufLen : Nat → Nat) (junk : Unit → Nat → ℝ) : wrongLink.Tx bufLen junk 1 2 () [1, 1] () := by
  refine ⟨[0, 0], [1, 1], rfl, rfl, ?_⟩
  intro i hi
  interval_cases i <;> simp only [chunkErr] <;> rw [npZip_eq _ (by simp)] <;> simp [astypeInt, bind, Except.bind, pure, Except.pure] <;> decide

/-- C82 is false for two chunks per transmission: with every bit of both chunks wrong, the reported bit error ratio is 2 and
one erroneous chunk out of two is counted. -/
theorem C82_refuted (bufLen : ℚ → Nat → Nat) (junk : Unit → Nat → ℝ) :
    wrongLink.fullMetrics bufLen junk [0] 1 1 (some 1) 1 2 true () =
      .ok ([{ ber := some 2, be := [2], ce := [1], nc := [2] }], ()) ∧
    ¬ GoodRow 1 2 1 [[1, 1]] { ber := some 2, be := [2], ce := [1], nc := [2] } := by
  constructor
  · obtain ⟨d, hd, h⟩ := C82_actual_partial wrongLink bufLen junk [0] 1 1 (some 1) 1 2 true () ()
      [{ ber := some 2, be := [2], ce := [1], nc := [2] }] (by decide) (by decide) (by norm_num)
    have hd1 : d = 1 := by
      replace hd : linkDivider 1 1 1 = .ok d := hd
      simp only [linkDivider] at hd
      rw [if_neg (by norm_num), if_neg (by norm_num)] at hd
      have := Except.ok.inj hd
      rw [← this]
      norm_num
    subst hd1
    have hc : linkChunk 1 ((some (1 : Int)).getD 1) = 1 := by decide
    rw [hc] at h
    refine h.2 (.go rfl (w1 := ()) (ess := [[1, 1]]) ⟨.cons (wrongLink_tx _ _) (.nil _), by decide, Or.inl rfl, ?_⟩ (by decide) ?_ (.nil _))
    · intro j hj _
      have : j = 0 := by simpa using hj
      subst this
      decide
    · refine ⟨?_, by decide, by decide, by decide⟩
      norm_num
  · rintro ⟨-, -, h, -⟩
    revert h
    decide

/-- C81, a concrete run: two SNRs, two chunks of two wrong bits each. -/
example (bufLen : ℚ → Nat → Nat) (junk : Unit → Nat → ℝ) :
    wrongLink.performance bufLen junk 4 [0, 5] 4 3 (some 2) 1 () = .ok ([1, 1], ()) := by
  obtain ⟨d, hd, h⟩ := C81_performance wrongLink bufLen junk 4 [0, 5] 4 3 (some 2) 1 () () [1, 1] (by decide) (by decide) (by norm_num) (by decide)
  have hd1 : d = 1 := by
    replace hd : linkDivider 1 1 1 = .ok d := hd
    simp only [linkDivider] at hd
    rw [if_neg (by norm_num), if_neg (by norm_num)] at hd
    rw [← Except.ok.inj hd]
    norm_num
  subst hd1
  have hc : linkChunk 1 ((some (2 : Int)).getD 3) = 2 := by decide
  rw [hc] at h
  have hch : wrongLink.Chunk (bufLen 1) junk 2 () 2 () := by
    show (countErrors [0, 0] [1, 1] >>= fun e => pure (e, ())) = _
    simp only [countErrors]
    rw [npZip_eq _ (by simp)]
    simp [astypeInt, bind, Except.bind, pure, Except.pure]
    decide
  have hone : OneSnr (wrongLink.Chunk (bufLen 1) junk 2) 2 4 3 () [2, 2] () := by
    refine ⟨.cons hch (.cons hch (.nil _)), by simp, Or.inl (by decide), ?_⟩
    intro j hj
    have : j < 2 := hj
    interval_cases j <;> decide
  have hb : (1 : ℚ) = (([2, 2] : List Int).sum : ℚ) / (([2, 2] : List Int).length * (2 : Nat)) := by norm_num
  refine h.2 ?_
  rw [hb]
  exact .go rfl hone (by decide) (.go rfl hone (by decide) (.nil _))

end Verif
