import Verif.Props.ModemNoise
import Verif.Props.LdpcLink
import Verif.Props.ViterbiSoft
/-
C108: soft outputs of the demodulator passed to the soft decoders.
-/
namespace Verif

/-- C108, convolutional codes: the soft outputs of `demodulate` can be given to `viterbi_decode(..., 'soft')` as they are.  For every
balanced trellis with distinct branch outputs, message of whole groups, modem with points at least `d` apart, received symbols within
`ε` of the transmitted ones and noise variance at most `d (d - 2 ε) / log m`, the message is decoded. -/
theorem C108_viterbi {t : Trellis} (h : t.Balanced) (hn : 0 < t.n)
    (hdist : ∀ s < 2 ^ t.M, ∀ u < 2 ^ t.k, ∀ v < 2 ^ t.k, t.out s u = t.out s v → u = v)
    {outLen : Nat → Nat} {msg : List Nat} (hb : ∀ b ∈ msg, b < 2) {N : Nat} (hN : msg.length = N * t.k) (hN0 : 0 < N)
    (hout : outLen (N * t.k) = N * t.n) (jk : VitJunk ℝ) {tb : Nat} (htb : 2 ≤ tb) (htb2 : tb ≤ N + t.M / t.k)
    (hB : t.k = 1 ∨ (t.M / t.k - 1) * t.k ≤ tb)
    {s : Modem} (hs : s.Consistent) (hm : 2 ≤ s.m) {d ε v : ℝ} (hd : Separated s.constellation d) (hd0 : 0 < d)
    (hv : 0 < v) (hbound : v * Real.log s.m ≤ d * (d - 2 * ε)) (hdiv : s.nbits ∣ N * t.n) :
    ∃ c syms, convEncode outLen t msg "cont" none = .ok c ∧ modulate s c = .ok syms ∧
      ∀ ys : List ℂ, ys.length = syms.length → (∀ i < syms.length, ‖ys.getD i 0 - syms.getD i 0‖ ≤ ε) →
        ∃ L, demodulate s ys "soft" v = .ok (.llrs L) ∧ viterbiDecode "soft" t jk (N * t.k) tb L = .ok (msg, L) := by
  obtain ⟨c, h1, h2, h3⟩ := C40_continuous_soft h hn hdist hb hN hout jk htb htb2 hB
  have hc : c = t.runOut 0 (inSyms t.k msg) := by
    have := convEncode_cont h.wf hn hb hN hout
    rw [h1] at this
    exact Except.ok.inj this
  have hcb : ∀ x ∈ c, x < 2 := by rw [hc]; exact t.runOut_lt_two 0 _
  have hc0 : c ≠ [] := by
    rintro rfl
    have := Nat.mul_pos hN0 hn
    simp at h2; omega
  obtain ⟨syms, h4, -, h5⟩ := C93_soft hs hm hd hd0 hv hbound hcb hc0 (by rw [h2]; exact hdiv)
  refine ⟨c, syms, h1, h4, fun ys hl hclose => ?_⟩
  obtain ⟨L, h6, h7, h8⟩ := h5 ys hl hclose
  exact ⟨L, h6, h3 L h7 h8⟩

variable (nanSign : NanSigns) (oneLeft : Py (List (List Bool × List (Option ℝ))))

theorem ldpc_words_bits (p : LdpcParams) (H : List (List Int)) (hb : buildParity p = .ok H)
    (h1 : 0 < p.nc) (h2 : p.nc < p.nv) (hT : LowerTriangularTail H p.nv.toNat ∨ UpperTriangularTail H p.nv.toNat)
    (msg : List Int) (hmsg : ∀ x ∈ msg, x = 0 ∨ x = 1) (hne : msg ≠ []) (pad : Bool)
    (hpad : pad = true ∨ (p.nv.toNat - p.nc.toNat) ∣ msg.length) {blocks : List (List Int)} (he : ldpcEncode p msg pad = .ok blocks) :
    blocks ≠ [] ∧ (∀ b ∈ blocks, b.length = p.nv.toNat ∧ (∀ x ∈ b, x = 0 ∨ x = 1) ∧ Syndrome0 H b) := by
  obtain ⟨ms, z, blocks', he', hm, hz, hF⟩ := C56_triangular p H hb h1 h2 hT msg hmsg pad hpad
  rw [he] at he'
  obtain rfl := Except.ok.inj he'
  refine ⟨?_, ?_⟩
  · rintro rfl
    cases hF
    simp at hm
    exact hne hm.1
  · intro b hb
    obtain ⟨e, h⟩ := List.forall₂_iff_get.1 hF
    obtain ⟨i, hi, rfl⟩ := List.getElem_of_mem hb
    have := (h i (by omega) hi).2
    exact ⟨this.1, this.2.1, this.2.2.2⟩

/-- C108, LDPC codes: the soft outputs of `demodulate`, negated, decode to the transmitted words, with every algorithm and number of
iterations. -/
theorem C108_ldpc (p : LdpcParams) (H : List (List Int)) (hb : buildParity p = .ok H)
    (h1 : 0 < p.nc) (h2 : p.nc < p.nv) (hT : LowerTriangularTail H p.nv.toNat ∨ UpperTriangularTail H p.nv.toNat)
    (msg : List Int) (hmsg : ∀ x ∈ msg, x = 0 ∨ x = 1) (hne : msg ≠ []) (pad : Bool)
    (hpad : pad = true ∨ (p.nv.toNat - p.nc.toNat) ∣ msg.length)
    {s : Modem} (hs : s.Consistent) (hm : 2 ≤ s.m) {d ε v : ℝ} (hd : Separated s.constellation d) (hd0 : 0 < d)
    (hv : 0 < v) (hbound : v * Real.log s.m ≤ d * (d - 2 * ε)) (hdiv : s.nbits ∣ p.nv.toNat) :
    ∃ blocks z syms, ldpcEncode p msg pad = .ok blocks ∧ z < p.nv.toNat - p.nc.toNat ∧
      (blocks.map (List.take (p.nv.toNat - p.nc.toNat))).flatten = msg ++ List.replicate z 0 ∧
      modulate s (blocks.flatten.map Int.toNat) = .ok syms ∧
      ∀ ys : List ℂ, ys.length = syms.length → (∀ i < syms.length, ‖ys.getD i 0 - syms.getD i 0‖ ≤ ε) →
        ∃ L, demodulate s ys "soft" v = .ok (.llrs L) ∧ ∀ (alg : BpAlg) (n : Nat),
          ∃ out arr, ldpcBpDecode nanSign oneLeft p alg n (L.map (-·)) = .ok (out, arr) ∧
            out.map (fun r => r.1.map (fun b => if b then (1 : Int) else 0)) = blocks := by
  obtain ⟨blocks, z, he, hz, hfl, hdec⟩ := C58_roundtrip nanSign oneLeft p H hb h1 h2 hT msg hmsg hne pad hpad
  obtain ⟨hbne, hbb⟩ := ldpc_words_bits p H hb h1 h2 hT msg hmsg hne pad hpad he
  have hlen : blocks.flatten.length = blocks.length * p.nv.toNat := by
    rw [List.length_flatten, List.map_congr_left (g := fun _ => p.nv.toNat) (fun b hb => (hbb b hb).1)]
    simp
  have hbit : ∀ x ∈ blocks.flatten, x = 0 ∨ x = 1 := by
    intro x hx
    obtain ⟨b, hb1, hb2⟩ := List.mem_flatten.1 hx
    exact (hbb b hb1).2.1 x hb2
  have hpos : 0 < blocks.flatten.length := by
    rw [hlen]; exact Nat.mul_pos (List.length_pos_iff.2 hbne) (by omega)
  obtain ⟨syms, h4, -, h5⟩ := C93_soft hs hm hd hd0 hv hbound (bits := blocks.flatten.map Int.toNat)
    (by
      intro x hx
      obtain ⟨y, hy, rfl⟩ := List.mem_map.1 hx
      rcases hbit y hy with rfl | rfl <;> decide)
    (by intro e; rw [List.map_eq_nil_iff] at e; rw [e] at hpos; simp at hpos)
    (by rw [List.length_map, hlen]; exact Dvd.dvd.mul_left hdiv _)
  refine ⟨blocks, z, syms, he, hz, hfl, h4, fun ys hl hclose => ?_⟩
  obtain ⟨L, h6, h7, h8⟩ := h5 ys hl hclose
  rw [List.length_map] at h7 h8
  refine ⟨L, h6, fun alg n => hdec alg n _ (by rw [List.length_map, h7]) ?_⟩
  intro i hi
  rw [List.length_map, h7] at hi
  have hLi : (L.map (-·)).getD i 0 = -L.getD i 0 := by
    rw [List.getD_eq_getElem _ _ (by rw [List.length_map, h7]; exact hi), List.getElem_map,
      List.getD_eq_getElem _ _ (by rw [h7]; exact hi)]
  have hBi : (blocks.flatten.map Int.toNat).getD i 0 = (blocks.flatten.getD i 0).toNat := by
    rw [List.getD_eq_getElem _ _ (by rw [List.length_map]; exact hi), List.getElem_map, List.getD_eq_getElem _ _ hi]
  rw [hLi]
  have hx : blocks.flatten.getD i 0 = 0 ∨ blocks.flatten.getD i 0 = 1 := by
    rw [List.getD_eq_getElem _ _ hi]; exact hbit _ (List.getElem_mem hi)
  have h9 := h8 i hi
  rw [hBi] at h9
  rcases hx with hx | hx <;> rw [hx] at h9 ⊢
  · rcases h9 with ⟨h9, -⟩ | ⟨-, h9⟩
    · simp at h9
    · constructor
      · intro; linarith
      · intro h; norm_num at h
  · rcases h9 with ⟨-, h9⟩ | ⟨h9, -⟩
    · constructor
      · intro; rfl
      · intro; linarith
    · simp at h9

/-- LLRs with the signs of any words of the code (negative for a 1) are decoded to these words. -/
theorem decode_words (p : LdpcParams) (H : List (List Int)) (hb : buildParity p = .ok H) (hnv0 : 0 < p.nv.toNat)
    (hgen : ∃ G, generatorMatrix p.nc.toNat p.nv.toNat H = .ok G) {words : List (List Int)} (hwne : words ≠ [])
    (hw : ∀ b ∈ words, b.length = p.nv.toNat ∧ (∀ x ∈ b, x = 0 ∨ x = 1) ∧ Syndrome0 H b) (alg : BpAlg) (n : Nat) {llrs : List ℝ}
    (hll : llrs.length = words.flatten.length) (hs : ∀ i < llrs.length, (llrs.getD i 0 < 0 ↔ words.flatten.getD i 0 = 1)) :
    ∃ out arr, ldpcBpDecode nanSign oneLeft p alg n llrs = .ok (out, arr) ∧
      out.map (fun r => r.1.map (fun b => if b then (1 : Int) else 0)) = words := by
  obtain ⟨hHl, hHw⟩ := buildParity_len hb
  set nv := p.nv.toNat with hnv
  obtain ⟨G, hG⟩ := hgen
  have hlen : ∀ b ∈ words, b.length = nv := fun b hb => (hw b hb).1
  have hfl : words.flatten.length = words.length * nv := by
    rw [List.length_flatten, List.map_congr_left (g := fun _ => nv) (fun b hb => hlen b hb)]
    simp
  have hcell : ∀ b < words.length, ∀ v < nv, (llrs.getD (b * nv + v) 0 < 0 ↔ (words.getD b []).getD v 0 = 1) := by
    intro b hb v hv
    rw [← flatten_getD 0 nv words hlen b hb v hv]
    refine hs _ ?_
    rw [hll, hfl]
    calc b * nv + v < b * nv + nv := by omega
      _ = (b + 1) * nv := by ring
      _ ≤ words.length * nv := Nat.mul_le_mul_right _ hb
  have hword : ∀ b < words.length, (words.getD b []).length = nv ∧ (∀ x ∈ words.getD b [], x = 0 ∨ x = 1) ∧ Syndrome0 H (words.getD b []) := by
    intro b hb
    rw [List.getD_eq_getElem _ _ hb]
    exact hw _ (List.getElem_mem hb)
  have hbits : ∀ b < words.length, ((List.range nv).map (fun v => decide (llrs.getD (b * nv + v) 0 < 0))).map (fun b => if b then (1 : Int) else 0) =
      words.getD b [] := by
    intro b hb
    obtain ⟨w1, w2, -⟩ := hword b hb
    refine List.ext_getElem (by rw [w1]; simp) fun v hv1 hv2 => ?_
    have hv : v < nv := by simpa using hv1
    have := hcell b hb v hv
    rw [List.getD_eq_getElem (words.getD b []) _ hv2] at this
    simp only [List.getElem_map, List.getElem_range, decide_eq_true_eq]
    rcases w2 _ (List.getElem_mem hv2) with h | h
    · rw [h] at this
      rw [if_neg (by rw [this]; omega), h]
    · rw [h] at this
      rw [if_pos (by rw [this]), h]
  have hck : ∀ b < words.length, ChecksHold (checksOfRows H) (fun v => llrs.getD (b * nv + v) 0 < 0) := by
    intro b hbb
    have hg := checksOfRows_good H nv hHw
    have := (checksOfRows_syndrome H nv hHw (buildParity_bits hb) ((List.range nv).map (fun v => decide (llrs.getD (b * nv + v) 0 < 0))) (by simp)).2
      (by rw [hbits b hbb]; exact (hword b hbb).2.2)
    intro ns hns
    rw [List.countP_congr (q := fun v => ((List.range nv).map (fun v => decide (llrs.getD (b * nv + v) 0 < 0))).getD v false)]
    · exact this ns hns
    · intro v hv
      have := (hg ns hns).2 v hv
      simp [List.getD_eq_getElem?_getD, this]
  refine ⟨(List.range words.length).map (fun b => ((List.range nv).map (fun v => decide (llrs.getD (b * nv + v) 0 < 0)),
        (List.range nv).map (fun v => some (max (-500) (min 500 (llrs.getD (b * nv + v) 0)))))),
    llrs.map (fun x => max (-500) (min 500 x)), ?_, ?_⟩
  · rw [ldpcBpDecode_eq nanSign oneLeft p rfl rfl H hb, hG]
    exact C58_kept nanSign oneLeft alg (checksOfRows H) nv n words.length llrs hnv0 (by rw [hll, hfl]) (by
      rintro rfl
      rw [hfl] at hll
      have := List.length_pos_iff.2 hwne
      have := Nat.mul_pos this hnv0
      rw [List.length_nil] at hll
      omega) (checksOfRows_good H nv hHw) hck
  · rw [List.map_map]
    refine List.ext_getElem (by simp) fun i h1 h2 => ?_
    have := hbits i h2
    simp only [List.getElem_map, List.getElem_range, Function.comp]
    rw [this, List.getD_eq_getElem _ _ h2]

theorem zipWith_compl_sum : ∀ (row c : List Int), row.length = c.length →
    (List.zipWith (· * ·) row (c.map (1 - ·))).sum = row.sum - (List.zipWith (· * ·) row c).sum
  | [], [], _ => by simp
  | a :: row, x :: c, h => by
    have := zipWith_compl_sum row c (by simpa using h)
    simp only [List.map_cons, List.zipWith_cons_cons, List.sum_cons, this]; ring

/-- C108, refuted for LDPC codes without the negation: if every parity check involves an even number of bits, giving the soft outputs of
`demodulate` directly to `ldpc_bp_decode` returns the complement of the transmitted bits (error-free reception). -/
theorem C108_ldpc_refuted (p : LdpcParams) (H : List (List Int)) (hb : buildParity p = .ok H)
    (h1 : 0 < p.nc) (h2 : p.nc < p.nv) (hT : LowerTriangularTail H p.nv.toNat ∨ UpperTriangularTail H p.nv.toNat)
    (heven : ∀ row ∈ H, row.sum % 2 = 0)
    (msg : List Int) (hmsg : ∀ x ∈ msg, x = 0 ∨ x = 1) (hne : msg ≠ []) (pad : Bool)
    (hpad : pad = true ∨ (p.nv.toNat - p.nc.toNat) ∣ msg.length)
    {s : Modem} (hs : s.Consistent) (hm : 2 ≤ s.m) {d ε v : ℝ} (hd : Separated s.constellation d) (hd0 : 0 < d)
    (hv : 0 < v) (hbound : v * Real.log s.m ≤ d * (d - 2 * ε)) (hdiv : s.nbits ∣ p.nv.toNat) :
    ∃ blocks syms, ldpcEncode p msg pad = .ok blocks ∧ modulate s (blocks.flatten.map Int.toNat) = .ok syms ∧
      ∀ ys : List ℂ, ys.length = syms.length → (∀ i < syms.length, ‖ys.getD i 0 - syms.getD i 0‖ ≤ ε) →
        ∃ L, demodulate s ys "soft" v = .ok (.llrs L) ∧ ∀ (alg : BpAlg) (n : Nat),
          ∃ out arr, ldpcBpDecode nanSign oneLeft p alg n L = .ok (out, arr) ∧
            out.map (fun r => r.1.map (fun b => if b then (1 : Int) else 0)) = blocks.map fun b => b.map (1 - ·) := by
  obtain ⟨blocks, z, he, hz, hfl, -⟩ := C58_roundtrip nanSign oneLeft p H hb h1 h2 hT msg hmsg hne pad hpad
  obtain ⟨hbne, hbb⟩ := ldpc_words_bits p H hb h1 h2 hT msg hmsg hne pad hpad he
  obtain ⟨hHl, hHw⟩ := buildParity_len hb
  have hgen : ∃ G, generatorMatrix p.nc.toNat p.nv.toNat H = .ok G := by
    have he' := he
    rw [ldpcEncode_eq p rfl rfl H hb] at he'
    rcases hg : generatorMatrix p.nc.toNat p.nv.toNat H with e | G
    · rw [hg] at he'; cases he'
    · exact ⟨G, rfl⟩
  have hlen : blocks.flatten.length = blocks.length * p.nv.toNat := by
    rw [List.length_flatten, List.map_congr_left (g := fun _ => p.nv.toNat) (fun b hb => (hbb b hb).1)]
    simp
  have hbit : ∀ x ∈ blocks.flatten, x = 0 ∨ x = 1 := by
    intro x hx
    obtain ⟨b, hb1, hb2⟩ := List.mem_flatten.1 hx
    exact (hbb b hb1).2.1 x hb2
  have hpos : 0 < blocks.flatten.length := by
    rw [hlen]; exact Nat.mul_pos (List.length_pos_iff.2 hbne) (by omega)
  obtain ⟨syms, h4, -, h5⟩ := C93_soft hs hm hd hd0 hv hbound (bits := blocks.flatten.map Int.toNat)
    (by
      intro x hx
      obtain ⟨y, hy, rfl⟩ := List.mem_map.1 hx
      rcases hbit y hy with rfl | rfl <;> decide)
    (by intro e; rw [List.map_eq_nil_iff] at e; rw [e] at hpos; simp at hpos)
    (by rw [List.length_map, hlen]; exact Dvd.dvd.mul_left hdiv _)
  refine ⟨blocks, syms, he, h4, fun ys hl hclose => ?_⟩
  obtain ⟨L, h6, h7, h8⟩ := h5 ys hl hclose
  rw [List.length_map] at h7 h8
  have hcf : (blocks.map fun b => b.map (1 - ·)).flatten = blocks.flatten.map (1 - ·) := by rw [List.map_flatten]
  refine ⟨L, h6, fun alg n => decode_words nanSign oneLeft p H hb (by omega) hgen (by simpa using hbne) ?_ alg n
    (by rw [hcf, List.length_map, h7]) ?_⟩
  · intro b hb'
    obtain ⟨c, hc, rfl⟩ := List.mem_map.1 hb'
    obtain ⟨c1, c2, c3⟩ := hbb c hc
    refine ⟨by simpa using c1, ?_, ?_⟩
    · intro x hx
      obtain ⟨y, hy, rfl⟩ := List.mem_map.1 hx
      rcases c2 y hy with rfl | rfl
      · right; rfl
      · left; rfl
    · intro row hrow
      rw [zipWith_compl_sum row c (by rw [hHw row hrow, c1])]
      have e1 := c3 row hrow
      have e2 := heven row hrow
      omega
  · intro i hi
    rw [h7] at hi
    have hBi : (blocks.flatten.map Int.toNat).getD i 0 = (blocks.flatten.getD i 0).toNat := by
      rw [List.getD_eq_getElem _ _ (by rw [List.length_map]; exact hi), List.getElem_map, List.getD_eq_getElem _ _ hi]
    have hCi : (blocks.flatten.map (1 - ·)).getD i 0 = 1 - blocks.flatten.getD i 0 := by
      rw [List.getD_eq_getElem _ _ (by rw [List.length_map]; exact hi), List.getElem_map, List.getD_eq_getElem _ _ hi]
    rw [hcf, hCi]
    have hx : blocks.flatten.getD i 0 = 0 ∨ blocks.flatten.getD i 0 = 1 := by
      rw [List.getD_eq_getElem _ _ hi]; exact hbit _ (List.getElem_mem hi)
    have h9 := h8 i hi
    rw [hBi] at h9
    rcases hx with hx | hx <;> rw [hx] at h9 ⊢
    · rcases h9 with ⟨h9, -⟩ | ⟨-, h9⟩
      · simp at h9
      · exact ⟨fun _ => rfl, fun _ => h9⟩
    · rcases h9 with ⟨-, h9⟩ | ⟨h9, -⟩
      · constructor
        · intro; linarith
        · intro h; norm_num at h
      · simp at h9

/-- The code with checks 110 and 011 and the points 1, -1: the message 1 0 is sent as 111 000; symbols received with errors up to 1/2 are
decoded to the transmitted words after negating the soft outputs, and to 000 111 without. -/
example : ∃ txt p s, writeLdpc 3 [[1, 1, 0], [0, 1, 1]] = .ok txt ∧ getLdpc txt = .ok p ∧ newModem [1, -1] false = .ok s ∧
    (∃ blocks z syms, ldpcEncode p [1, 0] false = .ok blocks ∧ z < 1 ∧ (blocks.map (List.take 1)).flatten = [1, 0] ++ List.replicate z 0 ∧
      modulate s (blocks.flatten.map Int.toNat) = .ok syms ∧
      ∀ ys : List ℂ, ys.length = syms.length → (∀ i < syms.length, ‖ys.getD i 0 - syms.getD i 0‖ ≤ 1 / 2) →
        ∃ L, demodulate s ys "soft" 1 = .ok (.llrs L) ∧ ∀ (alg : BpAlg) (n : Nat),
          ∃ out arr, ldpcBpDecode nanSign oneLeft p alg n (L.map (-·)) = .ok (out, arr) ∧
            out.map (fun r => r.1.map (fun b => if b then (1 : Int) else 0)) = blocks) ∧
    ∃ blocks syms, ldpcEncode p [1, 0] false = .ok blocks ∧ modulate s (blocks.flatten.map Int.toNat) = .ok syms ∧
      ∀ ys : List ℂ, ys.length = syms.length → (∀ i < syms.length, ‖ys.getD i 0 - syms.getD i 0‖ ≤ 1 / 2) →
        ∃ L, demodulate s ys "soft" 1 = .ok (.llrs L) ∧ ∀ (alg : BpAlg) (n : Nat),
          ∃ out arr, ldpcBpDecode nanSign oneLeft p alg n L = .ok (out, arr) ∧
            out.map (fun r => r.1.map (fun b => if b then (1 : Int) else 0)) = blocks.map fun b => b.map (1 - ·) := by
  obtain ⟨txt, p, h1, h2, h3, h4, -, -, h5⟩ := C54_roundtrip 3 [[1, 1, 0], [0, 1, 1]] (by simp) (by decide) (by decide) (by decide) (by decide)
  have e1 : p.nc = 2 := h4
  have e2 : p.nv = 3 := h3
  have hmod : newModem [1, -1] false = .ok (⟨[1, -1], ([(1 : ℂ), -1].map fun z => ‖z‖ ^ 2).sum / 2, 2, 1⟩ : Modem) := by
    unfold newModem freshModem
    simp only [Bool.false_eq_true, if_false]
    rw [setConstellation_pow _ (b := 1) (by rfl)]
    simp
  have hs := newModem_consistent hmod
  have hd : Separated [(1 : ℂ), -1] 2 := by
    simp [Separated]; norm_num
  have hlog : (1 : ℝ) * Real.log ((2 : Nat) : ℝ) ≤ 2 * (2 - 2 * (1 / 2)) := by
    have := Real.log_le_sub_one_of_pos (x := 2) (by norm_num); push_cast; linarith
  have hT : LowerTriangularTail [[1, 1, 0], [0, 1, 1]] p.nv.toNat ∨ UpperTriangularTail [[1, 1, 0], [0, 1, 1]] p.nv.toNat :=
    Or.inl (by rw [e2]; unfold LowerTriangularTail; decide)
  refine ⟨txt, p, _, h1, h2, hmod, ?_, ?_⟩
  · have := C108_ldpc nanSign oneLeft p _ h5 (by omega) (by omega) hT [1, 0] (by decide) (by simp) false
      (Or.inr (by rw [e1, e2]; decide)) hs (le_refl 2) (d := 2) (ε := 1 / 2) (v := 1) hd (by norm_num) (by norm_num) hlog (one_dvd _)
    rw [e1, e2] at this
    exact this
  · exact C108_ldpc_refuted nanSign oneLeft p _ h5 (by omega) (by omega) hT (by decide) [1, 0] (by decide) (by simp) false
      (Or.inr (by rw [e1, e2]; decide)) hs (le_refl 2) (d := 2) (ε := 1 / 2) (v := 1) hd (by norm_num) (by norm_num) hlog (one_dvd _)

/-- The (5,7) code, the message 1 0 1 1, the points 1, -1, errors up to 1/2: the hypotheses of `C108_viterbi` are met. -/
example (jk : VitJunk ℝ) : ∃ t s c syms, mkTrellis (fun _ _ => 0) [2] [[5, 7]] 2 none false "MSB" = .ok t ∧ s.constellation = [1, -1] ∧
    convEncode (· * 2) t [1, 0, 1, 1] "cont" none = .ok c ∧ modulate s c = .ok syms ∧
      ∀ ys : List ℂ, ys.length = syms.length → (∀ i < syms.length, ‖ys.getD i 0 - syms.getD i 0‖ ≤ 1 / 2) →
        ∃ L, demodulate s ys "soft" 1 = .ok (.llrs L) ∧ viterbiDecode "soft" t jk 4 5 L = .ok ([1, 0, 1, 1], L) := by
  have hargs : TrellisArgs [2] [[5, 7]] 2 none "MSB" := ⟨by simp, by simp, rfl, ⟨rfl, by simp⟩, by decide, by simp, by simp⟩
  have hs : Modem.Consistent ⟨[1, -1], 1, 2, 1⟩ := ⟨rfl, rfl, by norm_num⟩
  have hd : Separated [(1 : ℂ), -1] 2 := by
    simp [Separated]; norm_num
  have hlog : (1 : ℝ) * Real.log ((2 : Nat) : ℝ) ≤ 2 * (2 - 2 * (1 / 2)) := by
    have := Real.log_le_sub_one_of_pos (x := 2) (by norm_num); push_cast; linarith
  obtain ⟨c, syms, h1, h2, h3⟩ := C108_viterbi (ff_balanced (junk := fun _ _ => 0) (rsc := false) hargs (by simp)) (by decide)
    (by decide +kernel) (outLen := (· * 2)) (msg := [1, 0, 1, 1]) (by decide) (N := 4) rfl (by norm_num) rfl jk (tb := 5) (by norm_num)
    (by decide) (Or.inl rfl) hs (le_refl 2) (d := 2) (ε := 1 / 2) (v := 1) hd (by norm_num) (by norm_num) hlog (one_dvd _)
  exact ⟨_, _, c, syms, mkTrellis_ok hargs, rfl, h1, h2, h3⟩

end Verif
