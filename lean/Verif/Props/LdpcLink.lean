import Verif.Props.LdpcSpc
/-
C58: encoder and decoder together, and examples for C58, C60, C89, C90.
-/
namespace Verif

variable (nanSign : NanSigns) (oneLeft : Py (List (List Bool × List (Option ℝ))))

theorem buildParity_bits {p : LdpcParams} {rows : List (List Int)} (h : buildParity p = .ok rows) :
    ∀ r ∈ rows, ∀ x ∈ r, x = 0 ∨ x = 1 := by
  obtain ⟨h1, h2⟩ := mapM_getElem_ok h
  rw [List.length_range] at h1
  intro r hr
  obtain ⟨i, hi, rfl⟩ := List.getElem_of_mem hr
  have hh := h2 i (by simpa [h1] using hi) hi
  have fold : ∀ (l : List Int) (row out : List Int), (∀ x ∈ row, x = 0 ∨ x = 1) →
      l.foldlM (fun row v => pySet row v 1) row = (.ok out : Py _) → ∀ x ∈ out, x = 0 ∨ x = 1 := by
    intro l
    induction l with
    | nil => intro row out hr h; cases h; exact hr
    | cons v l ih =>
      intro row out hr h
      rw [List.foldlM_cons] at h
      rcases hs : pySet row v (1 : Int) with e | row'
      · rw [hs] at h; cases h
      rw [hs] at h
      refine ih row' out ?_ h
      simp only [pySet] at hs
      split at hs
      · cases hs
        intro x hx
        rcases List.mem_or_eq_of_mem_set hx with hx | hx
        · exact hr x hx
        · exact Or.inr hx
      · cases hs
  rcases ha : pyGet p.cadj ((List.range p.nc.toNat)[i]'(by simpa [h1] using hi) : Int) with e | arow
  · simp only [ha] at hh; cases hh
  simp only [ha, bind, Except.bind] at hh
  rcases hd : pyGet p.cdeg ((List.range p.nc.toNat)[i]'(by simpa [h1] using hi) : Int) with e | deg
  · simp only [hd] at hh; cases hh
  simp only [hd] at hh
  exact fold _ _ _ (fun x hx => Or.inl (List.eq_of_mem_replicate hx)) hh

theorem ldpcBpDecode_eq (p : LdpcParams) {r nv : Nat} (hr : p.nc.toNat = r) (hn : p.nv.toNat = nv) (H : List (List Int))
    (hb : buildParity p = .ok H) (alg : BpAlg) (n : Nat) (llrs : List ℝ) :
    ldpcBpDecode nanSign oneLeft p alg n llrs =
      (generatorMatrix r nv H >>= fun _ => bpDecode nanSign oneLeft alg (checksOfRows H) nv n llrs) := by
  subst hr hn
  simp only [ldpcBpDecode, buildMatrix, hb, bind, Except.bind]
  rcases generatorMatrix p.nc.toNat p.nv.toNat H with e | G <;> rfl

/-- C58: if the last columns of the parity check matrix are singular (over the rationals) the decoder does not work at all
with parameters read from a design file, although decoding needs the parity checks only. -/
theorem C58_singular (p : LdpcParams) (H : List (List Int)) (hb : buildParity p = .ok H) (h1 : 0 < p.nc) (h2 : p.nc ≤ p.nv)
    (hS : (tailMatrix H p.nc.toNat p.nv.toNat).det = 0) (alg : BpAlg) (n : Nat) (llrs : List ℝ) :
    ldpcBpDecode nanSign oneLeft p alg n llrs = .error .runtimeError := by
  rw [ldpcBpDecode_eq nanSign oneLeft p rfl rfl H hb]
  simp only [generatorMatrix]
  rw [if_neg (by omega), if_pos (by rw [det_sysPart, hS]; rfl)]
  rfl

/-- The bits of the words `bs`, in order. -/
theorem flatten_getD {α : Type} (x0 : α) (nv : Nat) : ∀ (bs : List (List α)), (∀ b ∈ bs, b.length = nv) → ∀ i < bs.length, ∀ v < nv,
    bs.flatten.getD (i * nv + v) x0 = (bs.getD i []).getD v x0 := by
  intro bs
  induction bs with
  | nil => intro _ i hi; simp at hi
  | cons b bs ih =>
    intro hb i hi v hv
    have hbl := hb b (by simp)
    match i with
    | 0 => simp [List.getD_eq_getElem?_getD, List.getElem?_append, hbl, hv]
    | i + 1 =>
      have := ih (fun b hb' => hb b (List.mem_cons_of_mem _ hb')) i (by simpa using hi) v hv
      rw [List.flatten_cons, List.getD_append_right _ _ _ _ (by rw [hbl]; nlinarith), hbl,
        show (i + 1) * nv + v - nv = i * nv + v by rw [Nat.add_mul]; omega, this]
      simp

/-- C58, encoder and decoder together: for a code with triangular last columns, if the LLRs have the signs of the encoded bits
(negative for a 1), decoding returns the encoded bits with every algorithm and number of iterations; the message (padded to a
multiple of the block length) is in the first bits of each block. -/
theorem C58_roundtrip (p : LdpcParams) (H : List (List Int)) (hb : buildParity p = .ok H)
    (h1 : 0 < p.nc) (h2 : p.nc < p.nv) (hT : LowerTriangularTail H p.nv.toNat ∨ UpperTriangularTail H p.nv.toNat)
    (msg : List Int) (hmsg : ∀ x ∈ msg, x = 0 ∨ x = 1) (hne : msg ≠ []) (pad : Bool)
    (hpad : pad = true ∨ (p.nv.toNat - p.nc.toNat) ∣ msg.length) :
    ∃ blocks z, ldpcEncode p msg pad = .ok blocks ∧ z < p.nv.toNat - p.nc.toNat ∧
      (blocks.map (List.take (p.nv.toNat - p.nc.toNat))).flatten = msg ++ List.replicate z 0 ∧
      ∀ (alg : BpAlg) (n : Nat) (llrs : List ℝ), llrs.length = blocks.flatten.length →
        (∀ i < llrs.length, (llrs.getD i 0 < 0 ↔ blocks.flatten.getD i 0 = 1)) →
        ∃ out arr, ldpcBpDecode nanSign oneLeft p alg n llrs = .ok (out, arr) ∧
          out.map (fun r => r.1.map (fun b => if b then (1 : Int) else 0)) = blocks := by
  obtain ⟨ms, z, blocks, he, hm, hz, hF⟩ := C56_triangular p H hb h1 h2 hT msg hmsg pad hpad
  obtain ⟨hHl, hHw⟩ := buildParity_len hb
  set k := p.nv.toNat - p.nc.toNat with hk
  set nv := p.nv.toNat with hnv
  have hnv0 : 0 < nv := by omega
  have hlen : ∀ b ∈ blocks, b.length = nv := by
    intro b hb
    obtain ⟨e, h⟩ := List.forall₂_iff_get.1 hF
    obtain ⟨i, hi, rfl⟩ := List.getElem_of_mem hb
    exact (h i (by omega) hi).2.1
  refine ⟨blocks, z, he, hz, ?_, ?_⟩
  · rw [← hm]
    congr 1
    clear hm he hlen
    induction hF with
    | nil => rfl
    | cons h _ ih =>
      rw [List.map_cons, ih]
      congr 1
      rw [← h.2.2.2.1, h.1]
  intro alg n llrs hll hs
  have hgen : ∃ G, generatorMatrix p.nc.toNat nv H = .ok G := by
    rw [ldpcEncode_eq p rfl rfl H hb] at he
    rcases hg : generatorMatrix p.nc.toNat p.nv.toNat H with e | G
    · rw [hg] at he; cases he
    · exact ⟨G, rfl⟩
  obtain ⟨G, hG⟩ := hgen
  have hfl : blocks.flatten.length = blocks.length * nv := by
    rw [List.length_flatten, List.map_congr_left (g := fun _ => nv) (fun b hb => hlen b hb)]
    simp
  have hbne : blocks ≠ [] := by
    rintro rfl
    cases hF
    simp at hm
    exact hne hm.1
  have hcell : ∀ b < blocks.length, ∀ v < nv, (llrs.getD (b * nv + v) 0 < 0 ↔ (blocks.getD b []).getD v 0 = 1) := by
    intro b hb v hv
    rw [← flatten_getD 0 nv blocks hlen b hb v hv]
    refine hs _ ?_
    rw [hll, hfl]
    calc b * nv + v < b * nv + nv := by omega
      _ = (b + 1) * nv := by ring
      _ ≤ blocks.length * nv := Nat.mul_le_mul_right _ hb
  have hword : ∀ b < blocks.length, SystematicCodeword H nv (ms.getD b []) (blocks.getD b []) := by
    intro b hb
    obtain ⟨e, h⟩ := List.forall₂_iff_get.1 hF
    have := (h b (by omega) hb).2
    rw [List.getD_eq_getElem _ _ (by omega), List.getD_eq_getElem _ _ hb]
    exact this
  have hbits : ∀ b < blocks.length, ((List.range nv).map (fun v => decide (llrs.getD (b * nv + v) 0 < 0))).map (fun b => if b then (1 : Int) else 0) =
      blocks.getD b [] := by
    intro b hb
    obtain ⟨w1, w2, -, -⟩ := hword b hb
    refine List.ext_getElem (by rw [w1]; simp) fun v hv1 hv2 => ?_
    have hv : v < nv := by simpa using hv1
    have := hcell b hb v hv
    rw [List.getD_eq_getElem (blocks.getD b []) _ hv2] at this
    simp only [List.getElem_map, List.getElem_range, decide_eq_true_eq]
    rcases w2 _ (List.getElem_mem hv2) with h | h
    · rw [h] at this
      rw [if_neg (by rw [this]; omega), h]
    · rw [h] at this
      rw [if_pos (by rw [this]), h]
  have hck : ∀ b < blocks.length, ChecksHold (checksOfRows H) (fun v => llrs.getD (b * nv + v) 0 < 0) := by
    intro b hbb
    have hg := checksOfRows_good H nv hHw
    have := (checksOfRows_syndrome H nv hHw (buildParity_bits hb) ((List.range nv).map (fun v => decide (llrs.getD (b * nv + v) 0 < 0))) (by simp)).2
      (by rw [hbits b hbb]; exact (hword b hbb).2.2.2)
    intro ns hns
    rw [List.countP_congr (q := fun v => ((List.range nv).map (fun v => decide (llrs.getD (b * nv + v) 0 < 0))).getD v false)]
    · exact this ns hns
    · intro v hv
      have := (hg ns hns).2 v hv
      simp [List.getD_eq_getElem?_getD, this]
  refine ⟨(List.range blocks.length).map (fun b => ((List.range nv).map (fun v => decide (llrs.getD (b * nv + v) 0 < 0)),
        (List.range nv).map (fun v => some (max (-500) (min 500 (llrs.getD (b * nv + v) 0)))))),
    llrs.map (fun x => max (-500) (min 500 x)), ?_, ?_⟩
  · rw [ldpcBpDecode_eq nanSign oneLeft p rfl rfl H hb, hG]
    exact C58_kept nanSign oneLeft alg (checksOfRows H) nv n blocks.length llrs hnv0 (by rw [hll, hfl]) (by
      rintro rfl
      rw [hfl] at hll
      have := List.length_pos_iff.2 hbne
      have := Nat.mul_pos this hnv0
      rw [List.length_nil] at hll
      omega) (checksOfRows_good H nv hHw) hck
  · rw [List.map_map]
    refine List.ext_getElem (by simp) fun i h1 h2 => ?_
    have := hbits i h2
    simp only [List.getElem_map, List.getElem_range, Function.comp]
    rw [this, List.getD_eq_getElem _ _ h2]

/-- The code with checks 110 and 011, read from its design file: the message 1 0 1 is encoded as 111 000 111; LLRs of the
right signs are decoded to these words. -/
example : ∃ txt p, writeLdpc 3 [[1, 1, 0], [0, 1, 1]] = .ok txt ∧ getLdpc txt = .ok p ∧
    ∃ blocks, ldpcEncode p [1, 0] false = .ok blocks ∧ ∀ (alg : BpAlg) (n : Nat) (llrs : List ℝ), llrs.length = blocks.flatten.length →
        (∀ i < llrs.length, (llrs.getD i 0 < 0 ↔ blocks.flatten.getD i 0 = 1)) →
        ∃ out arr, ldpcBpDecode nanSign oneLeft p alg n llrs = .ok (out, arr) ∧
          out.map (fun r => r.1.map (fun b => if b then (1 : Int) else 0)) = blocks := by
  obtain ⟨txt, p, h1, h2, h3, h4, -, -, h5⟩ := C54_roundtrip 3 [[1, 1, 0], [0, 1, 1]] (by simp) (by decide) (by decide) (by decide) (by decide)
  have e1 : p.nc = 2 := h4
  have e2 : p.nv = 3 := h3
  obtain ⟨blocks, z, b1, -, -, b2⟩ := C58_roundtrip nanSign oneLeft p _ h5 (by omega) (by omega)
    (Or.inl (by rw [e2]; unfold LowerTriangularTail; decide)) [1, 0] (by decide) (by simp) false (Or.inr (by rw [e1, e2]; decide))
  exact ⟨txt, p, h1, h2, blocks, b1, b2⟩

/-- A code with singular last columns: the last two columns of the checks 1011 and 0111 are equal. -/
example : ∃ txt p, writeLdpc 4 [[1, 0, 1, 1], [0, 1, 1, 1]] = .ok txt ∧ getLdpc txt = .ok p ∧
    ldpcBpDecode nanSign oneLeft p .spa 10 [1, 1, 1, 1] = .error .runtimeError := by
  obtain ⟨txt, p, h1, h2, h3, h4, -, -, h5⟩ := C54_roundtrip 4 [[1, 0, 1, 1], [0, 1, 1, 1]] (by simp) (by decide) (by decide) (by decide) (by decide)
  have e1 : p.nc = 2 := h4
  have e2 : p.nv = 4 := h3
  exact ⟨txt, p, h1, h2, C58_singular nanSign oneLeft p _ h5 (by omega) (by omega) (by rw [e1, e2]; decide) _ _ _⟩

theorem msaRule_two (x : Nat → ℝ) : msaRule [0, 1] x 0 = x 1 ∧ msaRule [0, 1] x 1 = x 0 := by
  have key : ∀ a b : Nat, a ≠ b → (∀ u, (u ∈ [0, 1] ∧ u ≠ a) ↔ u = b) → ⨅ u : {u // u ∈ [0, 1] ∧ u ≠ a}, |x u| = |x b| := by
    intro a b _ h
    letI : Unique {u // u ∈ [0, 1] ∧ u ≠ a} := ⟨⟨⟨b, (h b).2 rfl⟩⟩, fun u => Subtype.ext ((h u.1).1 u.2)⟩
    rw [ciInf_unique]
    rfl
  have hs : ∀ y : ℝ, (SignType.sign y : ℝ) * |y| = y := fun y => sign_mul_abs y
  constructor
  · unfold msaRule
    rw [key 0 1 (by decide) (by intro u; simp; omega), show List.filter (fun u => decide (u ≠ 0)) [0, 1] = [1] by decide]
    simp
  · unfold msaRule
    rw [key 1 0 (by decide) (by intro u; simp; omega), show List.filter (fun u => decide (u ≠ 1)) [0, 1] = [0] by decide]
    simp

/-- The hypotheses of `C60_flip_msa` hold for the repetition code of length 2, LLRs 1 and -3 and the word 11, for which one iteration is
needed. -/
example : ∃ d o arr arr', bpDecode nanSign oneLeft .msa [[0, 1]] 2 1 [1, -3] = .ok ([(d, o)], arr) ∧
      bpDecode nanSign oneLeft .msa [[0, 1]] 2 1 ((List.range 2).map (fun v => (if v < 2 then -1 else 1) * [1, -3].getD v (0 : ℝ))) =
        .ok ([(List.zipWith xor d ((List.range 2).map (fun v => decide (v < 2))),
          List.zipWith (fun (s : ℝ) x => Option.map (s * ·) x) ((List.range 2).map (fun v => if v < 2 then -1 else 1)) o)], arr') := by
  have := C60_flip_msa nanSign oneLeft [[0, 1]] 2 1 [1, -3] (by decide) rfl (by unfold GoodChecks; decide) (by decide) (fun v => decide (v < 2))
    (by unfold ChecksHold; decide) (by
      intro m hm d o arr h
      obtain ⟨K, hK, hd⟩ := C89_msa nanSign oneLeft [[0, 1]] 2 m [1, -3] (by decide) rfl (by unfold GoodChecks; decide) (by decide)
      rw [hd] at h
      have hKm := hK.1.trans hm
      simp only [bpResult, Except.ok.injEq, Prod.mk.injEq, List.cons.injEq, and_true] at h
      rw [← h.1.2]
      have c0 : clippedLlr [1, -3] 0 = 1 := by norm_num [clippedLlr]
      have c1 : clippedLlr [1, -3] 1 = -3 := by norm_num [clippedLlr]
      interval_cases K
      · simp [List.range_succ, bpTotal, c0, c1]
      · simp [List.range_succ, bpTotal, bpMsgs, c0, c1, msaRule_two]
        norm_num)
  simpa using this

/-- C90 for the check on three bits and the LLRs 1, 2, -3 (one more bit is not in the check). -/
example : ∃ d o, bpDecode nanSign oneLeft .spa [[0, 1, 3]] 4 1 [1, 2, 5, -3] = .ok ([(d, o)], [1, 2, 5, -3]) ∧
      (∀ v ∈ [0, 1, 3], o[v]? = some (some (posteriorLlr [0, 1, 3] (fun v => [1, 2, 5, -3].getD v 0) v))) ∧
      ∀ v < 4, v ∉ [0, 1, 3] → o[v]? = some (some ([1, 2, 5, -3].getD v 0)) :=
  C90_exact nanSign oneLeft [0, 1, 3] 4 [1, 2, 5, -3] (by decide) rfl (by decide) (by decide) (by decide) (by norm_num) (by norm_num [abs_le])
    (by unfold ChecksHold; norm_num [List.countP_cons])

end Verif
