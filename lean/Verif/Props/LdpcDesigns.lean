import Verif.Props.LdpcErasure
import Verif.Props.LdpcLink
import Verif.Lemmas.RowSpan
import Verif.Lemmas.GFMinpoly
/-
C112, C114: from parity checks as lists of columns to the parameters read from a design file; several blocks; the encoder.
-/
namespace Verif

variable (nanSign : NanSigns) (oneLeft : Py (List (List Bool × List (Option ℝ))))

/-- The 0/1 matrix with the ones of row `i` in the columns `H[i]`. -/
def rowsOf (nv : Nat) (H : Checks) : List (List Int) := H.map fun ns => (List.range nv).map fun v => if v ∈ ns then 1 else 0

/-- Every check lists its columns in increasing order, all below `nv`. -/
def sortedChecks (H : Checks) (nv : Nat) : Bool := H.all fun ns => (List.range nv).filter (fun v => v ∈ ns) = ns

theorem checksOfRows_rowsOf {H : Checks} {nv : Nat} (h : sortedChecks H nv = true) : checksOfRows (rowsOf nv H) = H := by
  unfold checksOfRows rowsOf
  rw [List.map_map]
  conv_rhs => rw [← List.map_id H]
  refine List.map_congr_left fun ns hns => ?_
  simp only [sortedChecks, List.all_eq_true, decide_eq_true_eq] at h
  simp only [Function.comp, List.length_map, List.length_range, id]
  conv_rhs => rw [← h ns hns]
  refine List.filter_congr fun v hv => ?_
  rw [List.mem_range] at hv
  rw [List.getD_eq_getElem _ _ (by simpa using hv), List.getElem_map, List.getElem_range]
  by_cases hm : v ∈ ns <;> simp [hm]

theorem sorted_good {H : Checks} {nv : Nat} (h : sortedChecks H nv = true) : GoodChecks H nv := by
  rw [← checksOfRows_rowsOf h]
  refine checksOfRows_good _ nv ?_
  intro r hr
  obtain ⟨ns, -, rfl⟩ := List.mem_map.1 hr
  simp

theorem tail_rowsOf (H : Checks) (nv m : Nat) (hl : H.length = m) (hm : m ≤ nv) : tailMatrix (rowsOf nv H) m nv = colsFrom ℤ (nv - m) m H := by
  funext i j
  unfold tailMatrix colsFrom rowsOf
  have hi : (i : Nat) < H.length := by rw [hl]; exact i.2
  have hj : nv - m + (j : Nat) < nv := by have := j.2; omega
  have e : (H.map fun ns => (List.range nv).map fun v => if v ∈ ns then (1 : Int) else 0).getD i [] =
      (List.range nv).map fun v => if v ∈ H.getD i [] then (1 : Int) else 0 := by
    rw [List.getD_eq_getElem H _ hi, List.getD_eq_getElem _ _ (by simpa using hi), List.getElem_map]
  rw [e, List.getD_eq_getElem _ _ (by simpa using hj), List.getElem_map, List.getElem_range]

/-- The determinant that `build_matrix` needs. -/
theorem det_of_cert0 {H : Checks} {nv m : Nat} (hl : H.length = m) (hm : m ≤ nv) (hs : sortedChecks H nv = true) (cert : List (List (Int × Nat) × Nat))
    (h : certOk 0 (nv - m) H m 0 cert = true) : (tailMatrix (rowsOf nv H) m nv).det = 1 ∨ (tailMatrix (rowsOf nv H) m nv).det = -1 := by
  rw [tail_rowsOf H nv m hl hm]
  exact Int.isUnit_iff.1 (isUnit_of_cert 0 (by simp) (nv - m) m H hl (fun ns hns => ((sorted_good hs) ns hns).1) cert h)

theorem det_of_cert2 {H : Checks} {nv m : Nat} (hl : H.length = m) (hm : m ≤ nv) (hs : sortedChecks H nv = true) (cert : List (List (Int × Nat) × Nat))
    (h : certOk 2 (nv - m) H m 0 cert = true) : (tailMatrix (rowsOf nv H) m nv).det ≠ 0 := by
  rw [tail_rowsOf H nv m hl hm]
  have hu := isUnit_of_cert (R := ZMod 2) 2 (by decide) (nv - m) m H hl (fun ns hns => ((sorted_good hs) ns hns).1) cert h
  intro h0
  have : (colsFrom (ZMod 2) (nv - m) m H).det = (((colsFrom ℤ (nv - m) m H).det : ℤ) : ZMod 2) := by
    have e : colsFrom (ZMod 2) (nv - m) m H = (Int.castRingHom (ZMod 2)).mapMatrix (colsFrom ℤ (nv - m) m H) := by
      ext i j
      simp only [colsFrom, RingHom.mapMatrix_apply, Matrix.map_apply]
      split <;> simp
    rw [e, ← RingHom.map_det]
    rfl
  rw [this, h0] at hu
  simp at hu

/-- Decoding with parameters that hold the matrix of `H`, when the last columns are invertible. -/
theorem ldpcBpDecode_checks (p : LdpcParams) {H : Checks} {nv m : Nat} (hnv : p.nv = nv) (hnc : p.nc = m) (hm0 : 0 < m) (hm : m ≤ nv)
    (hb : buildParity p = .ok (rowsOf nv H)) (hs : sortedChecks H nv = true) (hdet : (tailMatrix (rowsOf nv H) m nv).det ≠ 0) (alg : BpAlg) (n : Nat)
    (llrs : List ℝ) : ldpcBpDecode nanSign oneLeft p alg n llrs = bpDecode nanSign oneLeft alg H nv n llrs := by
  rw [ldpcBpDecode_eq nanSign oneLeft p (r := m) (nv := nv) (by rw [hnc]; simp) (by rw [hnv]; simp) _ hb, checksOfRows_rowsOf hs]
  unfold generatorMatrix
  rw [if_neg (by omega), if_neg (by rw [det_sysPart]; exact_mod_cast hdet)]
  rfl

/-- Several blocks: what holds for every block alone, whatever the uninitialised sign bits, holds for all of them. -/
theorem bpDecode_blocks (alg : BpAlg) (H : Checks) (nv n q : Nat) (llrs : List ℝ) (hnv : 0 < nv) (hq : llrs.length = q * nv) (hne : llrs ≠ [])
    (W : Nat → List Bool) (h : ∀ b < q, ∀ nanSign oneLeft, ∃ out arr,
      bpDecode nanSign oneLeft alg H nv n ((llrs.drop (b * nv)).take nv) = .ok ([(W b, out)], arr)) :
    ∃ out arr, bpDecode nanSign oneLeft alg H nv n llrs = .ok (out, arr) ∧ out.map Prod.fst = (List.range q).map W := by
  rw [bpDecode_eq nanSign oneLeft alg H nv n q llrs hnv hq hne]
  have hblk : ∀ b ∈ List.range q, ∃ r, bpBlock (nanSign b) alg H nv n (((llrs.map (clipR llrMax)).drop (b * nv)).take nv) = .ok r ∧ r.1 = W b := by
    intro b hb
    rw [List.mem_range] at hb
    have hlen : ((llrs.drop (b * nv)).take nv).length = nv := by
      rw [List.length_take, List.length_drop, hq]
      have : (b + 1) * nv ≤ q * nv := Nat.mul_le_mul_right _ hb
      rw [Nat.add_mul, one_mul] at this
      omega
    obtain ⟨out, arr, hd⟩ := h b hb (fun _ => nanSign b) (.error .valueError)
    rw [bpDecode_eq _ _ alg H nv n 1 _ hnv (by rw [hlen, one_mul]) (by intro h0; rw [h0] at hlen; simp at hlen; omega)] at hd
    simp only [List.range_one, List.mapM_cons, List.mapM_nil, Nat.zero_mul, List.drop_zero] at hd
    have e : List.take nv (List.map (clipR llrMax) (List.take nv (List.drop (b * nv) llrs))) = ((llrs.map (clipR llrMax)).drop (b * nv)).take nv := by
      have e' : List.take nv (List.map (clipR llrMax) (List.take nv (List.drop (b * nv) llrs))) =
          List.map (clipR llrMax) (List.take nv (List.drop (b * nv) llrs)) := List.take_of_length_le (by rw [List.length_map, hlen])
      rw [e', ← List.map_drop, ← List.map_take]
    rw [e] at hd
    rcases hr : bpBlock (nanSign b) alg H nv n (((llrs.map (clipR llrMax)).drop (b * nv)).take nv) with err | r
    · rw [hr] at hd; cases hd
    · rw [hr] at hd
      simp only [bind, Except.bind, pure, Except.pure, Except.ok.injEq, Prod.mk.injEq, List.cons.injEq, and_true] at hd
      exact ⟨r, rfl, by rw [hd.1]⟩
  obtain ⟨r, h1, h2, h3⟩ := mapM_exists (fun b (r : List Bool × List (Option ℝ)) => r.1 = W b) (List.range q) hblk
  rw [h1]
  refine ⟨r, _, rfl, ?_⟩
  refine List.ext_getElem (by simp [h2]) fun i i1 i2 => ?_
  rw [List.length_map] at i1 i2
  rw [List.getElem_map, List.getElem_map]
  exact h3 i i2 i1

/-- A check matrix for which min-sum decoding corrects one unreliable position, with magnitudes up to `ρ` times the others. -/
def SingleOk (H : Checks) (nv : Nat) (ρ : ℝ) : Prop :=
  ∀ u < nv, ρ < (checksOf H u).length ∧ ∀ v < nv, v ≠ u → hitChecks H {u} v * ρ < (checksOf H v).length - hitChecks H {u} v + 1

/-- C112, one unreliable position per block. -/
theorem C112_single (H : Checks) (nv n q : Nat) (llrs : List ℝ) (hnv : 0 < nv) (hq : llrs.length = q * nv) (hne : llrs ≠ []) (hH : GoodChecks H nv)
    (hdeg : ∀ ns ∈ H, ns.length ≠ 1) {ρ : ℝ} (hS : SingleOk H nv ρ) (hn : 1 ≤ n) (a : ℝ) (ha : 0 < a) (ha5 : a ≤ 500)
    (w : Nat → Nat → Bool) (hw : ∀ b < q, ChecksHold H (w b))
    (herr : ∀ b < q, ∃ u, ∀ v < nv, if v = u then min 500 |llrs.getD (b * nv + v) 0| ≤ ρ * a
      else if w b v then llrs.getD (b * nv + v) 0 ≤ -a else a ≤ llrs.getD (b * nv + v) 0) :
    ∃ out arr, bpDecode nanSign oneLeft .msa H nv n llrs = .ok (out, arr) ∧
      out.map Prod.fst = (List.range q).map fun b => (List.range nv).map (w b) := by
  refine bpDecode_blocks nanSign oneLeft .msa H nv n q llrs hnv hq hne _ ?_
  intro b hb nanSign oneLeft
  obtain ⟨u, hu⟩ := herr b hb
  have hle : (b + 1) * nv ≤ q * nv := Nat.mul_le_mul_right _ hb
  rw [Nat.add_mul, one_mul] at hle
  have hlen : ((llrs.drop (b * nv)).take nv).length = nv := by
    rw [List.length_take, List.length_drop, hq]; omega
  have hget : ∀ v < nv, ((llrs.drop (b * nv)).take nv).getD v 0 = llrs.getD (b * nv + v) 0 := by
    intro v hv
    rw [List.getD_eq_getElem _ _ (by omega), List.getD_eq_getElem _ _ (by omega)]
    simp
  set E : Finset Nat := if u < nv then {u} else ∅ with hE
  have hmem : ∀ v < nv, v ∈ E ↔ v = u := by
    intro v hv
    rw [hE]
    split
    · simp
    · simp; omega
  refine C112_pattern nanSign oneLeft H nv n _ hnv hlen hH hdeg (w b) (hw b hb) hn a (ρ * a) ha ha5 E ?_ ?_ ?_ ?_
  · intro v hv hvE
    have := hu v hv
    rw [if_neg (fun h => hvE ((hmem v hv).2 h))] at this
    rw [hget v hv]
    exact this
  · intro v hvE
    have hv : v < nv := by
      rw [hE] at hvE
      split at hvE
      · rw [Finset.mem_singleton] at hvE; omega
      · simp at hvE
    have := hu v hv
    rw [if_pos ((hmem v hv).1 hvE)] at this
    rw [hget v hv]
    exact this
  · intro v hv hvE
    by_cases hun : u < nv
    · rw [hE, if_pos hun] at hvE ⊢
      have h1 := (hS u hun).2 v hv (by simpa using hvE)
      nlinarith
    · rw [hE, if_neg hun]
      have h0 : hitChecks H ∅ v = 0 := by simp [hitChecks]
      rw [h0]
      simp only [Nat.cast_zero, zero_mul, sub_zero]
      positivity
  · intro v hv hvE
    have hvu := (hmem v hv).1 hvE
    subst hvu
    rw [hE, if_pos hv]
    have h0 : hitChecks H {v} v = 0 := by
      unfold hitChecks
      rw [List.countP_eq_zero]
      intro c _
      simp only [decide_eq_true_eq, not_exists, not_and]
      intro x _ hx
      simpa using hx
    rw [h0]
    have := (hS v hv).1
    simp only [Nat.cast_zero, zero_add, one_mul, sub_zero]
    nlinarith

/-- Codes without cycles of length 4 in which every bit is in at least `d` checks. -/
theorem singleOk_of_girth {H : Checks} {nv d : Nat} (hg : NoFourCycle H) (hcol : ∀ v < nv, d ≤ (checksOf H v).length) {ρ : ℝ} (hρ0 : 0 ≤ ρ) (hρ : ρ < d) :
    SingleOk H nv ρ := by
  intro u hu
  have h1 : ∀ v < nv, (d : ℝ) ≤ (checksOf H v).length := fun v hv => by exact_mod_cast hcol v hv
  refine ⟨hρ.trans_le (h1 u hu), ?_⟩
  intro v hv hvu
  have h2 : hitChecks H {u} v ≤ 1 := (hitChecks_le hg {u} v).trans (by
    rw [Finset.erase_eq_of_notMem (by simpa using hvu)]; simp)
  have h3 : (hitChecks H {u} v : ℝ) ≤ 1 := by exact_mod_cast h2
  have h4 : (0 : ℝ) ≤ hitChecks H {u} v := by positivity
  have := h1 v hv
  nlinarith

/-- C112 for words given as lists of 0 and 1, all blocks together. -/
theorem bpDecode_words (H : Checks) (nv n : Nat) (llrs : List ℝ) (blocks : List (List Int)) (hnv0 : 0 < nv) (hs : sortedChecks H nv = true)
    (hdeg : ∀ ns ∈ H, ns.length ≠ 1) {ρ : ℝ} (hS : SingleOk H nv ρ) (hn : 1 ≤ n) (a : ℝ) (ha : 0 < a) (ha5 : a ≤ 500) (hbne : blocks ≠ [])
    (hcw : ∀ c ∈ blocks, c.length = nv ∧ (∀ x ∈ c, x = 0 ∨ x = 1) ∧ Syndrome0 (rowsOf nv H) c) (hll : llrs.length = blocks.flatten.length)
    (herr : ∀ b < blocks.length, ∃ u, ∀ v < nv, if v = u then min 500 |llrs.getD (b * nv + v) 0| ≤ ρ * a
      else if blocks.flatten.getD (b * nv + v) 0 = 1 then llrs.getD (b * nv + v) 0 ≤ -a else a ≤ llrs.getD (b * nv + v) 0) :
    ∃ out arr, bpDecode nanSign oneLeft .msa H nv n llrs = .ok (out, arr) ∧
      out.map (fun r => r.1.map (fun b => if b then (1 : Int) else 0)) = blocks := by
  have hlen : ∀ c ∈ blocks, c.length = nv := fun c hc => (hcw c hc).1
  have hfl : blocks.flatten.length = blocks.length * nv := by
    rw [List.length_flatten, List.map_congr_left (g := fun _ => nv) (fun b hb => hlen b hb)]
    simp
  -- the words as functions
  have hword : ∀ b < blocks.length, (blocks.getD b []).length = nv ∧ (∀ x ∈ blocks.getD b [], x = 0 ∨ x = 1) ∧
      Syndrome0 (rowsOf nv H) (blocks.getD b []) := by
    intro b hb
    rw [List.getD_eq_getElem _ _ hb]
    exact hcw _ (List.getElem_mem hb)
  have hrb : ∀ r ∈ rowsOf nv H, ∀ x ∈ r, x = 0 ∨ x = 1 := by
    intro r hr x hx
    obtain ⟨ns, -, rfl⟩ := List.mem_map.1 hr
    obtain ⟨v, -, rfl⟩ := List.mem_map.1 hx
    split <;> simp
  set w : Nat → Nat → Bool := fun b v => decide ((blocks.getD b []).getD v 0 = 1) with hw
  have hwb : ∀ b < blocks.length, ((List.range nv).map (w b)).map (fun b => if b then (1 : Int) else 0) = blocks.getD b [] := by
    intro b hb
    obtain ⟨w1, w2, -⟩ := hword b hb
    refine List.ext_getElem (by rw [w1]; simp) fun v hv1 hv2 => ?_
    simp only [hw, List.getElem_map, List.getElem_range, decide_eq_true_eq]
    rw [List.getD_eq_getElem (blocks.getD b []) _ hv2]
    rcases w2 _ (List.getElem_mem hv2) with h | h <;> rw [h] <;> rfl
  have hrl : ∀ r ∈ rowsOf nv H, r.length = nv := by
    intro r hr
    obtain ⟨ns, -, rfl⟩ := List.mem_map.1 hr
    simp
  have hwc : ∀ b < blocks.length, ChecksHold H (w b) := by
    intro b hbb
    have hg := sorted_good hs
    have := (checksOfRows_syndrome (rowsOf nv H) nv hrl hrb ((List.range nv).map (w b)) (by simp)).2
      (by rw [hwb b hbb]; exact (hword b hbb).2.2)
    rw [checksOfRows_rowsOf hs] at this
    intro ns hns
    rw [List.countP_congr (q := fun v => ((List.range nv).map (w b)).getD v false)]
    · exact this ns hns
    · intro v hv
      have := (hg ns hns).2 v hv
      simp [List.getD_eq_getElem?_getD, this]
  obtain ⟨out, arr, h1, h2⟩ := C112_single nanSign oneLeft H nv n blocks.length llrs hnv0 (by rw [hll, hfl]) (by
      rintro rfl
      rw [hfl] at hll
      have := Nat.mul_pos (List.length_pos_iff.2 hbne) hnv0
      rw [List.length_nil] at hll
      omega) (sorted_good hs) hdeg hS hn a ha ha5 w hwc (by
    intro b hb
    obtain ⟨u, hu⟩ := herr b hb
    refine ⟨u, fun v hv => ?_⟩
    have := hu v hv
    rw [flatten_getD 0 nv blocks hlen b hb v hv] at this
    simp only [hw, decide_eq_true_eq]
    exact this)
  refine ⟨out, arr, h1, ?_⟩
  have : out.map (fun r => r.1.map (fun b => if b then (1 : Int) else 0)) = (out.map Prod.fst).map (fun l => l.map (fun b => if b then (1 : Int) else 0)) := by
    rw [List.map_map]; rfl
  rw [this, h2, List.map_map]
  refine List.ext_getElem (by simp) fun i h1 h2 => ?_
  simp only [List.getElem_map, List.getElem_range, Function.comp]
  rw [hwb i h2, List.getD_eq_getElem _ _ h2]

/-- C114, general form: encoder, channel with one unreliable position per block, decoder. -/
theorem C114_link (p : LdpcParams) {H : Checks} {nv m : Nat} (hnv : p.nv = nv) (hnc : p.nc = m) (hm0 : 0 < m) (hm : m < nv)
    (hb : buildParity p = .ok (rowsOf nv H)) (hs : sortedChecks H nv = true)
    (hdet : (tailMatrix (rowsOf nv H) m nv).det = 1 ∨ (tailMatrix (rowsOf nv H) m nv).det = -1)
    (hdeg : ∀ ns ∈ H, ns.length ≠ 1) {ρ : ℝ} (hS : SingleOk H nv ρ)
    (msg : List Int) (hmsg : ∀ x ∈ msg, x = 0 ∨ x = 1) (hne : msg ≠ []) (pad : Bool) (hpad : pad = true ∨ (nv - m) ∣ msg.length) :
    ∃ blocks z, ldpcEncode p msg pad = .ok blocks ∧ z < nv - m ∧
      (blocks.map (List.take (nv - m))).flatten = msg ++ List.replicate z 0 ∧ (∀ c ∈ blocks, c.length = nv ∧ Syndrome0 (rowsOf nv H) c) ∧
      ∀ (n : Nat) (a : ℝ) (llrs : List ℝ), 1 ≤ n → 0 < a → a ≤ 500 → llrs.length = blocks.flatten.length →
        (∀ b < blocks.length, ∃ u, ∀ v < nv, if v = u then min 500 |llrs.getD (b * nv + v) 0| ≤ ρ * a
          else if blocks.flatten.getD (b * nv + v) 0 = 1 then llrs.getD (b * nv + v) 0 ≤ -a else a ≤ llrs.getD (b * nv + v) 0) →
        ∃ out arr, ldpcBpDecode nanSign oneLeft p .msa n llrs = .ok (out, arr) ∧
          out.map (fun r => r.1.map (fun b => if b then (1 : Int) else 0)) = blocks := by
  have e1 : p.nv.toNat = nv := by rw [hnv]; simp
  have e2 : p.nc.toNat = m := by rw [hnc]; simp
  obtain ⟨ms, z, blocks, he, hmz, hz, hF⟩ := C56_unimodular p _ hb (by omega) (by omega) (by rw [e1, e2]; exact hdet) msg hmsg pad
    (by rw [e1, e2]; exact hpad)
  rw [e1, e2] at hz hF
  have hword : ∀ b < blocks.length, (ms.getD b []).length = nv - m ∧ SystematicCodeword (rowsOf nv H) nv (ms.getD b []) (blocks.getD b []) := by
    intro b hb
    obtain ⟨e, h⟩ := List.forall₂_iff_get.1 hF
    have := (h b (by omega) hb)
    rw [List.getD_eq_getElem _ _ (by omega), List.getD_eq_getElem _ _ hb]
    exact this
  have hlen : ∀ c ∈ blocks, c.length = nv := by
    intro c hc
    obtain ⟨i, hi, rfl⟩ := List.getElem_of_mem hc
    have := (hword i hi).2.1
    rwa [List.getD_eq_getElem _ _ hi] at this
  refine ⟨blocks, z, he, hz, ?_, ?_, ?_⟩
  · rw [← hmz]
    congr 1
    clear hmz he hlen hword
    induction hF with
    | nil => rfl
    | cons h _ ih =>
      rw [List.map_cons, ih]
      congr 1
      rw [← h.2.2.2.1, h.1]
  · intro c hc
    obtain ⟨i, hi, rfl⟩ := List.getElem_of_mem hc
    have := (hword i hi).2.2.2.2
    rw [List.getD_eq_getElem _ _ hi] at this
    exact ⟨hlen _ hc, this⟩
  intro n a llrs hn ha ha5 hll herr
  have hfl : blocks.flatten.length = blocks.length * nv := by
    rw [List.length_flatten, List.map_congr_left (g := fun _ => nv) (fun b hb => hlen b hb)]
    simp
  have hbne : blocks ≠ [] := by
    rintro rfl
    cases hF
    simp at hmz
    exact hne hmz.1
  have hnv0 : 0 < nv := by omega
  have hd0 : (tailMatrix (rowsOf nv H) m nv).det ≠ 0 := by
    intro h0
    rcases hdet with h | h <;> omega
  rw [ldpcBpDecode_checks nanSign oneLeft p hnv hnc hm0 hm.le hb hs hd0]
  exact bpDecode_words nanSign oneLeft H nv n llrs blocks hnv0 hs hdeg hS hn a ha ha5 hbne (fun c hc => by
    obtain ⟨i, hi, rfl⟩ := List.getElem_of_mem hc
    have := (hword i hi).2
    rw [List.getD_eq_getElem _ _ hi] at this
    exact ⟨this.1, this.2.1, this.2.2.2⟩) hll herr

end Verif
