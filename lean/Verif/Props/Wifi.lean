import Verif.Model.Wifi
import Verif.Props.ViterbiSoft
import Verif.Props.Puncturing
/-
C46-C49: 802.11 coding chain.
-/
namespace Verif

theorem wifiTrellis_eq (junk : Nat → Nat → Nat) : wifiTrellis junk = mkTrellis junk [6] [[5, 43]] 2 none false "MSB" := by
  have e : coefMatrix "MSB" (memMax [6] + 1) 1 2 [[133, 171]] = coefMatrix "MSB" (memMax [6] + 1) 1 2 [[5, 43]] := by
    decide +kernel
  unfold wifiTrellis mkTrellis
  simp only [List.length_cons, List.length_nil, Nat.zero_add, e]

theorem wifiArgs : TrellisArgs [6] [[5, 43]] 2 none "MSB" :=
  ⟨by simp, by simp, rfl, ⟨rfl, by simp⟩, by decide, by simp, by simp⟩

/-- The trellis of the 802.11 chain. -/
def wifiT (junk : Nat → Nat → Nat) : Trellis := trellisOf junk [6] [[5, 43]] 2 none false "MSB"

theorem wifiTrellis_ok (junk : Nat → Nat → Nat) : wifiTrellis junk = .ok (wifiT junk) := by
  rw [wifiTrellis_eq, mkTrellis_ok wifiArgs]; rfl

theorem wifiT_balanced (junk : Nat → Nat → Nat) : (wifiT junk).Balanced := ff_balanced wifiArgs (by simp)
theorem wifiT_k (junk : Nat → Nat → Nat) : (wifiT junk).k = 1 := rfl
theorem wifiT_n (junk : Nat → Nat → Nat) : (wifiT junk).n = 2 := rfl
theorem wifiT_M (junk : Nat → Nat → Nat) : (wifiT junk).M = 6 := rfl

/-- C47. What the class builds: the generators written `133, 171` are decimal numbers that do not fit in 7 bits; they
fold to `5` and `43`, that is `1 + D^2` and `1 + D + D^3 + D^5`. -/
theorem C47_actual_code (junk : Nat → Nat → Nat) :
    wifiTrellis junk = mkTrellis junk [6] [[0b0000101, 0b0101011]] 2 none false "MSB" := wifiTrellis_eq junk

theorem wifi_encode (junk : Nat → Nat → Nat) {msg : List Nat} (hb : ∀ b ∈ msg, b < 2) {outLen : Nat → Nat}
    (ho : outLen msg.length = msg.length * 2) :
    convEncode outLen (wifiT junk) msg "cont" none = .ok (convSpec "MSB" [6] [[5, 43]] 2 msg) := by
  obtain ⟨t, ht, -, -, -, h⟩ := C31_convolution wifiArgs (fits_one _ _ _ _) (by decide) junk false
  have hteq : t = wifiT junk := by
    rw [mkTrellis_ok wifiArgs] at ht
    exact (Except.ok.inj ht).symm
  have := (h msg outLen hb).1 (by rw [ho]; simp)
  rw [hteq] at this
  rw [this]
  simp

/-- C47 is false: the trellis is not that of the generators 133, 171 in octal, in either bit order. -/
theorem C47_generators_refuted (junk junk' : Nat → Nat → Nat) (fmt : String) (hf : fmt = "MSB" ∨ fmt = "LSB") :
    wifiTrellis junk ≠ mkTrellis junk' [6] [[0o133, 0o171]] 2 none false fmt := by
  intro he
  have ha : TrellisArgs [6] [[0o133, 0o171]] 2 none fmt :=
    ⟨by rcases hf with h | h <;> simp [h], by simp, rfl, ⟨rfl, by simp⟩, by decide, by simp, by simp⟩
  obtain ⟨t, ht, -, -, -, h⟩ := C31_convolution ha (fits_one _ _ _ _) (by decide) junk' false
  rw [wifiTrellis_ok, ht] at he
  have h1 := (h [1, 0, 0] (· * 2) (by decide)).1 (by decide)
  have h2 := wifi_encode junk (msg := [1, 0, 0]) (by decide) (outLen := (· * 2)) rfl
  rw [← Except.ok.inj he, h2] at h1
  have hne : convSpec "MSB" [6] [[5, 43]] 2 [1, 0, 0] ≠ convSpec fmt [6] [[0o133, 0o171]] 2 [1, 0, 0] ++
      List.replicate ([1, 0, 0].length * 2 / [[0o133, 0o171]].length - [1, 0, 0].length / [[0o133, 0o171]].length * 2) 0 := by
    rcases hf with rfl | rfl <;> decide +kernel
  exact hne (Except.ok.inj h1)

/-! ### The code is catastrophic -/

theorem diffCount_xor_left (a b c : List Nat) (h1 : a.length = b.length) (h2 : a.length = c.length)
    (hz : ∀ i, c.getD i 0 = a.getD i 0 ^^^ b.getD i 0) (hb : ∀ x ∈ b, x < 2) : diffCount a c = b.sum := by
  induction a generalizing b c with
  | nil =>
    have : b = [] := List.length_eq_zero_iff.1 h1.symm
    subst this; simp [diffCount]
  | cons x a ih =>
    cases b with
    | nil => simp at h1
    | cons y b =>
      cases c with
      | nil => simp at h2
      | cons z c =>
        have hz0 := hz 0
        simp only [List.getD_cons_zero] at hz0
        have hy := hb y (by simp)
        rw [diffCount, List.sum_cons, ih b c (by simpa using h1) (by simpa using h2)
          (fun i => by simpa using hz (i + 1)) (fun w hw => hb w (by simp [hw]))]
        congr 1
        have hy' : y = 0 ∨ y = 1 := by omega
        rcases hy' with rfl | rfl
        · rw [Nat.xor_zero] at hz0; rw [hz0]; simp
        · rw [if_neg]
          intro e
          rw [e] at hz0
          have : z ^^^ z = z ^^^ (z ^^^ 1) := by rw [← hz0]
          rw [← Nat.xor_assoc, Nat.xor_self, Nat.zero_xor] at this
          exact absurd this (by decide)

theorem wifi_ones_step (L t : Nat) (ht : t < L) (j : Nat) (hj : j < 2) :
    (∑ i ∈ Finset.range [[5, 43]].length, ∑ d ∈ Finset.range (([6] : List Nat).getD i 0 + 1),
      polyCoef "MSB" (memMax [6] + 1) (matAt [[5, 43]] i j) d * delayed [[5, 43]].length (List.replicate L 1) i t d) % 2 =
    if j = 0 then (if t < 2 then 1 else 0) else (if t = 0 ∨ t = 3 ∨ t = 4 then 1 else 0) := by
  have hd : ∀ d, delayed [[5, 43]].length (List.replicate L 1) 0 t d = if d ≤ t then 1 else 0 := by
    intro d
    unfold delayed inputAt
    split
    · rw [List.getD_eq_getElem _ _ (by simp; omega)]; simp
    · rfl
  simp only [List.length_cons, List.length_nil, Nat.zero_add, Finset.sum_range_one, List.getD_cons_zero] at hd ⊢
  simp only [hd]
  by_cases h6 : 6 ≤ t
  · have : ∀ d ∈ Finset.range 7, (if d ≤ t then 1 else 0) = 1 := by
      intro d hd; rw [Finset.mem_range] at hd; rw [if_pos (by omega)]
    rw [Finset.sum_congr rfl (fun d hd => by rw [this d hd])]
    have h2 : ¬ t < 2 := by omega
    have h3 : ¬ (t = 0 ∨ t = 3 ∨ t = 4) := by omega
    interval_cases j
    · simp only [h2, if_true, if_false]; decide +kernel
    · simp only [h3, one_ne_zero, if_false]; decide +kernel
  · interval_cases t <;> interval_cases j <;> decide +kernel

theorem wifi_ones_weight (L : Nat) : (convSpec "MSB" [6] [[5, 43]] 2 (List.replicate L 1)).sum ≤ 5 := by
  have e : convSpec "MSB" [6] [[5, 43]] 2 (List.replicate L 1) =
      (List.range L).flatMap fun t => [if t < 2 then 1 else 0, if t = 0 ∨ t = 3 ∨ t = 4 then 1 else 0] := by
    unfold convSpec
    rw [show (List.replicate L 1).length / [[5, 43]].length = L by simp]
    apply List.flatMap_congr
    intro t ht
    rw [List.mem_range] at ht
    rw [show List.range 2 = [0, 1] from rfl, List.map_cons, List.map_cons, List.map_nil, wifi_ones_step L t ht 0 (by decide),
      wifi_ones_step L t ht 1 (by decide)]
    rfl
  rw [e]
  have hs : ∀ L, ((List.range L).flatMap fun t => [if t < 2 then 1 else 0, if t = 0 ∨ t = 3 ∨ t = 4 then 1 else 0]).sum =
      (min L 2) + (min L 1 + (min L 5 - min L 3)) := by
    intro L
    induction L with
    | zero => rfl
    | succ L ih =>
      rw [List.range_succ, List.flatMap_append, List.sum_append, ih]
      simp only [List.flatMap_cons, List.flatMap_nil, List.append_nil, List.sum_cons, List.sum_nil]
      split <;> split <;> omega
  rw [hs]; omega

/-- C47, consequence: the code actually used is catastrophic.  Inverting *all* bits of a message of any length changes
at most 5 coded bits. -/
theorem C47_catastrophic (junk : Nat → Nat → Nat) (msg : List Nat) (hb : ∀ b ∈ msg, b < 2) (outLen : Nat → Nat)
    (ho : outLen msg.length = msg.length * 2) :
    ∃ t c c', wifiTrellis junk = .ok t ∧ convEncode outLen t msg "cont" none = .ok c ∧
      convEncode outLen t (msg.map (1 - ·)) "cont" none = .ok c' ∧ c.length = 2 * msg.length ∧ c'.length = 2 * msg.length ∧
      diffCount c c' ≤ 5 := by
  obtain ⟨t, ht, hlin⟩ := C32_linear wifiArgs (fits_one _ _ _ _) (fun F hF => by cases hF) (by decide) junk false
  have hteq : t = wifiT junk := by
    rw [mkTrellis_ok wifiArgs] at ht
    exact (Except.ok.inj ht).symm
  subst hteq
  have hones : ∀ x ∈ List.replicate msg.length 1, x < 2 := by
    intro x hx; rw [List.eq_of_mem_replicate hx]; decide
  have hcomp : msg.map (1 - ·) = List.zipWith (· ^^^ ·) msg (List.replicate msg.length 1) := by
    apply List.ext_getElem (by simp)
    intro i h1 h2
    have hi : i < msg.length := by simpa using h1
    have := hb (msg[i]'hi) (List.getElem_mem _)
    simp only [List.getElem_map, List.getElem_zipWith, List.getElem_replicate]
    have h01 : msg[i]'hi = 0 ∨ msg[i]'hi = 1 := by omega
    rcases h01 with h | h <;> rw [h] <;> rfl
  obtain ⟨ca, cb, h1, h2, h3⟩ := hlin msg (List.replicate msg.length 1) outLen "cont" hb hones (by simp) (Or.inl rfl)
    (by simp [codedInputLen, ho])
  have ea := wifi_encode junk hb ho
  have eb := wifi_encode junk hones (outLen := outLen) (by simpa using ho)
  rw [h1] at ea
  rw [h2] at eb
  have ea := Except.ok.inj ea
  have eb := Except.ok.inj eb
  have hlen : ∀ m : List Nat, (convSpec "MSB" [6] [[5, 43]] 2 m).length = 2 * m.length := by
    intro m
    unfold convSpec
    rw [List.length_flatMap]
    simp [Nat.mul_comm]
  have la : ca.length = 2 * msg.length := by rw [ea, hlen]
  have lb : cb.length = 2 * msg.length := by rw [eb, hlen]; simp
  refine ⟨wifiT junk, ca, _, wifiTrellis_ok junk, h1, by rw [hcomp]; exact h3, la, by simp [la, lb], ?_⟩
  rw [diffCount_xor_left ca cb _ (by omega) (by simp [la, lb]), eb]
  · exact wifi_ones_weight _
  · intro i
    by_cases hi : i < ca.length
    · rw [List.getD_eq_getElem _ _ (by simp [lb]; omega), List.getD_eq_getElem _ _ hi,
        List.getD_eq_getElem _ _ (by omega)]
      simp
    · rw [List.getD_eq_default _ _ (by simp; omega), List.getD_eq_default _ _ (by omega),
        List.getD_eq_default _ _ (by omega)]; rfl
  · intro x hx
    rw [eb] at hx
    unfold convSpec at hx
    rw [List.mem_flatMap] at hx
    obtain ⟨t, -, hx⟩ := hx
    rw [List.mem_map] at hx
    obtain ⟨j, -, rfl⟩ := hx
    exact Nat.mod_lt _ (by decide)

/-- For instance all-zero and all-one messages of 1000 bits are 5 coded bits apart, while a single 1 costs 6. -/
example : (convSpec "MSB" [6] [[5, 43]] 2 (List.replicate 20 1)).sum = 5 ∧
    (convSpec "MSB" [6] [[5, 43]] 2 (1 :: List.replicate 19 0)).sum = 6 := by decide +kernel

/-! ### Puncturing -/

/-- The documented MCS list: modem, constellation size and code rate. -/
def mcsTable : List (WifiModem × (Nat × Nat)) :=
  [(.psk 2, (1, 2)), (.psk 4, (1, 2)), (.psk 4, (3, 4)), (.qam 16, (1, 2)), (.qam 16, (3, 4)), (.qam 64, (2, 3)),
   (.qam 64, (3, 4)), (.qam 64, (5, 6)), (.qam 256, (3, 4)), (.qam 256, (5, 6))]

/-- C48. The MCS table: BPSK 1/2, QPSK 1/2, QPSK 3/4, 16-QAM 1/2, 16-QAM 3/4, 64-QAM 2/3, 64-QAM 3/4, 64-QAM 5/6, 256-QAM 3/4,
256-QAM 5/6 for 0..9; IndexError for every larger value. -/
theorem C48_mcs (mcs : Nat) :
    (∀ h : mcs < mcsTable.length, wifiGetModem mcs = .ok mcsTable[mcs].1 ∧ wifiGetCoding mcs = .ok mcsTable[mcs].2) ∧
    (mcsTable.length ≤ mcs → wifiGetModem mcs = .error .indexError ∧ wifiGetCoding mcs = .error .indexError) := by
  constructor
  · have key : ∀ m (h : m < mcsTable.length), wifiGetModem (m : Nat) = .ok mcsTable[m].1 ∧
        wifiGetCoding (m : Nat) = .ok mcsTable[m].2 := by
      intro m h
      have : m < 10 := h
      interval_cases m <;> exact ⟨rfl, rfl⟩
    exact key mcs
  · intro h
    have h10 : 10 ≤ mcs := h
    have e1 : pyIdx 10 (mcs : Int) = none := by
      unfold pyIdx
      rw [if_pos (by omega), if_neg (by omega)]
    constructor
    · unfold wifiGetModem pyGet
      rw [show wifiPoints.length = 10 from rfl, e1]
      rfl
    · unfold wifiGetCoding pyGet
      simp only [List.length_cons, List.length_nil, Nat.zero_add, Nat.reduceAdd]
      rw [e1]
      rfl

/-- Number of kept positions among the first `i`. -/
theorem kept_whole (v : List Nat) (w : Nat) (hw : w = ((List.range v.length).filter (kept v)).length) (q : Nat) :
    ((List.range (q * v.length)).filter (kept v)).length = q * w := by
  induction q with
  | zero => simp
  | succ q ih =>
    rw [Nat.succ_mul, List.range_add, List.filter_append, List.length_append, ih, Nat.succ_mul]
    congr 1
    rw [hw, List.filter_map, List.length_map]
    congr 1
    apply List.filter_congr
    intro i hi
    show kept v (q * v.length + i) = kept v i
    unfold kept
    rw [Nat.mul_add_mod_self_right]

/-- The codings with a puncturing pattern: the pattern covers `2*num` coded bits of which `den` are kept, and every
pair of coded bits keeps at least one. -/
structure GoodPattern (num den : Nat) (v : List Nat) : Prop where
  len : v.length = 2 * num
  weight : den = ((List.range v.length).filter (kept v)).length
  pair : ∀ j, kept v (2 * j) = true ∨ kept v (2 * j + 1) = true
  num_pos : 0 < num
  den_pos : 0 < den

theorem goodPattern {num den : Nat} {v : List Nat} (h : wifiPuncture num den = some v) : GoodPattern num den v := by
  have pairs : ∀ v : List Nat, ∀ m, v.length = 2 * m → 0 < m → (∀ j < m, kept v (2 * j) = true ∨ kept v (2 * j + 1) = true) →
      ∀ j, kept v (2 * j) = true ∨ kept v (2 * j + 1) = true := by
    intro v m hv hm h j
    have := h (j % m) (Nat.mod_lt _ hm)
    have e1 : 2 * j % v.length = 2 * (j % m) := by rw [hv, Nat.mul_mod_mul_left]
    have e2 : (2 * j + 1) % v.length = 2 * (j % m) + 1 := by
      have := Nat.mod_lt j hm
      rw [hv, Nat.add_mod, Nat.mul_mod_mul_left, Nat.mod_eq_of_lt (a := 1) (by omega), Nat.mod_eq_of_lt (by omega)]
    unfold kept at *
    rw [e1, e2]
    have l1 : 2 * (j % m) < v.length := by rw [hv]; have := Nat.mod_lt j hm; omega
    have l2 : 2 * (j % m) + 1 < v.length := by rw [hv]; have := Nat.mod_lt j hm; omega
    rw [Nat.mod_eq_of_lt l1, Nat.mod_eq_of_lt l2] at this
    exact this
  unfold wifiPuncture at h
  split at h
  · cases h
  split at h
  · rename_i hc; cases h; obtain ⟨rfl, rfl⟩ := hc
    exact ⟨rfl, by decide, pairs _ 2 rfl (by decide) (by decide), by decide, by decide⟩
  split at h
  · rename_i hc; cases h; obtain ⟨rfl, rfl⟩ := hc
    exact ⟨rfl, by decide, pairs _ 3 rfl (by decide) (by decide), by decide, by decide⟩
  split at h
  · rename_i hc; cases h; obtain ⟨rfl, rfl⟩ := hc
    exact ⟨rfl, by decide, pairs _ 5 rfl (by decide) (by decide), by decide, by decide⟩
  · cases h

theorem punctured_length {α : Type} {v : List Nat} (hv : v ≠ []) (m : List α) {p : List α} (h : puncturing m v = .ok p) :
    p.length = ((List.range m.length).filter (kept v)).length := by
  rw [(C37_puncturing m v).1 hv] at h
  rw [← Except.ok.inj h, List.length_map]
  have : ∀ (m : List α) (k : Nat), ((m.zipIdx k).filter fun e => kept v e.2).length =
      ((List.range m.length).filter fun i => kept v (k + i)).length := by
    intro m
    induction m with
    | nil => intro k; rfl
    | cons x m ih =>
      intro k
      rw [List.zipIdx_cons, List.filter_cons, List.length_cons, List.range_succ_eq_map, List.filter_cons, List.filter_map]
      have e : ((List.range m.length).filter ((fun i => kept v (k + i)) ∘ Nat.succ)) =
          (List.range m.length).filter fun i => kept v (k + 1 + i) := by
        apply List.filter_congr
        intro i _
        show kept v (k + (i + 1)) = _
        congr 1; omega
      rw [e]
      simp only [Nat.add_zero]
      split
      · rw [List.length_cons, List.length_cons, ih, List.length_map]
      · rw [ih, List.length_map]
  rw [this m 0]
  simp

theorem depunctLen_whole {num den q : Nat} (hd : 0 < den) : wifiDepunctLen (q * den) num den = q * (2 * num) := by
  unfold wifiDepunctLen
  rw [show q * den * num * 2 + (den - 1) = (den - 1) + den * (q * (2 * num)) by ring, Nat.add_mul_div_left _ _ hd,
    Nat.div_eq_of_lt (by omega), Nat.zero_add]

/-- C46. Rates: with every MCS (any Python index accepted by the table) a message of `q` times the rate numerator bits
is transmitted as exactly `q` times the rate denominator bits. -/
theorem C46_rate (junk : Nat → Nat → Nat) {mcs : Int} {num den : Nat} (hc : wifiGetCoding mcs = .ok (num, den)) (q : Nat)
    {msg : List Nat} (hb : ∀ b ∈ msg, b < 2) (hl : msg.length = q * num) {outLen : Nat → Nat}
    (ho : outLen msg.length = msg.length * 2) :
    ∃ p, wifiTransmit junk outLen mcs msg = .ok p ∧ p.length = q * den ∧ ∀ b ∈ p, b < 2 := by
  have henc := wifi_encode junk hb ho
  set c := convSpec "MSB" [6] [[5, 43]] 2 msg with hcdef
  have hclen : c.length = msg.length * 2 := by
    rw [hcdef]; unfold convSpec
    rw [List.length_flatMap]
    simp
  have hc2 : ∀ b ∈ c, b < 2 := by
    intro x hx
    rw [hcdef] at hx
    unfold convSpec at hx
    rw [List.mem_flatMap] at hx
    obtain ⟨t, -, hx⟩ := hx
    rw [List.mem_map] at hx
    obtain ⟨j, -, rfl⟩ := hx
    exact Nat.mod_lt _ (by decide)
  have hrun : wifiTransmit junk outLen mcs msg = match wifiPuncture num den with
      | some v => puncturing c v
      | none => pure c := by
    unfold wifiTransmit
    rw [wifiTrellis_ok, hc]
    simp only [bind, Except.bind]
    rw [henc]
    rfl
  rw [hrun]
  cases hp : wifiPuncture num den with
  | none =>
    have hcase : num = 1 ∧ den = 2 := by
      have : ∀ x ∈ [(1, 2), (1, 2), (3, 4), (1, 2), (3, 4), (2, 3), (3, 4), (5, 6), (3, 4), (5, 6)],
          wifiPuncture x.1 x.2 = none → x = (1, 2) := by decide
      have hmem : (num, den) ∈ [(1, 2), (1, 2), (3, 4), (1, 2), (3, 4), (2, 3), (3, 4), (5, 6), (3, 4), (5, 6)] := by
        unfold wifiGetCoding pyGet at hc
        split at hc
        · rename_i x hx
          rw [← Except.ok.inj hc]
          obtain ⟨j, -, hj⟩ := Option.bind_eq_some_iff.1 hx
          exact List.mem_of_getElem? hj
        · cases hc
      have := this _ hmem hp
      exact ⟨congrArg Prod.fst this, congrArg Prod.snd this⟩
    obtain ⟨rfl, rfl⟩ := hcase
    exact ⟨c, rfl, by rw [hclen, hl]; ring, hc2⟩
  | some v =>
    have hg := goodPattern hp
    have hv : v ≠ [] := by
      intro h0
      have := hg.len
      rw [h0] at this
      have := hg.num_pos
      simp at *
      omega
    have hpu := (C37_puncturing c v).1 hv
    refine ⟨_, hpu, ?_, ?_⟩
    · rw [punctured_length hv c hpu, hclen, hl, show q * num * 2 = q * v.length by rw [hg.len]; ring,
        kept_whole v den hg.weight]
    · intro b hb'
      rw [List.mem_map] at hb'
      obtain ⟨e, he, rfl⟩ := hb'
      have := (List.mem_filter.1 he).1
      exact hc2 _ (List.fst_mem_of_mem_zipIdx this)

/-- The bits of each puncturing period that the 802.11-2016 standard transmits (17.3.5.6 and 19.3.11.6): pairs (number of the
input bit in the period, 0 for output A or 1 for output B), in order of transmission. -/
def standardKeep : Nat × Nat → List (Nat × Nat)
  | (1, 2) => [(0, 0), (0, 1)]
  | (2, 3) => [(0, 0), (0, 1), (1, 0)]
  | (3, 4) => [(0, 0), (0, 1), (1, 0), (2, 1)]
  | (5, 6) => [(0, 0), (0, 1), (1, 0), (2, 1), (3, 0), (4, 1)]
  | _ => []

theorem filter_zipIdx_range {α : Type} (d : α) (v : List Nat) (m : List α) :
    (m.zipIdx.filter (fun e => kept v e.2)).map Prod.fst = ((List.range m.length).filter (kept v)).map fun i => m.getD i d := by
  have : m.zipIdx = (List.range m.length).map fun i => (m.getD i d, i) := by
    apply List.ext_getElem (by simp)
    intro i h1 h2
    have hi : i < m.length := by simpa using h1
    simp [List.getElem?_eq_getElem hi]
  rw [this, List.filter_map, List.map_map]
  rfl

theorem filter_range_periods (v : List Nat) (q : Nat) :
    (List.range (q * v.length)).filter (kept v) =
      (List.range q).flatMap fun t => ((List.range v.length).filter (kept v)).map fun i => t * v.length + i := by
  induction q with
  | zero => simp
  | succ q ih =>
    rw [Nat.succ_mul, List.range_add, List.filter_append, ih, List.range_succ, List.flatMap_append, List.filter_map]
    congr 1
    simp only [List.flatMap_cons, List.flatMap_nil, List.append_nil]
    congr 1
    apply List.filter_congr
    intro i _
    show kept v (q * v.length + i) = kept v i
    unfold kept
    rw [Nat.mul_add_mod_self_right]

/-- C46.  Which bits are sent: for every MCS and a message of whole puncturing periods, the transmitted bits are, period after
period, exactly the outputs A and B of the convolutional encoder that the standard keeps. -/
theorem C46_standard_pattern (junk : Nat → Nat → Nat) {mcs : Int} {num den : Nat} (hc : wifiGetCoding mcs = .ok (num, den))
    (q : Nat) {msg : List Nat} (hb : ∀ b ∈ msg, b < 2) (hl : msg.length = q * num) {outLen : Nat → Nat}
    (ho : outLen msg.length = msg.length * 2) :
    ∃ t coded, wifiTrellis junk = .ok t ∧ convEncode outLen t msg "cont" none = .ok coded ∧
      wifiTransmit junk outLen mcs msg = .ok ((List.range q).flatMap fun p =>
        (standardKeep (num, den)).map fun e => coded.getD (2 * (p * num + e.1) + e.2) 0) := by
  have henc := wifi_encode junk hb ho
  refine ⟨wifiT junk, _, wifiTrellis_ok junk, henc, ?_⟩
  set c := convSpec "MSB" [6] [[5, 43]] 2 msg with hcdef
  have hclen : c.length = msg.length * 2 := by
    rw [hcdef]; unfold convSpec
    rw [List.length_flatMap]
    simp
  have hrun : wifiTransmit junk outLen mcs msg = match wifiPuncture num den with
      | some v => puncturing c v
      | none => pure c := by
    unfold wifiTransmit
    rw [wifiTrellis_ok, hc]
    simp only [bind, Except.bind]
    rw [henc]
    rfl
  rw [hrun]
  have hmem : (num, den) ∈ [(1, 2), (1, 2), (3, 4), (1, 2), (3, 4), (2, 3), (3, 4), (5, 6), (3, 4), (5, 6)] := by
    unfold wifiGetCoding pyGet at hc
    split at hc
    · rename_i x hx
      rw [← Except.ok.inj hc]
      obtain ⟨j, -, hj⟩ := Option.bind_eq_some_iff.1 hx
      exact List.mem_of_getElem? hj
    · cases hc
  have punct : ∀ v : List Nat, v ≠ [] → v.length = 2 * num → ∀ ks : List (Nat × Nat),
      (List.range v.length).filter (kept v) = ks.map (fun e => 2 * e.1 + e.2) →
      puncturing c v = .ok ((List.range q).flatMap fun p => ks.map fun e => c.getD (2 * (p * num + e.1) + e.2) 0) := by
    intro v hv hvl ks hks
    rw [(C37_puncturing c v).1 hv, filter_zipIdx_range 0, hclen, hl, show q * num * 2 = q * v.length by rw [hvl]; ring,
      filter_range_periods, hks, List.map_flatMap]
    congr 1
    apply List.flatMap_congr
    intro p _
    rw [List.map_map, List.map_map]
    apply List.map_congr_left
    intro e _
    show c.getD (p * v.length + (2 * e.1 + e.2)) 0 = _
    rw [hvl]; congr 1; ring
  have hcase : (num = 1 ∧ den = 2) ∨ (num = 2 ∧ den = 3) ∨ (num = 3 ∧ den = 4) ∨ (num = 5 ∧ den = 6) := by
    simp only [List.mem_cons, Prod.mk.injEq, List.not_mem_nil, or_false] at hmem
    omega
  rcases hcase with ⟨rfl, rfl⟩ | ⟨rfl, rfl⟩ | ⟨rfl, rfl⟩ | ⟨rfl, rfl⟩
  · show Except.ok c = _
    congr 1
    apply List.ext_getElem?
    intro i
    have e1 : (List.range q).flatMap (fun p => (standardKeep (1, 2)).map fun e => c.getD (2 * (p * 1 + e.1) + e.2) 0) =
        (List.range (q * 2)).map fun i => c.getD i 0 := by
      clear hl punct hclen hcdef hrun
      induction q with
      | zero => simp
      | succ q ih =>
        rw [List.range_succ, List.flatMap_append, ih, Nat.succ_mul, List.range_add, List.map_append]
        congr 1
        simp [standardKeep, List.range_succ, Nat.mul_comm]
    rw [e1, show q * 2 = c.length by rw [hclen, hl]; ring]
    by_cases hi : i < c.length
    · simp [hi]
    · simp [hi]
  · exact punct [1, 1, 1, 0] (by simp) rfl (standardKeep (2, 3)) (by decide)
  · exact punct [1, 1, 1, 0, 0, 1] (by simp) rfl (standardKeep (3, 4)) (by decide)
  · exact punct [1, 1, 1, 0, 0, 1, 1, 0, 0, 1] (by simp) rfl (standardKeep (5, 6)) (by decide)

/-- C46. The receiver restores the unpunctured positions: `m` are LLRs of a whole number of patterns, and what the receiver
reconstructs from the punctured ones is `m` with the punctured positions set to 0. -/
theorem C46_depuncture {num den : Nat} {v : List Nat} (hp : wifiPuncture num den = some v) (q : Nat) (m : List ℝ)
    (hm : m.length = q * (2 * num)) :
    ∃ p, puncturing m v = .ok p ∧ p.length = q * den ∧
      wifiDepuncture (num, den) p = .ok (m.zipIdx.map fun e => if kept v e.2 then e.1 else 0) := by
  have hg := goodPattern hp
  have hv : v ≠ [] := by
    intro h0
    have := hg.len
    rw [h0] at this
    have := hg.num_pos
    simp at *
    omega
  obtain ⟨p, h1, h2⟩ := C37_roundtrip (0 : ℝ) m v hv
  have hpl : p.length = q * den := by
    rw [punctured_length hv m h1, hm, ← hg.len, kept_whole v den hg.weight]
  refine ⟨p, h1, hpl, ?_⟩
  unfold wifiDepuncture
  simp only [hp]
  rw [hpl, depunctLen_whole hg.den_pos, ← hm, h2]

/-- C46 does not extend to messages that end inside a pattern: three message bits at rate 2/3 are sent as five coded
bits, for which the receiver computes a wrong length, gives up depuncturing and passes on five LLRs instead of six. -/
theorem C46_partial_pattern_refuted (x0 x1 x2 x3 x4 : ℝ) :
    (∃ p, wifiTransmit (fun _ _ => 0) (· * 2) 5 [1, 0, 1] = .ok p ∧ p.length = 5) ∧
    wifiDepuncture (2, 3) [x0, x1, x2, x3, x4] = .ok [x0, x1, x2, x3, x4] := by
  constructor
  · refine ⟨[1, 1, 0, 0, 1], by decide +kernel, rfl⟩
  · have hp : wifiPuncture 2 3 = some [1, 1, 1, 0] := rfl
    unfold wifiDepuncture
    simp only [hp]
    have hd := (C37_depuncturing (0 : ℝ) [x0, x1, x2, x3, x4] [1, 1, 1, 0] (by decide)
      (wifiDepunctLen [x0, x1, x2, x3, x4].length 2 3)).1.2 (by
        show 5 < ((List.range (wifiDepunctLen 5 2 3)).filter (kept [1, 1, 1, 0])).length
        decide)
    rw [hd]

/-! ### The whole chain -/

theorem wifi_sep (junk : Nat → Nat → Nat) {s u v p : Nat} (hs : s < 2 ^ 6) (hu : u < 2) (hv : v < 2) (hne : u ≠ v) (hp : p < 2) :
    (toBits 2 ((wifiT junk).out s u)).getD p 0 ≠ (toBits 2 ((wifiT junk).out s v)).getD p 0 := by
  have hlin : (wifiT junk).Linear := trellisOf_linear wifiArgs (fits_one _ _ _ _) (fun F _ => fitsFb_one _ _ _)
  have h3 : (wifiT junk).out 0 1 = 3 := by
    have e1 := wifi_encode junk (msg := [1]) (by decide) (outLen := (· * 2)) rfl
    have e2 := convEncode_cont (wifiT_balanced junk).wf (by rw [wifiT_n]; decide) (outLen := (· * 2)) (msg := [1]) (by decide) (N := 1)
      (by rw [wifiT_k]; rfl) (by rw [wifiT_k, wifiT_n])
    rw [e1] at e2
    have e3 : toBits 2 ((wifiT junk).out 0 1) = [1, 1] := by
      have := Except.ok.inj e2
      rw [wifiT_k, inSyms_one] at this
      simp only [Trellis.runOut, List.append_nil, wifiT_n] at this
      rw [← this]
      decide +kernel
    have hlt : (wifiT junk).out 0 1 < 2 ^ 2 := (wifiT_balanced junk).wf.out_lt (by rw [wifiT_M]; decide) (by rw [wifiT_k]; decide)
    refine toBits_inj (w := 2) hlt (b := 3) (by decide) ?_
    rw [e3]; decide
  have h1 : (wifiT junk).out s 1 = (wifiT junk).out s 0 ^^^ 3 := by
    have := hlin.out s (by rw [wifiT_M]; exact hs) 0 (by rw [wifiT_M]; decide) 0 (by rw [wifiT_k]; decide) 1 (by rw [wifiT_k]; decide)
    rw [Nat.xor_zero, Nat.zero_xor, h3] at this
    exact this
  have hlt0 : (wifiT junk).out s 0 < 4 :=
    (wifiT_balanced junk).wf.out_lt (by rw [wifiT_M]; exact hs) (by rw [wifiT_k]; decide)
  have key : ∀ x < 4, ∀ p < 2, (toBits 2 x).getD p 0 ≠ (toBits 2 (x ^^^ 3)).getD p 0 := by decide
  have := key _ hlt0 p hp
  have huv : u = 0 ∧ v = 1 ∨ u = 1 ∧ v = 0 := by omega
  rcases huv with ⟨rfl, rfl⟩ | ⟨rfl, rfl⟩
  · rw [h1]; exact this
  · rw [h1]; exact this.symm

theorem wifi_viterbi (junk : Nat → Nat → Nat) {msg : List Nat} (hb : ∀ b ∈ msg, b < 2) (h2 : 2 ≤ msg.length) (jk : VitJunk ℝ)
    {d : List ℝ} (hd : d.length = msg.length * 2)
    (hsign : ∀ i < msg.length * 2, (0 < d.getD i 0 → (convSpec "MSB" [6] [[5, 43]] 2 msg).getD i 0 = 1) ∧
      (d.getD i 0 < 0 → (convSpec "MSB" [6] [[5, 43]] 2 msg).getD i 0 = 0))
    (hnz : ∀ j < msg.length, d.getD (2 * j) 0 ≠ 0 ∨ d.getD (2 * j + 1) 0 ≠ 0) :
    viterbiDecode "soft" (wifiT junk) jk (d.length / 2) (defaultDepth (wifiT junk) (d.length / 2)) d = .ok (msg, d) := by
  have hL : d.length / 2 = msg.length := by omega
  have hrun : (wifiT junk).runOut 0 msg = convSpec "MSB" [6] [[5, 43]] 2 msg := by
    have e1 := wifi_encode junk hb (outLen := (· * 2)) rfl
    have e2 := convEncode_cont (wifiT_balanced junk).wf (by rw [wifiT_n]; decide) (outLen := (· * 2)) hb (N := msg.length)
      (by rw [wifiT_k, Nat.mul_one]) (by rw [wifiT_k, wifiT_n, Nat.mul_one])
    rw [e1, wifiT_k, inSyms_one] at e2
    exact (Except.ok.inj e2).symm
  have htb : defaultDepth (wifiT junk) msg.length = min 30 msg.length := rfl
  have key := viterbiSoft_errorfree (wifiT_balanced junk) jk (N := msg.length) (tb := defaultDepth (wifiT junk) msg.length)
    (w := msg) (llr := d) (by rw [htb]; omega)
    (by rw [htb]; exact Nat.le_trans (Nat.min_le_right _ _) (Nat.le_add_right _ _)) (Or.inl rfl)
    ⟨rfl, by rw [wifiT_k]; simpa using hb⟩ (by rw [wifiT_n]; exact hd) (by rw [hrun, wifiT_n]; exact hsign) (by
      intro j hj s hs u hu v hv hne
      rw [wifiT_M] at hs
      rw [wifiT_k] at hu hv
      rw [wifiT_n, Nat.mul_comm j 2]
      rcases hnz j hj with h | h
      · exact ⟨0, by decide, h, wifi_sep junk hs hu hv hne (by decide)⟩
      · exact ⟨1, by decide, h, wifi_sep junk hs hu hv hne (by decide)⟩)
  rw [hL]
  rw [wifiT_k, Nat.mul_one] at key
  rw [key]
  congr 2
  have := flatMap_inSyms (k := 1) (by decide) hb (N := msg.length) (by omega)
  rw [inSyms_one] at this
  exact this

theorem wifi_receive (junk : Nat → Nat → Nat) (jk : VitJunk ℝ) {mcs : Int} {num den : Nat}
    (hc : wifiGetCoding mcs = .ok (num, den)) {llr d : List ℝ} (hd : wifiDepuncture (num, den) llr = .ok d) {m : List Nat}
    (hv : viterbiDecode "soft" (wifiT junk) jk (d.length / 2) (defaultDepth (wifiT junk) (d.length / 2)) d = .ok (m, d)) :
    wifiReceive junk jk mcs llr = .ok m := by
  unfold wifiReceive
  rw [wifiTrellis_ok, hc]
  simp only [bind, Except.bind]
  rw [hd]
  simp only []
  rw [hv]
  rfl

theorem convSpec_wifi_length (msg : List Nat) : (convSpec "MSB" [6] [[5, 43]] 2 msg).length = msg.length * 2 := by
  unfold convSpec
  rw [List.length_flatMap]
  simp

theorem wifiTransmit_eq (junk : Nat → Nat → Nat) {mcs : Int} {num den : Nat} (hc : wifiGetCoding mcs = .ok (num, den))
    {msg : List Nat} (hb : ∀ b ∈ msg, b < 2) {outLen : Nat → Nat} (ho : outLen msg.length = msg.length * 2) :
    wifiTransmit junk outLen mcs msg = match wifiPuncture num den with
      | some v => puncturing (convSpec "MSB" [6] [[5, 43]] 2 msg) v
      | none => pure (convSpec "MSB" [6] [[5, 43]] 2 msg) := by
  unfold wifiTransmit
  rw [wifiTrellis_ok, hc]
  simp only [bind, Except.bind]
  rw [wifi_encode junk hb ho]
  rfl

/-- C49. The whole chain without noise, stronger than the claim: for every MCS, every message of a whole number of
puncturing patterns (at least two bits), and all LLRs with the signs of the transmitted bits, the receiver (with its
default traceback depth, any uninitialised memory) returns exactly the message. -/
theorem C49_chain (junk junk' : Nat → Nat → Nat) {mcs : Int} {num den : Nat} (hc : wifiGetCoding mcs = .ok (num, den)) (q : Nat)
    {msg : List Nat} (hb : ∀ b ∈ msg, b < 2) (hl : msg.length = q * num) (h2 : 2 ≤ msg.length) {outLen : Nat → Nat}
    (ho : outLen msg.length = msg.length * 2) (jk : VitJunk ℝ) :
    ∃ p, wifiTransmit junk outLen mcs msg = .ok p ∧
      ∀ llr : List ℝ, llr.length = p.length →
        (∀ i < p.length, p.getD i 0 = 1 ∧ 0 < llr.getD i 0 ∨ p.getD i 0 = 0 ∧ llr.getD i 0 < 0) →
        wifiReceive junk' jk mcs llr = .ok msg := by
  rw [wifiTransmit_eq junk hc hb ho]
  set c := convSpec "MSB" [6] [[5, 43]] 2 msg with hcdef
  have hclen : c.length = msg.length * 2 := convSpec_wifi_length msg
  cases hp : wifiPuncture num den with
  | none =>
    refine ⟨c, rfl, ?_⟩
    intro llr hll hs
    have hdep : wifiDepuncture (num, den) llr = .ok llr := by unfold wifiDepuncture; simp only [hp]
    refine wifi_receive junk' jk hc hdep (wifi_viterbi junk' hb h2 jk (by rw [hll, hclen]) ?_ ?_)
    · intro i hi
      rcases hs i (by rw [hclen]; exact hi) with ⟨h1, h3⟩ | ⟨h1, h3⟩
      · exact ⟨fun _ => h1, fun h4 => absurd h3 (not_lt.2 h4.le)⟩
      · exact ⟨fun h4 => absurd h3 (not_lt.2 h4.le), fun _ => h1⟩
    · intro j hj
      left
      rcases hs (2 * j) (by rw [hclen]; omega) with ⟨-, h3⟩ | ⟨-, h3⟩
      · exact h3.ne'
      · exact h3.ne
  | some v =>
    have hg := goodPattern hp
    have hv : v ≠ [] := by
      intro h0
      have := hg.len
      rw [h0] at this
      have := hg.num_pos
      simp at *
      omega
    obtain ⟨p, hp1, hp2⟩ := C37_roundtrip 0 c v hv
    refine ⟨p, hp1, ?_⟩
    intro llr hll hs
    have hw : c.length = q * v.length := by rw [hclen, hl, hg.len]; ring
    have hpl : p.length = q * den := by
      rw [punctured_length hv c hp1, hw, kept_whole v den hg.weight]
    have hcnt : ((List.range c.length).filter (kept v)).length = p.length := by
      rw [punctured_length hv c hp1]
    have hpd := (C37_depuncturing 0 p v hv c.length).2 hcnt.le
    obtain ⟨d0, hd0, hd0l, hd0g⟩ := hpd
    rw [hp2] at hd0
    have hd0 := Except.ok.inj hd0
    have hld := (C37_depuncturing (0 : ℝ) llr v hv c.length).2 (by rw [hcnt, hll])
    obtain ⟨d, hd, hdl, hdg⟩ := hld
    have hdep : wifiDepuncture (num, den) llr = .ok d := by
      unfold wifiDepuncture
      simp only [hp]
      rw [hll, hpl, depunctLen_whole hg.den_pos, ← hg.len, ← hw, hd]
    -- bits and LLRs at the kept positions
    have hk : ∀ i < c.length, kept v i = true → ∃ n < p.length, c.getD i 0 = p.getD n 0 ∧ d.getD i 0 = llr.getD n 0 := by
      intro i hi hki
      have e1 := hd0g i hi
      have e2 := hdg i hi
      rw [if_pos hki] at e1 e2
      rw [← hd0, List.getElem?_map, List.getElem?_zipIdx] at e1
      rw [List.getElem?_eq_getElem hi] at e1
      simp only [Option.map_some, Nat.zero_add, hki, if_true] at e1
      refine ⟨_, (List.getElem?_eq_some_iff.1 e1.symm).1, ?_, ?_⟩
      · rw [List.getD_eq_getElem _ _ hi, List.getD_eq_getElem?_getD, ← e1]; rfl
      · rw [List.getD_eq_getElem?_getD, List.getD_eq_getElem?_getD, e2]
    have hnk : ∀ i < c.length, kept v i = false → d.getD i 0 = 0 := by
      intro i hi hki
      have e2 := hdg i hi
      rw [if_neg (by simp [hki])] at e2
      rw [List.getD_eq_getElem?_getD, e2]; rfl
    refine wifi_receive junk' jk hc hdep (wifi_viterbi junk' hb h2 jk (by rw [hdl, hclen]) ?_ ?_)
    · intro i hi
      rw [← hclen] at hi
      cases hki : kept v i with
      | false => rw [hnk i hi hki]; exact ⟨fun h => absurd h (lt_irrefl _), fun h => absurd h (lt_irrefl _)⟩
      | true =>
        obtain ⟨n, hn, e1, e2⟩ := hk i hi hki
        rw [← hcdef, e1, e2]
        rcases hs n hn with ⟨h1, h3⟩ | ⟨h1, h3⟩
        · exact ⟨fun _ => h1, fun h4 => absurd h3 (not_lt.2 h4.le)⟩
        · exact ⟨fun h4 => absurd h3 (not_lt.2 h4.le), fun _ => h1⟩
    · have hnz : ∀ i < c.length, kept v i = true → d.getD i 0 ≠ 0 := by
        intro i hi hki
        obtain ⟨n, hn, e1, e2⟩ := hk i hi hki
        rw [e2]
        rcases hs n hn with ⟨-, h3⟩ | ⟨-, h3⟩
        · exact h3.ne'
        · exact h3.ne
      intro j hj
      rcases hg.pair j with h | h
      · exact Or.inl (hnz _ (by rw [hclen]; omega) h)
      · exact Or.inr (hnz _ (by rw [hclen]; omega) h)

/-- Non-vacuity: MCS 5 (rate 2/3) with a 4-bit message. -/
example (jk : VitJunk ℝ) : ∃ p, wifiTransmit (fun _ _ => 0) (· * 2) 5 [1, 0, 1, 1] = .ok p ∧ p.length = 6 ∧
    wifiReceive (fun _ _ => 7) jk 5 (p.map fun (b : Nat) => 2 * (b : ℝ) - 1) = .ok [1, 0, 1, 1] := by
  obtain ⟨p, h1, h2, h3⟩ := C46_rate (fun _ _ => 0) (mcs := 5) (num := 2) (den := 3) rfl 2 (msg := [1, 0, 1, 1]) (by decide)
    rfl (outLen := (· * 2)) rfl
  obtain ⟨p', h1', h4⟩ := C49_chain (fun _ _ => 0) (fun _ _ => 7) (mcs := 5) (num := 2) (den := 3) rfl 2 (msg := [1, 0, 1, 1])
    (by decide) rfl (by decide) (outLen := (· * 2)) rfl jk
  rw [h1] at h1'
  obtain rfl := Except.ok.inj h1'
  refine ⟨p, h1, h2, h4 _ (by simp) ?_⟩
  intro i hi
  have hb := h3 (p[i]) (List.getElem_mem hi)
  rw [List.getD_eq_getElem _ _ hi, List.getD_eq_getElem _ _ (by simpa using hi), List.getElem_map]
  have : p[i] = 0 ∨ p[i] = 1 := by omega
  rcases this with h | h <;> rw [h] <;> norm_num

end Verif
