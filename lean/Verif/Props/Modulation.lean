import Verif.Lemmas.Gray
import Verif.Props.UtilitiesReal
import Verif.Props.Viterbi
/-
C61-C63, C66, C67, C73: modems.
-/
namespace Verif

/-! ### C66: attributes -/

/-- The attributes agree with the constellation. -/
structure Modem.Consistent (s : Modem) : Prop where
  size : s.m = s.constellation.length
  pow : s.m = 2 ^ s.nbits
  energy : s.Es = (s.constellation.map fun z => ‖z‖ ^ 2).sum / s.constellation.length

theorem setConstellation_pow (s : Modem) {v : List ℂ} {b : Nat} (h : v.length = 2 ^ b) :
    setConstellation s v = (⟨v, (v.map fun z => ‖z‖ ^ 2).sum / v.length, v.length, b⟩, .ok ()) := by
  have hne : v ≠ [] := by intro e; rw [e] at h; exact (Nat.two_pow_pos b).ne h
  unfold setConstellation checkPow2
  rw [h, if_neg (by positivity), exactLog2_pow]
  simp only [signalPower_ok hne, h]

theorem setConstellation_err (s : Modem) {v : List ℂ} (h : ∀ b, v.length ≠ 2 ^ b) :
    setConstellation s v = (s, .error (if v = [] then .overflowError else .valueError)) := by
  unfold setConstellation checkPow2
  cases v with
  | nil => rfl
  | cons x v =>
    rw [if_neg (by simp), exactLog2_none h]
    simp

/-- C66. A rejected assignment raises exactly when the length is not a power of two and changes nothing; an accepted one
makes all attributes consistent. -/
theorem C66_assign (s : Modem) (v : List ℂ) :
    ((∃ b, v.length = 2 ^ b) → ∃ s', setConstellation s v = (s', .ok ()) ∧ s'.constellation = v ∧ s'.Consistent) ∧
    ((¬ ∃ b, v.length = 2 ^ b) → v ≠ [] → setConstellation s v = (s, .error .valueError)) ∧
    (v = [] → setConstellation s v = (s, .error .overflowError)) := by
  refine ⟨?_, ?_, ?_⟩
  · rintro ⟨b, hb⟩
    exact ⟨_, setConstellation_pow s hb, rfl, rfl, hb, rfl⟩
  · intro h hne
    rw [setConstellation_err s (fun b hb => h ⟨b, hb⟩), if_neg hne]
  · intro h
    rw [setConstellation_err s (fun b hb => by rw [h] at hb; exact (Nat.two_pow_pos b).ne hb), if_pos h]

theorem freshModem_ok {c : List ℂ} {s : Modem} (h : freshModem c = .ok s) : s.Consistent ∧ s.constellation = c := by
  unfold freshModem at h
  by_cases hb : ∃ b, c.length = 2 ^ b
  · obtain ⟨s', h1, h2, h3⟩ := (C66_assign ⟨[], 0, 0, 0⟩ c).1 hb
    rw [h1] at h
    obtain rfl := Except.ok.inj h
    exact ⟨h3, h2⟩
  · rw [setConstellation_err _ (fun b hb' => hb ⟨b, hb'⟩)] at h
    cases h

theorem newModem_consistent {c : List ℂ} {g : Bool} {s : Modem} (h : newModem c g = .ok s) : s.Consistent := by
  unfold newModem at h
  generalize hc : (if g = true then grayReorder c else .ok c) = r at h
  cases r with
  | error e => cases h
  | ok c' => exact (freshModem_ok h).1

/-- C66. Whatever assignments are made after construction, successful or not, the attributes stay consistent. -/
theorem C66_history {c : List ℂ} {g : Bool} {s : Modem} (h : newModem c g = .ok s) (assignments : List (List ℂ)) :
    (assignments.foldl (fun s v => (setConstellation s v).1) s).Consistent := by
  have hs := newModem_consistent h
  clear h
  induction assignments generalizing s with
  | nil => exact hs
  | cons v vs ih =>
    rw [List.foldl_cons]
    apply ih
    by_cases hb : ∃ b, v.length = 2 ^ b
    · obtain ⟨s', h1, h2, h3⟩ := (C66_assign s v).1 hb
      rw [h1]; exact h3
    · rw [setConstellation_err s (fun b hb' => hb ⟨b, hb'⟩)]; exact hs

/-! ### C63: Gray labels -/

/-- The point with index `i` is followed (cyclically) by the point with index `nextIdx b i`. -/
def nextIdx (b i : Nat) : Nat := (i + 1) % 2 ^ b

theorem newModem_gray {c : List ℂ} {b : Nat} (hb : 1 ≤ b) (hc : c.length = 2 ^ b) :
    ∃ c', newModem c true = .ok ⟨c', (c'.map fun z => ‖z‖ ^ 2).sum / c'.length, c'.length, b⟩ ∧ c'.length = 2 ^ b ∧
      ∀ i < 2 ^ b, c'[grayCode i]? = c[i]? := by
  obtain ⟨c', h1, h2, h3⟩ := grayReorder_spec hb hc
  refine ⟨c', ?_, h2, h3⟩
  unfold newModem
  rw [if_pos rfl, h1]
  show freshModem c' = _
  unfold freshModem
  rw [setConstellation_pow _ h2]

/-- C63. Construction with Gray relabelling succeeds for every constellation of `2^b` points, `b ≥ 1`; there is a one-to-one
assignment `label` of labels to the given points, and points consecutive in the given order (cyclically) carry labels whose bits
differ in exactly one place. -/
theorem C63_gray {c : List ℂ} {b : Nat} (hb : 1 ≤ b) (hc : c.length = 2 ^ b) :
    ∃ (s : Modem) (label : Nat → Nat), newModem c true = .ok s ∧ s.m = 2 ^ b ∧ s.nbits = b ∧ s.constellation.Perm c ∧
      (∀ i < 2 ^ b, label i < 2 ^ b ∧ s.constellation[label i]? = c[i]?) ∧
      (∀ i < 2 ^ b, ∀ j < 2 ^ b, label i = label j → i = j) ∧
      (∀ i < 2 ^ b, diffCount (toBits b (label i)) (toBits b (label (nextIdx b i))) = 1) := by
  obtain ⟨c', h0, h2, h3⟩ := newModem_gray hb hc
  refine ⟨_, grayCode, h0, ?_, ?_, ?_, ?_, ?_, ?_⟩
  · exact h2
  · rfl
  · -- c' is c composed with a permutation of the indices
    have e : c = (List.range (2 ^ b)).map fun i => c'.getD (grayCode i) 0 := by
      apply List.ext_getElem (by simp [hc])
      intro i h4 h5
      have := h3 i (by omega)
      rw [List.getElem_map, List.getElem_range, List.getD_eq_getElem?_getD, this, List.getElem?_eq_getElem h4]
      rfl
    have e' : c' = (List.range (2 ^ b)).map fun i => c'.getD i 0 := by
      apply List.ext_getElem (by simp [h2])
      intro i h4 h5
      rw [List.getElem_map, List.getElem_range, List.getD_eq_getElem _ _ h4]
    show c'.Perm c
    rw [e]
    have := ((gray_perm b).map fun i => c'.getD i 0).symm
    rw [List.map_map, ← e'] at this
    exact this
  · intro i hi
    exact ⟨gray_lt hi, h3 i hi⟩
  · intro i _ j _ h
    exact gray_inj h
  · intro i hi
    unfold nextIdx
    by_cases hl : i + 1 = 2 ^ b
    · rw [hl, Nat.mod_self, show i = 2 ^ b - 1 by omega]
      exact gray_wrap hb
    · rw [Nat.mod_eq_of_lt (by omega)]
      exact gray_succ (by omega)

/-- Without relabelling the constellation is used as given. -/
theorem C63_plain {c : List ℂ} {b : Nat} (hc : c.length = 2 ^ b) :
    ∃ s, newModem c false = .ok s ∧ s.constellation = c ∧ s.nbits = b := by
  refine ⟨⟨c, (c.map fun z => ‖z‖ ^ 2).sum / c.length, c.length, b⟩, ?_, rfl, rfl⟩
  unfold newModem
  rw [if_neg (by simp)]
  show freshModem c = _
  unfold freshModem
  rw [setConstellation_pow _ hc]

/-- C63. Lengths that are not a power of two are refused. -/
theorem C63_refused {c : List ℂ} (h : ∀ b, c.length ≠ 2 ^ b) (hne : c ≠ []) (g : Bool) :
    newModem c g = .error .valueError := by
  unfold newModem
  cases g with
  | true =>
    have hl : c.length ≠ 0 := by simpa using hne
    rw [if_pos rfl]
    unfold grayReorder graySequence
    rw [if_neg hl, exactLog2_none h]
    rfl
  | false =>
    rw [if_neg (by simp)]
    show freshModem c = _
    unfold freshModem
    rw [setConstellation_err _ h, if_neg hne]

/-- Non-vacuity: four points on a line get labels 00, 01, 11, 10. -/
example : ∃ s, newModem [-3, -1, 1, 3] true = .ok s ∧ s.constellation[3]? = some 1 ∧ s.constellation[2]? = some 3 := by
  obtain ⟨c', h1, h2, h3⟩ := newModem_gray (c := [-3, -1, 1, 3]) (b := 2) (by decide) rfl
  exact ⟨_, h1, h3 2 (by decide), h3 3 (by decide)⟩

/-! ### C61, C62: hard decisions -/

theorem Modem.Consistent.len {s : Modem} (h : s.Consistent) : s.constellation.length = 2 ^ s.nbits := by
  rw [← h.size, h.pow]

theorem Modem.Consistent.ne_nil {s : Modem} (h : s.Consistent) : s.constellation ≠ [] := by
  intro e
  have := h.len
  rw [e] at this
  exact (Nat.two_pow_pos _).ne this

theorem nearestIdx_spec {s : Modem} (h : s.Consistent) (y : ℂ) :
    ∃ hlt : nearestIdx s y < s.constellation.length, ∀ z ∈ s.constellation, ‖y - s.constellation[nearestIdx s y]‖ ≤ ‖y - z‖ := by
  obtain ⟨h1, h2⟩ := argminFirst_spec (s.constellation.map fun c => ‖y - c‖) (by simpa using h.ne_nil)
  have h1' : nearestIdx s y < s.constellation.length := by simpa [nearestIdx] using h1
  refine ⟨h1', fun z hz => ?_⟩
  have := h2 (‖y - z‖) (List.mem_map.2 ⟨z, hz, rfl⟩)
  rw [List.getElem_map] at this
  exact this

theorem dec2bitarrayArr_ok {ns : List Nat} {w : Nat} (h : ∀ n ∈ ns, n < 2 ^ w) :
    dec2bitarrayArr ns w = .ok (ns.flatMap (toBits w)) := by
  rw [C04_array, mapM_ok (g := toBits w) ns (fun n hn => dec2bitarray_ok (h n hn))]
  rfl

theorem demodHard_ok {s : Modem} (h : s.Consistent) (ys : List ℂ) :
    demodHard s ys = .ok ((ys.map (nearestIdx s)).flatMap (toBits s.nbits)) := by
  unfold demodHard
  rw [if_neg h.ne_nil, dec2bitarrayArr_ok]
  intro n hn
  obtain ⟨y, -, rfl⟩ := List.mem_map.1 hn
  obtain ⟨h1, -⟩ := nearestIdx_spec h y
  rw [h.len] at h1
  exact h1

theorem flatMap_block {α β : Type} (f : α → List β) (k : Nat) (hf : ∀ a, (f a).length = k) (l : List α) (i : Nat) (hi : i < l.length) :
    ((l.flatMap f).drop (i * k)).take k = f l[i] := by
  induction l generalizing i with
  | nil => simp at hi
  | cons a l ih =>
    rw [List.flatMap_cons]
    cases i with
    | zero =>
      rw [Nat.zero_mul, List.drop_zero, List.take_append_of_le_length (by rw [hf]), List.take_of_length_le (by rw [hf])]
      rfl
    | succ i =>
      rw [Nat.succ_mul, Nat.add_comm, ← List.drop_drop, List.drop_append_of_le_length (by rw [hf]),
        List.drop_of_length_le (l := f a) (by rw [hf]), List.nil_append, ih i (by simpa using hi)]
      rfl

/-- C62. Hard demodulation: `num_bits_symbol` bits per symbol, the bits of group `i` are the label (MSB first) of a point at
minimal distance from symbol `i`. -/
theorem C62_nearest {s : Modem} (hs : s.Consistent) (ys : List ℂ) (v : ℝ) :
    ∃ bits, demodulate s ys "hard" v = .ok (.bits bits) ∧ bits.length = ys.length * s.nbits ∧
      ∀ i (hi : i < ys.length), ∃ l, ∃ hl : l < s.constellation.length,
        (bits.drop (i * s.nbits)).take s.nbits = toBits s.nbits l ∧
        ∀ z ∈ s.constellation, ‖ys[i] - s.constellation[l]‖ ≤ ‖ys[i] - z‖ := by
  refine ⟨(ys.map (nearestIdx s)).flatMap (toBits s.nbits), ?_, ?_, ?_⟩
  · unfold demodulate
    rw [if_pos rfl, demodHard_ok hs]; rfl
  · rw [List.length_flatMap]; simp [Function.comp_def]
  · intro i hi
    obtain ⟨h1, h2⟩ := nearestIdx_spec hs ys[i]
    refine ⟨nearestIdx s ys[i], h1, ?_, h2⟩
    rw [flatMap_block _ _ (fun a => toBits_length _ _) _ _ (by simpa using hi), List.getElem_map]

/-- Index selected by the `i`-th group of bits. -/
theorem modulate_ok {s : Modem} (hs : s.Consistent) (hm : 2 ≤ s.m) {bits : List Nat} (hb : ∀ x ∈ bits, x < 2) (hne : bits ≠ [])
    {N : Nat} (hl : bits.length = N * s.nbits) :
    modulate s bits = .ok ((inSyms s.nbits bits).map fun l => s.constellation.getD l 0) := by
  have hn : 0 < s.nbits := by
    have := hs.pow
    rcases Nat.eq_zero_or_pos s.nbits with h | h
    · rw [h] at this; omega
    · exact h
  unfold modulate
  rw [if_neg (by omega), if_neg hne]
  have e : strideIdx bits.length 0 s.nbits = (List.range N).map (· * s.nbits) := by
    unfold strideIdx
    rw [hl, Nat.sub_zero, show (N * s.nbits + s.nbits - 1) / s.nbits = N by
      rw [show N * s.nbits + s.nbits - 1 = (s.nbits - 1) + s.nbits * N by rw [Nat.mul_comm]; omega, Nat.add_mul_div_left _ _ hn,
        Nat.div_eq_of_lt (by omega), Nat.zero_add]]
    simp
  rw [e, mapM_ok (g := fun i => s.constellation.getD (bitarray2dec ((bits.drop i).take s.nbits)) 0)]
  · congr 1
    unfold inSyms
    rw [hl, Nat.mul_div_cancel _ hn, List.map_map, List.map_map]
    rfl
  · intro i hi
    have hlt : bitarray2dec ((bits.drop i).take s.nbits) < s.constellation.length := by
      rw [hs.len]
      refine lt_of_lt_of_le (bitarray2dec_lt fun x hx => hb x ?_) (Nat.pow_le_pow_right (by decide) (by simp))
      exact List.mem_of_mem_drop (List.mem_of_mem_take hx)
    rw [pyGet_ok hlt, List.getD_eq_getElem _ _ hlt]

/-- C61. Round trip for every consistent modem of distinct points (at least two), every non-empty bit array of a whole
number of groups. -/
theorem C61_roundtrip {s : Modem} (hs : s.Consistent) (hd : s.constellation.Nodup) (hm : 2 ≤ s.m) {bits : List Nat}
    (hb : ∀ x ∈ bits, x < 2) (hne : bits ≠ []) (hl : s.nbits ∣ bits.length) (v : ℝ) :
    ∃ syms, modulate s bits = .ok syms ∧ syms.length * s.nbits = bits.length ∧ (∀ z ∈ syms, z ∈ s.constellation) ∧
      demodulate s syms "hard" v = .ok (.bits bits) := by
  obtain ⟨N, hN⟩ := hl
  rw [Nat.mul_comm] at hN
  have hn : 0 < s.nbits := by
    have := hs.pow
    rcases Nat.eq_zero_or_pos s.nbits with h | h
    · rw [h] at this; omega
    · exact h
  have hlt : ∀ l ∈ inSyms s.nbits bits, l < s.constellation.length := by
    intro l h; rw [hs.len]; exact inSyms_lt hb _ l h
  refine ⟨_, modulate_ok hs hm hb hne hN, ?_, ?_, ?_⟩
  · rw [List.length_map, inSyms_length, hN, Nat.mul_div_cancel _ hn]
  · intro z hz
    obtain ⟨l, h1, rfl⟩ := List.mem_map.1 hz
    rw [List.getD_eq_getElem _ _ (hlt l h1)]
    exact List.getElem_mem _
  · unfold demodulate
    rw [if_pos rfl, demodHard_ok hs]
    have e : ((inSyms s.nbits bits).map fun l => s.constellation.getD l 0).map (nearestIdx s) = inSyms s.nbits bits := by
      rw [List.map_map]
      conv_rhs => rw [← List.map_id (inSyms s.nbits bits)]
      apply List.map_congr_left
      intro l h
      have hl := hlt l h
      show nearestIdx s (s.constellation.getD l 0) = l
      rw [List.getD_eq_getElem _ _ hl]
      obtain ⟨h1, h2⟩ := nearestIdx_spec hs s.constellation[l]
      have h3 := h2 _ (List.getElem_mem hl)
      rw [sub_self, norm_zero, norm_le_zero_iff, sub_eq_zero] at h3
      exact ((List.Nodup.getElem_inj_iff hd).1 h3).symm
    rw [e, flatMap_inSyms hn hb hN]
    rfl

/-- C61, the excluded inputs: an empty bit array, and a modem with a single point. -/
theorem C61_excluded (s : Modem) (bits : List Nat) :
    (s.nbits ≠ 0 → modulate s [] = .error .valueError) ∧ (s.nbits = 0 → modulate s bits = .error .zeroDivisionError) := by
  constructor
  · intro h; unfold modulate; rw [if_neg h, if_pos rfl]
  · intro h; unfold modulate; rw [if_pos h]

/-! ### C73 -/

/-- C73 is false: both functions raise TypeError on every input with at least one OFDM symbol. -/
theorem C73_ofdm_refuted (cols : Nat) (hc : 1 ≤ cols) (y : List ℂ) (nfft cp : Nat) (hn : 1 ≤ nfft) (hy : nfft + cp ≤ y.length) :
    ofdmTx cols = .error .typeError ∧ ofdmRx y nfft cp = .error .typeError := by
  have h : ∀ (β : Type) (n : Nat), 1 ≤ n →
      (List.range n).foldlM (fun (_ : List β) (_ : Nat) => (.error .typeError : Py (List β))) [] = .error .typeError := by
    intro β n hn
    obtain ⟨k, rfl⟩ : ∃ k, n = k + 1 := ⟨n - 1, by omega⟩
    rw [List.range_succ_eq_map, List.foldlM_cons]
    rfl
  exact ⟨h _ _ hc, h _ _ ((Nat.one_le_div_iff (by omega)).2 hy)⟩

end Verif
