import Verif.Props.Links
import Verif.Props.Float53
import Verif.Lemmas.Links
/-
C88: the received array of a MIMO link (/repo/commpy/links.py:234-240, 320-326).
C83: the iterative detector/decoder (links.py:345-407).
-/
namespace Verif

variable {σ Sym V G C : Type}

/-- C88: vector by vector, the MIMO receiver gets the channel output, the gain matrix of the same index, the constellation
and the noise variance, and its results are stored one after the other.  Entries of the buffer beyond the last vector keep
whatever was in memory. -/
theorem C88_received (lk : Link σ Sym V G C) (bufLen : Nat) (junk : Nat → ℝ) (out : List V) (gains : List G) (nv : ℝ)
    (r : Nat → List ℝ) (hg : out.length ≤ gains.length) (hb : out.length * (lk.nbTx * lk.bitsPerSymbol) ≤ bufLen)
    (hM : lk.isMimo = true)
    (hr : ∀ i y h, out[i]? = some y → gains[i]? = some h → lk.receive y h lk.constellation nv = .ok (r i))
    (hl : ∀ i < out.length, (r i).length = lk.nbTx * lk.bitsPerSymbol) :
    lk.received bufLen junk out gains nv =
      .ok ((List.range out.length).flatMap r ++ ((List.range bufLen).map junk).drop (out.length * (lk.nbTx * lk.bitsPerSymbol))) := by
  simp only [Link.received, hM, if_true, Link.mimoReceive]
  refine fold_slices (lk.nbTx * lk.bitsPerSymbol) _ r out.length _ (by simpa using hb) hl ?_
  intro i hi a
  have hi' : i < gains.length := by omega
  rw [pyGet_ok hi, pyGet_ok hi']
  simp only [bind, Except.bind]
  rw [hr i _ _ (List.getElem?_eq_getElem hi) (List.getElem?_eq_getElem hi'), Nat.mul_comm i, Nat.mul_comm (i + 1)]

/-- C88: for a well represented rate `k/n` the buffer has exactly one entry per coded bit, for every whole number of groups
(less than `2^51` coded bits). -/
theorem C88_buffer {k n m v : ℕ} (hk : 0 < k) (hn : 0 < n) (h : RateOK k n) (hm : m * n < 2 ^ 51) :
    IsBufLen ((k : ℚ) / n) (m * k) v ↔ v = m * n := by
  have hkq : (0 : ℚ) < k := by exact_mod_cast hk
  have hnq : (0 : ℚ) < n := by exact_mod_cast hn
  have hx : (0 : ℚ) < (k : ℚ) / n := by positivity
  have core : ∀ r q, Rounds ((k : ℚ) / n) r → Rounds (((m * k : ℕ) : ℚ) / r) q → ⌈q⌉₊ = m * n := by
    intro r q hr hq
    obtain ⟨l1, l2⟩ := h r hr
    have hr0 := rate_pos hk hn h hr
    have hV : ((m * n : ℕ) : ℚ) * ((k : ℚ) / n) = ((m * k : ℕ) : ℚ) := by push_cast; field_simp
    have hV0 : (0 : ℚ) ≤ ((m * n : ℕ) : ℚ) := Nat.cast_nonneg _
    have : q = ((m * n : ℕ) : ℚ) := by
      refine rounds_exact hm ?_ ?_ hq
      · rw [le_div_iff₀ hr0, ← hV]
        set V := ((m * n : ℕ) : ℚ)
        set x := (k : ℚ) / n
        have : V * (1 - 1 / 2 ^ 54) * r ≤ V * (1 - 1 / 2 ^ 54) * (x * (1 + 1 / 2 ^ 54)) :=
          mul_le_mul_of_nonneg_left l2 (mul_nonneg hV0 (by norm_num))
        refine this.trans ?_
        have : 0 ≤ V * x := mul_nonneg hV0 hx.le
        nlinarith
      · rw [div_mul_eq_mul_div, div_le_iff₀ hr0, ← hV, mul_assoc]
        exact mul_le_mul_of_nonneg_left l1 hV0
    rw [this, Nat.ceil_natCast]
  constructor
  · rintro ⟨r, q, hr, hq, rfl⟩
    exact core r q hr hq
  · rintro rfl
    obtain ⟨r, hr⟩ := exists_rounds hx
    have hr0 := rate_pos hk hn h hr
    have : ∃ q, Rounds (((m * k : ℕ) : ℚ) / r) q := by
      rcases Nat.eq_zero_or_pos m with h0 | h0
      · exact ⟨_, (rounds_self ⟨0, 0, by norm_num, by simp [h0]⟩).2 rfl⟩
      · have : (0 : ℚ) < ((m * k : ℕ) : ℚ) := by exact_mod_cast Nat.mul_pos h0 hk
        exact exists_rounds (div_pos this hr0)
    obtain ⟨q, hq⟩ := this
    exact ⟨r, q, hr, hq, (core r q hr hq).symm⟩

/-- The buffer of a rate 7/10 code for 21 message bits has 31 entries, although there are 30 coded bits. -/
theorem bufLen_7_10 {v : ℕ} : IsBufLen (7 / 10) 21 v ↔ v = 31 := by
  have hr : ∀ r, Rounds ((7 : ℚ) / 10) r ↔ r = ((6305039478318694 : ℕ) : ℚ) * 2 ^ (-53 : ℤ) := by
    intro r
    refine rounds_unique (by norm_num) (by norm_num) ?_
    rw [zpow_neg, abs_lt]; norm_num
  have hq : ∀ q, Rounds (((21 : ℕ) : ℚ) / (((6305039478318694 : ℕ) : ℚ) * 2 ^ (-53 : ℤ))) q ↔
      q = ((8444249301319681 : ℕ) : ℚ) * 2 ^ (-48 : ℤ) := by
    intro q
    refine rounds_unique (by norm_num) (by norm_num) ?_
    rw [zpow_neg, zpow_neg, abs_lt]; norm_num
  have hf : ⌈((8444249301319681 : ℕ) : ℚ) * 2 ^ (-48 : ℤ)⌉₊ = 31 := by
    rw [Nat.ceil_eq_iff (by norm_num), zpow_neg]; norm_num
  constructor
  · rintro ⟨r, q, h1, h2, rfl⟩
    rw [(hr r).1 h1] at h2
    rw [(hq q).1 h2, hf]
  · rintro rfl
    exact ⟨_, _, (hr _).2 rfl, (hq _).2 rfl, hf.symm⟩

/-- C88 is false for rate 7/10: on a 21 bit message (an admissible chunk for, e.g., 1 bit per symbol and 2 antennas), whatever
the receiver returns, the received array ends with one uninitialised entry. -/
theorem C88_refuted (lk : Link σ Sym V G C) (junk : Nat → ℝ) (bufLen : Nat) (hB : IsBufLen (7 / 10) 21 bufLen) (out : List V)
    (gains : List G) (nv : ℝ) (r : Nat → List ℝ) (hM : lk.isMimo = true) (hg : out.length ≤ gains.length)
    (hb : out.length * (lk.nbTx * lk.bitsPerSymbol) = 30)
    (hr : ∀ i y h, out[i]? = some y → gains[i]? = some h → lk.receive y h lk.constellation nv = .ok (r i))
    (hl : ∀ i < out.length, (r i).length = lk.nbTx * lk.bitsPerSymbol) :
    WholeVectors (7 / 10) 2 21 ∧
    lk.received bufLen junk out gains nv = .ok ((List.range out.length).flatMap r ++ [junk 30]) := by
  have e := bufLen_7_10.1 hB
  subst e
  refine ⟨⟨15, by norm_num⟩, ?_⟩
  rw [C88_received lk 31 junk out gains nv r hg (by omega) hM hr hl, hb]
  rfl

/-- Non-vacuity: rate 1/2, 3 vectors of 2 bits. -/
example : IsBufLen (1 / 2) 3 6 := (C88_buffer (k := 1) (n := 2) (m := 3) (by norm_num) (by norm_num)
  (rateOK_small (by norm_num) (by norm_num) (Or.inl (by norm_num))) (by norm_num)).2 rfl

/-! ### C83: iterative detection and decoding -/

/-- The detector applied to all vectors: blocks of `bits` LLRs, concatenated. -/
noncomputable def detectAll (T : Nat → List ℝ → List ℝ) (m bits : Nat) (b : List ℝ) : List ℝ :=
  (List.range m).flatMap (fun i => T i ((b.drop (i * bits)).take bits))

/-- The a priori information given to the decoder and to the detector in iteration `k`: the decoder output minus its input
goes to the detector, the detector output minus its input goes to the decoder. -/
noncomputable def iddSeq (D : List ℝ → List ℝ) (T : List ℝ → List ℝ) (a0 : List ℝ) : Nat → List ℝ
  | 0 => a0
  | k + 1 =>
    let a := iddSeq D T a0 k
    let b := List.zipWith (· - ·) (D a) a
    List.zipWith (· - ·) (T b) b

theorem detectAll_length (T : Nat → List ℝ → List ℝ) (m bits : Nat) (hT : ∀ i < m, ∀ b, b.length = bits → (T i b).length = bits)
    (b : List ℝ) (hb : b.length = m * bits) : (detectAll T m bits b).length = m * bits := by
  have : ∀ k ≤ m, ((List.range k).flatMap (fun i => T i ((b.drop (i * bits)).take bits))).length = k * bits := by
    intro k hk
    induction k with
    | zero => simp
    | succ k ih =>
      rw [List.range_succ, List.flatMap_append, List.length_append, ih (by omega)]
      have : ((b.drop (k * bits)).take bits).length = bits := by
        have := Nat.mul_le_mul_right bits hk
        rw [Nat.succ_mul] at this
        simp; omega
      simp [hT k (by omega) _ this, Nat.succ_mul]
  exact this m le_rfl

theorem zip_sub_add : ∀ {t b : List ℝ}, t.length = b.length → List.zipWith (· + ·) (List.zipWith (· - ·) t b) b = t
  | [], [], _ => rfl
  | x :: t, y :: b, h => by simp [zip_sub_add (t := t) (b := b) (by simpa using h)]
  | [], _ :: _, h => by simp at h
  | _ :: _, [], h => by simp at h

/-- C83: with `n_it ≥ 1` iterations, a decoder that keeps the length and a detector that returns `bits` LLRs per vector, the
decision is taken on the output of the last detection: the detector run on the extrinsic information `D a - a`, where `a` is
the extrinsic detector information after `n_it - 1` iterations. -/
theorem C83_idd {β : Type} (detector : V → G → C → ℝ → List ℝ → Py (List ℝ)) (decoder : List ℝ → Py (List ℝ))
    (decision : List ℝ → Py β) (y : List V) (h : List G) (cst : C) (nv : ℝ) (aPriori : List ℝ) (bits : Nat)
    (D : List ℝ → List ℝ) (T : Nat → List ℝ → List ℝ)
    (hD : ∀ a, a.length = h.length * bits → decoder a = .ok (D a) ∧ (D a).length = h.length * bits)
    (hT : ∀ i yi hi b, y[i]? = some yi → h[i]? = some hi → b.length = bits →
      detector yi hi cst nv b = .ok (T i b) ∧ (T i b).length = bits)
    (hy : h.length ≤ y.length) (ha : aPriori.length = h.length * bits) (n : Nat) :
    let a := iddSeq D (detectAll T h.length bits) aPriori n
    iddDecode detector decoder decision (n + 1) y h cst nv aPriori bits =
      decision (detectAll T h.length bits (List.zipWith (· - ·) (D a) a)) := by
  intro a
  set TT := detectAll T h.length bits with hTT
  have hT' : ∀ i < h.length, ∀ b, b.length = bits → (T i b).length = bits := by
    intro i hi b hb
    exact (hT i _ _ b (List.getElem?_eq_getElem (by omega)) (List.getElem?_eq_getElem hi) hb).2
  have hTl : ∀ b, b.length = h.length * bits → (TT b).length = h.length * bits :=
    fun b hb => detectAll_length T h.length bits hT' b hb
  have hlen : ∀ k, (iddSeq D TT aPriori k).length = h.length * bits := by
    intro k
    induction k with
    | zero => exact ha
    | succ k ih =>
      simp only [iddSeq]
      have : (List.zipWith (· - ·) (D (iddSeq D TT aPriori k)) (iddSeq D TT aPriori k)).length = h.length * bits := by
        rw [List.length_zipWith, (hD _ ih).2, ih]; simp
      rw [List.length_zipWith, hTl _ this, this]; simp
  have hdet : ∀ b a, b.length = h.length * bits → a.length = h.length * bits →
      iddDetect detector y h cst nv bits b a = .ok (TT b) := by
    intro b a hb ha'
    simp only [iddDetect]
    rw [fold_slices bits _ (fun i => T i ((b.drop (i * bits)).take bits)) h.length a (by omega) ?_ ?_]
    · rw [List.drop_of_length_le (by omega), List.append_nil]
      rfl
    · intro i hi
      have := Nat.mul_le_mul_right bits (show i + 1 ≤ h.length from hi)
      rw [Nat.succ_mul] at this
      exact hT' i hi _ (by simp; omega)
    · intro i hi a
      have hiy : i < y.length := by omega
      rw [pyGet_ok hi, pyGet_ok hiy]
      simp only [bind, Except.bind]
      have := Nat.mul_le_mul_right bits (show i + 1 ≤ h.length from hi)
      rw [Nat.succ_mul] at this
      rw [(hT i _ _ _ (List.getElem?_eq_getElem hiy) (List.getElem?_eq_getElem hi) (by simp; omega)).1]
  have hstep : ∀ a, a.length = h.length * bits →
      iddStep detector decoder y h cst nv bits a =
        .ok (List.zipWith (· - ·) (TT (List.zipWith (· - ·) (D a) a)) (List.zipWith (· - ·) (D a) a), List.zipWith (· - ·) (D a) a) := by
    intro a hal
    have hbl : (List.zipWith (· - ·) (D a) a).length = h.length * bits := by
      rw [List.length_zipWith, (hD _ hal).2, hal]; simp
    simp only [iddStep, bind, Except.bind]
    rw [(hD a hal).1]
    simp only
    rw [npZip_eq _ (by rw [(hD a hal).2, hal])]
    simp only
    rw [hdet _ _ hbl hal]
    simp only [npSubInPlace]
    rw [if_pos (by rw [hTl _ hbl, hbl])]
    rfl
  have hloop : ∀ k, (List.range (k + 1)).foldlM (fun (st : List ℝ × Option (List ℝ)) _ => do
      let (a', b) ← iddStep detector decoder y h cst nv bits st.1
      pure (a', some b)) (aPriori, (none : Option (List ℝ))) =
      (.ok (iddSeq D TT aPriori (k + 1),
        some (List.zipWith (· - ·) (D (iddSeq D TT aPriori k)) (iddSeq D TT aPriori k))) : Py _) := by
    intro k
    induction k with
    | zero =>
      simp only [List.range_succ, List.range_zero, List.nil_append, List.foldlM_cons, List.foldlM_nil]
      rw [hstep aPriori ha]
      rfl
    | succ k ih =>
      rw [List.range_succ, List.foldlM_append, ih]
      simp only [bind, Except.bind, List.foldlM_cons, List.foldlM_nil]
      rw [hstep _ (hlen (k + 1))]
      rfl
  simp only [iddDecode]
  rw [hloop n]
  simp only [bind, Except.bind]
  have hal := hlen n
  have hbl : (List.zipWith (· - ·) (D (iddSeq D TT aPriori n)) (iddSeq D TT aPriori n)).length = h.length * bits := by
    rw [List.length_zipWith, (hD _ hal).2, hal]; simp
  rw [npZip_eq _ (by rw [hlen, hbl])]
  simp only
  congr 1
  exact zip_sub_add (by rw [hTl _ hbl, hbl])

/-- C83: with `n_it = 0` the decoder fails (UnboundLocalError). -/
theorem C83_zero {β : Type} (detector : V → G → C → ℝ → List ℝ → Py (List ℝ)) (decoder : List ℝ → Py (List ℝ))
    (decision : List ℝ → Py β) (y : List V) (h : List G) (cst : C) (nv : ℝ) (aPriori : List ℝ) (bits : Nat) :
    iddDecode detector decoder decision 0 y h cst nv aPriori bits = .error .nameError := rfl

/-- Non-vacuity: two vectors of one bit, two iterations, a doubling decoder and a detector adding the index. -/
example : iddDecode (V := ℝ) (G := Unit) (C := Unit) (fun y _ _ _ b => .ok (b.map (· + y))) (fun a => .ok (a.map (2 * ·)))
    (fun l => .ok l) 2 [10, 20] [(), ()] () 1 [1, 2] 1 = .ok [20, 40] := by
  rw [C83_idd (n := 1) (D := fun a => a.map (2 * ·)) (T := fun i b => b.map (· + ([10, 20] : List ℝ).getD i 0))]
  · simp [detectAll, iddSeq, List.range_succ]
    norm_num
  · intro a ha; exact ⟨rfl, by simpa using ha⟩
  · intro i yi hi b h1 h2 hb
    have : ([10, 20] : List ℝ).getD i 0 = yi := by rw [List.getD_eq_getElem?_getD, h1]; rfl
    simp only [this]
    exact ⟨trivial, by simpa using hb⟩
  · simp
  · simp

end Verif
