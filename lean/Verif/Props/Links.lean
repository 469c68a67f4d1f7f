import Verif.Spec.Links
import Mathlib.Tactic.Linarith
import Mathlib.Tactic.FieldSimp
import Mathlib.Tactic.Ring
import Mathlib.Tactic.NormNum
import Mathlib.Tactic.IntervalCases
import Mathlib.RingTheory.Coprime.Lemmas
import Mathlib.RingTheory.Int.Basic
import Mathlib.Algebra.BigOperators.Intervals
/-
C80, C81: chunk rounding and the Monte-Carlo loop of /repo/commpy/links.py.
-/
namespace Verif

variable {σ Sym V G C : Type}

theorem den_dvd_iff {q : ℚ} (hq : 0 ≤ q) (n : ℕ) : (∃ m : ℕ, (n : ℚ) * q = m) ↔ q.den ∣ n := by
  have hd : (q.den : ℚ) ≠ 0 := by exact_mod_cast q.den_ne_zero
  have hnum : (q.num : ℚ) = q * q.den := by rw [Rat.mul_den_eq_num]
  constructor
  · rintro ⟨m, hm⟩
    have h1 : (n : ℚ) * q.num = m * q.den := by rw [hnum, ← mul_assoc, hm]
    have h2 : (n : ℤ) * q.num = m * q.den := by exact_mod_cast h1
    have h3 : (q.den : ℤ) ∣ q.num * n := ⟨m, by rw [mul_comm, h2]; ring⟩
    have h4 : IsCoprime (q.den : ℤ) q.num := by
      rw [Int.isCoprime_iff_gcd_eq_one, Int.gcd_comm]
      exact q.reduced
    exact_mod_cast h4.dvd_of_dvd_mul_left h3
  · rintro ⟨c, rfl⟩
    refine ⟨c * q.num.toNat, ?_⟩
    have : ((q.num.toNat : ℕ) : ℚ) = q.num := by
      have := Int.toNat_of_nonneg (Rat.num_nonneg.2 hq)
      exact_mod_cast congrArg (Int.cast (R := ℚ)) this
    push_cast
    rw [this, hnum]; ring

theorem linkDivider_ok {B T : Nat} {rate : ℚ} (hB : 0 < B) (hT : 0 < T) (hr : 0 < rate) :
    ∃ d, linkDivider B T rate = .ok d ∧ 0 < d ∧ ∀ n, WholeVectors rate (B * T) n ↔ d ∣ n := by
  have h0 : B * T ≠ 0 := (Nat.mul_pos hB hT).ne'
  refine ⟨(1 / ((B * T : Nat) : ℚ) * 1 / rate).den, ?_, Rat.den_pos _, fun n => ?_⟩
  · simp only [linkDivider]
    rw [if_neg h0, if_neg hr.ne']
  · have hv : (0 : ℚ) < ((B * T : Nat) : ℚ) := by exact_mod_cast Nat.pos_of_ne_zero h0
    rw [← den_dvd_iff (by positivity)]
    simp only [WholeVectors]
    refine exists_congr fun m => ?_
    constructor
    · intro h
      field_simp at h ⊢
      linarith
    · intro h
      field_simp at h ⊢
      linarith

/-- C80: for every rate, modem and antenna size the chunk length is positive, gives a whole number of symbol vectors after
coding, and is the largest such length not above the requested one; if there is none (the request is too small), it is the
smallest positive such length. -/
theorem C80_chunk {B T : Nat} {rate : ℚ} (hB : 0 < B) (hT : 0 < T) (hr : 0 < rate) (requested : Int) :
    ∃ d, linkDivider B T rate = .ok d ∧ 0 < linkChunk d requested ∧ WholeVectors rate (B * T) (linkChunk d requested) ∧
      (∀ n : Nat, 0 < n → WholeVectors rate (B * T) n → (n : Int) ≤ requested → n ≤ linkChunk d requested) ∧
      ((linkChunk d requested : Int) ≤ requested ∨
        ∀ n : Nat, 0 < n → WholeVectors rate (B * T) n → linkChunk d requested ≤ n ∧ requested < n) := by
  obtain ⟨d, hd, hpos, hdv⟩ := linkDivider_ok hB hT hr
  have hdI : (0 : Int) < d := by exact_mod_cast hpos
  set q := requested / (d : Int) with hq
  have e1 := Int.ediv_mul_le requested hdI.ne'
  have e2 := Int.lt_ediv_add_one_mul_self requested hdI
  rw [← hq] at e1 e2
  have hval : (linkChunk d requested : Int) = max (d : Int) (q * d) := by
    simp only [linkChunk]
    rw [Int.toNat_of_nonneg (le_trans hdI.le (le_max_left _ _))]
  have hpc : 0 < linkChunk d requested := by
    have := le_max_left (d : Int) (q * d)
    omega
  have hdc : d ∣ linkChunk d requested := by
    have : (d : Int) ∣ (linkChunk d requested : Int) := by
      rw [hval]
      rcases max_choice (d : Int) (q * d) with h | h <;> rw [h]
      exact Dvd.intro_left _ rfl
    exact_mod_cast this
  refine ⟨d, hd, hpc, (hdv _).2 hdc, ?_, ?_⟩
  · intro n hn hw hle
    obtain ⟨c, rfl⟩ := (hdv n).1 hw
    push_cast at hle
    have hc : (c : Int) ≤ q := by
      rw [hq]
      exact (Int.le_ediv_iff_mul_le hdI).2 (by linarith [mul_comm (d : Int) c])
    have : ((d * c : Nat) : Int) ≤ linkChunk d requested := by
      rw [hval]
      refine le_trans ?_ (le_max_right _ _)
      push_cast
      nlinarith
    exact_mod_cast this
  · rcases le_or_gt (d : Int) requested with h | h
    · left
      rw [hval]
      exact max_le h e1
    · right
      intro n hn hw
      have hle := Nat.le_of_dvd hn ((hdv n).1 hw)
      have hq0 : q ≤ 0 := by
        have : q < 1 := by
          rw [hq]
          exact (Int.ediv_lt_iff_lt_mul hdI).2 (by linarith)
        omega
      have hmax : (linkChunk d requested : Int) = d := by
        rw [hval]
        exact max_eq_left (by nlinarith)
      omega

/-- C80: a link without bits per symbol or antennas, or a rate 0, raises ZeroDivisionError. -/
theorem C80_zero (lk : Link σ Sym V G C) (bufLen : ℚ → Nat → Nat) (junk : σ → Nat → ℝ) (fuel : Nat) (snrs : List ℝ)
    (sendMax errMin : Int) (sc : Option Int) (rate : ℚ) (w : σ)
    (h : lk.bitsPerSymbol * lk.nbTx = 0 ∨ rate = 0) :
    lk.performance bufLen junk fuel snrs sendMax errMin sc rate w = .error .zeroDivisionError := by
  have : linkDivider lk.bitsPerSymbol lk.nbTx rate = .error .zeroDivisionError := by
    simp only [linkDivider]
    by_cases h0 : lk.bitsPerSymbol * lk.nbTx = 0
    · rw [if_pos h0]
    · rw [if_neg h0, if_pos (h.resolve_left h0)]
  simp only [Link.performance, this]
  rfl

/-- Rate 1/2, 4-QAM on 3 antennas, 100 bits requested: chunks of 99 bits (33 vectors of 6 coded bits). -/
example : ∃ d, linkDivider 2 3 (1 / 2) = .ok d ∧ linkChunk d 100 = 99 := by
  refine ⟨3, ?_, by decide⟩
  simp only [linkDivider]
  rw [if_neg (by norm_num), if_neg (by norm_num)]
  congr 1
  rw [show (1 : ℚ) / ((2 * 3 : Nat) : ℚ) * 1 / (1 / 2) = 1 / 3 by norm_num]
  decide +kernel

/-! ### One chunk -/

theorem intXor_bit {a b : Int} (ha : a = 0 ∨ a = 1) (hb : b = 0 ∨ b = 1) : Int.xor a b = if a = b then 0 else 1 := by
  rcases ha with rfl | rfl <;> rcases hb with rfl | rfl <;> decide

theorem astypeInt_bit {x : ℝ} (hx : x = 0 ∨ x = 1) : (astypeInt x = 0 ∨ astypeInt x = 1) ∧ (astypeInt x : ℝ) = x := by
  rcases hx with rfl | rfl <;> simp [astypeInt]

theorem bitErrors_cons (a : Int) (msg : List Int) (x : ℝ) (dec : List ℝ) (n : Nat) :
    bitErrors (n + 1) (a :: msg) (x :: dec) = (if (a : ℝ) = x then 0 else 1) + bitErrors n msg dec := by
  unfold bitErrors
  rw [Finset.card_filter, Finset.sum_range_succ', Finset.card_filter, add_comm]
  simp

theorem npZip_eq {α β γ : Type} (f : α → β → γ) {a : List α} {b : List β} (h : a.length = b.length) :
    npZip f a b = .ok (List.zipWith f a b) := by
  simp only [npZip, if_pos h]

theorem xor_sum_eq : ∀ (msg : List Int) (dec : List ℝ), msg.length ≤ dec.length → (∀ a ∈ msg, a = 0 ∨ a = 1) →
    (∀ i < msg.length, dec.getD i 0 = 0 ∨ dec.getD i 0 = 1) →
    (List.zipWith Int.xor msg ((dec.take msg.length).map astypeInt)).sum = bitErrors msg.length msg dec
  | [], dec, _, _, _ => by simp [bitErrors]
  | a :: msg, [], h, _, _ => by simp at h
  | a :: msg, x :: dec, h, hm, hd => by
    have hx : x = 0 ∨ x = 1 := by simpa using hd 0 (by simp)
    have ih := xor_sum_eq msg dec (by simpa using h) (fun b hb => hm b (List.mem_cons_of_mem _ hb))
      (fun i hi => by simpa using hd (i + 1) (by simpa using hi))
    rw [List.length_cons, bitErrors_cons]
    simp only [List.take_succ_cons, List.map_cons, List.zipWith_cons_cons, List.sum_cons]
    rw [ih, intXor_bit (hm a (by simp)) (astypeInt_bit hx).1]
    push_cast
    congr 1
    have := (astypeInt_bit hx).2
    by_cases hax : (a : ℝ) = x
    · have : a = astypeInt x := by
        have : (a : ℝ) = (astypeInt x : ℝ) := by rw [hax, this]
        exact_mod_cast this
      rw [if_pos this, if_pos hax]
    · have : a ≠ astypeInt x := by
        rintro rfl
        exact hax this
      rw [if_neg this, if_neg hax]

/-- C81, what is counted: for a message of bits and a decoder that returns at least as many bits, the errors of a chunk are
the positions where message and decoded array differ. -/
theorem C81_errors (msg : List Int) (dec : List ℝ) (hm : ∀ a ∈ msg, a = 0 ∨ a = 1) (hl : msg.length ≤ dec.length)
    (hd : ∀ i < msg.length, dec.getD i 0 = 0 ∨ dec.getD i 0 = 1) :
    countErrors msg dec = .ok (bitErrors msg.length msg dec : Int) := by
  simp only [countErrors]
  rw [npZip_eq _ (by simp [hl])]
  exact congrArg Except.ok (xor_sum_eq msg dec hl hm hd)

/-- C81: a decoder that returns fewer bits than the message (and not exactly one) makes the simulation raise ValueError. -/
theorem C81_short (msg : List Int) (dec : List ℝ) (hl : dec.length < msg.length) (h1 : dec.length ≠ 1) (h2 : msg.length ≠ 1) :
    countErrors msg dec = .error .valueError := by
  simp only [countErrors, npZip]
  rw [if_neg (by simp; omega)]
  match msg, dec, h1, h2, hl with
  | a :: b :: msg, [], _, _, _ => rfl
  | a :: b :: msg, x :: y :: dec, _, _, _ => rfl
  | [a], _, _, h2, _ => simp at h2
  | _ :: _ :: _, [x], h1, _, _ => simp at h1
  | [], _, _, _, hl => simp at hl

example : countErrors [0, 1, 1, 0] [0, 0, 1, 1, 1] = .ok 2 := by
  rw [C81_errors _ _ (by decide) (by decide) (by
    intro i hi
    have : i < 4 := hi
    interval_cases i <;> simp)]
  rw [show ([0, 1, 1, 0] : List Int).length = 0 + 1 + 1 + 1 + 1 from rfl, bitErrors_cons, bitErrors_cons, bitErrors_cons, bitErrors_cons]
  simp [bitErrors]

/-! ### The loops -/

/-- One chunk of the link, as a relation. -/
def Link.Chunk (lk : Link σ Sym V G C) (bufLen : Nat → Nat) (junk : σ → Nat → ℝ) (chunk : Nat) (w : σ) (e : Int) (w' : σ) : Prop :=
  lk.chunkErrors bufLen junk chunk w = .ok (e, w')

theorem sendLoop_spec (lk : Link σ Sym V G C) (bufLen : Nat → Nat) (junk : σ → Nat → ℝ) (chunk : Nat) (sendMax errMin : Int) :
    ∀ (fuel : Nat) (s b : Int) (w : σ) (r : Int × Int × σ),
      lk.sendLoop bufLen junk chunk sendMax errMin fuel s b w = .ok r →
      ∃ es, Sent (lk.Chunk bufLen junk chunk) w es r.2.2 ∧ r.1 = s + es.length * chunk ∧ r.2.1 = b + es.sum ∧
        (sendMax ≤ r.1 ∨ errMin ≤ r.2.1) ∧
        ∀ j < es.length, s + (j : Int) * chunk < sendMax ∧ b + (es.take j).sum < errMin := by
  intro fuel
  induction fuel with
  | zero =>
    intro s b w r h
    simp only [Link.sendLoop] at h
    by_cases hc : s < sendMax ∧ b < errMin
    · rw [if_pos hc] at h; cases h
    · rw [if_neg hc] at h
      cases h
      exact ⟨[], .nil w, by simp, by simp, by simp only; omega, by simp⟩
  | succ fuel ih =>
    intro s b w r h
    simp only [Link.sendLoop] at h
    by_cases hc : s < sendMax ∧ b < errMin
    · rw [if_pos hc] at h
      rcases hch : lk.chunkErrors bufLen junk chunk w with er | ⟨e, w'⟩
      · rw [hch] at h; cases h
      · rw [hch] at h
        obtain ⟨es, h1, h2, h3, h4, h5⟩ := ih _ _ _ _ h
        refine ⟨e :: es, .cons hch h1, ?_, ?_, h4, ?_⟩
        · rw [h2, List.length_cons]; push_cast; ring
        · rw [h3, List.sum_cons]; ring
        · intro j hj
          rcases j with _ | j
          · simpa using hc
          · have := h5 j (by simpa using hj)
            rw [List.take_succ_cons, List.sum_cons]
            push_cast
            refine ⟨by linarith [this.1], by linarith [this.2]⟩
    · rw [if_neg hc] at h
      cases h
      exact ⟨[], .nil w, by simp, by simp, by simp only; omega, by simp⟩

theorem sendLoop_complete (lk : Link σ Sym V G C) (bufLen : Nat → Nat) (junk : σ → Nat → ℝ) (chunk : Nat) (sendMax errMin : Int) :
    ∀ (es : List Int) (fuel : Nat) (s b : Int) (w w' : σ), Sent (lk.Chunk bufLen junk chunk) w es w' → es.length ≤ fuel →
      (sendMax ≤ s + es.length * chunk ∨ errMin ≤ b + es.sum) →
      (∀ j < es.length, s + (j : Int) * chunk < sendMax ∧ b + (es.take j).sum < errMin) →
      lk.sendLoop bufLen junk chunk sendMax errMin fuel s b w = .ok (s + es.length * chunk, b + es.sum, w') := by
  intro es
  induction es with
  | nil =>
    intro fuel s b w w' hs _ hst _
    cases hs
    have hc : ¬ (s < sendMax ∧ b < errMin) := by simp at hst; omega
    rcases fuel with _ | fuel <;> simp only [Link.sendLoop] <;> rw [if_neg hc] <;> simp
  | cons e es ih =>
    intro fuel s b w w' hs hf hst hj
    rcases fuel with _ | fuel
    · simp at hf
    · cases hs with
      | cons hch hrest =>
        have h0 := hj 0 (by simp)
        simp only [Link.sendLoop]
        rw [if_pos (by simpa using h0)]
        simp only [Link.Chunk] at hch
        rw [hch]
        have := ih fuel (s + chunk) (b + e) _ _ hrest (by simpa using hf) (by
            rcases hst with h | h
            · left; rw [List.length_cons] at h; push_cast at h; linarith
            · right; rw [List.sum_cons] at h; linarith) (by
            intro j hjl
            have := hj (j + 1) (by simpa using hjl)
            rw [List.take_succ_cons, List.sum_cons] at this
            push_cast at this
            exact ⟨by linarith [this.1], by linarith [this.2]⟩)
        show lk.sendLoop bufLen junk chunk sendMax errMin fuel (s + chunk) (b + e) _ = _
        rw [this, List.length_cons, List.sum_cons]
        push_cast
        congr 2
        · ring
        · congr 1; ring

/-- Number of chunks of one SNR: at most `sendMax` (they have at least one bit each). -/
theorem OneSnr.length_le {Chunk : σ → Int → σ → Prop} {chunk : Nat} (hc : 0 < chunk) {sendMax errMin : Int} {w w' : σ} {es : List Int}
    (h : OneSnr Chunk chunk sendMax errMin w es w') :
    (es.length : Int) * chunk < sendMax + chunk ∧ es.length ≤ sendMax.toNat := by
  obtain ⟨-, hne, -, hj⟩ := h
  have hl : 0 < es.length := List.length_pos_iff.2 hne
  have := (hj (es.length - 1) (by omega)).1
  have e : ((es.length - 1 : Nat) : Int) = es.length - 1 := by omega
  rw [e] at this
  have hcI : (1 : Int) ≤ chunk := by exact_mod_cast hc
  refine ⟨by linarith, ?_⟩
  have : (es.length : Int) - 1 < sendMax := by nlinarith
  omega

theorem snrLoop_spec (lk : Link σ Sym V G C) (bufLen : Nat → Nat) (junk : σ → Nat → ℝ) (chunk : Nat) (hc : 0 < chunk)
    (sendMax errMin : Int) (rate : ℚ) (fuel : Nat) (hf : sendMax.toNat ≤ fuel) :
    ∀ (snrs : List ℝ) (w : σ) (bers : List ℚ) (w' : σ),
      lk.snrLoop bufLen junk chunk sendMax errMin rate fuel snrs w = .ok (bers, w') ↔
      SnrRun (fun w snr w1 => lk.setSnr w snr rate lk.Es = .ok w1) (lk.Chunk bufLen junk chunk) chunk sendMax errMin snrs w bers w' := by
  intro snrs
  induction snrs with
  | nil =>
    intro w bers w'
    simp only [Link.snrLoop]
    constructor
    · intro h; cases h; exact .nil w
    · intro h; cases h; rfl
  | cons snr rest ih =>
    intro w bers w'
    simp only [Link.snrLoop]
    constructor
    · intro h
      rcases hset : lk.setSnr w snr rate lk.Es with er | w1
      · rw [hset] at h; cases h
      · rw [hset] at h
        replace h : (lk.sendLoop bufLen junk chunk sendMax errMin fuel 0 0 w1 >>= _) = _ := h
        rcases hl : lk.sendLoop bufLen junk chunk sendMax errMin fuel 0 0 w1 with er | ⟨s, b, w2⟩
        · rw [hl] at h; cases h
        · rw [hl] at h
          obtain ⟨es, h1, h2, h3, h4, h5⟩ := sendLoop_spec lk bufLen junk chunk sendMax errMin fuel 0 0 w1 _ hl
          simp only [zero_add] at h2 h3 h4 h5
          replace h : (if s = 0 then .error .zeroDivisionError else
            if b < errMin then .ok ((b : ℚ) / (s : ℚ) :: List.replicate rest.length 0, w2)
            else (lk.snrLoop bufLen junk chunk sendMax errMin rate fuel rest w2 >>= fun p => pure ((b : ℚ) / (s : ℚ) :: p.1, p.2))) =
              (.ok (bers, w') : Py (List ℚ × σ)) := h
          by_cases hs : s = 0
          · rw [if_pos hs] at h; cases h
          · rw [if_neg hs] at h
            have hne : es ≠ [] := by rintro rfl; simp at h2; exact hs h2
            have hone : OneSnr (lk.Chunk bufLen junk chunk) chunk sendMax errMin w1 es w2 :=
              ⟨h1, hne, by rw [← h2, ← h3]; exact h4, h5⟩
            have hber : (b : ℚ) / (s : ℚ) = (es.sum : ℚ) / (es.length * chunk) := by
              rw [h2, h3]; push_cast; rfl
            by_cases hb : b < errMin
            · rw [if_pos hb, hber] at h
              cases h
              exact .stop hset hone (h3 ▸ hb)
            · rw [if_neg hb, hber] at h
              rcases hr : lk.snrLoop bufLen junk chunk sendMax errMin rate fuel rest w2 with er | ⟨bs, w3⟩
              · rw [hr] at h; cases h
              · rw [hr] at h
                cases h
                exact .go hset hone (by rw [← h3]; omega) ((ih _ _ _).1 hr)
    · intro h
      have run : ∀ {w1 w2 es}, OneSnr (lk.Chunk bufLen junk chunk) chunk sendMax errMin w1 es w2 →
          lk.sendLoop bufLen junk chunk sendMax errMin fuel 0 0 w1 = .ok (es.length * chunk, es.sum, w2) ∧
          ((es.length : Int) * chunk ≠ 0) := by
        intro w1 w2 es ho
        have hle := ho.length_le hc
        obtain ⟨h1, hne, hst, hj⟩ := ho
        have := sendLoop_complete lk bufLen junk chunk sendMax errMin es fuel 0 0 w1 w2 h1 (by omega) (by simpa using hst) (by simpa using hj)
        rw [zero_add, zero_add] at this
        refine ⟨this, ?_⟩
        have := List.length_pos_iff.2 hne
        exact_mod_cast (Nat.mul_pos this hc).ne'
      cases h with
      | stop hset hone hlt =>
        rw [hset]
        obtain ⟨r1, r2⟩ := run hone
        show (lk.sendLoop bufLen junk chunk sendMax errMin fuel 0 0 _ >>= _) = _
        rw [r1]
        show (if _ then _ else _) = _
        rw [if_neg r2, if_pos hlt]
        push_cast
        rfl
      | go hset hone hge hrest =>
        rw [hset]
        obtain ⟨r1, r2⟩ := run hone
        show (lk.sendLoop bufLen junk chunk sendMax errMin fuel 0 0 _ >>= _) = _
        rw [r1]
        show (if _ then _ else _) = _
        rw [if_neg r2, if_neg (not_lt.2 hge), (ih _ _ _).2 hrest]
        push_cast
        rfl

/-- C81: with enough iterations allowed (`sendMax` is always enough), `link_performance` returns `bers` exactly when they are
the ratios of a simulation that, SNR by SNR, sends chunks of the rounded length until `sendMax` bits or `errMin` errors are
reached, and stops after the first SNR with fewer than `errMin` errors. -/
theorem C81_performance (lk : Link σ Sym V G C) (bufLen : ℚ → Nat → Nat) (junk : σ → Nat → ℝ) (fuel : Nat) (snrs : List ℝ)
    (sendMax errMin : Int) (sc : Option Int) (rate : ℚ) (w w' : σ) (bers : List ℚ)
    (hB : 0 < lk.bitsPerSymbol) (hT : 0 < lk.nbTx) (hr : 0 < rate) (hf : sendMax.toNat ≤ fuel) :
    ∃ d, linkDivider lk.bitsPerSymbol lk.nbTx rate = .ok d ∧
    (lk.performance bufLen junk fuel snrs sendMax errMin sc rate w = .ok (bers, w') ↔
      SnrRun (fun w snr w1 => lk.setSnr w snr rate lk.Es = .ok w1)
        (lk.Chunk (bufLen rate) junk (linkChunk d (sc.getD errMin))) (linkChunk d (sc.getD errMin)) sendMax errMin snrs w bers w') := by
  obtain ⟨d, hd, hpos, -⟩ := C80_chunk (B := lk.bitsPerSymbol) (T := lk.nbTx) hB hT hr (sc.getD errMin)
  refine ⟨d, hd, ?_⟩
  simp only [Link.performance, hd]
  exact snrLoop_spec lk (bufLen rate) junk _ hpos sendMax errMin rate fuel hf snrs w bers w'

/-- C81, consequences: one ratio per SNR; every simulated ratio is errors over bits with fewer than `sendMax + chunk` bits
sent; when every chunk has between 0 and `chunk` errors all ratios are in [0, 1]. -/
theorem C81_ratios {setSnr : σ → ℝ → σ → Prop} {Chunk : σ → Int → σ → Prop} {chunk : Nat} (hc : 0 < chunk) {sendMax errMin : Int}
    {snrs : List ℝ} {w w' : σ} {bers : List ℚ} (h : SnrRun setSnr Chunk chunk sendMax errMin snrs w bers w')
    (hE : ∀ w e w', Chunk w e w' → 0 ≤ e ∧ e ≤ chunk) :
    bers.length = snrs.length ∧ (∀ b ∈ bers, 0 ≤ b ∧ b ≤ 1) ∧
    ∀ b ∈ bers, b = 0 ∨ ∃ errs bits : Nat, b = (errs : ℚ) / bits ∧ (bits : Int) < sendMax + chunk := by
  have sumB : ∀ {w es w'}, Sent Chunk w es w' → 0 ≤ es.sum ∧ es.sum ≤ es.length * chunk := by
    intro w es w' hs
    induction hs with
    | nil => simp
    | cons hch _ ih =>
      have := hE _ _ _ hch
      rw [List.sum_cons, List.length_cons]
      push_cast
      constructor <;> nlinarith [ih.1, ih.2]
  have one : ∀ {w es w'}, OneSnr Chunk chunk sendMax errMin w es w' →
      let b : ℚ := (es.sum : ℚ) / (es.length * chunk)
      (0 ≤ b ∧ b ≤ 1) ∧ ∃ errs bits : Nat, b = (errs : ℚ) / bits ∧ (bits : Int) < sendMax + chunk := by
    intro w es w' ho
    obtain ⟨s1, s2⟩ := sumB ho.1
    have hl := (ho.length_le hc).1
    have hpos : 0 < es.length * chunk := Nat.mul_pos (List.length_pos_iff.2 ho.2.1) hc
    have hposq : (0 : ℚ) < es.length * chunk := by exact_mod_cast hpos
    have s1q : (0 : ℚ) ≤ es.sum := by exact_mod_cast s1
    have s2q : (es.sum : ℚ) ≤ es.length * chunk := by exact_mod_cast s2
    refine ⟨⟨div_nonneg s1q hposq.le, (div_le_one hposq).2 s2q⟩, es.sum.toNat, es.length * chunk, ?_, by push_cast; exact hl⟩
    have : ((es.sum.toNat : ℕ) : ℚ) = es.sum := by
      have := Int.toNat_of_nonneg s1
      exact_mod_cast congrArg (Int.cast (R := ℚ)) this
    rw [this]; push_cast; rfl
  induction h with
  | nil => simp
  | stop hset ho hlt =>
    have := one ho
    refine ⟨by simp, ?_, ?_⟩
    · intro b hb
      rcases List.mem_cons.1 hb with rfl | hb
      · exact this.1
      · rw [List.eq_of_mem_replicate hb]; norm_num
    · intro b hb
      rcases List.mem_cons.1 hb with rfl | hb
      · exact Or.inr this.2
      · exact Or.inl (List.eq_of_mem_replicate hb)
  | go hset ho hge hrest ih =>
    have := one ho
    refine ⟨by simp [ih.1], ?_, ?_⟩
    · intro b hb
      rcases List.mem_cons.1 hb with rfl | hb
      · exact this.1
      · exact ih.2.1 b hb
    · intro b hb
      rcases List.mem_cons.1 hb with rfl | hb
      · exact Or.inr this.2
      · exact ih.2.2 b hb

theorem send_ok {lk : Link σ Sym V G C} {bufLen : Nat → Nat} {junk : σ → Nat → ℝ} {n : Nat} {w w' : σ} {msg : List Int} {d : List ℝ}
    (h : lk.send bufLen junk n w = .ok (msg, d, w')) :
    msg = (lk.choice w n).1 ∧ ∃ out received, lk.decode out (lk.gains w') (lk.noiseStd w' ^ 2) received = .ok d := by
  simp only [Link.send, bind, Except.bind] at h
  rcases h1 : lk.modulate (lk.choice w n).1 with er | symbs
  · rw [h1] at h; cases h
  rw [h1] at h
  simp only at h
  rcases h2 : lk.propagate (lk.choice w n).2 symbs with er | ⟨out, w2⟩
  · rw [h2] at h; cases h
  rw [h2] at h
  simp only at h
  rcases h3 : lk.received (bufLen (lk.choice w n).1.length) (junk w2) out (lk.gains w2) (lk.noiseStd w2 ^ 2) with er | received
  · rw [h3] at h; cases h
  rw [h3] at h
  simp only at h
  rcases h4 : lk.decode out (lk.gains w2) (lk.noiseStd w2 ^ 2) received with er | d'
  · rw [h4] at h; cases h
  rw [h4] at h
  cases h
  exact ⟨rfl, out, received, h4⟩

/-- The hypothesis of `C81_ratios` holds when the generator draws bits and the decoder returns bits. -/
theorem C81_chunk_bounds (lk : Link σ Sym V G C) (bufLen : Nat → Nat) (junk : σ → Nat → ℝ) (chunk : Nat)
    (hch : ∀ w n, (lk.choice w n).1.length = n ∧ ∀ a ∈ (lk.choice w n).1, a = 0 ∨ a = 1)
    (hdec : match lk.decoder with
      | .short f => ∀ r d, f r = .ok d → ∀ x ∈ d, x = 0 ∨ x = 1
      | .full f => ∀ y h c v r b d, f y h c v r b = .ok d → ∀ x ∈ d, x = 0 ∨ x = 1)
    (w : σ) (e : Int) (w' : σ) (h : lk.Chunk bufLen junk chunk w e w') : 0 ≤ e ∧ e ≤ chunk := by
  have zsum : ∀ (l : List Int), (∀ x ∈ l, x = 0 ∨ x = 1) → 0 ≤ l.sum ∧ l.sum ≤ l.length := by
    intro l hl
    induction l with
    | nil => simp
    | cons a l ih =>
      have := ih (fun x hx => hl x (List.mem_cons_of_mem _ hx))
      have h1 := hl a (by simp)
      rw [List.sum_cons, List.length_cons]; push_cast; omega
  have zx : ∀ {a : Int} {x : ℝ}, (a = 0 ∨ a = 1) → (x = 0 ∨ x = 1) → (Int.xor a (astypeInt x) = 0 ∨ Int.xor a (astypeInt x) = 1) := by
    intro a x ha hx
    rw [intXor_bit ha (astypeInt_bit hx).1]
    split <;> simp
  have key : ∀ (msg : List Int) (d : List ℝ) (e : Int), (∀ a ∈ msg, a = 0 ∨ a = 1) → (∀ x ∈ d, x = 0 ∨ x = 1) →
      countErrors msg d = .ok e → 0 ≤ e ∧ e ≤ msg.length := by
    intro msg d e hm hd he
    simp only [countErrors, npZip] at he
    by_cases hl : msg.length = ((d.take msg.length).map astypeInt).length
    · rw [if_pos hl] at he
      cases he
      have hz := zsum (List.zipWith Int.xor msg ((d.take msg.length).map astypeInt)) (by
        intro x hx
        obtain ⟨i, hi, rfl⟩ := List.getElem_of_mem hx
        rw [List.getElem_zipWith, List.getElem_map]
        exact zx (hm _ (List.getElem_mem _)) (hd _ (List.mem_of_mem_take (List.getElem_mem _))))
      refine ⟨hz.1, hz.2.trans ?_⟩
      rw [List.length_zipWith]
      omega
    · rw [if_neg hl] at he
      match msg, hm, hl, he with
      | [], _, hl, he => simp at hl
      | [a], hm, hl, he =>
        match d, hd, hl, he with
        | [], _, hl, he =>
          cases he; simp
        | x :: d, hd, hl, he => simp at hl
      | a :: b :: msg, hm, hl, he =>
        match d, hd, hl, he with
        | [], _, _, he => cases he
        | [x], hd, _, he =>
          cases he
          have hz := zsum ((a :: b :: msg).map (fun y => Int.xor y (astypeInt x))) (by
            intro y hy
            obtain ⟨c, hc, rfl⟩ := List.mem_map.1 hy
            exact zx (hm c hc) (hd x (by simp)))
          rw [List.length_map] at hz
          exact hz
        | x :: y :: d, _, _, he => cases he
  simp only [Link.Chunk, Link.chunkErrors] at h
  rcases hs : lk.send bufLen junk chunk w with er | ⟨msg, d, w2⟩
  · rw [hs] at h; cases h
  rw [hs] at h
  rcases h3 : countErrors msg d with er | e'
  · simp only [bind, Except.bind, h3] at h; cases h
  simp only [bind, Except.bind, h3] at h
  cases h
  obtain ⟨hm, out, received, hd⟩ := send_ok hs
  have := key _ _ _ (by rw [hm]; exact (hch w chunk).2) (by
    simp only [Link.decode] at hd
    rcases hdc : lk.decoder with f | f
    · rw [hdc] at hdec hd
      exact hdec _ _ hd
    · rw [hdc] at hdec hd
      exact hdec _ _ _ _ _ _ _ hd) h3
  rwa [hm, (hch w chunk).1] at this

/-- C81: with `sendMax ≤ 0` or `errMin ≤ 0` nothing can be sent and the division 0/0 raises ZeroDivisionError. -/
theorem C81_nothing_sent (lk : Link σ Sym V G C) (bufLen : Nat → Nat) (junk : σ → Nat → ℝ) (chunk : Nat) (sendMax errMin : Int)
    (rate : ℚ) (fuel : Nat) (snr : ℝ) (rest : List ℝ) (w w1 : σ) (hset : lk.setSnr w snr rate lk.Es = .ok w1)
    (h : sendMax ≤ 0 ∨ errMin ≤ 0) :
    lk.snrLoop bufLen junk chunk sendMax errMin rate fuel (snr :: rest) w = .error .zeroDivisionError := by
  have := sendLoop_complete lk bufLen junk chunk sendMax errMin [] fuel 0 0 w1 w1 (.nil _) (by simp) (by simpa using h) (by simp)
  simp only [Link.snrLoop]
  rw [hset]
  show (lk.sendLoop bufLen junk chunk sendMax errMin fuel 0 0 w1 >>= _) = _
  rw [this]
  show (if _ then _ else _) = _
  rw [if_pos (by simp)]

/-- The top level function: `send_chunk` of 0 means `err_min` as well (the method would round 0 up to one divider). -/
theorem C81_toplevel (lk : Link σ Sym V G C) (bufLen : ℚ → Nat → Nat) (junk : σ → Nat → ℝ) (fuel : Nat) (snrs : List ℝ)
    (sendMax errMin : Int) (rate : ℚ) (w : σ) (c : Int) (hc : c ≠ 0) :
    linkPerformance lk bufLen junk fuel snrs sendMax errMin none rate w =
      lk.performance bufLen junk fuel snrs sendMax errMin none rate w ∧
    linkPerformance lk bufLen junk fuel snrs sendMax errMin (some 0) rate w =
      lk.performance bufLen junk fuel snrs sendMax errMin none rate w ∧
    linkPerformance lk bufLen junk fuel snrs sendMax errMin (some c) rate w =
      lk.performance bufLen junk fuel snrs sendMax errMin (some c) rate w := by
  refine ⟨rfl, rfl, ?_⟩
  simp only [linkPerformance]
  rw [if_neg hc]

end Verif
