import Verif.Lemmas.Sequences
import Verif.Lemmas.GFPrim
import Mathlib.Algebra.Polynomial.Module.AEval
import Mathlib.LinearAlgebra.Pi
import Mathlib.RingTheory.PrincipalIdealDomain
/-
Property C96: `pnsequence` with a primitive mask is a maximal-length sequence (least period, balance, windows, autocorrelation).
-/
namespace Verif

open Polynomial

/-- The characteristic polynomial of the recurrence described by a mask: `X^m + mask[0] X^(m-1) + … + mask[m-1]`. -/
noncomputable def maskPoly (mask : List Nat) : (ZMod 2)[X] :=
  X ^ mask.length + ∑ j ∈ Finset.range mask.length, C ((mask.getD j 0 : Nat) : ZMod 2) * X ^ (mask.length - 1 - j)

/-- The mask describes a primitive polynomial over GF(2): irreducible, and `X` has order `2^m - 1` modulo it. -/
structure PrimitiveMask (mask : List Nat) : Prop where
  irreducible : Irreducible (maskPoly mask)
  order : ∀ n, maskPoly mask ∣ X ^ n - 1 ↔ 2 ^ mask.length - 1 ∣ n

/-- The shift operator on binary sequences. -/
def seqShift : Module.End (ZMod 2) (ℕ → ZMod 2) := LinearMap.funLeft (ZMod 2) (ZMod 2) Nat.succ

theorem seqShift_pow (n : Nat) (a : ℕ → ZMod 2) (i : Nat) : (seqShift ^ n) a i = a (i + n) := by
  induction n generalizing i with
  | zero => simp
  | succ n ih =>
    rw [pow_succ', Module.End.mul_apply]
    show (seqShift ^ n) a (i + 1) = _
    rw [ih]; congr 1; omega

/-- the output as a sequence over GF(2) -/
def pnSeq (mask seed : List Nat) : ℕ → ZMod 2 := fun i => ((pnOut mask seed i : Nat) : ZMod 2)

theorem pnSeq_annihilated {mask seed : List Nat} (h : seed ≠ []) (hm : mask.length = seed.length) (hs : ∀ x ∈ seed, x < 2)
    (hb : ∀ x ∈ mask, x < 2) : aeval seqShift (maskPoly mask) (pnSeq mask seed) = 0 := by
  funext i
  unfold maskPoly
  simp only [map_add, map_sum, map_pow, map_mul, aeval_X, aeval_C, LinearMap.add_apply, LinearMap.sum_apply, Pi.add_apply,
    Finset.sum_apply, Module.End.mul_apply, Pi.zero_apply, seqShift_pow, Module.algebraMap_end_apply, Pi.smul_apply, smul_eq_mul]
  have hrec := pnOut_rec mask h hm i
  simp only [pnSeq]
  rw [hm, hrec]
  have : ((((∑ j ∈ Finset.range seed.length, (pnOut mask seed (i + seed.length - 1 - j) &&& mask.getD j 0)) % 2 : Nat)) : ZMod 2) =
      ∑ j ∈ Finset.range seed.length, ((mask.getD j 0 : Nat) : ZMod 2) * ((pnOut mask seed (i + (seed.length - 1 - j)) : Nat) : ZMod 2) := by
    rw [ZMod.natCast_mod, Nat.cast_sum]
    apply Finset.sum_congr rfl
    intro j hj
    have hj' := Finset.mem_range.1 hj
    rw [show i + seed.length - 1 - j = i + (seed.length - 1 - j) by omega, ← Nat.cast_mul]
    congr 1
    have h1 : pnOut mask seed (i + (seed.length - 1 - j)) < 2 := getD_lt_two (pnState_bits hs _) _
    have h2 : mask.getD j 0 < 2 := getD_lt_two hb _
    interval_cases pnOut mask seed (i + (seed.length - 1 - j)) <;> interval_cases mask.getD j 0 <;> rfl
  rw [this]
  exact CharTwo.add_self_eq_zero _

theorem pnSeq_ne_zero {mask seed : List Nat} (hs : ∀ x ∈ seed, x < 2) (hnz : ∃ x ∈ seed, x ≠ 0) : pnSeq mask seed ≠ 0 := by
  obtain ⟨x, hx, hx0⟩ := hnz
  obtain ⟨j, hj, rfl⟩ := List.mem_iff_getElem.1 hx
  intro hc
  have h1 := congrFun hc (seed.length - 1 - j)
  have hne : seed ≠ [] := by rintro rfl; simp at hj
  simp only [pnSeq, Pi.zero_apply] at h1
  rw [pnOut_init mask hne _ (by omega), show seed.length - 1 - (seed.length - 1 - j) = j by omega,
    List.getD_eq_getElem _ _ hj] at h1
  have h2 := hs _ hx
  have h3 : seed[j] = 1 := by omega
  rw [h3] at h1
  exact absurd h1 (by decide)

/-- a period of the output is a multiple of the order of the polynomial -/
theorem PrimitiveMask.dvd_period {mask seed : List Nat} (hp : PrimitiveMask mask) (h : seed ≠ []) (hm : mask.length = seed.length)
    (hs : ∀ x ∈ seed, x < 2) (hb : ∀ x ∈ mask, x < 2) (hnz : ∃ x ∈ seed, x ≠ 0) {p : Nat}
    (hper : ∀ i, pnOut mask seed (i + p) = pnOut mask seed i) : 2 ^ mask.length - 1 ∣ p := by
  rw [← hp.order]
  by_contra hnd
  obtain ⟨u, v, huv⟩ := (hp.irreducible.coprime_iff_not_dvd).2 hnd
  apply pnSeq_ne_zero (mask := mask) hs hnz
  have h1 := congrArg (fun q => aeval seqShift q (pnSeq mask seed)) huv
  simp only [map_add, map_mul, map_one, LinearMap.add_apply, Module.End.mul_apply, Module.End.one_apply] at h1
  rw [pnSeq_annihilated h hm hs hb] at h1
  have h2 : aeval seqShift (X ^ p - 1 : (ZMod 2)[X]) (pnSeq mask seed) = 0 := by
    funext i
    simp only [map_sub, map_pow, aeval_X, map_one, LinearMap.sub_apply, Pi.sub_apply, seqShift_pow, Module.End.one_apply, Pi.zero_apply]
    simp only [pnSeq, hper, sub_self]
  rw [h2] at h1
  simpa using h1.symm

theorem PrimitiveMask.last {mask : List Nat} (hp : PrimitiveMask mask) (hpos : 0 < mask.length) (hb : ∀ x ∈ mask, x < 2) :
    mask.getD (mask.length - 1) 0 = 1 := by
  have hlt : 1 < 2 ^ mask.length := Nat.one_lt_two_pow (by omega)
  have hd := (hp.order (2 ^ mask.length - 1)).2 dvd_rfl
  have h1 := eval_dvd (x := (0 : ZMod 2)) hd
  rw [eval_sub, eval_pow, eval_X, eval_one, zero_pow (by omega), zero_sub] at h1
  unfold maskPoly at h1
  rw [eval_add, eval_pow, eval_X, zero_pow (by omega), zero_add, eval_finset_sum] at h1
  rw [Finset.sum_eq_single (mask.length - 1)] at h1
  · simp only [eval_mul, eval_C, eval_pow, eval_X, Nat.sub_self, pow_zero, mul_one] at h1
    have h2 : mask.getD (mask.length - 1) 0 < 2 := getD_lt_two hb _
    rcases Nat.lt_or_ge (mask.getD (mask.length - 1) 0) 1 with h3 | h3
    · rw [show mask.getD (mask.length - 1) 0 = 0 by omega] at h1
      simp at h1
    · omega
  · intro j hj hne
    have := Finset.mem_range.1 hj
    rw [eval_mul, eval_pow, eval_X, zero_pow (by omega), mul_zero]
  · intro hc; exact absurd (Finset.mem_range.2 (by omega)) hc

theorem PrimitiveMask.state_period {mask seed : List Nat} (hp : PrimitiveMask mask) (h : seed ≠ []) (hm : mask.length = seed.length)
    (hs : ∀ x ∈ seed, x < 2) (hb : ∀ x ∈ mask, x < 2) (hnz : ∃ x ∈ seed, x ≠ 0) :
    pnState mask seed (2 ^ mask.length - 1) = seed := by
  have hpos := List.length_pos_iff.2 h
  obtain ⟨p, h1, h2, h3⟩ := pnState_period h hm hs (hp.last (by omega) hb)
  have h4 := hp.dvd_period h hm hs hb hnz (pnOut_period p h3)
  have h5 := Nat.le_of_dvd (by omega) h4
  rw [← hm] at h2
  rwa [show 2 ^ mask.length - 1 = p by omega]

theorem pnOut_add (mask seed : List Nat) (h : seed ≠ []) (i t : Nat) :
    pnOut mask seed (i + t) = pnOut mask (pnState mask seed i) t := by
  unfold pnOut
  rw [pnState_length mask h]
  unfold pnState
  rw [← Function.iterate_add_apply, Nat.add_comm]

theorem pnOut_period_mul {mask seed : List Nat} {P : Nat} (h : ∀ i, pnOut mask seed (i + P) = pnOut mask seed i) (k i : Nat) :
    pnOut mask seed (i + P * k) = pnOut mask seed i := by
  induction k with
  | zero => simp
  | succ k ih => rw [show i + P * (k + 1) = i + P * k + P by ring, h, ih]

theorem PrimitiveMask.state_inj {mask seed : List Nat} (hp : PrimitiveMask mask) (h : seed ≠ []) (hm : mask.length = seed.length)
    (hs : ∀ x ∈ seed, x < 2) (hb : ∀ x ∈ mask, x < 2) (hnz : ∃ x ∈ seed, x ≠ 0) {i j : Nat} (hij : i ≤ j)
    (he : pnState mask seed i = pnState mask seed j) : 2 ^ mask.length - 1 ∣ j - i := by
  have hpos := List.length_pos_iff.2 h
  have hlt : 1 < 2 ^ mask.length := Nat.one_lt_two_pow (by omega)
  set P := 2 ^ mask.length - 1 with hP
  have hper := pnOut_period P (hp.state_period h hm hs hb hnz)
  apply hp.dvd_period h hm hs hb hnz
  intro t
  have key : ∀ t, pnOut mask seed (i + t) = pnOut mask seed (j + t) := by
    intro t; rw [pnOut_add mask seed h, pnOut_add mask seed h, he]
  have h1 : i ≤ P * i := Nat.le_mul_of_pos_left i (by omega)
  have h2 := key (t + P * i - i)
  rw [show i + (t + P * i - i) = t + P * i by omega, pnOut_period_mul hper,
    show j + (t + P * i - i) = (t + (j - i)) + P * i by omega, pnOut_period_mul hper] at h2
  exact h2.symm

theorem pnState_ne_zero_val {mask seed : List Nat} (h : seed ≠ []) (hm : mask.length = seed.length) (hs : ∀ x ∈ seed, x < 2)
    (hlast : mask.getD (mask.length - 1) 0 = 1) (hnz : ∃ x ∈ seed, x ≠ 0) (i : Nat) :
    bitarray2dec (pnState mask seed i) ≠ 0 := by
  have hpos := List.length_pos_iff.2 h
  intro h0
  have hz : pnState mask seed i = List.replicate seed.length 0 := by
    apply bitarray2dec_inj (by simp [pnState_length mask h i]) (pnState_bits hs i) (by simp)
    rw [h0, bitarray2dec_replicate_zero]
  have hall : ∀ i, pnState mask seed i = List.replicate seed.length 0 → seed = List.replicate seed.length 0 := by
    intro i
    induction i with
    | zero => exact id
    | succ i ih =>
      intro hc
      apply ih
      have hl1 := pnState_length mask h i
      have hne : pnState mask seed i ≠ [] := by
        intro hc; rw [hc] at hl1; exact h (List.length_eq_zero_iff.1 hl1.symm)
      rw [pnState_succ, ← pnNext_zero mask _ hpos] at hc
      exact pnNext_inj hne (by simp [hl1]) (by omega) (pnState_bits hs i) (by simp) hlast hc
  have hseed := hall i hz
  obtain ⟨x, hx, hx0⟩ := hnz
  rw [hseed] at hx
  exact hx0 (List.eq_of_mem_replicate hx)

/-- over one period the registers run through all non-zero values -/
theorem PrimitiveMask.bij {mask seed : List Nat} (hp : PrimitiveMask mask) (h : seed ≠ []) (hm : mask.length = seed.length)
    (hs : ∀ x ∈ seed, x < 2) (hb : ∀ x ∈ mask, x < 2) (hnz : ∃ x ∈ seed, x ≠ 0) :
    Set.BijOn (fun i => bitarray2dec (pnState mask seed i)) (Finset.range (2 ^ mask.length - 1)) (Finset.Ico 1 (2 ^ mask.length)) := by
  have hpos := List.length_pos_iff.2 h
  have hlt : 1 < 2 ^ mask.length := Nat.one_lt_two_pow (by omega)
  have hlast := hp.last (by omega) hb
  have hmaps : Set.MapsTo (fun i => bitarray2dec (pnState mask seed i)) (Finset.range (2 ^ mask.length - 1))
      (Finset.Ico 1 (2 ^ mask.length)) := by
    intro i _
    have h1 := bitarray2dec_lt (pnState_bits (mask := mask) hs i)
    rw [pnState_length mask h, ← hm] at h1
    have h2 := pnState_ne_zero_val h hm hs hlast hnz i
    simp only [Finset.coe_Ico, Set.mem_Ico]
    omega
  have hinj : Set.InjOn (fun i => bitarray2dec (pnState mask seed i)) (Finset.range (2 ^ mask.length - 1)) := by
    intro i hi j hj hij
    simp only [Finset.coe_range, Set.mem_Iio] at hi hj
    have he : pnState mask seed i = pnState mask seed j :=
      bitarray2dec_inj (by rw [pnState_length mask h, pnState_length mask h]) (pnState_bits hs i) (pnState_bits hs j) hij
    rcases Nat.le_total i j with hle | hle
    · have h1 := hp.state_inj h hm hs hb hnz hle he
      by_contra hc
      have := Nat.le_of_dvd (by omega) h1
      omega
    · have h1 := hp.state_inj h hm hs hb hnz hle he.symm
      by_contra hc
      have := Nat.le_of_dvd (by omega) h1
      omega
  exact ⟨hmaps, hinj, Finset.surjOn_of_injOn_of_card_le _ hmaps hinj (by simp)⟩

theorem bitarray2dec_mod_two : ∀ (l : List Nat), (∀ x ∈ l, x < 2) → bitarray2dec l % 2 = l.getD (l.length - 1) 0 := by
  intro l hl
  rcases List.eq_nil_or_concat l with rfl | ⟨a, b, rfl⟩
  · rfl
  · have hb : b < 2 := hl b (by simp)
    rw [List.concat_eq_append, bitarray2dec_append]
    simp [bitarray2dec_cons]
    omega

theorem card_odd (m : Nat) (hm : 0 < m) : ((Finset.Ico 1 (2 ^ m)).filter fun v => v % 2 = 1).card = 2 ^ (m - 1) := by
  have : (Finset.Ico 1 (2 ^ m)).filter (fun v => v % 2 = 1) = (Finset.range (2 ^ (m - 1))).image fun k => 2 * k + 1 := by
    obtain ⟨m, rfl⟩ : ∃ k, m = k + 1 := ⟨m - 1, by omega⟩
    ext v
    simp only [Finset.mem_filter, Finset.mem_Ico, Finset.mem_image, Finset.mem_range, Nat.add_sub_cancel, pow_succ]
    constructor
    · rintro ⟨⟨h1, h2⟩, h3⟩; exact ⟨v / 2, by omega, by omega⟩
    · rintro ⟨k, hk, rfl⟩; omega
  rw [this, Finset.card_image_of_injective _ (by intro a b hab; simpa using hab), Finset.card_range]

/-- one period has `2^(m-1)` ones -/
theorem PrimitiveMask.card_ones {mask seed : List Nat} (hp : PrimitiveMask mask) (h : seed ≠ []) (hm : mask.length = seed.length)
    (hs : ∀ x ∈ seed, x < 2) (hb : ∀ x ∈ mask, x < 2) (hnz : ∃ x ∈ seed, x ≠ 0) :
    ((Finset.range (2 ^ mask.length - 1)).filter fun i => pnOut mask seed i = 1).card = 2 ^ (mask.length - 1) := by
  have hpos := List.length_pos_iff.2 h
  have hbij := hp.bij h hm hs hb hnz
  rw [← card_odd mask.length (by omega)]
  have hmod : ∀ i, bitarray2dec (pnState mask seed i) % 2 = pnOut mask seed i := by
    intro i; rw [bitarray2dec_mod_two _ (pnState_bits hs i), pnOut, pnState_length mask h]
  apply Finset.card_bij (fun i _ => bitarray2dec (pnState mask seed i))
  · intro i hi
    rw [Finset.mem_filter] at hi ⊢
    exact ⟨by simpa using hbij.mapsTo (by simpa using hi.1), by rw [hmod, hi.2]⟩
  · intro i hi j hj he
    rw [Finset.mem_filter] at hi hj
    exact hbij.injOn (by simpa using hi.1) (by simpa using hj.1) he
  · intro v hv
    rw [Finset.mem_filter] at hv
    obtain ⟨i, hi, rfl⟩ := hbij.surjOn (by simpa using hv.1)
    exact ⟨i, Finset.mem_filter.2 ⟨by simpa using hi, by rw [← hmod]; exact hv.2⟩, rfl⟩

theorem sum_neg_one_pow {P : Nat} (a b : Nat → Nat) (ha : ∀ i, a i < 2) (hb : ∀ i, b i < 2) :
    ∑ i ∈ Finset.range P, (-1 : ℤ) ^ (a i + b i) =
      P - 2 * (((Finset.range P).filter fun i => a i ^^^ b i = 1).card : ℤ) := by
  rw [Finset.card_filter, Nat.cast_sum, Finset.mul_sum]
  conv_rhs => rw [show (P : ℤ) = ∑ i ∈ Finset.range P, 1 by simp]
  rw [← Finset.sum_sub_distrib]
  apply Finset.sum_congr rfl
  intro i _
  have h1 := ha i; have h2 := hb i
  generalize a i = x at *; generalize b i = y at *
  interval_cases x <;> interval_cases y <;> simp

/-- C96. With a primitive mask and a non-zero seed of `m` bits, `pnsequence` is a maximal-length sequence.  Its periods are exactly
the multiples of `2^m - 1`; one period has `2^(m-1)` ones and `2^(m-1) - 1` zeros; every non-zero pattern of `m` bits occurs at exactly
one position of the (cyclic) period; and the cyclic autocorrelation of the ±1 sequence is `-1` at every shift that is not a
multiple of the period. -/
theorem C96_maximal (mask seed : List Nat) (hpos : seed ≠ []) (hm : mask.length = seed.length)
    (hs : ∀ x ∈ seed, x = 0 ∨ x = 1) (hb : ∀ x ∈ mask, x = 0 ∨ x = 1) (hp : PrimitiveMask mask) (hnz : ∃ x ∈ seed, x ≠ 0) :
    (∀ p, (∀ N s, pnsequence seed.length seed mask N = .ok s → ∀ i, i + p < N → s[i + p]? = s[i]?) ↔ 2 ^ seed.length - 1 ∣ p) ∧
    ∃ s, pnsequence seed.length seed mask (2 ^ seed.length - 1) = .ok s ∧
      s.count 1 = 2 ^ (seed.length - 1) ∧ s.count 0 = 2 ^ (seed.length - 1) - 1 ∧
      (∀ w : List Nat, w.length = seed.length → (∀ x ∈ w, x = 0 ∨ x = 1) → (∃ x ∈ w, x ≠ 0) →
        ∃! i, i < 2 ^ seed.length - 1 ∧ ∀ j < seed.length, s.getD ((i + j) % (2 ^ seed.length - 1)) 0 = w.getD j 0) ∧
      ∀ τ, ¬ 2 ^ seed.length - 1 ∣ τ →
        ∑ i ∈ Finset.range (2 ^ seed.length - 1), (-1 : ℤ) ^ (s.getD i 0 + s.getD ((i + τ) % (2 ^ seed.length - 1)) 0) = -1 := by
  have hs' : ∀ x ∈ seed, x < 2 := fun x hx => by rcases hs x hx with e | e <;> omega
  have hb' : ∀ x ∈ mask, x < 2 := fun x hx => by rcases hb x hx with e | e <;> omega
  have hl := List.length_pos_iff.2 hpos
  have hlt : 1 < 2 ^ seed.length := Nat.one_lt_two_pow (by omega)
  have hper := pnOut_period _ (hp.state_period hpos hm hs' hb' hnz)
  rw [hm] at hper
  have hlt2 : ∀ i, pnOut mask seed i < 2 := fun i => getD_lt_two (pnState_bits hs' _) _
  refine ⟨?_, ?_⟩
  · intro p
    constructor
    · intro hall
      rw [← hm]
      apply hp.dvd_period hpos hm hs' hb' hnz
      intro i
      have := hall (i + p + 1) _ (pnsequence_eq mask seed hpos hm _) i (by omega)
      rw [List.getElem?_map, List.getElem?_map, List.getElem?_range (by omega), List.getElem?_range (by omega)] at this
      simpa using this
    · rintro ⟨k, rfl⟩ N s hN i hi
      rw [pnsequence_eq mask seed hpos hm] at hN
      cases hN
      rw [List.getElem?_map, List.getElem?_map, List.getElem?_range (by omega), List.getElem?_range (by omega)]
      simp [pnOut_period_mul hper]
  set P := 2 ^ seed.length - 1 with hP
  have hget : ∀ i, ((List.range P).map (pnOut mask seed)).getD (i % P) 0 = pnOut mask seed i := by
    intro i
    have h1 : i % P < P := Nat.mod_lt _ (by omega)
    rw [List.getD_eq_getElem _ _ (by simpa using h1)]
    simp only [List.getElem_map, List.getElem_range]
    conv_rhs => rw [← Nat.mod_add_div i P]
    rw [pnOut_period_mul hper]
  have hcount : ((List.range P).map (pnOut mask seed)).count 1 = 2 ^ (seed.length - 1) := by
    rw [← hm, ← hp.card_ones hpos hm hs' hb' hnz, hm, ← hP]
    rw [List.count, List.countP_map, List.countP_eq_length_filter]
    show _ = Multiset.card (Multiset.filter _ (Multiset.range P))
    rw [← Multiset.coe_range, Multiset.filter_coe, Multiset.coe_card]
    congr 1
  refine ⟨_, pnsequence_eq mask seed hpos hm _, hcount, ?_, ?_, ?_⟩
  · have htot : ∀ l : List Nat, (∀ x ∈ l, x < 2) → l.count 0 + l.count 1 = l.length := by
      intro l
      induction l with
      | nil => intro _; rfl
      | cons x l ih =>
        intro hx
        have h1 := ih (fun y hy => hx y (by simp [hy]))
        have h2 := hx x (by simp)
        rcases (by omega : x = 0 ∨ x = 1) with rfl | rfl <;> simp <;> omega
    have h1 := htot ((List.range P).map (pnOut mask seed)) (by
      intro x hx; obtain ⟨i, -, rfl⟩ := List.mem_map.1 hx; exact hlt2 i)
    rw [hcount, List.length_map, List.length_range] at h1
    have h2 : 2 ^ seed.length = 2 * 2 ^ (seed.length - 1) := by
      rw [← pow_succ']; congr 1; omega
    omega
  · intro w hw hwb hwn
    have hwb' : ∀ x ∈ w, x < 2 := fun x hx => by rcases hwb x hx with e | e <;> omega
    have hbij := hp.bij hpos hm hs' hb' hnz
    rw [hm] at hbij
    have hwin : ∀ i, (∀ j < seed.length, pnOut mask seed (i + j) = w.getD j 0) ↔ pnState mask seed i = w.reverse := by
      intro i
      have hlen := pnState_length mask hpos i
      constructor
      · intro hall
        apply List.ext_getElem (by simp [hlen, hw])
        intro t h1 h2
        have h3 := pnState_window mask hpos (seed.length - 1 - t) i t (by omega)
        rw [hall _ (by omega), List.getD_eq_getElem _ _ h1, List.getD_eq_getElem _ _ (by omega)] at h3
        rw [h3, List.getElem_reverse]
        congr 1; omega
      · intro he j hj
        rw [← pnState_window mask hpos j i (seed.length - 1 - j) (by omega), he, List.getD_eq_getElem _ _ (by simp; omega),
          List.getD_eq_getElem _ _ (by omega), List.getElem_reverse]
        congr 1; omega
    have hval : bitarray2dec w.reverse ∈ (Finset.Ico 1 (2 ^ seed.length) : Finset Nat) := by
      have h1 := bitarray2dec_lt (b := w.reverse) (by simpa using hwb')
      rw [List.length_reverse, hw] at h1
      rw [Finset.mem_Ico]
      refine ⟨?_, h1⟩
      rcases Nat.eq_zero_or_pos (bitarray2dec w.reverse) with h0 | h0
      · exfalso
        have hz : w.reverse = List.replicate seed.length 0 := by
          apply bitarray2dec_inj (by simp [hw]) (by simpa using hwb') (by simp)
          rw [h0, bitarray2dec_replicate_zero]
        obtain ⟨x, hx, hx0⟩ := hwn
        have : x ∈ w.reverse := by simpa using hx
        rw [hz] at this
        exact hx0 (List.eq_of_mem_replicate this)
      · exact h0
    obtain ⟨i, hi, he⟩ := hbij.surjOn (by simpa using hval)
    have hinj : ∀ i, bitarray2dec (pnState mask seed i) = bitarray2dec w.reverse → pnState mask seed i = w.reverse := by
      intro i h
      exact bitarray2dec_inj (by rw [pnState_length mask hpos, List.length_reverse, hw]) (pnState_bits hs' i) (by simpa using hwb') h
    refine ⟨i, ⟨by simpa using hi, ?_⟩, ?_⟩
    · intro j hj
      rw [hget]
      exact (hwin i).2 (hinj i he) j hj
    · rintro i' ⟨hi', hall⟩
      have h1 := (hwin i').1 (fun j hj => by rw [← hget]; exact hall j hj)
      apply hbij.injOn (by simpa using hi') hi
      show bitarray2dec _ = bitarray2dec _
      rw [h1]; exact he.symm
  · intro τ hτ
    have hself : ∀ i ∈ Finset.range P, (-1 : ℤ) ^ (((List.range P).map (pnOut mask seed)).getD i 0 +
        ((List.range P).map (pnOut mask seed)).getD ((i + τ) % P) 0) = (-1) ^ (pnOut mask seed i + pnOut mask seed (i + τ)) := by
      intro i hi
      rw [hget, List.getD_eq_getElem _ _ (by simpa using hi)]
      simp
    rw [Finset.sum_congr rfl hself, sum_neg_one_pow _ _ hlt2 (fun i => hlt2 _)]
    -- the sum of the sequence and its shift is the sequence of another seed
    have hlτ := pnState_length mask hpos τ
    have hbτ := pnState_bits (mask := mask) hs' τ
    set seed' := List.zipWith (· ^^^ ·) seed (pnState mask seed τ) with hseed'
    have hl' : seed'.length = seed.length := by simp [hseed', hlτ]
    have hne' : seed' ≠ [] := by intro hc; rw [hc] at hl'; simp at hl'; omega
    have hout : ∀ i, pnOut mask seed' i = pnOut mask seed i ^^^ pnOut mask seed (i + τ) := by
      intro i
      rw [Nat.add_comm i τ, pnOut_add mask seed hpos]
      unfold pnOut
      rw [hl', hlτ, hseed', pnState_xor mask _ _ hpos hlτ.symm hs' hbτ]
      have h1 := pnState_length mask hpos i
      have h2 := pnState_length mask (seed := pnState mask seed τ) (by intro hc; rw [hc] at hlτ; simp at hlτ; omega) i
      rw [List.getD_eq_getElem _ _ (by simp; omega), List.getD_eq_getElem _ _ (by omega), List.getD_eq_getElem _ _ (by omega),
        List.getElem_zipWith]
    have hbits' : ∀ x ∈ seed', x < 2 := by
      intro x hx
      obtain ⟨j, hj, rfl⟩ := List.mem_iff_getElem.1 hx
      simp only [hseed', List.getElem_zipWith]
      exact Nat.xor_lt_two_pow (n := 1) (hs' _ (List.getElem_mem _)) (hbτ _ (List.getElem_mem _))
    have hnz' : ∃ x ∈ seed', x ≠ 0 := by
      by_contra hc
      push Not at hc
      apply hτ
      have h1 := hp.state_inj hpos hm hs' hb' hnz (i := 0) (j := τ) (by omega) (by
        show seed = _
        apply List.ext_getElem (by omega)
        intro j h1 h2
        have h3 := hc (seed'[j]'(by omega)) (List.getElem_mem _)
        simp only [hseed', List.getElem_zipWith] at h3
        exact Nat.xor_eq_zero_iff.1 h3)
      rwa [hm] at h1
    have hcard := hp.card_ones hne' (by omega) hbits' hb' hnz'
    rw [hm] at hcard
    simp only [hout] at hcard
    rw [hcard]
    have h2 : 2 ^ seed.length = 2 * 2 ^ (seed.length - 1) := by
      rw [← pow_succ']; congr 1; omega
    rw [hP, h2]
    have : 1 ≤ 2 ^ (seed.length - 1) := Nat.one_le_two_pow
    push_cast [show 1 ≤ 2 * 2 ^ (seed.length - 1) by omega]
    ring

/-- Masks of the table polynomials (gfields.py:49-50) are primitive: the mask lists the coefficients below the leading one. -/
theorem C96_table {m : Nat} (h1 : 1 ≤ m) (h16 : m ≤ 16) : PrimitiveMask (toBits m (primpolyArray.getD m 0)) := by
  have hrow : TableRow m (primpolyArray.getD m 0) := ⟨h1, h16, rfl⟩
  set p := primpolyArray.getD m 0 with hp
  have hmod := hrow.isModulus
  have hpoly : maskPoly (toBits m p) = toPoly p := by
    ext i
    rw [toPoly_coeff]
    unfold maskPoly
    rw [toBits_length, coeff_add, coeff_X_pow, finsetSum_coeff]
    have hlog : p.log2 = m := hmod.2
    have hbit : ∀ j < m, (toBits m p).getD j 0 = if p.testBit (m - 1 - j) then 1 else 0 := by
      intro j hj
      rw [List.getD_eq_getElem _ _ (by simpa using hj)]
      simp only [toBits, List.getElem_map, List.getElem_range, Nat.testBit_eq_decide_div_mod_eq]
      by_cases hc : p / 2 ^ (m - 1 - j) % 2 = 1
      · simp [hc]
      · simp [hc]; omega
    by_cases him : i = m
    · subst him
      rw [if_pos rfl, Finset.sum_eq_zero, add_zero]
      · rw [if_pos]
        have := Nat.testBit_log2 hmod.ne_zero
        rwa [hlog] at this
      · intro j hj
        have := Finset.mem_range.1 hj
        rw [coeff_C_mul, coeff_X_pow, if_neg (by omega), mul_zero]
    · rw [if_neg him, zero_add]
      by_cases hlt : i < m
      · rw [Finset.sum_eq_single (m - 1 - i)]
        · have e : m - 1 - (m - 1 - i) = i := by omega
          rw [hbit _ (by omega), coeff_C_mul, coeff_X_pow, e, if_pos rfl, mul_one]
          split <;> simp
        · intro j hj hne
          have := Finset.mem_range.1 hj
          rw [coeff_C_mul, coeff_X_pow, if_neg (by omega), mul_zero]
        · intro hc; exact absurd (Finset.mem_range.2 (by omega)) hc
      · rw [Finset.sum_eq_zero]
        · rw [if_neg]
          intro hc
          have := Nat.ge_two_pow_of_testBit hc
          have h2 : p < 2 ^ (m + 1) := by rw [← hlog]; exact Nat.lt_log2_self
          have h3 : 2 ^ (m + 1) ≤ 2 ^ i := Nat.pow_le_pow_right (by norm_num) (by omega)
          omega
        · intro j hj
          have := Finset.mem_range.1 hj
          rw [coeff_C_mul, coeff_X_pow, if_neg (by omega), mul_zero]
  refine ⟨by rw [hpoly]; exact hrow.irreducible, ?_⟩
  intro n
  rw [hpoly, toBits_length, ← hrow.orderOf_root, orderOf_dvd_iff_pow_eq_one, ← AdjoinRoot.mk_eq_zero, map_sub, map_pow, map_one,
    AdjoinRoot.mk_X, sub_eq_zero]

/-- The hypotheses are met: order 4, mask of x^4 + x + 1. -/
example : PrimitiveMask [0, 0, 1, 1] := C96_table (m := 4) (by norm_num) (by norm_num)

end Verif
