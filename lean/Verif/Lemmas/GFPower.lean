import Verif.Lemmas.GFOps
/- tuple_to_power / power_to_tuple / order. -/
namespace Verif

open Polynomial

theorem TableRow.root_ne_zero {m p : Nat} (h : TableRow m p) : AdjoinRoot.root (toPoly p) ≠ 0 := by
  intro hc
  have h1 := h.orderOf_root
  have hlt := gfElem_one_lt h.isModulus
  have h2 : AdjoinRoot.root (toPoly p) ^ (2 ^ m - 1) = 1 := by rw [← h1]; exact pow_orderOf_eq_one _
  rw [hc, zero_pow (by omega)] at h2
  have h3 : gfElem p 0 = gfElem p 1 := by simpa using h2
  have := gfElem_inj h.isModulus (by positivity) hlt h3
  omega

theorem t2pLoop_spec {m p : Nat} (h : TableRow m p) {a e : Nat} (ha : a < 2 ^ m) (he : e < 2 ^ m - 1)
    (hae : gfElem p a = AdjoinRoot.root (toPoly p) ^ e) : ∀ fuel cur power, cur < 2 ^ m →
    gfElem p cur = AdjoinRoot.root (toPoly p) ^ power → power ≤ e → e - power < fuel →
    t2pLoop m p a fuel cur power = .ok e := by
  have hp := h.isModulus
  intro fuel
  induction fuel with
  | zero => intro cur power _ _ _ h; omega
  | succ fuel ih =>
    intro cur power hc hcp hle hf
    rw [t2pLoop]
    by_cases hca : cur = a
    · rw [if_neg (by simpa using hca)]
      congr 1
      have h1 : AdjoinRoot.root (toPoly p) ^ power = AdjoinRoot.root (toPoly p) ^ e := by rw [← hcp, ← hae, hca]
      have ho := h.orderOf_root
      exact pow_injOn_Iio_orderOf (by simp [ho]; omega) (by simp [ho]; omega) h1
    · rw [if_pos hca]
      have hne : power ≠ e := by
        rintro rfl
        exact hca (gfElem_inj hp hc ha (by rw [hcp, hae]))
      obtain ⟨h1, h2⟩ := gfShift_gf hp hc
      exact ih _ _ h1 (by rw [h2, hcp, pow_succ']) (by omega) (by omega)

/-- Discrete logarithm, as the code computes it (0 for 0). -/
def logE (m p a : Nat) : Nat :=
  if a = 0 then 0 else
  match t2pLoop m p a (2 ^ m + 1) 1 0 with
  | .ok e => e
  | .error _ => 0

theorem logE_spec {m p : Nat} (h : TableRow m p) {a : Nat} (ha : a < 2 ^ m) (ha0 : a ≠ 0) :
    t2pLoop m p a (2 ^ m + 1) 1 0 = .ok (logE m p a) ∧ logE m p a < 2 ^ m - 1 ∧
    gfElem p a = AdjoinRoot.root (toPoly p) ^ logE m p a := by
  obtain ⟨e, he, hae⟩ := h.exists_pow ha ha0
  have := t2pLoop_spec h ha he hae (2 ^ m + 1) 1 0 (gfElem_one_lt h.isModulus) (by simp) (by omega) (by omega)
  have h2 : logE m p a = e := by simp [logE, ha0, this]
  rw [h2]; exact ⟨this, he, hae⟩

theorem logE_lt {m p : Nat} (h : TableRow m p) {a : Nat} (ha : a < 2 ^ m) : logE m p a < 2 ^ m - 1 := by
  by_cases ha0 : a = 0
  · have := gfElem_one_lt h.isModulus
    rw [logE, if_pos ha0]; omega
  · exact (logE_spec h ha ha0).2.1

theorem tupleToPower_ok {m : Nat} (h1 : 1 ≤ m) (h2 : m ≤ 16) {a : List Nat} (ha : ∀ x ∈ a, x < 2 ^ m) :
    GF.tupleToPower ⟨m, primpolyArray.getD m 0, some a⟩ = .ok (a.map (logE m (primpolyArray.getD m 0))) := by
  simp only [GF.tupleToPower, GF.elems, bind, Except.bind]
  apply mapM_ok
  intro x hx
  by_cases h0 : x = 0
  · simp [h0, logE]
  · have hm0 : ¬ (m = 0 ∧ x ≠ 1) := by omega
    rw [if_pos h0, if_neg hm0]
    exact (logE_spec (tableRow h1 h2) (ha x hx) h0).1

theorem powerToTuple_elem {m p : Nat} (hp : IsModulus m p) {i : Nat} (hi : i ≤ 62) :
    ∃ r : Nat, (if int64Pow2 i < 2 ^ m then (.ok (int64Pow2 i) : Py Int)
      else (polydivide (int64Pow2 i).toNat p).map Int.ofNat) = .ok (r : Int) ∧ r < 2 ^ m ∧
      gfElem p r = AdjoinRoot.root (toPoly p) ^ i := by
  have hi2 : int64Pow2 i = ((2 ^ i : Nat) : Int) := by
    unfold int64Pow2; rw [if_pos (by omega)]; norm_cast
  rw [hi2]
  have hX : gfElem p (2 ^ i) = AdjoinRoot.root (toPoly p) ^ i := by
    rw [← Nat.one_shiftLeft, gfElem_shiftLeft, gfElem_one, one_mul]
  by_cases hlt : 2 ^ i < 2 ^ m
  · refine ⟨2 ^ i, ?_, hlt, hX⟩
    rw [if_pos (by exact_mod_cast hlt)]
  · have hp2 : 2 ≤ p := by
      have h1 := hp.deg; have h2 := hp.pos
      by_contra hc
      have : p = 0 ∨ p = 1 := by omega
      rcases this with rfl | rfl
      · rw [Nat.log2_zero] at h1; omega
      · have : Nat.log2 1 = 0 := rfl
        omega
    obtain ⟨r, h1, h2, h3⟩ := polydivide_spec hp2 (2 ^ i)
    refine ⟨r, ?_, by rw [hp.deg] at h2; exact h2, ?_⟩
    · rw [if_neg (by exact_mod_cast hlt), Int.toNat_natCast, h1]; rfl
    · rw [gfElem_modByMonic hp h3, ← hX]; rfl

/-- Repeated multiplication of objects. -/
def gfPow (one g : GF) : Nat → Py GF
  | 0 => .ok one
  | k + 1 => (gfPow one g k).bind (fun s => s.mul g)

theorem gfPow_spec {m : Nat} (h1 : 1 ≤ m) (h2 : m ≤ 16) {a : Nat} (ha : a < 2 ^ m) (k : Nat) :
    ∃ r, gfPow ⟨m, primpolyArray.getD m 0, some [1]⟩ ⟨m, primpolyArray.getD m 0, some [a]⟩ k =
      .ok ⟨m, primpolyArray.getD m 0, some [r]⟩ ∧ r < 2 ^ m ∧
      gfElem (primpolyArray.getD m 0) r = gfElem (primpolyArray.getD m 0) a ^ k := by
  have hp := (tableRow h1 h2).isModulus
  induction k with
  | zero => exact ⟨1, rfl, gfElem_one_lt hp, by simp⟩
  | succ k ih =>
    obtain ⟨r, h3, h4, h5⟩ := ih
    obtain ⟨h6, h7, h8⟩ := mulE_spec hp h4 ha
    refine ⟨mulE m (primpolyArray.getD m 0) r a, ?_, h7, by rw [h8, h5, pow_succ]⟩
    rw [gfPow, h3]
    simp only [Except.bind]
    rw [gf_mul_ok h1 h2 (by simpa using h4) (by simpa using ha) (by simp) (by simp)]
    simp

theorem gfPow_eq_iff {m : Nat} (h1 : 1 ≤ m) (h2 : m ≤ 16) {a b : Nat} (ha : a < 2 ^ m) (hb : b < 2 ^ m) (k : Nat) :
    gfPow ⟨m, primpolyArray.getD m 0, some [1]⟩ ⟨m, primpolyArray.getD m 0, some [a]⟩ k =
      .ok ⟨m, primpolyArray.getD m 0, some [b]⟩ ↔
      gfElem (primpolyArray.getD m 0) a ^ k = gfElem (primpolyArray.getD m 0) b := by
  have hp := (tableRow h1 h2).isModulus
  obtain ⟨r, h3, h4, h5⟩ := gfPow_spec h1 h2 ha k
  rw [h3, ← h5]
  constructor
  · intro h
    injection h with h
    injection h with _ _ h
    simp only [Option.some.injEq, List.cons.injEq, and_true] at h
    rw [h]
  · intro h
    rw [gfElem_inj hp h4 hb h]

end Verif
