import Verif.Model.NpTyped
import Verif.Lemmas.Utilities
import Mathlib.Tactic.Linarith
import Mathlib.Tactic.Ring
import Mathlib.Tactic.NormNum
import Mathlib.Tactic.IntervalCases
/-
Typed `bitarray2dec`.
-/
namespace Verif

/-- The loop of `bitarray2decT` as a recursion over the bits. -/
def b2dGo (ver : NpVer) (rnd : Int → Int) (d : Nat) : NpNum → List Nat → Py NpNum
  | s, [] => .ok s
  | s, x :: bs => do
    let p ← npPyOp ver rnd (· * ·) d x (2 ^ bs.length)
    let s' ← npAdd ver rnd s p
    b2dGo ver rnd d s' bs

theorem bitarray2decT_go (ver : NpVer) (rnd : Int → Int) (d : Nat) (bits : List Nat) :
    bitarray2decT ver rnd d bits = b2dGo ver rnd d (.py 0) bits := by
  unfold bitarray2decT
  generalize NpNum.py 0 = s
  induction bits generalizing s with
  | nil => rfl
  | cons x bs ih =>
    rw [List.length_cons, List.range_succ_eq_map, List.foldlM_cons, b2dGo]
    simp only [List.getD_cons_zero, Nat.add_sub_cancel, Nat.sub_zero, List.foldlM_map, bind_assoc]
    congr 1
    funext p
    congr 1
    funext s'
    rw [← ih]
    congr 1
    funext n i
    simp only [List.getD_cons_succ]
    rw [show bs.length - (i + 1) = bs.length - 1 - i by omega]

theorem wrapInt_of_lt {d : Nat} {v : Int} (h0 : 0 ≤ v) (h : v < 2 ^ (d - 1)) (hd : 1 ≤ d) : wrapInt d v = v := by
  unfold wrapInt
  obtain ⟨e, rfl⟩ : ∃ e, d = e + 1 := ⟨d - 1, by omega⟩
  rw [Nat.add_sub_cancel] at h
  have h2 : (2 : Int) ^ (e + 1) = 2 * 2 ^ e := by rw [pow_succ]; ring
  have h3 : (0 : Int) < 2 ^ e := by positivity
  apply Int.bmod_eq_of_le
  · push_cast; rw [h2]; omega
  · push_cast; rw [h2]; omega

/-- The width of the result: numpy 2 keeps the type of the array, numpy 1 promotes to int64. -/
def resWidth (ver : NpVer) (d : Nat) : Nat :=
  match ver with
  | .v1 => 64
  | .v2 => d

theorem npPyOp_fits {ver : NpVer} {rnd : Int → Int} {op : Int → Int → Int} {d : Nat} {a b : Int} (hd : 1 ≤ d)
    (hb : 0 ≤ b) (hb2 : b < 2 ^ (resWidth ver d - 1)) (h0 : 0 ≤ op a b) (h : op a b < 2 ^ (resWidth ver d - 1)) :
    npPyOp ver rnd op d a b = .ok (.int (resWidth ver d) (op a b)) := by
  have hneg : ∀ e : Nat, -(2 : Int) ^ e ≤ b := fun e => by
    have : (0 : Int) < 2 ^ e := by positivity
    omega
  cases ver with
  | v1 =>
    simp only [npPyOp, resWidth] at *
    rw [if_pos ⟨hneg _, hb2⟩, wrapInt_of_lt h0 h (by norm_num)]
  | v2 =>
    simp only [npPyOp, resWidth] at *
    rw [if_pos ⟨hneg _, hb2⟩, wrapInt_of_lt h0 h hd]

theorem b2dGo_int {ver : NpVer} {rnd : Int → Int} {d : Nat} (hd : 1 ≤ d) : ∀ (bs : List Nat) (a : Int), 0 ≤ a →
    (∀ x ∈ bs, x < 2) → bs.length ≤ resWidth ver d - 1 → a + 2 ^ bs.length ≤ 2 ^ (resWidth ver d - 1) →
    b2dGo ver rnd d (.int (resWidth ver d) a) bs = .ok (.int (resWidth ver d) (a + bitarray2dec bs)) := by
  have hD : 1 ≤ resWidth ver d := by cases ver <;> simp [resWidth]; omega
  intro bs
  induction bs with
  | nil => intro a _ _ _ _; simp [b2dGo]
  | cons x bs ih =>
    intro a ha hx hl hlt
    have hx2 := hx x (by simp)
    rw [List.length_cons] at hl hlt
    have hp : (0 : Int) < 2 ^ bs.length := by positivity
    rw [pow_succ] at hlt
    have hxp : (0 : Int) ≤ x * 2 ^ bs.length ∧ (x : Int) * 2 ^ bs.length ≤ 2 ^ bs.length := by
      interval_cases x <;> simp
    have hpl : (2 : Int) ^ bs.length < 2 ^ (resWidth ver d - 1) := by
      apply pow_lt_pow_right₀ (by norm_num) (by omega)
    rw [b2dGo, npPyOp_fits hd hp.le hpl hxp.1 (by linarith [hxp.2])]
    simp only [bind, Except.bind, npAdd, max_self]
    rw [wrapInt_of_lt (by linarith [hxp.1]) (by linarith [hxp.2]) hD]
    rw [ih _ (by linarith [hxp.1]) (fun y hy => hx y (by simp [hy])) (by omega) (by linarith [hxp.2])]
    rw [bitarray2dec_cons]
    push_cast
    rw [add_assoc]

/-- Exact range: the result has the type of the promotion and the exact value. -/
theorem bitarray2decT_exact {ver : NpVer} (rnd : Int → Int) {d : Nat} (hd : 1 ≤ d) {bits : List Nat} (hb : ∀ x ∈ bits, x < 2)
    (hne : bits ≠ []) (hl : bits.length ≤ resWidth ver d - 1) :
    bitarray2decT ver rnd d bits = .ok (.int (resWidth ver d) (bitarray2dec bits)) := by
  have hD : 1 ≤ resWidth ver d := by cases ver <;> simp [resWidth]; omega
  rw [bitarray2decT_go]
  cases bits with
  | nil => exact absurd rfl hne
  | cons x bs =>
    have hx2 := hb x (by simp)
    rw [List.length_cons] at hl
    have hp : (0 : Int) < 2 ^ bs.length := by positivity
    have hxp : (0 : Int) ≤ x * 2 ^ bs.length ∧ (x : Int) * 2 ^ bs.length ≤ 2 ^ bs.length := by
      interval_cases x <;> simp
    have hpl : (2 : Int) ^ bs.length < 2 ^ (resWidth ver d - 1) := pow_lt_pow_right₀ (by norm_num) (by omega)
    have hpl2 : (2 : Int) ^ (bs.length + 1) ≤ 2 ^ (resWidth ver d - 1) := pow_le_pow_right₀ (by norm_num) (by omega)
    rw [pow_succ] at hpl2
    have hrr : resWidth ver (resWidth ver d) = resWidth ver d := by cases ver <;> rfl
    rw [b2dGo, npPyOp_fits hd hp.le hpl hxp.1 (by linarith [hxp.2])]
    simp only [bind, Except.bind, npAdd]
    have := npPyOp_fits (ver := ver) (rnd := rnd) (op := (· + ·)) (d := resWidth ver d) (a := x * 2 ^ bs.length) (b := 0) hD
      le_rfl (by positivity) (by simpa using hxp.1) (by rw [hrr]; simp; linarith [hxp.2])
    rw [hrr, add_zero] at this
    rw [this]
    simp only []
    rw [b2dGo_int hd _ _ hxp.1 (fun y hy => hb y (by simp [hy])) (by omega) (by linarith [hxp.2])]
    rw [bitarray2dec_cons]
    push_cast
    rfl

/-- numpy 2, array wider than its type allows: OverflowError, whatever the bits. -/
theorem bitarray2decT_v2_overflow (rnd : Int → Int) {d : Nat} (hd : 1 ≤ d) {bits : List Nat} (hl : d ≤ bits.length) :
    bitarray2decT .v2 rnd d bits = .error .overflowError := by
  rw [bitarray2decT_go]
  cases bits with
  | nil => simp at hl; omega
  | cons x bs =>
    rw [List.length_cons] at hl
    have hpl : (2 : Int) ^ (d - 1) ≤ 2 ^ bs.length := pow_le_pow_right₀ (by norm_num) (by omega)
    rw [b2dGo, npPyOp, if_neg (by rintro ⟨_, h⟩; omega)]
    rfl

theorem b2dGo_float {rnd : Int → Int} (hr : ∀ x, 0 ≤ x → x < 2 ^ 53 → rnd x = x) {d : Nat} : ∀ (bs : List Nat) (a : Int),
    (∀ x ∈ bs, x < 2) → bs.length ≤ 63 →
    ∃ v, b2dGo .v1 rnd d (.f64 a) bs = .ok (.f64 v) ∧ (0 ≤ a → a + bitarray2dec bs < 2 ^ 53 → v = a + bitarray2dec bs) := by
  intro bs
  induction bs with
  | nil => intro a _ _; exact ⟨a, rfl, by simp⟩
  | cons x bs ih =>
    intro a hx hl
    rw [List.length_cons] at hl
    have hx2 := hx x (by simp)
    have hp : (0 : Int) < 2 ^ bs.length := by positivity
    have hxp : (0 : Int) ≤ x * 2 ^ bs.length ∧ (x : Int) * 2 ^ bs.length ≤ 2 ^ bs.length := by
      interval_cases x <;> simp
    have hpl : (2 : Int) ^ bs.length < 2 ^ 63 := pow_lt_pow_right₀ (by norm_num) (by omega)
    have hneg : -(2 : Int) ^ 63 ≤ 2 ^ bs.length := by linarith [show (0 : Int) < 2 ^ 63 by positivity]
    rw [b2dGo, npPyOp, if_pos ⟨hneg, hpl⟩, wrapInt_of_lt hxp.1 (by simpa using lt_of_le_of_lt hxp.2 hpl) (by norm_num)]
    simp only [bind, Except.bind, npAdd]
    obtain ⟨v, hv1, hv2⟩ := ih (rnd (a + rnd (x * 2 ^ bs.length))) (fun y hy => hx y (by simp [hy])) (by omega)
    refine ⟨v, hv1, fun ha hlt => ?_⟩
    rw [bitarray2dec_cons] at hlt ⊢
    push_cast at hlt ⊢
    have hb0 : (0 : Int) ≤ bitarray2dec bs := by positivity
    have e1 : rnd ((x : Int) * 2 ^ bs.length) = x * 2 ^ bs.length := hr _ hxp.1 (by linarith)
    rw [e1] at hv2
    have e2 : rnd (a + (x : Int) * 2 ^ bs.length) = a + x * 2 ^ bs.length := hr _ (by linarith [hxp.1]) (by linarith)
    rw [e2] at hv2
    rw [hv2 (by linarith [hxp.1]) (by linarith)]
    ring

theorem npPyFloatAdd_ok (rnd : Int → Int) {a : Int} (b : Int) (h0 : 0 ≤ a) (h : a < 2 ^ 1023) :
    npPyFloatAdd rnd a b = .ok (.f64 (rnd (rnd a + b))) := by
  rw [npPyFloatAdd, if_pos (by rw [abs_of_nonneg h0]; exact h)]

theorem b2dGo_py {rnd : Int → Int} (hr : ∀ x, 0 ≤ x → x < 2 ^ 53 → rnd x = x) {d : Nat} {B : Int}
    (hB : ∀ a b : Int, 0 ≤ a → a < B → npPyFloatAdd rnd a b = .ok (.f64 (rnd (rnd a + b)))) : ∀ (bs : List Nat) (a : Int), 0 ≤ a →
    (∀ x ∈ bs, x < 2) → 64 ≤ bs.length → a + bitarray2dec bs < B →
    ∃ v, b2dGo .v1 rnd d (.py a) bs = .ok (.f64 v) ∧ (a + bitarray2dec bs < 2 ^ 53 → v = a + bitarray2dec bs) := by
  intro bs
  induction bs with
  | nil => intro a _ _ h; simp at h
  | cons x bs ih =>
    intro a ha hx hl hlt
    rw [List.length_cons] at hl
    rw [bitarray2dec_cons] at hlt
    push_cast at hlt
    have hx2 := hx x (by simp)
    have hp : (0 : Int) < 2 ^ bs.length := by positivity
    have hxp : (0 : Int) ≤ x * 2 ^ bs.length ∧ (x : Int) * 2 ^ bs.length ≤ 2 ^ bs.length := by
      interval_cases x <;> simp
    have hpl : (2 : Int) ^ 63 ≤ 2 ^ bs.length := pow_le_pow_right₀ (by norm_num) (by omega)
    have hb0 : (0 : Int) ≤ bitarray2dec bs := by positivity
    have hnf : ¬ fitsInt 64 (2 ^ bs.length) := by rintro ⟨_, h⟩; simp only [Nat.add_one_sub_one] at h; linarith
    rw [b2dGo, npPyOp, if_neg hnf]
    by_cases h64 : bs.length = 63
    · have h2 : (2 : Int) ^ bs.length < 2 ^ 64 := by rw [h64]; norm_num
      rw [if_pos ⟨hp.le, h2⟩]
      simp only [bind, Except.bind, npAdd]
      rw [hB _ _ ha (by linarith [hxp.1])]
      simp only []
      obtain ⟨v, hv1, hv2⟩ := b2dGo_float hr (d := d) bs (rnd (rnd a + rnd (rnd x * rnd (2 ^ bs.length)))) (fun y hy => hx y (by simp [hy]))
        (by omega)
      refine ⟨v, hv1, fun hlt2 => ?_⟩
      rw [bitarray2dec_cons] at hlt2 ⊢
      push_cast at hlt2 ⊢
      have hx0 : x = 0 := by
        by_contra hne
        have : x = 1 := by omega
        subst this
        have : (2 : Int) ^ 53 < 2 ^ 63 := by norm_num
        simp only [Nat.cast_one, one_mul] at hlt2
        linarith
      subst hx0
      simp only [Nat.cast_zero, zero_mul, zero_add] at hlt2 hv2 ⊢
      rw [hr 0 le_rfl (by norm_num), zero_mul, hr 0 le_rfl (by norm_num), add_zero, hr a ha (by linarith), hr a ha (by linarith)] at hv2
      exact hv2 ha hlt2
    · have h2 : ¬ ((2 : Int) ^ bs.length < 2 ^ 64) := by
        have : (2 : Int) ^ 64 ≤ 2 ^ bs.length := pow_le_pow_right₀ (by norm_num) (by omega)
        omega
      rw [if_neg (fun h => h2 h.2)]
      simp only [bind, Except.bind, npAdd]
      obtain ⟨v, hv1, hv2⟩ := ih (a + x * 2 ^ bs.length) (by linarith [hxp.1]) (fun y hy => hx y (by simp [hy])) (by omega)
        (by rw [add_assoc]; exact hlt)
      refine ⟨v, hv1, fun hlt2 => ?_⟩
      rw [bitarray2dec_cons] at hlt2 ⊢
      push_cast at hlt2 ⊢
      rw [hv2 (by linarith)]
      ring

/-- numpy 1, 64 bits or more: the result is a float (of the exact value if that is below 2^53; OverflowError is possible only for
values of 2^1023 or more). -/
theorem bitarray2decT_v1_float {rnd : Int → Int} (hr : ∀ x, 0 ≤ x → x < 2 ^ 53 → rnd x = x) {d : Nat} {bits : List Nat}
    (hb : ∀ x ∈ bits, x < 2) (h1 : 64 ≤ bits.length) (h2 : bitarray2dec bits < 2 ^ 1023) :
    ∃ v, bitarray2decT .v1 rnd d bits = .ok (.f64 v) ∧ (bitarray2dec bits < 2 ^ 53 → v = bitarray2dec bits) := by
  obtain ⟨v, hv1, hv2⟩ := b2dGo_py hr (d := d) (B := 2 ^ 1023) (fun a b h0 h => npPyFloatAdd_ok rnd b h0 h) bits 0 le_rfl hb h1 (by
    rw [zero_add]
    exact_mod_cast h2)
  refine ⟨v, by rw [bitarray2decT_go, hv1], fun h => ?_⟩
  simpa using hv2 (by push_cast; rw [zero_add]; exact_mod_cast h)

end Verif
