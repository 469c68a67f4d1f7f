import Verif.Model.LdpcCode
import Verif.Spec.Ldpc
import Verif.Props.LdpcFile
import Mathlib.LinearAlgebra.Matrix.Block
import Mathlib.LinearAlgebra.Matrix.ToLinearEquiv
import Mathlib.Algebra.BigOperators.Fin
import Mathlib.Tactic.FieldSimp
/-
C56, C57: `triang_ldpc_systematic_encode` (/repo/commpy/channelcoding/ldpc.py:302-354).
-/
namespace Verif

open Matrix

theorem parityBit_int (z : Int) : parityBit (z : ℚ) = z % 2 := by
  unfold parityBit
  have : ⌊(z : ℚ) / 2⌋ = z / 2 := by
    have := Rat.floor_intCast_div_natCast z 2
    exact_mod_cast this
  rw [this, show (z : ℚ) - 2 * ((z / 2 : Int) : ℚ) = ((z - 2 * (z / 2) : Int) : ℚ) by push_cast; ring, Int.floor_intCast]
  omega

theorem parityBit_bit (x : ℚ) : parityBit x = 0 ∨ parityBit x = 1 := by
  unfold parityBit
  have h1 : (⌊x / 2⌋ : ℚ) ≤ x / 2 := Int.floor_le _
  have h2 : x / 2 < ⌊x / 2⌋ + 1 := Int.lt_floor_add_one _
  have h3 : 0 ≤ ⌊x - 2 * (⌊x / 2⌋ : Int)⌋ := by
    rw [Int.le_floor]; push_cast; linarith
  have h4 : ⌊x - 2 * (⌊x / 2⌋ : Int)⌋ < 2 := by
    rw [Int.floor_lt]; push_cast; linarith
  omega

theorem zipWith_sum_fin (n : Nat) : ∀ (a b : List Int), a.length = n → b.length = n →
    (List.zipWith (· * ·) a b).sum = ∑ j : Fin n, a.getD j 0 * b.getD j 0 := by
  induction n with
  | zero =>
    intro a b ha hb
    rw [List.length_eq_zero_iff] at ha
    simp [ha]
  | succ n ih =>
    intro a b ha hb
    match a, b, ha, hb with
    | x :: a, y :: b, ha, hb =>
      rw [Fin.sum_univ_succ]
      simp only [List.zipWith_cons_cons, List.sum_cons]
      rw [ih a b (by simpa using ha) (by simpa using hb)]
      simp

/-! ### C57: padding and blocks -/

theorem blocksOf_flatten (k n : Nat) (hk : 0 < k) (msg : List Int) (h : msg.length = n * k) :
    (blocksOf k msg).flatten = msg ∧ (blocksOf k msg).length = n ∧ ∀ m ∈ blocksOf k msg, m.length = k := by
  have hn : msg.length / k = n := by rw [h, Nat.mul_div_cancel _ hk]
  refine ⟨?_, by simp [blocksOf, hn], ?_⟩
  · unfold blocksOf
    rw [hn]
    clear hn
    have : ∀ (q : Nat), q ≤ n → ((List.range q).map (fun b => (msg.drop (b * k)).take k)).flatten = msg.take (q * k) := by
      intro q
      induction q with
      | zero => simp
      | succ q ih =>
        intro hq
        rw [List.range_succ, List.map_append, List.flatten_append, ih (by omega)]
        simp only [List.map_cons, List.map_nil, List.flatten_cons, List.flatten_nil, List.append_nil]
        rw [Nat.add_mul, Nat.one_mul, List.take_add]
    rw [this n le_rfl, List.take_of_length_le (by omega)]
  · intro m hm
    obtain ⟨b, hb, rfl⟩ := List.mem_map.1 hm
    rw [List.mem_range, hn] at hb
    have : (b + 1) * k ≤ n * k := Nat.mul_le_mul_right _ hb
    rw [Nat.add_mul] at this
    simp
    omega

/-- C57: with a block length `k > 0`, `ValueError` exactly when padding is disabled and the length is not a multiple of `k`;
otherwise the message parts of the blocks, put one after the other, are the message followed by fewer than `k` zeros, each
block consisting of `k` message bits followed by `r` parity bits. -/
theorem C57_blocks {r k : Nat} (hk : 0 < k) (G : Matrix (Fin r) (Fin k) ℚ) (msg : List Int) (pad : Bool) :
    (encodeWith G msg pad = .error .valueError ↔ pad = false ∧ ¬ k ∣ msg.length) ∧
    (pad = true ∨ k ∣ msg.length → ∃ blocks z, encodeWith G msg pad = .ok blocks ∧ z < k ∧
      (∀ b ∈ blocks, b.length = k + r) ∧ (blocks.map (List.take k)).flatten = msg ++ List.replicate z 0) := by
  have out : ∀ (msg' : List Int) (q : Nat), msg'.length = q * k → padMessage k msg pad = .ok msg' →
      ∃ blocks, encodeWith G msg pad = .ok blocks ∧ (∀ b ∈ blocks, b.length = k + r) ∧ (blocks.map (List.take k)).flatten = msg' := by
    intro msg' q hq hp
    obtain ⟨h1, h2, h3⟩ := blocksOf_flatten k q hk msg' hq
    refine ⟨_, by simp only [encodeWith, hp]; rfl, ?_, ?_⟩
    · intro b hb
      obtain ⟨m, hm, rfl⟩ := List.mem_map.1 hb
      simp [h3 m hm]
    · rw [List.map_map]
      conv_rhs => rw [← h1]
      congr 1
      conv_rhs => rw [← List.map_id (blocksOf k msg')]
      refine List.map_congr_left fun m hm => ?_
      simp only [Function.comp, id]
      rw [List.take_append_of_le_length (by rw [h3 m hm]), List.take_of_length_le (by rw [h3 m hm])]
  by_cases hd : k ∣ msg.length
  · have hm : msg.length % k = 0 := Nat.mod_eq_zero_of_dvd hd
    obtain ⟨q, hq⟩ := hd
    have hp : padMessage k msg pad = .ok msg := by
      simp only [padMessage]
      rw [if_neg (by omega), if_neg (by simpa using hm)]
    obtain ⟨blocks, hb1, hb2, hb3⟩ := out msg q (by rw [hq, Nat.mul_comm]) hp
    refine ⟨⟨fun h => (by rw [hb1] at h; cases h), fun h => absurd ⟨q, hq⟩ h.2⟩, fun _ => ⟨blocks, 0, hb1, hk, hb2, by simpa using hb3⟩⟩
  · have hm : msg.length % k ≠ 0 := fun h => hd (Nat.dvd_of_mod_eq_zero h)
    have hlt := Nat.mod_lt msg.length hk
    cases pad with
    | false =>
      have : encodeWith G msg false = .error .valueError := by
        simp only [encodeWith, padMessage]
        rw [if_neg (by omega), if_pos hm]
        rfl
      refine ⟨⟨fun _ => ⟨rfl, hd⟩, fun _ => this⟩, fun h => ?_⟩
      rcases h with h | h
      · cases h
      · exact absurd h hd
    | true =>
      have hp : padMessage k msg true = .ok (msg ++ List.replicate (k - msg.length % k) 0) := by
        simp only [padMessage]
        rw [if_neg (by omega), if_pos hm]
        rfl
      obtain ⟨blocks, hb1, hb2, hb3⟩ := out _ (msg.length / k + 1) (by
        rw [List.length_append, List.length_replicate]
        have := Nat.div_add_mod msg.length k
        rw [Nat.add_mul, Nat.one_mul, Nat.mul_comm (msg.length / k)]
        omega) hp
      refine ⟨⟨fun h => (by rw [hb1] at h; cases h), fun h => (by cases h.1)⟩, fun _ => ⟨blocks, _, hb1, ?_, hb2, hb3⟩⟩
      omega

/-! ### C56: parity checks -/

theorem buildParity_len {p : LdpcParams} {rows : List (List Int)} (h : buildParity p = .ok rows) :
    rows.length = p.nc.toNat ∧ ∀ r ∈ rows, r.length = p.nv.toNat := by
  obtain ⟨h1, h2⟩ := mapM_getElem_ok h
  rw [List.length_range] at h1
  refine ⟨h1, fun r hr => ?_⟩
  obtain ⟨i, hi, rfl⟩ := List.getElem_of_mem hr
  have hh := h2 i (by simpa [h1] using hi) hi
  have fold : ∀ (l : List Int) (row out : List Int), l.foldlM (fun row v => pySet row v 1) row = (.ok out : Py _) → out.length = row.length := by
    intro l
    induction l with
    | nil => intro row out h; cases h; rfl
    | cons v l ih =>
      intro row out h
      rw [List.foldlM_cons] at h
      rcases hs : pySet row v (1 : Int) with e | row'
      · rw [hs] at h; cases h
      rw [hs] at h
      rw [ih row' out h]
      simp only [pySet] at hs
      split at hs
      · cases hs; simp
      · cases hs
  rcases ha : pyGet p.cadj ((List.range p.nc.toNat)[i]'(by simpa [h1] using hi) : Int) with e | arow
  · simp only [ha] at hh; cases hh
  simp only [ha, bind, Except.bind] at hh
  rcases hd : pyGet p.cdeg ((List.range p.nc.toNat)[i]'(by simpa [h1] using hi) : Int) with e | deg
  · simp only [hd] at hh; cases hh
  simp only [hd] at hh
  rw [fold _ _ _ hh]
  simp

/-- The core: if `S * g = P` over the integers, then appending `(g m) mod 2` to `m` satisfies all checks `[P | S]`. -/
theorem syndrome_of_integral {r k : Nat} (H : List (List Int)) (hH : H.length = r) (hw : ∀ row ∈ H, row.length = k + r)
    (g : Matrix (Fin r) (Fin k) Int)
    (hg : ∀ (i : Fin r) (j : Fin k), ∑ l : Fin r, (H.getD i []).getD (k + l) 0 * g l j = (H.getD i []).getD j 0)
    (m par : List Int) (hm : m.length = k) (hpl : par.length = r)
    (hp : ∀ i : Fin r, par.getD i 0 = (∑ j : Fin k, g i j * m.getD j 0) % 2) : Syndrome0 H (m ++ par) := by
  intro row hrow
  obtain ⟨i, hi, rfl⟩ := List.getElem_of_mem hrow
  have hget : H.getD i [] = H[i] := List.getD_eq_getElem _ _ hi
  rw [zipWith_sum_fin (k + r) _ _ (hw _ hrow) (by simp [hm, hpl]), Fin.sum_univ_add]
  have e1 : ∀ j : Fin k, (m ++ par).getD (Fin.castAdd r j : Fin (k + r)) 0 = m.getD j 0 := by
    intro j
    simp only [Fin.val_castAdd]
    rw [List.getD_append _ _ _ _ (by omega)]
  have e2 : ∀ j : Fin r, (m ++ par).getD (Fin.natAdd k j : Fin (k + r)) 0 = par.getD j 0 := by
    intro j
    simp only [Fin.val_natAdd]
    rw [List.getD_append_right _ _ _ _ (by omega), hm]
    congr 1
    omega
  rw [Finset.sum_congr (s₁ := Finset.univ (α := Fin k)) rfl (fun j _ => by rw [e1 j, Fin.val_castAdd]),
    Finset.sum_congr (s₁ := Finset.univ (α := Fin r)) rfl (fun j _ => by rw [e2 j, hp j, Fin.val_natAdd])]
  have key : ((∑ l : Fin r, H[i].getD (k + l) 0 * ((∑ j : Fin k, g l j * m.getD j 0) % 2) : Int) : ZMod 2) =
      ((∑ j : Fin k, H[i].getD j 0 * m.getD j 0 : Int) : ZMod 2) := by
    have : ∀ z : Int, ((z % 2 : Int) : ZMod 2) = (z : ZMod 2) := fun z => by
      rw [ZMod.intCast_eq_intCast_iff]
      exact Int.mod_modEq z 2
    rw [Int.cast_sum]
    simp only [Int.cast_mul, this]
    rw [show (∑ l : Fin r, ((H[i].getD (k + l) 0 : Int) : ZMod 2) * ((∑ j : Fin k, g l j * m.getD j 0 : Int) : ZMod 2)) =
      ((∑ l : Fin r, H[i].getD (k + l) 0 * (∑ j : Fin k, g l j * m.getD j 0) : Int) : ZMod 2) by push_cast; rfl]
    congr 1
    simp only [Finset.mul_sum]
    rw [Finset.sum_comm]
    refine Finset.sum_congr rfl fun j _ => ?_
    rw [← hget, ← hg ⟨i, by omega⟩ j, Finset.sum_mul]
    refine Finset.sum_congr rfl fun l _ => by ring
  have hz : ((∑ j : Fin k, H[i].getD j 0 * m.getD j 0 + ∑ l : Fin r, H[i].getD (k + l) 0 * ((∑ j : Fin k, g l j * m.getD j 0) % 2) : Int) : ZMod 2) = 0 := by
    rw [Int.cast_add, key]
    exact CharTwo.add_self_eq_zero _
  have := (ZMod.intCast_zmod_eq_zero_iff_dvd _ 2).1 hz
  omega

theorem sysPart_cast (r n : Nat) (H : List (List Int)) : sysPart r n H = (tailMatrix H r n).map (Int.castRingHom ℚ) := rfl

theorem parPart_cast (r n : Nat) (H : List (List Int)) : parPart r n H = (headMatrix H r n).map (Int.castRingHom ℚ) := rfl

theorem det_sysPart (r n : Nat) (H : List (List Int)) : (sysPart r n H).det = ((tailMatrix H r n).det : ℚ) := by
  rw [sysPart_cast, ← RingHom.mapMatrix_apply, ← RingHom.map_det]
  rfl

theorem encode_integral {r n : Nat} (H : List (List Int)) (hl : H.length = r) (hw : ∀ row ∈ H, row.length = n) (hrn : 0 < r ∧ r < n)
    (hS : (tailMatrix H r n).det ≠ 0) (g : Matrix (Fin r) (Fin (n - r)) Int) (hg : tailMatrix H r n * g = headMatrix H r n)
    (msg : List Int) (hmsg : ∀ x ∈ msg, x = 0 ∨ x = 1) (pad : Bool) (hpad : pad = true ∨ (n - r) ∣ msg.length) :
    ∃ ms z blocks, (generatorMatrix r n H >>= fun G => encodeWith G msg pad) = .ok blocks ∧ ms.flatten = msg ++ List.replicate z 0 ∧
      z < n - r ∧ List.Forall₂ (fun m b => m.length = n - r ∧ SystematicCodeword H n m b) ms blocks := by
  have hG : generatorMatrix r n H = .ok (g.map (Int.castRingHom ℚ)) := by
    simp only [generatorMatrix]
    have hd : (sysPart r n H).det ≠ 0 := by
      rw [det_sysPart]
      exact_mod_cast hS
    rw [if_neg (by omega), if_neg hd]
    congr 1
    have : parPart r n H = sysPart r n H * g.map (Int.castRingHom ℚ) := by
      rw [parPart_cast, ← hg, sysPart_cast, Matrix.map_mul]
    rw [this, ← Matrix.mul_assoc, Matrix.nonsing_inv_mul _ (Ne.isUnit hd), Matrix.one_mul]
  rw [hG]
  show ∃ ms z blocks, encodeWith (g.map (Int.castRingHom ℚ)) msg pad = .ok blocks ∧ _
  clear hG hS
  have hkr : (n - r) + r = n := by omega
  have hg' : ∀ (i : Fin r) (j : Fin (n - r)), ∑ l : Fin r, (H.getD i []).getD (n - r + l) 0 * g l j = (H.getD i []).getD j 0 := by
    intro i j
    have := congrFun (congrFun hg i) j
    rw [Matrix.mul_apply] at this
    exact this
  clear hg
  have hk0 : 0 < n - r := by omega
  generalize n - r = k at *
  obtain ⟨blocks, z, hb1, hz, -, hfl⟩ := (C57_blocks hk0 (g.map (Int.castRingHom ℚ)) msg pad).2 hpad
  simp only [encodeWith] at hb1
  rcases hp : padMessage k msg pad with e | msg'
  · rw [hp] at hb1; cases hb1
  rw [hp] at hb1
  have hb1 := Except.ok.inj hb1
  have hbl : ∃ q, msg'.length = q * k ∧ ∀ x ∈ msg', x = 0 ∨ x = 1 := by
    simp only [padMessage] at hp
    rw [if_neg (by omega)] at hp
    by_cases hm : msg.length % k ≠ 0
    · rw [if_pos hm] at hp
      cases pad with
      | false => cases hp
      | true =>
        have hp := Except.ok.inj hp
        subst hp
        refine ⟨msg.length / k + 1, ?_, ?_⟩
        · rw [List.length_append, List.length_replicate]
          have := Nat.div_add_mod msg.length k
          have := Nat.mod_lt msg.length (hk0)
          rw [Nat.add_mul, Nat.one_mul, Nat.mul_comm (msg.length / k)]
          omega
        · intro x hx
          rcases List.mem_append.1 hx with hx | hx
          · exact hmsg x hx
          · exact Or.inl (List.eq_of_mem_replicate hx)
    · rw [if_neg hm] at hp
      have hp := Except.ok.inj hp
      subst hp
      refine ⟨msg.length / k, ?_, hmsg⟩
      have := Nat.div_add_mod msg.length k
      rw [Nat.mul_comm]
      omega
  obtain ⟨q, hq, hbits⟩ := hbl
  obtain ⟨f1, f2, f3⟩ := blocksOf_flatten k q (by omega) msg' hq
  refine ⟨blocksOf k msg', z, blocks, ?_, ?_, hz, ?_⟩
  · simp only [encodeWith, hp]
    exact congrArg Except.ok hb1
  · rw [← hfl, ← hb1, List.map_map]
    congr 1
    conv_lhs => rw [← List.map_id (blocksOf k msg')]
    refine List.map_congr_left fun m hm => ?_
    simp only [Function.comp, id]
    rw [List.take_append_of_le_length (by rw [f3 m hm]), List.take_of_length_le (by rw [f3 m hm])]
  · rw [← hb1, List.forall₂_map_right_iff, List.forall₂_same]
    intro m hm
    have hml := f3 m hm
    refine ⟨hml, by simp [hml]; omega, ?_, ?_, ?_⟩
    · intro x hx
      rcases List.mem_append.1 hx with hx | hx
      · refine hbits x ?_
        rw [← f1]
        exact List.mem_flatten_of_mem hm hx
      · obtain ⟨i, -, rfl⟩ := List.mem_map.1 hx
        exact parityBit_bit _
    · rw [List.take_append_of_le_length le_rfl, List.take_length]
    · refine syndrome_of_integral H hl (fun row hrow => by rw [hw row hrow, hkr]) g hg' m _ hml (by simp) ?_
      · intro i
        rw [List.getD_eq_getElem _ _ (by simp), List.getElem_map, List.getElem_finRange]
        rw [← parityBit_int]
        congr 1
        push_cast
        rfl

theorem ldpcEncode_eq (p : LdpcParams) {r n : Nat} (hr : p.nc.toNat = r) (hn : p.nv.toNat = n) (H : List (List Int))
    (hb : buildParity p = .ok H) (msg : List Int) (pad : Bool) :
    ldpcEncode p msg pad = (generatorMatrix r n H >>= fun G => encodeWith G msg pad) := by
  subst hr hn
  simp only [ldpcEncode, buildMatrix, hb, bind, Except.bind]
  rcases generatorMatrix p.nc.toNat p.nv.toNat H with e | G <;> rfl

/-- C57 for `triang_ldpc_systematic_encode` itself, for every code whose matrices can be built. -/
theorem C57_encode (p : LdpcParams) (H : List (List Int)) (hb : buildParity p = .ok H) (h1 : 0 < p.nc) (h2 : p.nc < p.nv)
    (hS : (tailMatrix H p.nc.toNat p.nv.toNat).det ≠ 0) (msg : List Int) (pad : Bool) :
    (ldpcEncode p msg pad = .error .valueError ↔ pad = false ∧ ¬ p.nv.toNat - p.nc.toNat ∣ msg.length) ∧
    (pad = true ∨ p.nv.toNat - p.nc.toNat ∣ msg.length → ∃ blocks z, ldpcEncode p msg pad = .ok blocks ∧ z < p.nv.toNat - p.nc.toNat ∧
      (∀ b ∈ blocks, b.length = p.nv.toNat) ∧
      (blocks.map (List.take (p.nv.toNat - p.nc.toNat))).flatten = msg ++ List.replicate z 0) := by
  have hG : ∃ G, generatorMatrix p.nc.toNat p.nv.toNat H = .ok G := by
    simp only [generatorMatrix]
    rw [if_neg (by omega), if_neg (by rw [det_sysPart]; exact_mod_cast hS)]
    exact ⟨_, rfl⟩
  obtain ⟨G, hG⟩ := hG
  have e : ldpcEncode p msg pad = encodeWith G msg pad := by
    rw [ldpcEncode_eq p rfl rfl H hb, hG]; rfl
  obtain ⟨c1, c2⟩ := C57_blocks (by omega) G msg pad
  rw [e]
  refine ⟨c1, fun h => ?_⟩
  obtain ⟨blocks, z, b1, b2, b3, b4⟩ := c2 h
  exact ⟨blocks, z, b1, b2, fun b hbm => by rw [b3 b hbm]; omega, b4⟩

/-- C56 for every code whose last columns form an invertible matrix `S` with `S⁻¹ P` integral (`P` the first columns): every
message of bits is encoded, each block being a word of the code that starts with the message block. -/
theorem C56_integral (p : LdpcParams) (H : List (List Int)) (hb : buildParity p = .ok H)
    (h1 : 0 < p.nc) (h2 : p.nc < p.nv)
    (hS : (tailMatrix H p.nc.toNat p.nv.toNat).det ≠ 0) (g : Matrix (Fin p.nc.toNat) (Fin (p.nv.toNat - p.nc.toNat)) Int)
    (hg : tailMatrix H p.nc.toNat p.nv.toNat * g = headMatrix H p.nc.toNat p.nv.toNat)
    (msg : List Int) (hmsg : ∀ x ∈ msg, x = 0 ∨ x = 1) (pad : Bool)
    (hpad : pad = true ∨ (p.nv.toNat - p.nc.toNat) ∣ msg.length) :
    ∃ ms z blocks, ldpcEncode p msg pad = .ok blocks ∧ ms.flatten = msg ++ List.replicate z 0 ∧ z < p.nv.toNat - p.nc.toNat ∧
      List.Forall₂ (fun m b => m.length = p.nv.toNat - p.nc.toNat ∧ SystematicCodeword H p.nv.toNat m b) ms blocks := by
  obtain ⟨hl, hw⟩ := buildParity_len hb
  rw [ldpcEncode_eq p rfl rfl H hb]
  exact encode_integral H hl hw (by omega) hS g hg msg hmsg pad hpad

/-- C56 for codes whose last columns form a matrix of determinant 1 or -1. -/
theorem C56_unimodular (p : LdpcParams) (H : List (List Int)) (hb : buildParity p = .ok H)
    (h1 : 0 < p.nc) (h2 : p.nc < p.nv)
    (hS : (tailMatrix H p.nc.toNat p.nv.toNat).det = 1 ∨ (tailMatrix H p.nc.toNat p.nv.toNat).det = -1)
    (msg : List Int) (hmsg : ∀ x ∈ msg, x = 0 ∨ x = 1) (pad : Bool)
    (hpad : pad = true ∨ (p.nv.toNat - p.nc.toNat) ∣ msg.length) :
    ∃ ms z blocks, ldpcEncode p msg pad = .ok blocks ∧ ms.flatten = msg ++ List.replicate z 0 ∧ z < p.nv.toNat - p.nc.toNat ∧
      List.Forall₂ (fun m b => m.length = p.nv.toNat - p.nc.toNat ∧ SystematicCodeword H p.nv.toNat m b) ms blocks := by
  have hu : IsUnit (tailMatrix H p.nc.toNat p.nv.toNat).det := Int.isUnit_iff.2 hS
  refine C56_integral p H hb h1 h2 hu.ne_zero
    ((tailMatrix H p.nc.toNat p.nv.toNat)⁻¹ * headMatrix H p.nc.toNat p.nv.toNat) ?_ msg hmsg pad hpad
  rw [← Matrix.mul_assoc, Matrix.mul_nonsing_inv _ hu, Matrix.one_mul]

/-- C56 for triangular codes. -/
theorem C56_triangular (p : LdpcParams) (H : List (List Int)) (hb : buildParity p = .ok H)
    (h1 : 0 < p.nc) (h2 : p.nc < p.nv) (hT : LowerTriangularTail H p.nv.toNat ∨ UpperTriangularTail H p.nv.toNat)
    (msg : List Int) (hmsg : ∀ x ∈ msg, x = 0 ∨ x = 1) (pad : Bool)
    (hpad : pad = true ∨ (p.nv.toNat - p.nc.toNat) ∣ msg.length) :
    ∃ ms z blocks, ldpcEncode p msg pad = .ok blocks ∧ ms.flatten = msg ++ List.replicate z 0 ∧ z < p.nv.toNat - p.nc.toNat ∧
      List.Forall₂ (fun m b => m.length = p.nv.toNat - p.nc.toNat ∧ SystematicCodeword H p.nv.toNat m b) ms blocks := by
  refine C56_unimodular p H hb h1 h2 (Or.inl ?_) msg hmsg pad hpad
  obtain ⟨hl, -⟩ := buildParity_len hb
  rcases hT with hT | hT
  · rw [Matrix.det_of_isLowerTriangular]
    · refine Finset.prod_eq_one fun i _ => ?_
      have := hT i (by omega) i (by omega) le_rfl
      rw [hl, if_pos rfl] at this
      exact this
    · intro i j hij
      replace hij : i < j := hij
      have := hT i (by omega) j (by omega) (le_of_lt hij)
      rw [hl, if_neg (by have := Fin.lt_def.1 hij; omega)] at this
      exact this
  · rw [Matrix.det_of_isUpperTriangular]
    · refine Finset.prod_eq_one fun i _ => ?_
      have := hT i (by omega) i (by omega) le_rfl
      rw [hl, if_pos rfl] at this
      exact this
    · intro i j hij
      replace hij : j < i := hij
      have := hT i (by omega) j (by omega) (le_of_lt hij)
      rw [hl, if_neg (by have := Fin.lt_def.1 hij; omega)] at this
      exact this

/-- A singular matrix of last columns: RuntimeError. -/
theorem C56_singular (p : LdpcParams) (H : List (List Int)) (hb : buildParity p = .ok H) (h1 : 0 < p.nc) (h2 : p.nc ≤ p.nv)
    (hS : (tailMatrix H p.nc.toNat p.nv.toNat).det = 0) (msg : List Int) (pad : Bool) :
    ldpcEncode p msg pad = .error .runtimeError := by
  rw [ldpcEncode_eq p rfl rfl H hb]
  simp only [generatorMatrix]
  rw [if_neg (by omega), if_pos (by rw [det_sysPart, hS]; rfl)]
  rfl

/-- The code with checks 110 and 011 (read from its design file): the message 1, 0 is encoded as 111, 000. -/
example : ∃ txt p, writeLdpc 3 [[1, 1, 0], [0, 1, 1]] = .ok txt ∧ getLdpc txt = .ok p ∧
    ∃ ms z blocks, ldpcEncode p [1, 0] false = .ok blocks ∧ ms.flatten = [1, 0] ++ List.replicate z 0 ∧ z < 1 ∧
      List.Forall₂ (fun m b => m.length = 1 ∧ SystematicCodeword [[1, 1, 0], [0, 1, 1]] 3 m b) ms blocks := by
  obtain ⟨txt, p, h1, h2, h3, h4, -, -, h5⟩ := C54_roundtrip 3 [[1, 1, 0], [0, 1, 1]] (by simp) (by decide) (by decide) (by decide) (by decide)
  have e1 : p.nc = 2 := h4
  have e2 : p.nv = 3 := h3
  have := C56_triangular p _ h5 (by omega) (by omega) (Or.inl (by rw [e2]; unfold LowerTriangularTail; decide)) [1, 0] (by decide) false
    (Or.inr (by rw [e1, e2]; decide))
  rw [e1, e2] at this
  exact ⟨txt, p, h1, h2, this⟩

/-- The inverse of the last four columns of the code below. -/
def exInv : Matrix (Fin 4) (Fin 4) ℚ := fun i j => 1 / 3 - if (i : Nat) + j = 3 then 1 else 0

def exCode : List (List Int) := [[1, 1, 1, 1, 0], [0, 1, 1, 0, 1], [0, 1, 0, 1, 1], [0, 0, 1, 1, 1]]

theorem exCode_gen : generatorMatrix 4 5 exCode = .ok (exInv * parPart 4 5 exCode) := by
  have h : sysPart 4 5 exCode * exInv = 1 := by
    ext i j
    rw [Matrix.mul_apply, Fin.sum_univ_four]
    fin_cases i <;> fin_cases j <;> norm_num [sysPart, exInv, exCode, Matrix.one_apply]
  have hd : (sysPart 4 5 exCode).det ≠ 0 := by
    intro h0
    have := congrArg Matrix.det h
    rw [Matrix.det_mul, h0, zero_mul, Matrix.det_one] at this
    exact zero_ne_one this
  simp only [generatorMatrix]
  rw [if_neg (by omega), if_neg hd, Matrix.inv_eq_right_inv h]

/-- C56 is false in general: for the code with the checks 11110, 01101, 01011, 00111 (read back from its design file) the
message of the single bit 1 is encoded as 10001, which violates all the checks, although 11110 is a word of the code. -/
theorem C56_refuted : ∃ (p : LdpcParams),
    (∃ txt, writeLdpc 5 [[1, 1, 1, 1, 0], [0, 1, 1, 0, 1], [0, 1, 0, 1, 1], [0, 0, 1, 1, 1]] = .ok txt ∧ getLdpc txt = .ok p) ∧
    buildParity p = .ok exCode ∧ ldpcEncode p [1] true = .ok [[1, 0, 0, 0, 1]] ∧
    ¬ Syndrome0 exCode [1, 0, 0, 0, 1] ∧ Syndrome0 exCode [1, 1, 1, 1, 0] := by
  obtain ⟨txt, p, h1, h2, h3, h4, -, -, h5⟩ := C54_roundtrip 5 [[1, 1, 1, 1, 0], [0, 1, 1, 0, 1], [0, 1, 0, 1, 1], [0, 0, 1, 1, 1]]
    (by simp) (by decide) (by decide) (by decide) (by decide)
  refine ⟨p, ⟨txt, h1, h2⟩, h5, ?_, ?_⟩
  · rw [ldpcEncode_eq p (r := 4) (n := 5) (by rw [h4]; rfl) (by rw [h3]; rfl) exCode h5, exCode_gen]
    show encodeWith (exInv * parPart 4 5 exCode) [1] true = _
    have hq : ∀ i : Fin 4, (exInv * parPart 4 5 exCode) i 0 = if (i : Nat) = 3 then -2 / 3 else 1 / 3 := by
      intro i
      rw [Matrix.mul_apply, Fin.sum_univ_four]
      fin_cases i <;> norm_num [parPart, exInv, exCode]
    generalize exInv * parPart 4 5 exCode = M at hq
    revert M
    show ∀ M : Matrix (Fin 4) (Fin 1) ℚ, _
    intro M hq
    have f1 : ⌊(1 / 3 : ℚ) / 2⌋ = 0 := by norm_num [Int.floor_eq_iff]
    have f2 : ⌊(-2 / 3 : ℚ) / 2⌋ = -1 := by norm_num [Int.floor_eq_iff]
    have b1 : parityBit (1 / 3) = 0 := by
      unfold parityBit
      rw [f1]
      norm_num [Int.floor_eq_iff]
    have b2 : parityBit (-2 / 3) = 1 := by
      unfold parityBit
      rw [f2]
      norm_num [Int.floor_eq_iff]
    show (.ok [[1] ++ (List.finRange 4).map (fun i => parityBit (∑ j : Fin 1, M i j * (([(1 : Int)].getD j 0 : Int) : ℚ)))] : Py _) = _
    have : ∀ i : Fin 4, (∑ j : Fin 1, M i j * (([(1 : Int)].getD j 0 : Int) : ℚ)) = M i 0 := by
      intro i
      simp
    simp only [this]
    have hl : (List.finRange 4).map (fun i => parityBit (M i 0)) = [parityBit (M 0 0), parityBit (M 1 0), parityBit (M 2 0), parityBit (M 3 0)] := rfl
    rw [hl, hq 0, hq 1, hq 2, hq 3]
    rw [if_neg (by decide), if_neg (by decide), if_neg (by decide), if_pos (by decide), b1, b2]
    rfl
  · unfold Syndrome0 exCode
    decide

end Verif
