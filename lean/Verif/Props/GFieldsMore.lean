import Verif.Props.GFields
/-
Property C25, complete description of `power_to_tuple`.
-/
namespace Verif

/-- C25: what `power_to_tuple` returns for every array of exponents, `1 ≤ m ≤ 16`: the field element `x^i` for exponents up to 62 (also
those above `2^m - 2`), the value `-2^63` (not a field element) for 63, and the zero element from 64 on. -/
theorem C25_power_to_tuple_exact {m : Nat} (h1 : 1 ≤ m) (h2 : m ≤ 16) {e : List Nat} (hne : e ≠ []) {g : GF} (hg : IsGF m e g) :
    ∃ r : List Int, g.powerToTuple = .ok r ∧ r.length = e.length ∧ ∀ j < e.length,
      (e.getD j 0 ≤ 62 → ∃ a : Nat, r.getD j 0 = a ∧ a < 2 ^ m ∧
        AdjoinRoot.mk (toPoly g.primPoly) (toPoly a) = AdjoinRoot.mk (toPoly g.primPoly) (Polynomial.X ^ (e.getD j 0))) ∧
      (e.getD j 0 = 63 → r.getD j 0 = -2 ^ 63) ∧ (64 ≤ e.getD j 0 → r.getD j 0 = 0) := by
  rw [isGF_iff h2 hne] at hg
  subst hg
  have ht := tableRow h1 h2
  have hp := ht.isModulus
  set p := primpolyArray.getD m 0 with hpd
  have key : ∀ i : Nat, ∃ v : Int, (if int64Pow2 i < 2 ^ m then (.ok (int64Pow2 i) : Py Int)
      else (polydivide (int64Pow2 i).toNat p).map Int.ofNat) = .ok v ∧
      (i ≤ 62 → ∃ a : Nat, v = a ∧ a < 2 ^ m ∧ gfElem p a = AdjoinRoot.root (toPoly p) ^ i) ∧ (i = 63 → v = -2 ^ 63) ∧ (64 ≤ i → v = 0) := by
    intro i
    have hpow : (0 : Int) < 2 ^ m := by positivity
    rcases Nat.lt_or_ge i 63 with hi | hi
    · obtain ⟨r, h3, h4, h5⟩ := powerToTuple_elem (i := i) hp (by omega)
      exact ⟨r, h3, fun _ => ⟨r, rfl, h4, h5⟩, fun h => by omega, fun h => by omega⟩
    · rcases Nat.eq_or_lt_of_le hi with hi | hi
      · have : int64Pow2 i = -2 ^ 63 := by unfold int64Pow2; rw [if_neg (by omega), if_pos hi.symm]
        rw [this, if_pos (by omega)]
        exact ⟨_, rfl, fun h => by omega, fun _ => rfl, fun h => by omega⟩
      · have : int64Pow2 i = 0 := by unfold int64Pow2; rw [if_neg (by omega), if_neg (by omega)]
        rw [this, if_pos hpow]
        exact ⟨_, rfl, fun h => by omega, fun h => by omega, fun _ => rfl⟩
  choose f hf using key
  refine ⟨e.map f, ?_, by simp, ?_⟩
  · simp only [GF.powerToTuple, GF.elems, bind, Except.bind]
    exact mapM_ok _ (fun i _ => (hf i).1)
  · intro j hj
    rw [List.getD_eq_getElem _ _ hj, List.getD_eq_getElem _ _ (by simpa using hj), List.getElem_map]
    obtain ⟨-, k1, k2, k3⟩ := hf e[j]
    refine ⟨fun h => ?_, k2, k3⟩
    obtain ⟨a, a1, a2, a3⟩ := k1 h
    refine ⟨a, a1, a2, ?_⟩
    rw [map_pow, AdjoinRoot.mk_X]
    exact a3

/-- For m = 7 the exponents 5, 62, 63, 64: two elements, then the wrap-around. -/
example : ∃ g, IsGF 7 [5, 62, 63, 64] g ∧ g.powerToTuple = .ok [32, 5, -2 ^ 63, 0] := by
  refine ⟨_, rfl, ?_⟩; decide +kernel

end Verif
