import Verif.Lemmas.GFPrim
import Verif.Lemmas.Lists
/- Elementary facts about the GF objects of the model. -/
namespace Verif

open Polynomial

theorem primpolyArray_get {m : Nat} (hm : m ≤ 16) : pyGet primpolyArray (m : Int) = .ok (primpolyArray.getD m 0) := by
  have h : m < primpolyArray.length := by simp [primpolyArray]; omega
  rw [pyGet_ok h, List.getD_eq_getElem _ _ h]

theorem GF.init_arr {m : Nat} (hm : m ≤ 16) {l : List Nat} (hl : l ≠ []) :
    GF.init (.arr l) m = .ok ⟨m, primpolyArray.getD m 0, some l⟩ := by
  have : 1 ≤ l.length := List.length_pos_iff.2 hl
  simp [GF.init, primpolyArray_get hm, bind, Except.bind, pure, Except.pure, this]

theorem GF.init_int {m : Nat} (hm : m ≤ 16) {n : Nat} (hn : n < 2 ^ m) :
    GF.init (.int n) m = .ok ⟨m, primpolyArray.getD m 0, some [n]⟩ := by
  simp [GF.init, primpolyArray_get hm, bind, Except.bind, pure, Except.pure, hn]

theorem tableRow {m : Nat} (h1 : 1 ≤ m) (h2 : m ≤ 16) : TableRow m (primpolyArray.getD m 0) := ⟨h1, h2, rfl⟩

/-- Product of two field elements as a total function. -/
def mulE (m p x y : Nat) : Nat :=
  match polymultiply x y m p with
  | .ok r => r
  | .error _ => 0

theorem mulE_spec {m p x y : Nat} (hp : IsModulus m p) (hx : x < 2 ^ m) (hy : y < 2 ^ m) :
    polymultiply x y m p = .ok (mulE m p x y) ∧ mulE m p x y < 2 ^ m ∧
    gfElem p (mulE m p x y) = gfElem p x * gfElem p y := by
  obtain ⟨r, h1, h2, h3⟩ := polymultiply_gf hp hx hy
  have : mulE m p x y = r := by simp [mulE, h1]
  rw [this]; exact ⟨h1, h2, h3⟩

theorem gf_mul_ok {m : Nat} (h1 : 1 ≤ m) (h2 : m ≤ 16) {a b : List Nat} (ha : ∀ x ∈ a, x < 2 ^ m) (hb : ∀ x ∈ b, x < 2 ^ m)
    (hne : a ≠ []) (hl : a.length = b.length) :
    GF.mul ⟨m, primpolyArray.getD m 0, some a⟩ ⟨m, primpolyArray.getD m 0, some b⟩ =
      .ok ⟨m, primpolyArray.getD m 0, some (List.zipWith (mulE m (primpolyArray.getD m 0)) a b)⟩ := by
  have hp := (tableRow h1 h2).isModulus
  have hm : (a.zip b).mapM (fun (p : Nat × Nat) => polymultiply p.1 p.2 m (primpolyArray.getD m 0)) =
      .ok (List.zipWith (mulE m (primpolyArray.getD m 0)) a b) := by
    rw [mapM_ok (g := fun p : Nat × Nat => mulE m (primpolyArray.getD m 0) p.1 p.2)]
    · rw [List.zip, List.map_zipWith]
    · rintro ⟨x, y⟩ hxy
      obtain ⟨h3, h4⟩ := List.of_mem_zip hxy
      exact (mulE_spec hp (ha _ h3) (hb _ h4)).1
  have hz : List.zipWith (mulE m (primpolyArray.getD m 0)) a b ≠ [] := by
    intro h
    have := congrArg List.length h
    simp only [List.length_zipWith, List.length_nil] at this
    have h0 := List.length_pos_iff.2 hne
    omega
  rw [GF.mul]
  simp only [GF.elems, bind, Except.bind, hl, if_true]
  rw [hm]
  simp only [GF.init_arr h2 hz]

end Verif
