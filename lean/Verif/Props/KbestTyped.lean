import Verif.Model.KbestTyped
import Verif.Props.Kbest
/-
C150: for which types of arguments `kbest` detects.
-/
namespace Verif
open Finset

section
variable {argsort : List ℝ → List Nat} {qr : (Nat → Nat → ℂ) → (Nat → Nat → ℂ) × (Nat → Nat → ℂ)} {rows cols : Nat} {h : Nat → Nat → ℂ} {c : List ℂ} {K : Nat}

/-- C150 (what is true): with a complex received vector or channel and a constellation whose first point has the Python type complex, and with constellations of real points if
the first does not, the types make no difference, and with enough candidates the result is a maximum likelihood decision. -/
theorem C150_ml_partial (hsort : ∀ l, IsArgsort l (argsort l)) (hqr : IsQR rows cols h (qr h).1 (qr h).2) (hrc : cols ≤ rows) (hc : c ≠ []) (hK : c.length ^ (cols - 1) ≤ K)
    {realInput firstComplex : Bool} (ht : (realInput = false ∧ firstComplex = true) ∨ (firstComplex = false ∧ ∀ z ∈ c, z.im = 0)) (junk y : Nat → ℂ) (nv : ℝ) (demode : List ℂ → List Nat) :
    ∃ x, kbestTyped realInput firstComplex argsort qr junk rows cols y h c K nv "hard" demode = .ok (.inl x) ∧ IsML rows cols y h c x := by
  obtain ⟨x, h1, h2⟩ := C69_ml (qr := qr) hsort hqr hrc hc hK junk y nv demode
  refine ⟨x, ?_, h2⟩
  unfold kbestTyped
  rw [if_neg (by omega), if_neg hc]
  rcases ht with ⟨rfl, rfl⟩ | ⟨rfl, him⟩
  · rw [if_neg (by simp)]
    exact h1
  · rw [if_neg (by simp)]
    have : hypPoints false c = c := by
      unfold hypPoints
      simp only [Bool.false_eq_true, if_false]
      have e : ∀ z ∈ c, ((z.re : ℝ) : ℂ) = z := fun z hz => Complex.ext (by simp) (by simp [him z hz])
      rw [List.map_congr_left e, List.map_id']
    rw [this]
    exact h1

/-- C150 (refuted): if the first point is not of the Python type complex (an integer or float in a list of mixed numbers, or any array of numpy.complex64), the imaginary parts of
all points are dropped without an exception: with enough candidates, the result is the maximum likelihood decision for the real parts. -/
theorem C150_real_parts (hsort : ∀ l, IsArgsort l (argsort l)) (hqr : IsQR rows cols h (qr h).1 (qr h).2) (hrc : cols ≤ rows) (hc : c ≠ []) (hK : c.length ^ (cols - 1) ≤ K)
    (realInput : Bool) (junk y : Nat → ℂ) (nv : ℝ) (demode : List ℂ → List Nat) :
    ∃ x, kbestTyped realInput false argsort qr junk rows cols y h c K nv "hard" demode = .ok (.inl x) ∧ IsML rows cols y h (c.map fun z => ((z.re : ℝ) : ℂ)) x := by
  obtain ⟨x, h1, h2⟩ := C69_ml (qr := qr) (c := c.map fun z => ((z.re : ℝ) : ℂ)) hsort hqr hrc (by simpa using hc) (by simpa using hK) junk y nv demode
  refine ⟨x, ?_, h2⟩
  unfold kbestTyped
  rw [if_neg (by omega), if_neg hc, if_neg (by simp)]
  simpa [hypPoints] using h1

/-- C150: in particular no symbol with an imaginary part is ever detected, whatever is received and however many candidates are kept. -/
theorem C150_no_imaginary (hsort : ∀ l, IsArgsort l (argsort l)) (hrc : cols ≤ rows) (hc : c ≠ []) (hK : 1 ≤ K) (realInput : Bool) (junk y : Nat → ℂ) (nv : ℝ) (demode : List ℂ → List Nat) :
    ∃ x, kbestTyped realInput false argsort qr junk rows cols y h c K nv "hard" demode = .ok (.inl x) ∧ x.length = cols ∧ ∀ z ∈ x, z.im = 0 := by
  obtain ⟨x, h1, h2⟩ := C69_valid (qr := qr) (h := h) (c := c.map fun z => ((z.re : ℝ) : ℂ)) hsort hrc (by simpa using hc) hK junk y nv demode
  refine ⟨x, ?_, h2.1, fun z hz => ?_⟩
  · unfold kbestTyped
    rw [if_neg (by omega), if_neg hc, if_neg (by simp)]
    simpa [hypPoints] using h1
  · obtain ⟨w, -, rfl⟩ := List.mem_map.1 (h2.2 z hz)
    exact Complex.ofReal_im _

/-- C150 (refuted): with real arrays `h` and `y`, a constellation of Python complex numbers raises TypeError, even if all its points are real. -/
theorem C150_type_error (hrc : cols ≤ rows) (hcols : 1 ≤ cols) (hc : c ≠ []) (junk y : Nat → ℂ) (nv : ℝ) (out : String) (demode : List ℂ → List Nat) :
    kbestTyped true true argsort qr junk rows cols y h c K nv out demode = .error .typeError := by
  unfold kbestTyped
  rw [if_neg (by omega), if_neg hc, if_pos ⟨rfl, rfl, hcols⟩]

/-- C150: wrong shapes and an empty constellation are refused as before. -/
theorem C150_refused (realInput firstComplex : Bool) (junk y : Nat → ℂ) (nv : ℝ) (out : String) (demode : List ℂ → List Nat) :
    (rows < cols → kbestTyped realInput firstComplex argsort qr junk rows cols y h c K nv out demode = .error .valueError) ∧
      (cols ≤ rows → kbestTyped realInput firstComplex argsort qr junk rows cols y h [] K nv out demode = .error .indexError) := by
  constructor
  · intro hlt
    unfold kbestTyped
    rw [if_pos hlt]
  · intro hle
    unfold kbestTyped
    rw [if_neg (by omega), if_pos rfl]

end

/-- QPSK given as a list that starts with the integer 1, no noise: what is sent as `i` is not detected, while `mimo_ml` is right (C68). -/
theorem C150_refuted {argsort : List ℝ → List Nat} (hsort : ∀ l, IsArgsort l (argsort l)) (K : Nat) (hK : 1 ≤ K) (junk : Nat → ℂ) :
    ∃ x, kbestTyped false false argsort (fun h => (fun i j => if i = j then 1 else 0, h)) junk 1 1 (fun _ => Complex.I) (fun _ _ => 1) [1, Complex.I, -1, -Complex.I] K 0 "hard" (fun _ => []) =
      .ok (.inl x) ∧ x ≠ [Complex.I] := by
  obtain ⟨x, h1, -, h3⟩ := C150_no_imaginary (argsort := argsort) (qr := fun h => (fun i j => if i = j then 1 else 0, h)) (rows := 1) (cols := 1) (h := fun _ _ => 1)
    (c := [1, Complex.I, -1, -Complex.I]) hsort le_rfl (by simp) hK false junk (fun _ => Complex.I) 0 (fun _ => [])
  refine ⟨x, h1, ?_⟩
  rintro rfl
  have := h3 Complex.I (by simp)
  simp at this

/-- BPSK given as floats with real arrays: the hypotheses of `C150_ml_partial` are met. -/
example : ∃ x, kbestTyped true false someArgsort (fun h => (fun i j => if i = j then 1 else 0, h)) (fun _ => 7) 1 1 (fun _ => 3) (fun _ _ => 1) [1, -1] 1 0 "hard" (fun _ => []) = .ok (.inl x) ∧
    IsML 1 1 (fun _ => 3) (fun _ _ => 1) [1, -1] x := by
  refine C150_ml_partial someArgsort_spec ?_ le_rfl (by simp) (by norm_num) (Or.inr ⟨rfl, by simp⟩) _ _ _ _
  constructor
  · intro i hi j hj
    interval_cases i; interval_cases j; simp
  · intro a ha b hb
    interval_cases a; interval_cases b; simp
  · intro i hi j hj
    omega

end Verif
