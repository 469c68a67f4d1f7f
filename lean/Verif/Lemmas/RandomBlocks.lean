import Mathlib.Probability.Independence.InfinitePi
import Mathlib.Probability.IdentDistrib
/-
Blocks of independent draws are independent, and identically distributed when the draws are.
-/
namespace Verif
open MeasureTheory ProbabilityTheory Measure

variable {Ω β K : Type*} [MeasurableSpace Ω] [MeasurableSpace β] [Countable K] {P : Measure Ω} {X : ℕ → K → Ω → β}

/-- The rows of a family of independent draws are independent. -/
theorem rows_indep (mX : ∀ i k, AEMeasurable (X i k) P) (h : iIndepFun (fun (p : (_ : ℕ) × K) ω => X p.1 p.2 ω) P) :
    iIndepFun (fun i ω k => X i k ω) P := by
  have := h.isProbabilityMeasure
  have : ∀ i k, IsProbabilityMeasure (P.map (X i k)) := fun i k => isProbabilityMeasure_map (mX i k)
  have hrow : ∀ i, AEMeasurable (fun ω k => X i k ω) P := fun i => aemeasurable_pi_iff.2 (mX i)
  have hall : AEMeasurable (fun ω (p : (_ : ℕ) × K) => X p.1 p.2 ω) P := aemeasurable_pi_iff.2 fun p => mX p.1 p.2
  rw [iIndepFun_iff_map_fun_eq_infinitePi_map₀' hrow]
  have e1 : (MeasurableEquiv.piCurry fun (_ : ℕ) (_ : K) => β) ∘ (fun ω (p : (_ : ℕ) × K) => X p.1 p.2 ω) = fun ω i k => X i k ω := by
    ext; simp [Sigma.curry]
  have hm := iIndepFun.map_fun_eq_infinitePi_map₀' (X := fun (p : (_ : ℕ) × K) ω => X p.1 p.2 ω) (fun p => mX p.1 p.2) h
  rw [← e1, ← AEMeasurable.map_map_of_aemeasurable (by fun_prop) hall, hm,
    infinitePi_map_piCurry (fun i k => P.map (X i k))]
  congr 1
  funext i
  have hi : iIndepFun (fun k => X i k) P := h.precomp (g := fun k => (⟨i, k⟩ : (_ : ℕ) × K)) (by
    intro a b hab
    simpa using hab)
  rw [hi.map_fun_eq_infinitePi_map₀' (mX i)]

/-- Rows with the same distributions entry by entry are identically distributed. -/
theorem rows_ident (mX : ∀ i k, AEMeasurable (X i k) P) (h : iIndepFun (fun (p : (_ : ℕ) × K) ω => X p.1 p.2 ω) P)
    (hlaw : ∀ i k, P.map (X i k) = P.map (X 0 k)) (i : ℕ) : IdentDistrib (fun ω k => X i k ω) (fun ω k => X 0 k ω) P P := by
  have := h.isProbabilityMeasure
  have hrow : ∀ i, AEMeasurable (fun ω k => X i k ω) P := fun i => aemeasurable_pi_iff.2 (mX i)
  have hi : ∀ i, iIndepFun (fun k => X i k) P := fun i => h.precomp (g := fun k => (⟨i, k⟩ : (_ : ℕ) × K)) (by
    intro a b hab
    simpa using hab)
  refine ⟨hrow i, hrow 0, ?_⟩
  rw [(hi i).map_fun_eq_infinitePi_map₀' (mX i), (hi 0).map_fun_eq_infinitePi_map₀' (mX 0)]
  congr 1
  funext k
  exact hlaw i k

/-- The same for a function of the rows. -/
theorem blocks_iid {γ : Type*} [MeasurableSpace γ] (mX : ∀ i k, AEMeasurable (X i k) P) (h : iIndepFun (fun (p : (_ : ℕ) × K) ω => X p.1 p.2 ω) P)
    (hlaw : ∀ i k, P.map (X i k) = P.map (X 0 k)) {F : (K → β) → γ} (hF : Measurable F) :
    iIndepFun (fun i ω => F fun k => X i k ω) P ∧ ∀ i, IdentDistrib (fun ω => F fun k => X i k ω) (fun ω => F fun k => X 0 k ω) P P :=
  ⟨(rows_indep mX h).comp (fun _ => F) fun _ => hF, fun i => (rows_ident mX h hlaw i).comp hF⟩

end Verif
