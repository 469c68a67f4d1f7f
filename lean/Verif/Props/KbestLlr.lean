import Verif.Props.KbestSoft
import Verif.Props.OptimalReceiver
/-
C149: the soft outputs of `kbest` against the exact log-likelihood ratios.
-/
namespace Verif
open Finset

/-- The label vectors whose word has value `v` at position `k`. -/
noncomputable def labelSet (c : List ℂ) (N : Nat) (word : List ℂ → List Nat) (k v : Nat) : Finset (Fin N → Fin c.length) :=
  univ.filter fun f => (word (labelVector c f)).getD k 0 = v

/-- Specification: total likelihood of these vectors, Gaussian noise of variance `nv` per real dimension. -/
noncomputable def vectorMass (rows : Nat) (y : Nat → ℂ) (h : Nat → Nat → ℂ) (nv : ℝ) (c : List ℂ) (N : Nat) (word : List ℂ → List Nat) (k v : Nat) : ℝ :=
  ∑ f ∈ labelSet c N word k v, Real.exp (-sqErr rows y h (labelVector c f) / (2 * nv))

theorem labelSet_least (rows : Nat) (y : Nat → ℂ) (h : Nat → Nat → ℂ) {c : List ℂ} {N : Nat} {word : List ℂ → List Nat} {k v : Nat} (hn : (labelSet c N word k v).Nonempty) :
    ∃ d, IsLeast (vecDist rows N y h c word k v) d := by
  obtain ⟨f, hf, hmin⟩ := exists_min_image (labelSet c N word k v) (fun f => sqErr rows y h (labelVector c f)) hn
  refine ⟨_, ⟨labelVector c f, labelVector_isVector c f, (mem_filter.1 hf).2, rfl⟩, ?_⟩
  rintro d ⟨x, hx, h1, rfl⟩
  obtain ⟨g, rfl⟩ := exists_labelVector hx
  exact hmin g (mem_filter.2 ⟨mem_univ _, h1⟩)

theorem vectorMass_bounds {rows : Nat} {y : Nat → ℂ} {h : Nat → Nat → ℂ} {nv : ℝ} (hnv : 0 < nv) {c : List ℂ} {N : Nat} {word : List ℂ → List Nat} {k v : Nat} {d : ℝ}
    (hd : IsLeast (vecDist rows N y h c word k v) d) :
    -d / (2 * nv) ≤ Real.log (vectorMass rows y h nv c N word k v) ∧
      Real.log (vectorMass rows y h nv c N word k v) ≤ -d / (2 * nv) + Real.log (labelSet c N word k v).card := by
  obtain ⟨⟨x, hx, hb, rfl⟩, hmin⟩ := hd
  obtain ⟨f, rfl⟩ := exists_labelVector hx
  have hmem : f ∈ labelSet c N word k v := mem_filter.2 ⟨mem_univ _, hb⟩
  have hcard : (0 : ℝ) < (labelSet c N word k v).card := by exact_mod_cast card_pos.2 ⟨f, hmem⟩
  have hlow : Real.exp (-sqErr rows y h (labelVector c f) / (2 * nv)) ≤ vectorMass rows y h nv c N word k v :=
    single_le_sum (f := fun f => Real.exp (-sqErr rows y h (labelVector c f) / (2 * nv))) (fun _ _ => (Real.exp_pos _).le) hmem
  have hpos : 0 < vectorMass rows y h nv c N word k v := lt_of_lt_of_le (Real.exp_pos _) hlow
  constructor
  · rw [Real.le_log_iff_exp_le hpos]; exact hlow
  · rw [Real.log_le_iff_le_exp hpos, Real.exp_add, Real.exp_log hcard, mul_comm, ← nsmul_eq_mul]
    apply sum_le_card_nsmul
    intro q hq
    apply Real.exp_le_exp.2
    apply div_le_div_of_nonneg_right _ (by positivity)
    exact neg_le_neg (hmin ⟨_, labelVector_isVector c q, (mem_filter.1 hq).2, rfl⟩)

/-- C149, accuracy: with `K ≥ len(constellation) ** nb_tx` every soft output differs from the exact log-likelihood ratio `log (P(bit = 0 | y) / P(bit = 1 | y))` of equally likely
vectors in Gaussian noise of variance `nv` per real dimension by at most the logarithm of the number of vectors with bit 0 (below) and with bit 1 (above). -/
theorem C149_gap {argsort : List ℝ → List Nat} {qr : (Nat → Nat → ℂ) → (Nat → Nat → ℂ) × (Nat → Nat → ℂ)} {rows cols : Nat} {h : Nat → Nat → ℂ} {c : List ℂ} {K : Nat}
    (hsort : ∀ l, IsArgsort l (argsort l)) (hrc : cols ≤ rows) (hc : c ≠ []) (hK : c.length ^ cols ≤ K) (junk y : Nat → ℂ) {nv : ℝ} (hnv : 0 < nv) {nb : Nat}
    {word : List ℂ → List Nat} (hw : ∀ x, IsVector c cols x → (word x).length = nb) {demode : List ℂ → List Nat}
    (hdem : ∀ xs : List (List ℂ), (∀ x ∈ xs, IsVector c cols x) → demode xs.flatten = (xs.map word).flatten) :
    ∃ llr, kbest argsort qr junk rows cols y h c K nv "soft" demode = .ok (.inr llr) ∧ llr.length = nb ∧ ∀ k < nb,
      (labelSet c cols word k 0).Nonempty → (labelSet c cols word k 1).Nonempty → ∃ r : ℝ, llr.getD k 0 = (r : EReal) ∧
        Real.log (vectorMass rows y h nv c cols word k 0 / vectorMass rows y h nv c cols word k 1) - Real.log (labelSet c cols word k 0).card ≤ r ∧
        r ≤ Real.log (vectorMass rows y h nv c cols word k 0 / vectorMass rows y h nv c cols word k 1) + Real.log (labelSet c cols word k 1).card := by
  obtain ⟨llr, he, hl, hv⟩ := C149_values (qr := qr) (h := h) hsort hrc hc hK junk y hnv hw hdem
  refine ⟨llr, he, hl, fun k hk h0 h1 => ?_⟩
  obtain ⟨d0, hd0⟩ := labelSet_least rows y h h0
  obtain ⟨d1, hd1⟩ := labelSet_least rows y h h1
  obtain ⟨a0, b0⟩ := vectorMass_bounds hnv hd0
  obtain ⟨a1, b1⟩ := vectorMass_bounds hnv hd1
  have p0 : 0 < vectorMass rows y h nv c cols word k 0 := sum_pos (fun _ _ => Real.exp_pos _) h0
  have p1 : 0 < vectorMass rows y h nv c cols word k 1 := sum_pos (fun _ _ => Real.exp_pos _) h1
  refine ⟨_, (hv k hk).1 d0 d1 hd0 hd1, ?_⟩
  rw [Real.log_div p0.ne' p1.ne']
  have e : (d1 - d0) / (2 * nv) = -d0 / (2 * nv) - -d1 / (2 * nv) := by ring
  rw [e]
  constructor <;> linarith

/-- Two antennas, BPSK: half of the four vectors have each bit, so the values are within `log 2` of the exact ones. -/
example (c : List ℂ) (hcc : c = [1, -1]) (k : Nat) (hk : k < 2) : (labelSet c 2 (fun x => x.map fun z => if z = 1 then 0 else 1) k 0).Nonempty ∧
    (labelSet c 2 (fun x => x.map fun z => if z = 1 then 0 else 1) k 1).Nonempty := by
  subst hcc
  have hn : (-1 : ℂ) ≠ 1 := by norm_num
  refine ⟨⟨fun _ => ⟨0, by simp⟩, mem_filter.2 ⟨mem_univ _, ?_⟩⟩, ⟨fun _ => ⟨1, by simp⟩, mem_filter.2 ⟨mem_univ _, ?_⟩⟩⟩
  · interval_cases k <;> simp [labelVector]
  · interval_cases k <;> simp [labelVector, hn]

end Verif
