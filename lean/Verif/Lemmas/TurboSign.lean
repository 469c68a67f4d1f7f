import Verif.Lemmas.Griffiths
import Verif.Lemmas.Turbo
import Verif.Lemmas.TrellisRsc
import Verif.Spec.Turbo
/-
Signs of a posteriori LLRs when all the received values have the right sign.
-/
namespace Verif

theorem bpsk_cases {b : Nat} (hb : b < 2) : bpskAmp b = 1 ∧ b = 1 ∨ bpskAmp b = -1 ∧ b = 0 := by
  have : b = 0 ∨ b = 1 := by omega
  rcases this with rfl | rfl <;> norm_num [bpskAmp]

theorem bpsk_sq {b : Nat} (hb : b < 2) : bpskAmp b * bpskAmp b = 1 := by
  rcases bpsk_cases hb with ⟨h, -⟩ | ⟨h, -⟩ <;> rw [h] <;> norm_num

theorem bpsk_add {a b : Nat} (ha : a < 2) (hb : b < 2) : bpskAmp ((a + b) % 2) = -(bpskAmp a * bpskAmp b) := by
  have h1 : a = 0 ∨ a = 1 := by omega
  have h2 : b = 0 ∨ b = 1 := by omega
  rcases h1 with rfl | rfl <;> rcases h2 with rfl | rfl <;> norm_num [bpskAmp]

theorem codeBit_lt {t : Trellis} {L : Nat} (us : Fin L → Fin 2) (i : Fin L) (j : Nat) : codeBit t us i j < 2 := by
  unfold codeBit
  by_cases hj : j < t.n
  · rw [List.getD_eq_getElem _ _ (by simpa using hj)]
    exact toBits_lt_two (List.getElem_mem _)
  · rw [List.getD_eq_default _ _ (by simp; omega)]
    omega

theorem fin2_xor (a b : Fin 2) : ((a + b : Fin 2) : Nat) = (a : Nat) ^^^ (b : Nat) := by
  revert a b; decide

theorem ofFn_add_map {L : Nat} (us vs : Fin L → Fin 2) (i : Nat) : ((List.ofFn (us + vs)).take i).map Fin.val =
    List.zipWith (· ^^^ ·) (((List.ofFn us).take i).map Fin.val) (((List.ofFn vs).take i).map Fin.val) := by
  refine List.ext_getElem (by simp) fun k h1 h2 => ?_
  simp [fin2_xor]

variable {t : Trellis} {L : Nat}

/-- Code bits are linear in the input bits. -/
theorem codeBit_add (hw : t.WF) (hk : t.k = 1) (hl : t.Linear) (us vs : Fin L → Fin 2) (i : Fin L) (j : Nat) :
    codeBit t (us + vs) i j = (codeBit t us i j + codeBit t vs i j) % 2 := by
  unfold codeBit
  have hlt : ∀ (w : Fin L → Fin 2), ∀ u ∈ ((List.ofFn w).take i).map Fin.val, u < 2 ^ t.k := by
    intro w u hu
    rw [List.mem_map] at hu
    obtain ⟨a, -, rfl⟩ := hu
    rw [hk]; exact a.2
  have h0 : (0 : Nat) < 2 ^ t.M := by positivity
  have hrun := (hl.run hw (((List.ofFn us).take i).map Fin.val) (((List.ofFn vs).take i).map Fin.val) 0 0 (by simp) h0 h0 (hlt us) (hlt vs)).1
  rw [Nat.xor_self] at hrun
  rw [ofFn_add_map, hrun, Pi.add_apply, fin2_xor, hl.out _ (hw.runState_lt h0 (hlt us)) _ (hw.runState_lt h0 (hlt vs)) _ (by rw [hk]; exact (us i).2) _
    (by rw [hk]; exact (vs i).2), getD_toBits_xor]

/-- The three characters of step `i`: input bit, first and second output bit. -/
noncomputable def turboChar (t : Trellis) (k : Fin L × Fin 3) (x : Fin L → Fin 2) : ℝ :=
  if k.2 = 0 then -bpskAmp (x k.1) else if k.2 = 1 then -bpskAmp (codeBit t x k.1 0) else -bpskAmp (codeBit t x k.1 1)

theorem fin2_add_mod (a b : Fin 2) : ((a + b : Fin 2) : Nat) = ((a : Nat) + (b : Nat)) % 2 := by
  revert a b; decide

theorem turboChar_char (hw : t.WF) (hk : t.k = 1) (hl : t.Linear) (k : Fin L × Fin 3) : IsSignChar (turboChar t k) := by
  have neg : ∀ b < 2, -bpskAmp b = 1 ∨ -bpskAmp b = -1 := by
    intro b hb
    rcases bpsk_cases hb with ⟨h, -⟩ | ⟨h, -⟩ <;> simp [h]
  unfold turboChar
  refine ⟨fun x => ?_, fun x y => ?_⟩
  · split
    · exact neg _ (x k.1).2
    · split
      · exact neg _ (codeBit_lt ..)
      · exact neg _ (codeBit_lt ..)
  · split
    · beta_reduce
      rw [Pi.add_apply, fin2_add_mod, bpsk_add (x k.1).2 (y k.1).2]; ring
    · split
      · beta_reduce
        rw [codeBit_add hw hk hl, bpsk_add (codeBit_lt ..) (codeBit_lt ..)]; ring
      · beta_reduce
        rw [codeBit_add hw hk hl, bpsk_add (codeBit_lt ..) (codeBit_lt ..)]; ring

/-- The factor of the joint density as a function of the amplitude. -/
noncomputable def turboFac (v : NNReal) (ys yp lam : Nat → ℝ) (k : Fin L × Fin 3) (a : ℝ) : ℝ :=
  if k.2 = 0 then (if a = 1 then Real.exp (lam k.1) / (1 + Real.exp (lam k.1)) else 1 / (1 + Real.exp (lam k.1)))
  else if k.2 = 1 then ProbabilityTheory.gaussianPDFReal a v (ys k.1) else ProbabilityTheory.gaussianPDFReal a v (yp k.1)

theorem turboFac_pos {v : NNReal} (hv : 0 < v) (ys yp lam : Nat → ℝ) (k : Fin L × Fin 3) (a : ℝ) : 0 < turboFac v ys yp lam k a := by
  unfold turboFac
  split
  · have := Real.exp_pos (lam k.1)
    split <;> positivity
  · split <;> exact ProbabilityTheory.gaussianPDFReal_pos _ _ _ hv.ne'

theorem jointDensity_fac (t : Trellis) (v : NNReal) (ys yp lam : Nat → ℝ) (us : Fin L → Fin 2) :
    jointDensity t v ys yp lam us = ∏ k : Fin L × Fin 3, turboFac v ys yp lam k (-turboChar t k us) := by
  unfold jointDensity
  rw [Fintype.prod_prod_type]
  refine Finset.prod_congr rfl fun i _ => ?_
  rw [Fin.prod_univ_three]
  simp only [turboFac, turboChar, if_true, neg_neg, one_ne_zero, if_false, show (2 : Fin 3) ≠ 0 by decide, show (2 : Fin 3) ≠ 1 by decide]
  congr 2
  unfold llrProb
  have : us i = 0 ∨ us i = 1 := by omega
  rcases this with h | h <;> simp [h, bpskAmp] <;> norm_num

/-- Right sign, as an inequality between the two values of the factor. -/
theorem turboFac_le {v : NNReal} (hv : 0 < v) (ys yp lam : Nat → ℝ) (k : Fin L × Fin 3) (a : ℝ) (ha : a = 1 ∨ a = -1)
    (h : 0 ≤ a * (if k.2 = 0 then lam k.1 else if k.2 = 1 then ys k.1 else yp k.1)) : turboFac v ys yp lam k (-a) ≤ turboFac v ys yp lam k a := by
  have hv' : (0 : ℝ) < v := hv
  have gauss : ∀ y : ℝ, 0 ≤ a * y → ProbabilityTheory.gaussianPDFReal (-a) v y ≤ ProbabilityTheory.gaussianPDFReal a v y := by
    intro y hy
    unfold ProbabilityTheory.gaussianPDFReal
    refine mul_le_mul_of_nonneg_left (Real.exp_le_exp.2 ?_) (by positivity)
    rw [div_le_div_iff_of_pos_right (by positivity)]
    nlinarith
  unfold turboFac
  by_cases h0 : k.2 = 0
  · simp only [h0, if_true] at h ⊢
    have he := Real.exp_pos (lam k.1)
    rcases ha with rfl | rfl
    · rw [if_neg (by norm_num), if_pos rfl, div_le_div_iff_of_pos_right (by positivity)]
      exact Real.one_le_exp (by linarith)
    · rw [if_pos (by norm_num), if_neg (by norm_num), div_le_div_iff_of_pos_right (by positivity)]
      exact Real.exp_le_one_iff.2 (by linarith)
  · simp only [h0, if_false] at h ⊢
    split
    · rename_i h1
      simp only [h1, if_true] at h
      exact gauss _ h
    · rename_i h1
      simp only [h1, if_false] at h
      exact gauss _ h

theorem turboFac_lt {v : NNReal} (hv : 0 < v) (ys yp lam : Nat → ℝ) (i : Fin L) (a : ℝ)
    (h : 0 < a * ys i) : turboFac v ys yp lam (i, (1 : Fin 3)) (-a) < turboFac v ys yp lam (i, (1 : Fin 3)) a := by
  have hv' : (0 : ℝ) < v := hv
  unfold turboFac ProbabilityTheory.gaussianPDFReal
  simp only [one_ne_zero, if_false, if_true]
  refine mul_lt_mul_of_pos_left (Real.exp_lt_exp.2 ?_) (by positivity)
  rw [div_lt_div_iff_of_pos_right (by positivity)]
  nlinarith

theorem bitDensity_sub (t : Trellis) (v : NNReal) (ys yp lam : Nat → ℝ) (i : Fin L) :
    bitDensity t v L ys yp lam i 1 - bitDensity t v L ys yp lam i 0 = ∑ us : Fin L → Fin 2, bpskAmp (us i) * jointDensity t v ys yp lam us := by
  unfold bitDensity
  rw [Finset.sum_filter, Finset.sum_filter, ← Finset.sum_sub_distrib]
  refine Finset.sum_congr rfl fun us _ => ?_
  have : us i = 0 ∨ us i = 1 := by omega
  rcases this with h | h <;> simp [h, bpskAmp] <;> norm_num

theorem jointDensity_pos (t : Trellis) {v : NNReal} (hv : 0 < v) (ys yp lam : Nat → ℝ) (us : Fin L → Fin 2) : 0 < jointDensity t v ys yp lam us := by
  rw [jointDensity_fac]
  exact Finset.prod_pos fun k _ => turboFac_pos hv ..

theorem bitDensity_pos (t : Trellis) {v : NNReal} (hv : 0 < v) (ys yp lam : Nat → ℝ) (i : Fin L) (b : Fin 2) : 0 < bitDensity t v L ys yp lam i b :=
  Finset.sum_pos (fun us _ => jointDensity_pos t hv ..) ⟨fun _ => b, by simp⟩

theorem codeBit_systematic (hw : t.WF) (hk : t.k = 1) (hs : t.Systematic) (us : Fin L → Fin 2) (i : Fin L) : codeBit t us i 0 = us i := by
  unfold codeBit
  refine hs _ (hw.runState_lt (by positivity) ?_) _ (us i).2
  intro u hu
  rw [List.mem_map] at hu
  obtain ⟨a, -, rfl⟩ := hu
  rw [hk]; exact a.2

/-- If the a priori LLRs and all the received values have the right sign (or are zero), and the systematic value of step `i` has
strictly the right sign, the a posteriori LLR of bit `i` has strictly the right sign. -/
theorem posterior_right (hw : t.WF) (hk : t.k = 1) (hl : t.Linear) (hs : t.Systematic) {v : NNReal} (hv : 0 < v) (m : Fin L → Fin 2)
    (ys yp lam : Nat → ℝ) (h1 : ∀ i : Fin L, 0 ≤ bpskAmp (m i) * lam i) (h2 : ∀ i : Fin L, 0 ≤ bpskAmp (m i) * ys i)
    (h3 : ∀ i : Fin L, 0 ≤ bpskAmp (codeBit t m i 1) * yp i) (i : Fin L) (hi : 0 < bpskAmp (m i) * ys i) :
    0 < bpskAmp (m i) * posteriorBit t v L ys yp lam i := by
  have hsys := codeBit_systematic (L := L) hw hk hs
  have hch := turboChar_char (L := L) hw hk hl
  set a : Fin L × Fin 3 → ℝ := fun k => -turboChar t k m with ha
  have hacase : ∀ k, a k = 1 ∨ a k = -1 := by
    intro k
    rcases (hch k).1 m with h | h <;> simp [ha, h]
  set A : Fin L × Fin 3 → ℝ := fun k => (turboFac v ys yp lam k (a k) + turboFac v ys yp lam k (-a k)) / 2 with hA
  set B : Fin L × Fin 3 → ℝ := fun k => (turboFac v ys yp lam k (a k) - turboFac v ys yp lam k (-a k)) / 2 with hB
  have hfac : ∀ k x, turboFac v ys yp lam k (-turboChar t k (m + x)) = A k + B k * turboChar t k x := by
    intro k x
    rw [(hch k).2]
    have : -(turboChar t k m * turboChar t k x) = a k * turboChar t k x := by simp [ha]
    rw [this]
    rcases (hch k).1 x with h | h
    · rw [h]; simp only [hA, hB, mul_one]; ring
    · rw [h]; simp only [hA, hB, mul_neg, mul_one]; ring
  have hAnn : ∀ k, 0 ≤ A k := fun k => by
    have := turboFac_pos hv ys yp lam k (a k)
    have := turboFac_pos hv ys yp lam k (-a k)
    simp only [hA]; linarith
  have hBnn : ∀ k, 0 ≤ B k := fun k => by
    have := turboFac_le hv ys yp lam k (a k) (hacase k) (by
      simp only [ha, turboChar]
      by_cases h0 : k.2 = 0
      · simp only [h0, if_true, neg_neg]; exact h1 _
      · simp only [h0, if_false]
        by_cases h4 : k.2 = 1
        · simp only [h4, if_true, neg_neg, hsys]; exact h2 _
        · simp only [h4, if_false, neg_neg]; exact h3 _)
    simp only [hB]; linarith
  have hBi : 0 < B (i, 1) := by
    have := turboFac_lt hv ys yp lam i (a (i, 1)) (by simpa [ha, turboChar, hsys] using hi)
    simp only [hB]; linarith
  have hsum : ∑ us : Fin L → Fin 2, bpskAmp (us i) * jointDensity t v ys yp lam us =
      bpskAmp (m i) * ∑ x : Fin L → Fin 2, turboChar t (i, 1) x * ∏ k : Fin L × Fin 3, (A k + B k * turboChar t k x) := by
    rw [← Equiv.sum_comp (Equiv.addLeft m), Finset.mul_sum]
    refine Finset.sum_congr rfl fun x _ => ?_
    rw [Equiv.coe_addLeft, jointDensity_fac]
    simp only [hfac]
    rw [← mul_assoc]
    congr 1
    simp only [turboChar, one_ne_zero, if_false, if_true, hsys, Pi.add_apply, fin2_add_mod, bpsk_add (m i).2 (x i).2]
    ring
  have hG := griffiths_pos (χ := turboChar t) (Finset.univ : Finset (Fin L × Fin 3)) (fun k _ => hAnn k) (fun k _ => hBnn k) (fun k _ => hch k)
    (fun k _ x => by rw [← hfac]; exact turboFac_pos hv ..) (Finset.mem_univ (i, 1)) hBi
  have hd := bitDensity_sub t v ys yp lam i
  rw [hsum] at hd
  have p0 := bitDensity_pos t hv ys yp lam i 0
  have p1 := bitDensity_pos t hv ys yp lam i 1
  unfold posteriorBit
  rcases bpsk_cases (m i).2 with ⟨h, -⟩ | ⟨h, -⟩
  · rw [h, one_mul] at hd ⊢
    refine Real.log_pos ?_
    rw [lt_div_iff₀ p0]; linarith
  · rw [h] at hd ⊢
    have := Real.log_neg (div_pos p1 p0) (by rw [div_lt_one p0]; linarith)
    linarith

/-- Extrinsic information: the a posteriori LLR minus the a priori LLR does not depend on the latter. -/
theorem posterior_extrinsic (t : Trellis) {v : NNReal} (hv : 0 < v) (ys yp lam : Nat → ℝ) (i : Fin L) :
    posteriorBit t v L ys yp lam i - lam i = posteriorBit t v L ys yp (Function.update lam i 0) i := by
  have key : ∀ b, bitDensity t v L ys yp lam i b = (llrProb (lam i) b * 2) * bitDensity t v L ys yp (Function.update lam i 0) i b := by
    intro b
    unfold bitDensity
    rw [Finset.mul_sum]
    refine Finset.sum_congr rfl fun us hus => ?_
    have hb : us i = b := (Finset.mem_filter.1 hus).2
    unfold jointDensity
    rw [← Finset.mul_prod_erase _ _ (Finset.mem_univ i), ← Finset.mul_prod_erase Finset.univ (fun j : Fin L => llrProb (Function.update lam i 0 j) (us j) * _ * _)
      (Finset.mem_univ i)]
    have h2 : llrProb (Function.update lam (i : Nat) 0 (i : Nat)) (us i) = 1 / 2 := by
      rw [Function.update_self]
      unfold llrProb
      split <;> norm_num
    have h3 : ∏ j ∈ Finset.univ.erase i, (llrProb (Function.update lam (i : Nat) 0 (j : Nat)) (us j) *
        ProbabilityTheory.gaussianPDFReal (bpskAmp (codeBit t us j 0)) v (ys j) * ProbabilityTheory.gaussianPDFReal (bpskAmp (codeBit t us j 1)) v (yp j)) =
        ∏ j ∈ Finset.univ.erase i, (llrProb (lam j) (us j) *
        ProbabilityTheory.gaussianPDFReal (bpskAmp (codeBit t us j 0)) v (ys j) * ProbabilityTheory.gaussianPDFReal (bpskAmp (codeBit t us j 1)) v (yp j)) := by
      refine Finset.prod_congr rfl fun j hj => ?_
      have : (j : Nat) ≠ i := fun e => (Finset.mem_erase.1 hj).1 (Fin.ext e)
      rw [Function.update_of_ne this]
    rw [h2, h3, hb]
    ring
  have p0 := bitDensity_pos t hv ys yp (Function.update lam i 0) i 0
  have p1 := bitDensity_pos t hv ys yp (Function.update lam i 0) i 1
  have he := Real.exp_pos (lam i)
  unfold posteriorBit
  rw [key 0, key 1]
  have : llrProb (lam i) 1 * 2 * bitDensity t v L ys yp (Function.update lam i 0) i 1 / (llrProb (lam i) 0 * 2 * bitDensity t v L ys yp (Function.update lam i 0) i 0) =
      Real.exp (lam i) * (bitDensity t v L ys yp (Function.update lam i 0) i 1 / bitDensity t v L ys yp (Function.update lam i 0) i 0) := by
    simp only [llrProb, if_true, show (0 : Fin 2) ≠ 1 by decide, if_false]
    field_simp
  rw [this, Real.log_mul he.ne' (div_pos p1 p0).ne', Real.log_exp]
  ring

end Verif
