import Verif.Props.Kbest
import Verif.Props.BestFirst
import Mathlib.Analysis.InnerProductSpace.PiL2
/-
C117: MIMO detection tolerates noise.
-/
namespace Verif

open Finset

/-- Squared distance between the noise-free received vectors of `x` and `x'`. -/
noncomputable def rxDistSq (rows : Nat) (h : Nat → Nat → ℂ) (x x' : List ℂ) : ℝ :=
  ∑ i ∈ range rows, ‖∑ j ∈ range x.length, h i j * x.getD j 0 - ∑ j ∈ range x'.length, h i j * x'.getD j 0‖ ^ 2

/-- Triangle inequality for sums of squares: `b = a + e`, `4 Σ e² < Σ (a+e)²...`. -/
theorem sq_triangle (n : Nat) (a b : Nat → ℂ) (h : 4 * ∑ i ∈ range n, ‖a i‖ ^ 2 < ∑ i ∈ range n, ‖a i - b i‖ ^ 2) :
    ∑ i ∈ range n, ‖a i‖ ^ 2 < ∑ i ∈ range n, ‖b i‖ ^ 2 := by
  have key : ∀ f : Nat → ℂ, ‖(WithLp.toLp 2 (fun i : Fin n => f i) : EuclideanSpace ℂ (Fin n))‖ ^ 2 = ∑ i ∈ range n, ‖f i‖ ^ 2 := by
    intro f
    rw [EuclideanSpace.norm_sq_eq, Finset.sum_range]
  rw [← key a, ← key b]
  rw [← key a, ← key (fun i => a i - b i)] at h
  set A : EuclideanSpace ℂ (Fin n) := WithLp.toLp 2 (fun i : Fin n => a i)
  set B : EuclideanSpace ℂ (Fin n) := WithLp.toLp 2 (fun i : Fin n => b i)
  have hAB : (WithLp.toLp 2 (fun i : Fin n => a i - b i) : EuclideanSpace ℂ (Fin n)) = A - B := rfl
  rw [hAB] at h
  have h1 : 2 * ‖A‖ < ‖A - B‖ := by
    apply lt_of_pow_lt_pow_left₀ 2 (norm_nonneg _)
    calc (2 * ‖A‖) ^ 2 = 4 * ‖A‖ ^ 2 := by ring
      _ < _ := h
  have h2 := norm_sub_le A B
  have h3 : ‖A‖ < ‖B‖ := by linarith
  have := norm_nonneg A
  nlinarith

/-- C117: `mimo_ml` returns the transmitted vector whenever the noise energy is less than a quarter of the squared distance of
its noise-free received vector to all the others (noise below half the minimum distance). -/
theorem C117_ml {rows n : Nat} {y : Nat → ℂ} {h : Nat → Nat → ℂ} {c x : List ℂ} (hx : IsVector c n x) (hc : c ≠ [])
    (hnoise : ∀ x', IsVector c n x' → x' ≠ x → 4 * sqErr rows y h x < rxDistSq rows h x x') :
    mimoMl rows n y h c = .ok x := by
  obtain ⟨z, hz, hml⟩ := C68_ml rows n y h hc
  by_cases he : z = x
  · rw [hz, he]
  · exfalso
    have h1 := hnoise z hml.1 he
    have h2 := hml.2 x hx
    have h3 : sqErr rows y h x < sqErr rows y h z := by
      unfold sqErr at h1 ⊢
      apply sq_triangle
      refine lt_of_lt_of_eq h1 ?_
      unfold rxDistSq
      refine sum_congr rfl fun i _ => ?_
      congr 1
      rw [show ∀ p q u : ℂ, p - q - (p - u) = u - q from fun p q u => by ring, norm_sub_rev]
    linarith

/-! ### Bessel's inequality for the orthonormal factor -/

theorem qr_distance_le {rows cols : Nat} {h q r : Nat → Nat → ℂ} (hqr : IsQR rows cols h q r) (y : Nat → ℂ) {x : List ℂ}
    (hx : x.length = cols) :
    partTot r (fun k => ∑ i ∈ range rows, (starRingEnd ℂ) (q i k) * y i) cols 0 (fun j => x.getD j 0) ≤ sqErr rows y h x := by
  obtain ⟨C, hC⟩ := qr_distance hqr y
  have hid : IsQR rows cols q q (fun a b => if a = b then 1 else 0) := by
    refine ⟨?_, hqr.orth, ?_⟩
    · intro i hi j hj
      rw [sum_eq_single j]
      · simp
      · intro b _ hb; rw [if_neg hb, mul_zero]
      · intro hn; exact absurd (mem_range.2 hj) hn
    · intro i hi j hj; rw [if_neg (by omega)]
  obtain ⟨D, hD⟩ := qr_distance hid y
  have hz : ∀ j : Nat, (List.replicate cols (0 : ℂ)).getD j 0 = 0 := by
    intro j
    rw [List.getD_eq_getElem?_getD, List.getElem?_replicate]
    split <;> rfl
  have h0 := hC (List.replicate cols 0) (by simp)
  have h0' := hD (List.replicate cols 0) (by simp)
  have es : sqErr rows y h (List.replicate cols 0) = sqErr rows y q (List.replicate cols 0) := by
    unfold sqErr; simp only [hz, mul_zero]
  have ep : partTot r (fun k => ∑ i ∈ range rows, (starRingEnd ℂ) (q i k) * y i) cols 0
      (fun j => (List.replicate cols (0 : ℂ)).getD j 0) =
      partTot (fun a b => if a = b then 1 else 0) (fun k => ∑ i ∈ range rows, (starRingEnd ℂ) (q i k) * y i) cols 0
      (fun j => (List.replicate cols (0 : ℂ)).getD j 0) := by
    unfold partTot; simp only [hz, mul_zero]
  rw [← es, ← ep, h0] at h0'
  have hDn : 0 ≤ D := by
    have := hD ((List.range cols).map fun k => ∑ i ∈ range rows, (starRingEnd ℂ) (q i k) * y i) (by simp)
    have hp : partTot (fun a b => if a = b then (1 : ℂ) else 0) (fun k => ∑ i ∈ range rows, (starRingEnd ℂ) (q i k) * y i) cols 0
        (fun j => ((List.range cols).map fun k => ∑ i ∈ range rows, (starRingEnd ℂ) (q i k) * y i).getD j 0) = 0 := by
      unfold partTot
      apply sum_eq_zero
      intro k hk
      rw [mem_Ico] at hk
      rw [sum_eq_single k]
      · dsimp only
        rw [if_pos rfl, one_mul, kvec_getD hk.2, sub_self]; simp
      · intro b _ hb
        dsimp only
        rw [if_neg (Ne.symm hb), zero_mul]
      · intro hn; exact absurd (mem_Ico.2 ⟨le_refl _, hk.2⟩) hn
    rw [hp, zero_add] at this
    rw [← this]
    exact sqErr_nonneg _ _ _ _
  rw [hC x hx]
  linarith

/-! ### The tree search -/

/-- A path that leaves the transmitted one costs more than the whole noise. -/
theorem wrong_path_cost {r : Nat → Nat → ℂ} {yt : Nat → ℂ} {N k : Nat} {w v : Nat → ℂ} {E d : ℝ} (hd : 0 ≤ d)
    (hE : partTot r yt N 0 w ≤ E) (hr : ∀ i < N, 4 * E < (‖r i i‖ * d) ^ 2)
    (hsep : ∀ i, k ≤ i → i < N → v i ≠ w i → d ≤ ‖v i - w i‖) (hne : ∃ i, k ≤ i ∧ i < N ∧ v i ≠ w i) :
    E < partTot r yt N k v := by
  -- last coordinate where they differ
  obtain ⟨i, ⟨hi1, hi2, hi3⟩, hmax⟩ : ∃ i, (k ≤ i ∧ i < N ∧ v i ≠ w i) ∧ ∀ j, i < j → j < N → v j = w j := by
    classical
    set S := (Ico k N).filter (fun i => v i ≠ w i) with hS
    have hSne : S.Nonempty := by
      obtain ⟨i, h1, h2, h3⟩ := hne
      exact ⟨i, by rw [hS, mem_filter, mem_Ico]; exact ⟨⟨h1, h2⟩, h3⟩⟩
    have hm := mem_filter.1 (S.max'_mem hSne)
    have hm1 := mem_Ico.1 hm.1
    refine ⟨S.max' hSne, ⟨hm1.1, hm1.2, hm.2⟩, ?_⟩
    intro j h1 h2
    by_contra h
    have := S.le_max' j (by rw [hS, mem_filter, mem_Ico]; exact ⟨⟨by omega, h2⟩, h⟩)
    omega
  set e := yt i - ∑ j ∈ Ico i N, r i j * w j with he
  have hle : ‖e‖ ^ 2 ≤ E := by
    refine le_trans ?_ hE
    unfold partTot
    exact single_le_sum (f := fun i => ‖yt i - ∑ j ∈ Ico i N, r i j * w j‖ ^ 2) (fun _ _ => by positivity)
      (mem_Ico.2 ⟨Nat.zero_le _, hi2⟩)
  have hv : yt i - ∑ j ∈ Ico i N, r i j * v j = e - r i i * (v i - w i) := by
    rw [he, sum_eq_sum_Ico_succ_bot hi2, sum_eq_sum_Ico_succ_bot hi2]
    have : ∑ j ∈ Ico (i + 1) N, r i j * v j = ∑ j ∈ Ico (i + 1) N, r i j * w j := by
      refine sum_congr rfl fun j hj => ?_
      rw [mem_Ico] at hj
      rw [hmax j (by omega) hj.2]
    rw [this]; ring
  have hterm : ‖yt i - ∑ j ∈ Ico i N, r i j * v j‖ ^ 2 ≤ partTot r yt N k v := by
    unfold partTot
    exact single_le_sum (f := fun i => ‖yt i - ∑ j ∈ Ico i N, r i j * v j‖ ^ 2) (fun _ _ => by positivity)
      (mem_Ico.2 ⟨hi1, hi2⟩)
  refine lt_of_lt_of_le ?_ hterm
  rw [hv]
  have h1 : ‖r i i * (v i - w i)‖ - ‖e‖ ≤ ‖e - r i i * (v i - w i)‖ := by
    rw [norm_sub_rev e]; exact norm_sub_norm_le _ _
  have h2 : ‖r i i‖ * d ≤ ‖r i i * (v i - w i)‖ := by
    rw [norm_mul]; exact mul_le_mul_of_nonneg_left (hsep i hi1 hi2 hi3) (norm_nonneg _)
  have hE0 : 0 ≤ E := le_trans (by positivity) hle
  have hs := Real.sq_sqrt hE0
  have hsn := Real.sqrt_nonneg E
  have h3 : ‖e‖ ≤ Real.sqrt E := Real.le_sqrt_of_sq_le hle
  have h4 : 2 * Real.sqrt E < ‖r i i‖ * d := by
    apply lt_of_pow_lt_pow_left₀ 2 (by positivity)
    calc (2 * Real.sqrt E) ^ 2 = 4 * E := by rw [mul_pow, hs]; norm_num
      _ < _ := hr i hi2
  have h5 : Real.sqrt E < ‖e - r i i * (v i - w i)‖ := by linarith
  nlinarith

theorem kLoop_noise {argsort : List ℝ → List Nat} (hsort : ∀ l, IsArgsort l (argsort l)) {r : Nat → Nat → ℂ} {yt : Nat → ℂ} {c : List ℂ}
    {K N : Nat} {w : Nat → ℂ} {E d : ℝ} (hc : c ≠ []) (hK : 1 ≤ K) (hd : 0 ≤ d) (hw : ∀ i < N, w i ∈ c)
    (hE : partTot r yt N 0 w ≤ E) (hr : ∀ i < N, 4 * E < (‖r i i‖ * d) ^ 2)
    (hsep : ∀ s ∈ c, ∀ s' ∈ c, s ≠ s' → d ≤ ‖s - s'‖) :
    ∀ (k : Nat), k ≤ N → ∀ (a : KCand) (t : List KCand), (∀ b ∈ a :: t, KInv r yt c N k b) → (∀ i, k ≤ i → i < N → a.x i = w i) →
    ∃ b t', kLoop argsort r c K k (a :: t) = b :: t' ∧ ∀ i < N, b.x i = w i := by
  intro k
  induction k with
  | zero => intro _ a t _ hax; exact ⟨a, t, rfl, fun i hi => hax i (Nat.zero_le _) hi⟩
  | succ k ih =>
    intro hk a t hinv hax
    have hlen : kStep argsort r c K (a :: t) k ≠ [] := by
      rw [← List.length_pos_iff, kStep_length hsort]
      have := Nat.mul_pos (List.length_pos_iff.2 hc) (List.length_pos_iff.2 (List.cons_ne_nil a t))
      omega
    match hst : kStep argsort r c K (a :: t) k, hlen with
    | b :: t', _ =>
      have hinv' : ∀ b' ∈ b :: t', KInv r yt c N k b' := by
        intro b' hb'
        rw [← hst] at hb'
        obtain ⟨s, hs, a', ha', rfl⟩ := kStep_mem hsort hb'
        exact kinv_step (by omega) (hinv a' ha') hs
      have hb := kStep_head hsort hst (hw k (by omega)) (List.mem_cons_self (a := a) (l := t))
      have hk' := kinv_step (r := r) (yt := yt) (N := N) (k := k) (by omega) (hinv a (by simp)) (hw k (by omega))
      have htot : (kExtend r k (w k) a).tot = partTot r yt N k w := by
        have := hk'.tot
        rw [show (kFinish r k (w k) (kExtend r k (w k) a)).tot = (kExtend r k (w k) a).tot from rfl] at this
        rw [this]
        apply partTot_congr
        intro i h1 h2
        change Function.update a.x k (w k) i = w i
        by_cases h : i = k
        · rw [h, Function.update_self]
        · rw [Function.update_of_ne h]; exact hax i (by omega) h2
      have hle : partTot r yt N k w ≤ partTot r yt N 0 w := by
        unfold partTot
        exact sum_le_sum_of_subset_of_nonneg (Ico_subset_Ico (Nat.zero_le _) (le_refl _)) (fun _ _ _ => by positivity)
      have hbx : ∀ i, k ≤ i → i < N → b.x i = w i := by
        by_contra hcon
        push Not at hcon
        have hw2 := wrong_path_cost (k := k) (v := b.x) hd hE hr
          (fun i h1 h2 hne => hsep _ ((hinv' b (by simp)).mem i h1 h2) _ (hw i h2) hne) hcon
        rw [← (hinv' b (by simp)).tot] at hw2
        rw [htot] at hb
        linarith
      obtain ⟨b', t'', e1, e2⟩ := ih (by omega) b t' hinv' hbx
      refine ⟨b', t'', ?_, e2⟩
      rw [← e1, ← hst]
      rfl

section
variable {argsort : List ℝ → List Nat} {qr : (Nat → Nat → ℂ) → (Nat → Nat → ℂ) × (Nat → Nat → ℂ)} {rows cols : Nat} {h : Nat → Nat → ℂ}
  {c : List ℂ} {K : Nat}

/-- C117: for every `K ≥ 1` (already successive interference cancellation, `K = 1`), `kbest` returns the transmitted vector `x`
whenever the noise energy `‖y - h x‖²` is below a quarter of `(|r_kk| d)²` for every diagonal entry of the triangular factor,
`d` being the minimum distance of the constellation. -/
theorem C117_kbest (hsort : ∀ l, IsArgsort l (argsort l)) (hqr : IsQR rows cols h (qr h).1 (qr h).2) (hrc : cols ≤ rows)
    (hc : c ≠ []) (hK : 1 ≤ K) (junk y : Nat → ℂ) (nv : ℝ) (demode : List ℂ → List Nat) {x : List ℂ} (hx : IsVector c cols x)
    {d : ℝ} (hd : 0 ≤ d) (hsep : ∀ s ∈ c, ∀ s' ∈ c, s ≠ s' → d ≤ ‖s - s'‖)
    (hnoise : ∀ k < cols, 4 * sqErr rows y h x < (‖(qr h).2 k k‖ * d) ^ 2) :
    kbest argsort qr junk rows cols y h c K nv "hard" demode = .ok (.inl x) := by
  obtain ⟨a, t, ha, he⟩ := kbest_hard (qr := qr) (h := h) hsort hrc hc hK junk y nv demode
  set yt : Nat → ℂ := fun k => ∑ i ∈ range rows, (starRingEnd ℂ) ((qr h).1 i k) * y i with hyt
  have hw : ∀ i < cols, x.getD i 0 ∈ c := by
    intro i hi
    rw [List.getD_eq_getElem _ _ (by rw [hx.1]; exact hi)]
    exact hx.2 _ (List.getElem_mem _)
  obtain ⟨b, t', e1, e2⟩ := kLoop_noise (r := (qr h).2) (yt := yt) (N := cols) (w := fun i => x.getD i 0) (K := K)
    hsort hc hK hd hw (qr_distance_le hqr y hx.1) hnoise hsep cols (le_refl _) ⟨junk, yt, 0⟩ [] (by
      intro b hb
      rw [List.mem_singleton] at hb
      subst hb
      exact ⟨fun i h1 h2 => by omega, fun i _ => by simp, by simp [partTot]⟩) (fun i h1 h2 => by omega)
  have hkc : kCands argsort (qr h) junk rows cols y c K = b :: t' := by
    rw [← e1]
    unfold kCands
    simp only [list_sum_finset]
    rfl
  rw [ha] at hkc
  injection hkc with h1 _
  rw [he, h1]
  congr 2
  apply List.ext_getElem
  · simp [hx.1]
  · intro i hi hi'
    rw [List.getElem_map, List.getElem_range]
    have hic : i < cols := by simpa using hi
    rw [e2 i hic, List.getD_eq_getElem _ _ hi']

theorem sqErr_unique (hqr : IsQR rows cols h (qr h).1 (qr h).2) (y : Nat → ℂ) {x : List ℂ} (hx : IsVector c cols x)
    {d : ℝ} (hd : 0 ≤ d) (hsep : ∀ s ∈ c, ∀ s' ∈ c, s ≠ s' → d ≤ ‖s - s'‖)
    (hnoise : ∀ k < cols, 4 * sqErr rows y h x < (‖(qr h).2 k k‖ * d) ^ 2) {z : List ℂ} (hz : IsVector c cols z) (he : z ≠ x) :
    sqErr rows y h x < sqErr rows y h z := by
  have hmem : ∀ {v : List ℂ}, IsVector c cols v → ∀ i < cols, v.getD i 0 ∈ c := by
    intro v hv i hi
    rw [List.getD_eq_getElem _ _ (by rw [hv.1]; exact hi)]
    exact hv.2 _ (List.getElem_mem _)
  have hne : ∃ i, 0 ≤ i ∧ i < cols ∧ z.getD i 0 ≠ x.getD i 0 := by
    by_contra hcon
    push Not at hcon
    apply he
    apply List.ext_getElem
    · rw [hz.1, hx.1]
    · intro i hi hi'
      have := hcon i (Nat.zero_le _) (by rw [← hx.1]; exact hi')
      rwa [List.getD_eq_getElem _ _ hi, List.getD_eq_getElem _ _ hi'] at this
  -- the part of the energy inside the column space
  have h1 := wrong_path_cost (k := 0) (v := fun i => z.getD i 0) hd (qr_distance_le hqr y hx.1) hnoise
    (fun i _ h2 hne => hsep _ (hmem hz i h2) _ (hmem hx i h2) hne) hne
  have h2 := qr_distance_le hqr y hz.1
  linarith

/-- C117: the same bound suffices for `mimo_ml`. -/
theorem C117_ml_qr (hqr : IsQR rows cols h (qr h).1 (qr h).2) (hc : c ≠ []) (y : Nat → ℂ) {x : List ℂ} (hx : IsVector c cols x)
    {d : ℝ} (hd : 0 ≤ d) (hsep : ∀ s ∈ c, ∀ s' ∈ c, s ≠ s' → d ≤ ‖s - s'‖)
    (hnoise : ∀ k < cols, 4 * sqErr rows y h x < (‖(qr h).2 k k‖ * d) ^ 2) : mimoMl rows cols y h c = .ok x := by
  obtain ⟨z, hz, hml⟩ := C68_ml rows cols y h hc
  by_cases he : z = x
  · rw [hz, he]
  · have h1 := sqErr_unique hqr y hx hd hsep hnoise hml.1 he
    have h3 := hml.2 x hx
    linarith

/-- C117: without noise, with a channel of full column rank (no zero on the diagonal of the triangular factor) and distinct
constellation points, `kbest` returns the transmitted vector for every `K ≥ 1`. -/
theorem C117_noise_free (hsort : ∀ l, IsArgsort l (argsort l)) (hqr : IsQR rows cols h (qr h).1 (qr h).2) (hrc : cols ≤ rows)
    (hc : c ≠ []) (hK : 1 ≤ K) (junk : Nat → ℂ) (nv : ℝ) (demode : List ℂ → List Nat) {x : List ℂ} (hx : IsVector c cols x)
    (hrank : ∀ k < cols, (qr h).2 k k ≠ 0) :
    kbest argsort qr junk rows cols (fun i => ∑ j ∈ range x.length, h i j * x.getD j 0) h c K nv "hard" demode = .ok (.inl x) := by
  -- the minimum distance of a finite constellation is positive
  have hmin : ∃ d : ℝ, 0 < d ∧ ∀ s ∈ c, ∀ s' ∈ c, s ≠ s' → d ≤ ‖s - s'‖ := by
    classical
    set S := ((c.toFinset ×ˢ c.toFinset).filter (fun p => p.1 ≠ p.2)).image (fun p => ‖p.1 - p.2‖) with hS
    by_cases hne : S.Nonempty
    · refine ⟨S.min' hne, ?_, ?_⟩
      · have := S.min'_mem hne
        obtain ⟨p, hp, hp2⟩ := mem_image.1 this
        rw [mem_filter] at hp
        refine lt_of_lt_of_eq ?_ hp2
        exact norm_pos_iff.2 (sub_ne_zero.2 hp.2)
      · intro s hs s' hs' hss
        apply S.min'_le
        rw [hS, mem_image]
        exact ⟨(s, s'), by simp [hs, hs', hss], rfl⟩
    · refine ⟨1, one_pos, ?_⟩
      intro s hs s' hs' hss
      exact absurd ⟨‖s - s'‖, by rw [hS, mem_image]; exact ⟨(s, s'), by simp [hs, hs', hss], rfl⟩⟩ hne
  obtain ⟨d, hd, hsep⟩ := hmin
  refine C117_kbest hsort hqr hrc hc hK junk _ nv demode hx hd.le hsep ?_
  intro k hk
  have : sqErr rows (fun i => ∑ j ∈ range x.length, h i j * x.getD j 0) h x = 0 := by
    unfold sqErr; simp
  rw [this, mul_zero]
  have := norm_pos_iff.2 (hrank k hk)
  positivity

/-- C117: `best_first_detector` with stacks of size at least `|constellation|^n`: under the same bound on the noise the sign of
every output is that of the transmitted bit, and none is zero. -/
theorem C117_best_first {n : Nat} {y : Nat → ℂ} {ss : List Nat} {demode : List ℂ → List Nat} {L : ℝ} {fuel : Nat}
    (hsort : ∀ l, IsArgsort l (argsort l)) (hqr : IsQR n n h (qr h).1 (qr h).2) (hn : 2 ≤ n) (hm : 2 ≤ c.length) (hnd : c.Nodup)
    (hdem : DemodeOk demode c.length.log2) (hL : 0 < L) (hss : n - 1 ≤ ss.length) (hbig : ∀ s ∈ ss, c.length ^ n ≤ s)
    (hf : c.length ^ n ≤ fuel) {x : List ℂ} (hx : IsVector c n x) {d : ℝ} (hd : 0 ≤ d)
    (hsep : ∀ s ∈ c, ∀ s' ∈ c, s ≠ s' → d ≤ ‖s - s'‖) (hnoise : ∀ k < n, 4 * sqErr n y h x < (‖(qr h).2 k k‖ * d) ^ 2) :
    ∃ v : ℝ, 0 < v ∧ v ≤ L ∧
      bestFirst argsort qr n n y h c ss demode L fuel = .ok ((demode x).map fun b => (((if b = 0 then v else -v) : ℝ) : EReal)) := by
  have hc : c ≠ [] := by intro h0; rw [h0] at hm; simp at hm
  obtain ⟨z, v, h1, h2, h3, h4, h5⟩ := C70_ml_partial (y := y) hsort hqr hn hm hdem hL.le hss hbig hf
  have huniq : ∀ x', IsVector c n x' → x' ≠ x → sqErr n y h x < sqErr n y h x' := by
    intro x' hx' hne
    exact sqErr_unique hqr y hx hd hsep hnoise hx' hne
  have hzx : z = x := by
    by_contra hne
    have := huniq z h2.1 hne
    have := h2.2 x hx
    linarith
  subst hzx
  exact ⟨v, h5 hnd hL huniq, h4, h1⟩

end

/-- Noise of energy 1/2 on a 3 × 2 channel: `kbest` with `K = 1` and `mimo_ml` return the transmitted `[1, -1]`. -/
example : kbest someArgsort (fun h => (fun i j => if i = j then 1 else 0, h)) (fun _ => 7) 3 2 (fun i => if i = 1 then -2 else 1 / 2)
      (fun i j => if i < 2 then (if i ≤ j then 2 else 0) else 0) [1, -1] 1 1 "hard" (fun _ => []) = .ok (.inl [1, -1]) ∧
    mimoMl 3 2 (fun i => if i = 1 then -2 else 1 / 2) (fun i j => if i < 2 then (if i ≤ j then 2 else 0) else 0) [1, -1] =
      .ok [1, -1] := by
  have hqr : IsQR 3 2 (fun i j => if i < 2 then (if i ≤ j then 2 else 0) else 0)
      ((fun h : Nat → Nat → ℂ => ((fun i j => if i = j then (1 : ℂ) else 0 : Nat → Nat → ℂ), h))
        (fun i j => if i < 2 then (if i ≤ j then 2 else 0) else 0)).1
      ((fun h : Nat → Nat → ℂ => ((fun i j => if i = j then (1 : ℂ) else 0 : Nat → Nat → ℂ), h))
        (fun i j => if i < 2 then (if i ≤ j then 2 else 0) else 0)).2 := by
    constructor
    · intro i hi j hj
      interval_cases i <;> interval_cases j <;> norm_num [sum_range_succ]
    · intro a ha b hb
      interval_cases a <;> interval_cases b <;> norm_num [sum_range_succ]
    · intro i hi j hj
      interval_cases i <;> interval_cases j <;> norm_num
  have hx : IsVector [1, -1] 2 [1, -1] := ⟨rfl, fun z hz => hz⟩
  have hsep : ∀ s ∈ ([1, -1] : List ℂ), ∀ s' ∈ ([1, -1] : List ℂ), s ≠ s' → (2 : ℝ) ≤ ‖s - s'‖ := by
    intro s hs s' hs' hne
    simp only [List.mem_cons, List.not_mem_nil, or_false] at hs hs'
    rcases hs with rfl | rfl <;> rcases hs' with rfl | rfl
    · exact absurd rfl hne
    · norm_num
    · norm_num
    · exact absurd rfl hne
  have hnoise : ∀ k < 2, 4 * sqErr 3 (fun i => if i = 1 then -2 else 1 / 2)
      (fun i j => if i < 2 then (if i ≤ j then 2 else 0) else 0) [1, -1] <
      (‖((fun h : Nat → Nat → ℂ => ((fun i j => if i = j then (1 : ℂ) else 0 : Nat → Nat → ℂ), h))
        (fun i j => if i < 2 then (if i ≤ j then 2 else 0) else 0)).2 k k‖ * (2 : ℝ)) ^ 2 := by
    intro k hk
    have e : sqErr 3 (fun i => if i = 1 then -2 else 1 / 2)
      (fun i j => if i < 2 then (if i ≤ j then 2 else 0) else 0) [1, -1] = 1 / 2 := by
      norm_num [sqErr, sum_range_succ]
    rw [e]
    dsimp only
    rw [if_pos hk, if_pos le_rfl]
    norm_num
  exact ⟨C117_kbest someArgsort_spec hqr (by norm_num) (by simp) le_rfl _ _ _ _ hx (by norm_num) hsep hnoise,
    C117_ml_qr (qr := fun h => (fun i j => if i = j then 1 else 0, h)) hqr (by simp) _ hx (by norm_num) hsep hnoise⟩

end Verif
