import Verif.Model.Channels
import Verif.Lemmas.Random
/-
Properties of the binary channels, of the SISO channel and of `awgn` (/repo/commpy/channels.py).
-/
namespace Verif
open MeasureTheory ProbabilityTheory

/-! ### C74: binary channels -/

theorem maskAssign_length (l : List Int) (mask : List Bool) (vals : List Int) : (maskAssign l mask vals).length = l.length := by
  induction l generalizing mask vals with
  | nil => cases mask <;> simp [maskAssign]
  | cons x l ih =>
    cases mask with
    | nil => simp [maskAssign]
    | cons b mask =>
      cases b <;> cases vals <;> simp [maskAssign, ih]

theorem maskAssign_map (f : Int → Int) (l : List Int) (mask : List Bool) (h : mask.length = l.length) :
    maskAssign l mask ((maskTake l mask).map f) = List.zipWith (fun x (b : Bool) => if b then f x else x) l mask := by
  induction l generalizing mask with
  | nil => cases mask <;> simp [maskAssign]
  | cons x l ih =>
    cases mask with
    | nil => simp at h
    | cons b mask =>
      have h' : mask.length = l.length := by simpa using h
      cases b
      · have := ih mask h'
        simp only [maskTake, List.zip_cons_cons, List.filter_cons_of_neg, Bool.false_eq_true, not_false_eq_true] at this ⊢
        simp only [maskAssign, List.zipWith_cons_cons, this, Bool.false_eq_true, if_false]
      · have := ih mask h'
        simp only [maskTake, List.zip_cons_cons, List.filter_cons_of_pos, List.map_cons] at this ⊢
        simp only [maskAssign, List.zipWith_cons_cons, this, if_true]

open Classical in
/-- The channel applied to entry `i`: replaced by `f` of itself when its draw is at most `p`. -/
theorem mask_getElem? (f : Int → Int) (l : List Int) (p : ℝ) (u : Nat → ℝ) (i : Nat) :
    (maskAssign l ((List.range l.length).map fun i => decide (u i ≤ p))
      ((maskTake l ((List.range l.length).map fun i => decide (u i ≤ p))).map f))[i]? =
      (l[i]?).map fun x => if u i ≤ p then f x else x := by
  rw [maskAssign_map f l _ (by simp)]
  by_cases hi : i < l.length
  · simp [List.getElem?_zipWith, hi]
  · simp [List.getElem?_zipWith, hi]

theorem maskTake_replicate (l : List Int) (mask : List Bool) (v : Int) :
    List.replicate (maskTake l mask).length v = (maskTake l mask).map fun _ => v := by
  simp [List.map_const']

open Classical in
/-- C74.  `bsc` on an array of bits returns a new array of the same length whose entry `i` is the flipped bit exactly when the
`i`-th draw is at most `p`, and the unchanged bit otherwise; every array that existed before, in particular the caller's, is
unchanged. -/
theorem C74_bsc (heap : IntHeap) (a : Nat) (ha : a < heap.length) (hbits : ∀ x ∈ heap.getD a [], x = 0 ∨ x = 1) (p : ℝ)
    (u : Nat → ℝ) :
    (bsc heap a p u).2 = heap.length ∧
    ((bsc heap a p u).1.getD heap.length []).length = (heap.getD a []).length ∧
    (∀ i, i < (heap.getD a []).length → ((bsc heap a p u).1.getD heap.length []).getD i 0 =
      if u i ≤ p then 1 - (heap.getD a []).getD i 0 else (heap.getD a []).getD i 0) ∧
    (∀ b, b < heap.length → (bsc heap a p u).1.getD b [] = heap.getD b []) := by
  refine ⟨rfl, ?_, ?_, ?_⟩
  · simp only [bsc]
    rw [List.getD_append_right _ _ _ _ (le_refl _)]
    simp [maskAssign_length]
  · intro i hi
    simp only [bsc]
    rw [List.getD_append_right _ _ _ _ (le_refl _)]
    simp only [Nat.sub_self, List.getD_cons_zero]
    rw [List.getD_eq_getElem?_getD, mask_getElem?, List.getElem?_eq_getElem hi, List.getD_eq_getElem _ _ hi]
    simp only [Option.map_some, Option.getD_some]
    split
    · rcases hbits _ (List.getElem_mem hi) with h | h <;> rw [h] <;> decide
    · rfl
  · intro b hb
    simp only [bsc]
    rw [List.getD_append _ _ _ _ hb]

open Classical in
/-- C74.  `bec` returns a new array in which entry `i` is the erasure mark -1 exactly when the `i`-th draw is at most `p`, and the
unchanged input entry otherwise; every array that existed before is unchanged. -/
theorem C74_bec (heap : IntHeap) (a : Nat) (ha : a < heap.length) (p : ℝ) (u : Nat → ℝ) :
    (bec heap a p u).2 = heap.length ∧
    ((bec heap a p u).1.getD heap.length []).length = (heap.getD a []).length ∧
    (∀ i, i < (heap.getD a []).length → ((bec heap a p u).1.getD heap.length []).getD i 0 =
      if u i ≤ p then -1 else (heap.getD a []).getD i 0) ∧
    (∀ b, b < heap.length → (bec heap a p u).1.getD b [] = heap.getD b []) := by
  refine ⟨rfl, ?_, ?_, ?_⟩
  · simp only [bec]
    rw [List.getD_append_right _ _ _ _ (le_refl _)]
    simp [maskAssign_length]
  · intro i hi
    simp only [bec]
    rw [List.getD_append_right _ _ _ _ (le_refl _)]
    simp only [Nat.sub_self, List.getD_cons_zero]
    rw [List.getD_eq_getElem?_getD, maskTake_replicate, mask_getElem?, List.getElem?_eq_getElem hi,
      List.getD_eq_getElem _ _ hi]
    simp only [Option.map_some, Option.getD_some]
  · intro b hb
    simp only [bec]
    rw [List.getD_append _ _ _ _ hb]

theorem uniform_le {Ω : Type*} [MeasurableSpace Ω] {P : Measure Ω} {u : Ω → ℕ → ℝ} (hu : UniformDraws P u) (p : ℝ)
    (h0 : 0 ≤ p) (h1 : p ≤ 1) (i : Nat) : P {ω | u ω i ≤ p} = ENNReal.ofReal p := by
  rw [(hu i).measure_eq (p := fun x => x ≤ p) measurableSet_Iic]
  rw [Measure.restrict_apply (show MeasurableSet {x : ℝ | x ≤ p} from measurableSet_Iic)]
  rcases h1.lt_or_eq with h | h
  · have : {x : ℝ | x ≤ p} ∩ Set.Ico 0 1 = Set.Icc 0 p := by
      ext x; simp only [Set.mem_inter_iff, Set.mem_ofPred_eq, Set.mem_Ico, Set.mem_Icc]
      constructor
      · rintro ⟨a, b, c⟩; exact ⟨b, a⟩
      · rintro ⟨a, b⟩; exact ⟨b, a, by linarith⟩
    rw [this, Real.volume_Icc]; simp
  · have : {x : ℝ | x ≤ p} ∩ Set.Ico 0 1 = Set.Ico 0 1 := by
      ext x; simp only [Set.mem_inter_iff, Set.mem_ofPred_eq, Set.mem_Ico]
      constructor
      · rintro ⟨a, b, c⟩; exact ⟨b, c⟩
      · rintro ⟨a, b⟩; exact ⟨by linarith, a, b⟩
    rw [this, Real.volume_Ico, h]; simp

/-- C74.  With uniform draws on [0, 1) each bit is flipped by `bsc` with probability exactly `p`. -/
theorem C74_bsc_probability {Ω : Type*} [MeasurableSpace Ω] {P : Measure Ω} {u : Ω → ℕ → ℝ} (hu : UniformDraws P u)
    (heap : IntHeap) (a : Nat) (ha : a < heap.length) (hbits : ∀ x ∈ heap.getD a [], x = 0 ∨ x = 1) (p : ℝ) (h0 : 0 ≤ p)
    (h1 : p ≤ 1) (i : Nat) (hi : i < (heap.getD a []).length) :
    P {ω | ((bsc heap a p (u ω)).1.getD heap.length []).getD i 0 ≠ (heap.getD a []).getD i 0} = ENNReal.ofReal p := by
  rw [← uniform_le hu p h0 h1 i]
  congr 1
  ext ω
  simp only [Set.mem_ofPred_eq]
  rw [(C74_bsc heap a ha hbits p (u ω)).2.2.1 i hi]
  have hb := hbits _ (List.getElem_mem hi)
  rw [List.getD_eq_getElem _ _ hi]
  split
  · rename_i h
    simp only [h, iff_true]
    rcases hb with hb | hb <;> rw [hb] <;> decide
  · rename_i h
    simp [h]

/-- C74.  With uniform draws on [0, 1) each bit is erased by `bec` with probability exactly `p`. -/
theorem C74_bec_probability {Ω : Type*} [MeasurableSpace Ω] {P : Measure Ω} {u : Ω → ℕ → ℝ} (hu : UniformDraws P u)
    (heap : IntHeap) (a : Nat) (ha : a < heap.length) (hbits : ∀ x ∈ heap.getD a [], x = 0 ∨ x = 1) (p : ℝ) (h0 : 0 ≤ p)
    (h1 : p ≤ 1) (i : Nat) (hi : i < (heap.getD a []).length) :
    P {ω | ((bec heap a p (u ω)).1.getD heap.length []).getD i 0 = -1} = ENNReal.ofReal p := by
  rw [← uniform_le hu p h0 h1 i]
  congr 1
  ext ω
  simp only [Set.mem_ofPred_eq]
  rw [(C74_bec heap a ha p (u ω)).2.2.1 i hi]
  have hb := hbits _ (List.getElem_mem hi)
  rw [List.getD_eq_getElem _ _ hi]
  split
  · rename_i h
    simp [h]
  · rename_i h
    simp only [h, iff_false]
    rcases hb with hb | hb <;> rw [hb] <;> decide

/-- Non-vacuity: a heap with an array of bits, a draw below and a draw above `p`; and uniform draws exist. -/
example : ((bsc [[0, 1, 1]] 0 (1/2) (fun i => if i = 1 then 1/4 else 3/4)).1.getD 1 []).getD 1 7 = 0 := by
  have h := (C74_bsc [[0, 1, 1]] 0 (by simp) (by simp) (1/2) (fun i => if i = 1 then 1/4 else 3/4)).2.2.1 1 (by simp)
  have h2 : (([[0, 1, 1]] : IntHeap).length) = 1 := rfl
  rw [h2] at h
  have h3 := (C74_bsc [[0, 1, 1]] 0 (by simp) (by simp) (1/2) (fun i => if i = 1 then 1/4 else 3/4)).2.1
  rw [h2] at h3
  rw [List.getD_eq_getElem _ _ (by rw [h3]; simp)] at h ⊢
  rw [h]; norm_num

example : UniformDraws (volume.restrict (Set.Ico (0 : ℝ) 1)) (fun ω _ => ω) := fun _ => HasLaw.id

/-! ### C75: noise power -/

/-- C75.  Setting the SNR in dB or its linear value gives the same noise level (and fails in the same cases). -/
theorem C75_db_lin (c : Bool) (nt : Nat) (x rate Es : ℝ) :
    noiseStdDb c nt x rate Es = noiseStdLin c nt ((10 : ℝ) ^ (x / 10)) rate Es := rfl

/-- C75 (the same on a channel object). -/
theorem C75_siso_db_lin (ch : Siso) (x rate Es : ℝ) :
    ch.step (.setSnrDb x rate Es) = ch.step (.setSnrLin ((10 : ℝ) ^ (x / 10)) rate Es) := rfl

/-- C75.  For positive arguments the setter succeeds with a positive level. -/
theorem C75_positive (c : Bool) (nt : Nat) (snr rate Es : ℝ) (hn : 0 < nt) (hs : 0 < snr) (hr : 0 < rate) (hE : 0 < Es) :
    ∃ s, noiseStdLin c nt snr rate Es = .ok s ∧ 0 < s := by
  have h : rate * snr ≠ 0 := by positivity
  refine ⟨_, by simp only [noiseStdLin]; rw [if_neg h], ?_⟩
  have : (0 : ℝ) < nt := by exact_mod_cast hn
  apply Real.sqrt_pos.2
  cases c <;> simp <;> positivity

/-- C75.  The noise level strictly decreases when the SNR grows. -/
theorem C75_decreasing (c : Bool) (nt : Nat) (snr snr' rate Es s s' : ℝ) (hn : 0 < nt) (hs : 0 < snr) (hlt : snr < snr')
    (hr : 0 < rate) (hE : 0 < Es) (h : noiseStdLin c nt snr rate Es = .ok s) (h' : noiseStdLin c nt snr' rate Es = .ok s') :
    s' < s := by
  have h1 : rate * snr ≠ 0 := by positivity
  have hs' : 0 < snr' := by linarith
  have h2 : rate * snr' ≠ 0 := by positivity
  simp only [noiseStdLin] at h h'
  rw [if_neg h1] at h
  rw [if_neg h2] at h'
  cases h; cases h'
  have hnt : (0 : ℝ) < nt := by exact_mod_cast hn
  apply Real.sqrt_lt_sqrt
  · cases c <;> simp <;> positivity
  · apply div_lt_div_of_pos_left
    · cases c <;> simp <;> positivity
    · positivity
    · exact mul_lt_mul_of_pos_left hlt hr

theorem noiseStdLin_sq {c : Bool} {nt : Nat} {snr rate Es s : ℝ} (hs : 0 < snr) (hr : 0 < rate) (hE : 0 ≤ Es)
    (h : noiseStdLin c nt snr rate Es = .ok s) :
    s ^ 2 = ((if c then 1 else 0) + 1 : ℝ) * (nt : ℝ) * Es / (rate * snr) := by
  have h1 : rate * snr ≠ 0 := by positivity
  simp only [noiseStdLin] at h
  rw [if_neg h1] at h
  cases h
  rw [Real.sq_sqrt]
  cases c <;> simp <;> positivity

theorem noiseSample_sq (c : Bool) (s : ℝ) (n : Nat) (z : Nat → ℝ) (i : Nat) :
    ‖noiseSample c s n z i‖ ^ 2 = if c then (0 + s / 2 * z i) ^ 2 + (0 + s / 2 * z (n + i)) ^ 2 else (0 + s * z i) ^ 2 := by
  cases c
  · simp only [noiseSample, Bool.false_eq_true, if_false, Complex.norm_real, Real.norm_eq_abs, sq_abs]; ring
  · simp only [noiseSample, if_true]
    rw [← Complex.normSq_eq_norm_sq, Complex.normSq_apply]
    simp
    ring

/-- The mean power of a generated noise sample. -/
theorem noiseSample_power {Ω : Type*} [MeasurableSpace Ω] {P : Measure Ω} {z : Ω → ℕ → ℝ} (hz : NormalDraws P z) (c : Bool)
    (nt : Nat) (snr rate Es s : ℝ) (hs : 0 < snr) (hr : 0 < rate) (hE : 0 ≤ Es) (h : noiseStdLin c nt snr rate Es = .ok s)
    (n i : Nat) : ∫ ω, ‖noiseSample c s n (z ω) i‖ ^ 2 ∂P = (nt : ℝ) * Es / (rate * snr) := by
  have hsq := noiseStdLin_sq hs hr hE h
  simp only [noiseSample_sq]
  cases c
  · simp only [Bool.false_eq_true, if_false] at hsq ⊢
    rw [normal_affine_sq_real (hz i), hsq]; ring
  · simp only [if_true] at hsq ⊢
    rw [normal_affine_sq (hz i) (hz (n + i))]
    have : (0 : ℝ) ^ 2 + (s / 2) ^ 2 + 0 ^ 2 + (s / 2) ^ 2 = s ^ 2 / 2 := by ring
    rw [this, hsq]; ring

/-! ### C76: the SISO channel -/

theorem Siso.propagate_ok (ch : Siso) (msg : Signal) (z : Nat → ℝ) (std : ℝ) (hne : msg.toC ≠ [])
    (hk : ¬ (msg.isComplex = true ∧ ch.isComplex = false)) (hstd : ch.noiseStd = some std) :
    ch.propagate msg z =
      (let n := msg.toC.length
       let noises := (List.range n).map (noiseSample ch.isComplex std n z)
       let gains := (List.range n).map (ch.gainSample n fun i => z (drawCount ch.isComplex n + i))
       let unnoisy := List.zipWith (fun a b => a * b) gains msg.toC
       ({ ch with
        noises := some noises
        gains := some gains
        unnoisy := some unnoisy }, .ok (List.zipWith (fun a b => a + b) unnoisy noises))) := by
  simp only [Siso.propagate]
  rw [if_neg hne, if_neg (by simpa using hk), hstd]

/-- C76.  When does `propagate` fail, and how: an empty message raises IndexError, a complex message on a real channel TypeError,
a missing noise level AssertionError (in this order); every other call succeeds. -/
theorem C76_propagate_errors (ch : Siso) (msg : Signal) (z : Nat → ℝ) :
    ((ch.propagate msg z).2 = .error .indexError ↔ msg.toC = []) ∧
    ((ch.propagate msg z).2 = .error .typeError ↔ msg.toC ≠ [] ∧ msg.isComplex = true ∧ ch.isComplex = false) ∧
    ((ch.propagate msg z).2 = .error .assertionError ↔
      msg.toC ≠ [] ∧ ¬ (msg.isComplex = true ∧ ch.isComplex = false) ∧ ch.noiseStd = none) ∧
    ((∃ out, (ch.propagate msg z).2 = .ok out) ↔
      msg.toC ≠ [] ∧ ¬ (msg.isComplex = true ∧ ch.isComplex = false) ∧ ch.noiseStd ≠ none) := by
  simp only [Siso.propagate]
  by_cases h1 : msg.toC = []
  · simp [h1]
  by_cases h2 : msg.isComplex = true ∧ ch.isComplex = false
  · rw [if_neg h1, if_pos (by simpa using h2)]; simp [h1, h2]
  rw [if_neg h1, if_neg (by simpa using h2)]
  rcases h3 : ch.noiseStd with _ | std
  · refine ⟨?_, ?_, ?_, ?_⟩
    · simp [h1]
    · simp; exact fun _ a => by cases h : ch.isComplex; exact absurd ⟨a, h⟩ h2; rfl
    · simp only [true_iff]; exact ⟨h1, h2, trivial⟩
    · simp
  · refine ⟨?_, ?_, ?_, ?_⟩
    · simp [h1]
    · simp; exact fun _ a => by cases h : ch.isComplex; exact absurd ⟨a, h⟩ h2; rfl
    · simp
    · simp only [Except.ok.injEq, exists_eq', true_iff]; exact ⟨h1, h2, by simp⟩

/-- C76.  A successful `propagate` returns one value per symbol, each being gain times symbol plus noise, where gains, noise and
the noiseless product are the attributes stored on the channel; nothing else of the channel changes. -/
theorem C76_propagate_output (ch : Siso) (msg : Signal) (z : Nat → ℝ) (out : List ℂ) (h : (ch.propagate msg z).2 = .ok out) :
    ∃ gains noises unnoisy : List ℂ,
      (ch.propagate msg z).1 = { ch with
        noises := some noises
        gains := some gains
        unnoisy := some unnoisy } ∧
      out.length = msg.toC.length ∧ gains.length = msg.toC.length ∧ noises.length = msg.toC.length ∧
      unnoisy.length = msg.toC.length ∧
      ∀ i, i < msg.toC.length → unnoisy.getD i 0 = gains.getD i 0 * msg.toC.getD i 0 ∧
        out.getD i 0 = gains.getD i 0 * msg.toC.getD i 0 + noises.getD i 0 := by
  obtain ⟨h1, h2, h3⟩ := ((C76_propagate_errors ch msg z).2.2.2).1 ⟨out, h⟩
  obtain ⟨std, hstd⟩ := Option.ne_none_iff_exists'.1 h3
  rw [Siso.propagate_ok ch msg z std h1 h2 hstd] at h ⊢
  simp only [Except.ok.injEq] at h
  refine ⟨_, _, _, rfl, ?_, ?_, ?_, ?_, ?_⟩
  · rw [← h]; simp
  · simp
  · simp
  · simp
  · intro i hi
    constructor
    · simp only [List.getD_eq_getElem?_getD, List.getElem?_zipWith]
      simp [hi]
    · rw [← h]
      simp only [List.getD_eq_getElem?_getD, List.getElem?_zipWith]
      simp [hi]

/-- The energy normalisation together with the consistency of the flag `isComplex`. -/
def Siso.Normalised (ch : Siso) : Prop :=
  ch.fading.2 + ‖ch.fading.1.toC‖ ^ 2 = 1 ∧ ch.isComplex = ch.fading.1.isComplex

/-- A rejected operation leaves the channel exactly as it was. -/
theorem C76_rejected_unchanged (ch : Siso) (op : SisoOp) (e : PyErr) (h : (ch.step op).2 = some e) : (ch.step op).1 = ch := by
  cases op with
  | setNoiseStd s => simp [Siso.step] at h
  | setFading p =>
    simp only [Siso.step, Siso.setFading] at h ⊢
    by_cases hp : p.2 + ‖p.1.toC‖ ^ 2 = 1
    · rw [if_neg (by simpa using hp)] at h; simp at h
    · rw [if_pos hp]
  | setSnrDb snr rate Es =>
    simp only [Siso.step] at h ⊢
    cases hh : noiseStdDb ch.isComplex 1 snr rate Es <;> simp_all
  | setSnrLin snr rate Es =>
    simp only [Siso.step] at h ⊢
    cases hh : noiseStdLin ch.isComplex 1 snr rate Es <;> simp_all
  | propagate msg z =>
    simp only [Siso.step, Siso.propagate] at h ⊢
    by_cases h1 : msg.toC = []
    · simp [h1]
    by_cases h2 : msg.isComplex = true ∧ ch.isComplex = false
    · rw [if_neg h1, if_pos (by simpa using h2)]
    rw [if_neg h1, if_neg (by simpa using h2)] at h ⊢
    rcases h3 : ch.noiseStd with _ | std
    · rfl
    · simp [h3] at h

theorem Siso.step_normalised (ch : Siso) (op : SisoOp) (h : ch.Normalised) : (ch.step op).1.Normalised := by
  cases op with
  | setNoiseStd s => exact h
  | setFading p =>
    simp only [Siso.step, Siso.setFading]
    by_cases hp : p.2 + ‖p.1.toC‖ ^ 2 = 1
    · rw [if_neg (by simpa using hp)]
      exact ⟨hp, rfl⟩
    · rw [if_pos hp]; exact h
  | setSnrDb snr rate Es =>
    simp only [Siso.step]
    cases hh : noiseStdDb ch.isComplex 1 snr rate Es <;> exact h
  | setSnrLin snr rate Es =>
    simp only [Siso.step]
    cases hh : noiseStdLin ch.isComplex 1 snr rate Es <;> exact h
  | propagate msg z =>
    simp only [Siso.step]
    rcases hh : (ch.propagate msg z).2 with e | out
    · have := C76_rejected_unchanged ch (.propagate msg z) e (by
        rcases hp : ch.propagate msg z with ⟨c, r⟩
        rw [hp] at hh; simp only at hh; simp only [Siso.step, hp, hh])
      simp only [Siso.step] at this
      rcases hp : ch.propagate msg z with ⟨c, r⟩
      rw [hp] at hh this; simp only at hh; subst hh
      simp only at this ⊢; rw [this]; exact h
    · obtain ⟨g, n, u, e, -⟩ := C76_propagate_output ch msg z out hh
      rcases hp : ch.propagate msg z with ⟨c, r⟩
      rw [hp] at hh e; simp only at hh e; subst hh
      simp only; rw [e]; exact h

/-- C76.  A channel built successfully and put through any history of operations (each of which may fail) always satisfies
`fading_param[1] + |fading_param[0]|^2 = 1`, and its complexity flag is that of its mean gain. -/
theorem C76_invariant (noiseStd : Option ℝ) (p : Num × ℝ) (ch : Siso) (h : Siso.init noiseStd p = .ok ch) (ops : List SisoOp) :
    (ops.foldl (fun c op => (c.step op).1) ch).Normalised := by
  have h0 : ch.Normalised := by
    simp only [Siso.init, Siso.setFading] at h
    by_cases hp : p.2 + ‖p.1.toC‖ ^ 2 = 1
    · rw [if_neg (by simpa using hp)] at h
      simp only [Except.ok.injEq] at h
      rw [← h]; exact ⟨hp, rfl⟩
    · rw [if_pos hp] at h; simp at h
  clear h
  induction ops generalizing ch with
  | nil => exact h0
  | cons op ops ih => exact ih _ (Siso.step_normalised ch op h0)

/-- C76.  An assignment of fading parameters succeeds exactly when they are normalised, and then takes effect. -/
theorem C76_setter (ch : Siso) (p : Num × ℝ) :
    ((ch.setFading p).2 = .ok () ↔ p.2 + ‖p.1.toC‖ ^ 2 = 1) ∧
    ((ch.setFading p).2 = .ok () → (ch.setFading p).1.fading = p ∧ (ch.setFading p).1.isComplex = p.1.isComplex) ∧
    ((ch.setFading p).2 ≠ .ok () → (ch.setFading p).2 = .error .valueError ∧ (ch.setFading p).1 = ch) := by
  simp only [Siso.setFading]
  by_cases hp : p.2 + ‖p.1.toC‖ ^ 2 = 1
  · rw [if_neg (by simpa using hp)]; simp [hp]
  · rw [if_pos hp]; simp [hp]

theorem Siso.gainSample_sq (ch : Siso) (hc : ch.isComplex = ch.fading.1.isComplex) (n : Nat) (z : Nat → ℝ) (i : Nat) :
    ‖ch.gainSample n z i‖ ^ 2 = if ch.isComplex then
      (ch.fading.1.toC.re + Real.sqrt (1 / 2 * ch.fading.2) * z i) ^ 2 +
        (ch.fading.1.toC.im + Real.sqrt (1 / 2 * ch.fading.2) * z (n + i)) ^ 2
      else (ch.fading.1.toC.re + Real.sqrt ch.fading.2 * z i) ^ 2 + (ch.fading.1.toC.im + 0 * z i) ^ 2 := by
  cases h : ch.isComplex
  · simp only [Siso.gainSample, h, Bool.false_eq_true, if_false]
    rw [← Complex.normSq_eq_norm_sq, Complex.normSq_apply]
    simp
    ring
  · simp only [Siso.gainSample, h, if_true]
    generalize Real.sqrt (1 / 2 * ch.fading.2) = q
    rw [← Complex.normSq_eq_norm_sq, Complex.normSq_apply]
    simp
    ring

/-- C76 / C75.  On a normalised channel with a non-negative variance and normal draws the mean energy of the noiseless output is
the energy of the symbol, and after `set_SNR_lin` the mean energy of the added noise is `Es / (rate * snr)`, for real and complex
channels alike. -/
theorem C75_siso_powers {Ω : Type*} [MeasurableSpace Ω] {P : Measure Ω} {z : Ω → ℕ → ℝ} (hz : NormalDraws P z)
    (ch ch1 : Siso) (hn : ch.Normalised) (hv : 0 ≤ ch.fading.2) (snr rate Es : ℝ) (hs : 0 < snr) (hr : 0 < rate) (hE : 0 ≤ Es)
    (hset : ch.step (.setSnrLin snr rate Es) = (ch1, none)) (msg : Signal) (hne : msg.toC ≠ [])
    (hk : ¬ (msg.isComplex = true ∧ ch.isComplex = false)) (i : Nat) (hi : i < msg.toC.length) :
    ∃ out un : Ω → List ℂ, (∀ ω, (ch1.propagate msg (z ω)).2 = .ok (out ω)) ∧
      (∀ ω, (ch1.propagate msg (z ω)).1.unnoisy = some (un ω)) ∧
      ∫ ω, ‖(out ω).getD i 0 - (un ω).getD i 0‖ ^ 2 ∂P = Es / (rate * snr) ∧
      ∫ ω, ‖(un ω).getD i 0‖ ^ 2 ∂P = ‖msg.toC.getD i 0‖ ^ 2 := by
  simp only [Siso.step] at hset
  rcases hh : noiseStdLin ch.isComplex 1 snr rate Es with e | s
  · rw [hh] at hset; simp at hset
  rw [hh] at hset
  simp only [Prod.mk.injEq, and_true] at hset
  have hstd : ch1.noiseStd = some s := by rw [← hset]
  have hcc : ch1.isComplex = ch.isComplex := by rw [← hset]
  have hcf : ch1.fading = ch.fading := by rw [← hset]
  have hk1 : ¬ (msg.isComplex = true ∧ ch1.isComplex = false) := by rw [hcc]; exact hk
  simp only [Siso.propagate_ok ch1 msg _ s hne hk1 hstd]
  refine ⟨_, _, fun ω => rfl, fun ω => rfl, ?_, ?_⟩
  · have e : ∀ ω, (List.zipWith (fun a b => a + b)
        (List.zipWith (fun a b => a * b) (List.map (ch1.gainSample msg.toC.length fun i => z ω (drawCount ch1.isComplex msg.toC.length + i))
          (List.range msg.toC.length)) msg.toC)
        (List.map (noiseSample ch1.isComplex s msg.toC.length (z ω)) (List.range msg.toC.length))).getD i 0 -
        (List.zipWith (fun a b => a * b) (List.map (ch1.gainSample msg.toC.length fun i => z ω (drawCount ch1.isComplex msg.toC.length + i))
          (List.range msg.toC.length)) msg.toC).getD i 0 = noiseSample ch1.isComplex s msg.toC.length (z ω) i := by
      intro ω
      simp only [List.getD_eq_getElem?_getD, List.getElem?_zipWith]
      simp [hi]
    simp only [e]
    rw [noiseSample_power hz ch1.isComplex 1 snr rate Es s hs hr hE (by rw [hcc]; exact hh)]
    simp
  · have e : ∀ ω, (List.zipWith (fun a b => a * b) (List.map (ch1.gainSample msg.toC.length fun i => z ω (drawCount ch1.isComplex msg.toC.length + i))
          (List.range msg.toC.length)) msg.toC).getD i 0 =
        ch1.gainSample msg.toC.length (fun i => z ω (drawCount ch1.isComplex msg.toC.length + i)) i * msg.toC.getD i 0 := by
      intro ω
      simp only [List.getD_eq_getElem?_getD, List.getElem?_zipWith]
      simp [hi]
    simp only [e, norm_mul, mul_pow]
    rw [integral_mul_const]
    have hcn : ch1.isComplex = ch1.fading.1.isComplex := by rw [hcc, hcf]; exact hn.2
    have hE1 : ∫ ω, ‖ch1.gainSample msg.toC.length (fun i => z ω (drawCount ch1.isComplex msg.toC.length + i)) i‖ ^ 2 ∂P = 1 := by
      simp only [Siso.gainSample_sq ch1 hcn]
      have hnorm : ‖ch1.fading.1.toC‖ ^ 2 = ch1.fading.1.toC.re ^ 2 + ch1.fading.1.toC.im ^ 2 := by
        rw [← Complex.normSq_eq_norm_sq, Complex.normSq_apply]; ring
      have h1 := hn.1
      rw [← hcf] at h1 hv
      rw [hnorm] at h1
      have hv2 : 0 ≤ 1 / 2 * ch1.fading.2 := by positivity
      split
      · rw [normal_affine_sq (hz _) (hz _), Real.sq_sqrt hv2]; linarith
      · rw [normal_affine_sq (hz _) (hz _), Real.sq_sqrt hv]; linarith
    rw [hE1, one_mul]

/-- C76, refuted.  The documented condition `|param[1]| + |param[0]|^2 = 1` is not what is checked: a negative variance is accepted
(the gains are then not numbers). -/
theorem C76_negative_variance_refuted :
    ¬ ∀ (ch : Siso) (p : Num × ℝ), (ch.setFading p).2 = .ok () → |p.2| + ‖p.1.toC‖ ^ 2 = 1 := by
  intro h
  have h1 := h (Siso.mk none (.real 1, 0) false none none none) (.real 2, -3)
    ((C76_setter _ _).1.2 (by simp [Num.toC]; norm_num))
  simp [Num.toC] at h1
  norm_num at h1

/-- Non-vacuity: the default channel, a Rician channel with `(3/5 i, 16/25)`, and normal draws. -/
example : ∃ ch, Siso.init none (.real 1, 0) = .ok ch := by
  simp [Siso.init, Siso.setFading, Num.toC]

example : ∃ ch, Siso.init (some 1) (.cplx (3 / 5 * Complex.I), 16 / 25) = .ok ch ∧ ch.Normalised ∧ 0 ≤ ch.fading.2 ∧
    ch.isComplex = true := by
  have h : ‖(3 / 5 * Complex.I : ℂ)‖ ^ 2 = 9 / 25 := by
    rw [← Complex.normSq_eq_norm_sq, Complex.normSq_apply]; simp; norm_num
  refine ⟨_, by simp only [Siso.init, Siso.setFading]; rw [if_neg (by simp only [Num.toC]; rw [h]; norm_num)], ?_, ?_, rfl⟩
  · exact ⟨by simp only [Num.toC]; rw [h]; norm_num, rfl⟩
  · norm_num

example : NormalDraws (gaussianReal 0 1) (fun ω _ => ω) := fun _ => HasLaw.id

/-! ### C84: `awgn` -/

theorem awgnNoise_sq (c : Bool) (v : ℝ) (n : Nat) (z : Nat → ℝ) (i : Nat) :
    ‖awgnNoise c v n z i‖ ^ 2 = if c then (0 + Real.sqrt v * z i) ^ 2 + (0 + Real.sqrt v * z (n + i)) ^ 2
      else (0 + Real.sqrt (2 * v) * z i) ^ 2 := by
  cases c
  · simp only [awgnNoise, Bool.false_eq_true, if_false, Complex.norm_real, Real.norm_eq_abs, sq_abs]; ring
  · simp only [awgnNoise, if_true]
    rw [← Complex.normSq_eq_norm_sq, Complex.normSq_apply]
    simp
    ring

/-- C84.  `awgn` returns one value per sample (IndexError for an empty signal), and with normal draws the mean noise power added to
each sample is the mean power of the input divided by `rate * 10^(snr_dB/10)`, for real and complex signals alike. -/
theorem C84_awgn {Ω : Type*} [MeasurableSpace Ω] {P : Measure Ω} {z : Ω → ℕ → ℝ} (hz : NormalDraws P z) (input : Signal)
    (snrDb rate : ℝ) (hr : 0 < rate) (hne : input.toC ≠ []) :
    ∃ out : Ω → List ℂ, (∀ ω, awgn input snrDb rate (z ω) = .ok (out ω)) ∧ (∀ ω, (out ω).length = input.toC.length) ∧
      ∀ i, i < input.toC.length → ∫ ω, ‖(out ω).getD i 0 - input.toC.getD i 0‖ ^ 2 ∂P =
        ((input.toC.map fun x => ‖x‖ ^ 2).sum / (input.toC.length : ℝ)) / (rate * (10 : ℝ) ^ (snrDb / 10)) := by
  simp only [awgn]
  simp only [if_neg hne]
  refine ⟨_, fun ω => rfl, fun ω => by simp, ?_⟩
  intro i hi
  have hsum : (input.toC.map fun x => ‖x‖ * ‖x‖).sum = (input.toC.map fun x => ‖x‖ ^ 2).sum := by
    congr 1; apply List.map_congr_left; intro x _; ring
  rw [hsum]
  have hS : 0 ≤ (input.toC.map fun x => ‖x‖ ^ 2).sum := by
    apply List.sum_nonneg; intro x hx
    obtain ⟨y, -, rfl⟩ := List.mem_map.1 hx; positivity
  set S := (input.toC.map fun x => ‖x‖ ^ 2).sum
  set v := S / (input.toC.length : ℝ) / (2 * rate * (10 : ℝ) ^ (snrDb / 10)) with hvdef
  have hpow : (0 : ℝ) < (10 : ℝ) ^ (snrDb / 10) := Real.rpow_pos_of_pos (by norm_num) _
  have hv : 0 ≤ v := by positivity
  have e : ∀ ω, (List.zipWith (fun a b => a + b) input.toC
      (List.map (awgnNoise input.isComplex v input.toC.length (z ω)) (List.range input.toC.length))).getD i 0 -
      input.toC.getD i 0 = awgnNoise input.isComplex v input.toC.length (z ω) i := by
    intro ω
    simp only [List.getD_eq_getElem?_getD, List.getElem?_zipWith]
    simp [hi]
  simp only [e, awgnNoise_sq]
  have h2 : S / (input.toC.length : ℝ) / (rate * (10 : ℝ) ^ (snrDb / 10)) = 2 * v := by
    rw [hvdef]; field_simp
  rw [h2]
  split
  · rw [normal_affine_sq (hz _) (hz _), Real.sq_sqrt hv]; ring
  · rw [normal_affine_sq_real (hz _), Real.sq_sqrt (by positivity)]; ring

/-- C84: the empty signal. -/
theorem C84_awgn_empty (input : Signal) (snrDb rate : ℝ) (z : Nat → ℝ) (h : input.toC = []) :
    awgn input snrDb rate z = .error .indexError := by simp [awgn, h]

example : (Signal.cplx [1, Complex.I]).toC ≠ [] := by simp [Signal.toC]

end Verif
