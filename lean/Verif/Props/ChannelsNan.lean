import Verif.Model.ChannelsNan
import Verif.Props.ChannelsPropagate
/-
C142: where nan enters the channel objects, and where it does not.
-/
namespace Verif
open Finset

variable {nr nt : Nat}

theorem numSum_some {ι : Type*} [Fintype ι] (f : ι → ℂ) : numSum (fun i => some (f i)) = some (∑ i, f i) := by
  unfold numSum
  rw [if_pos (show ∀ i, ((fun i => some (f i)) i).isSome from fun _ => rfl)]
  rfl

theorem numSum_none {ι : Type*} [Fintype ι] (f : ι → Option ℂ) : numSum f = none ↔ ∃ i, f i = none := by
  unfold numSum
  by_cases h : ∀ i, (f i).isSome
  · rw [if_pos h]
    constructor
    · intro e
      exact absurd e (by simp)
    · rintro ⟨i, hi⟩
      have := h i
      rw [hi] at this
      simp at this
  · rw [if_neg h]
    refine ⟨fun _ => ?_, fun _ => rfl⟩
    push Not at h
    obtain ⟨i, hi⟩ := h
    exact ⟨i, by simpa using hi⟩

theorem numMul_some (a b : ℂ) : numMul (some a) (some b) = some (a * b) := rfl
theorem numAdd_some (a b : ℂ) : numAdd (some a) (some b) = some (a + b) := rfl

theorem numMul_none (a b : Option ℂ) : numMul a b = none ↔ a = none ∨ b = none := by
  cases a <;> cases b <;> simp [numMul]

theorem numAdd_none (a b : Option ℂ) : numAdd a b = none ↔ a = none ∨ b = none := by
  cases a <;> cases b <;> simp [numAdd]

theorem numSqrt_nonneg {x : ℝ} (h : 0 ≤ x) : numSqrt x = some (Real.sqrt x) := if_neg (not_lt.2 h)
theorem numSqrt_neg {x : ℝ} (h : x < 0) : numSqrt x = none := if_pos h
theorem numSqrt_none (x : ℝ) : numSqrt x = none ↔ x < 0 := by
  unfold numSqrt
  split <;> simp_all

theorem nlosGainN_num (Rt : Matrix (Fin nt) (Fin nt) ℂ) (Rr : Matrix (Fin nr) (Fin nr) ℂ) (c : Bool) (m : Matrix (Fin nr) (Fin nt) ℂ) :
    nlosGainN (numMat Rt) (numMat Rr) = some (nlosGain ⟨⟨c, m⟩, Rt, Rr⟩) := by
  unfold nlosGainN nlosGain
  have : (fun x : Fin nt × Fin nr => Matrix.kroneckerMap numMul (numMat Rt).transpose (numMat Rr) x x) = fun x => some (Matrix.kroneckerMap (fun a b => a * b) Rt.transpose Rr x x) := by
    funext x
    rfl
  rw [this, numSum_some]
  rfl

theorem losGainN_num (m : Matrix (Fin nr) (Fin nt) ℂ) : losGainN (numMat m) = some (losGain m : ℂ) := by
  unfold losGainN losGain
  have : (fun x : Fin nr × Fin nt => (numMat m x.1 x.2).map fun (v : ℂ) => ((‖v‖ * ‖v‖ : ℝ) : ℂ)) = fun x => some ((‖m x.1 x.2‖ * ‖m x.1 x.2‖ : ℝ) : ℂ) := by
    funext x
    rfl
  rw [this, numSum_some, Fintype.sum_prod_type]
  push_cast
  rfl

/-- Parameters without nan. -/
def MimoFading.emb (p : MimoFading nr nt) : MimoFadingN nr nt := ⟨p.mean.isComplex, numMat p.mean.mat, numMat p.Rt, numMat p.Rr⟩

/-- A state without nan. -/
noncomputable def Mimo.emb (ch : Mimo nr nt) : MimoN nr nt where
  noiseStd := ch.noiseStd.map some
  fading := ch.fading.emb
  isComplex := ch.isComplex
  noises := ch.noises.map fun l => l.map fun v i => some (v i)
  gains := ch.gains.map fun l => l.map numMat
  unnoisy := ch.unnoisy.map fun l => l.map fun v i => some (v i)

theorem energyGapN_num (p : MimoFading nr nt) : energyGapN p.emb = some (nlosGain p + (losGain p.mean.mat : ℂ) - (nt : ℂ) * (nr : ℂ)) := by
  unfold energyGapN MimoFading.emb
  rw [nlosGainN_num p.Rt p.Rr p.mean.isComplex p.mean.mat, losGainN_num, numAdd_some]
  rfl

theorem setFading_emb (ch : Mimo nr nt) (p : MimoFading nr nt) : ch.emb.setFading p.emb = ((ch.setFading p).1.emb, (ch.setFading p).2) := by
  unfold MimoN.setFading Mimo.setFading
  rw [energyGapN_num]
  by_cases h : ‖nlosGain p + (losGain p.mean.mat : ℂ) - (nt : ℂ) * (nr : ℂ)‖ > 1 / 1000
  · rw [if_pos ⟨_, rfl, h⟩, if_pos h]
  · rw [if_neg (by rintro ⟨v, hv, hv'⟩; exact h (by rw [Option.some.inj hv]; exact hv')), if_neg h]
    by_cases h0 : nr = 0 ∨ nt = 0
    · rw [if_pos h0, if_pos h0]
      rfl
    · rw [if_neg h0, if_neg h0]
      rfl

theorem updateKbsm_emb (ch : Mimo nr nt) (bt br : ℝ) : ch.emb.updateKbsm bt br = ((ch.updateKbsm bt br).1.emb, (ch.updateKbsm bt br).2) := by
  unfold MimoN.updateKbsm Mimo.updateKbsm
  by_cases h : br < 0 ∨ bt < 0
  · rw [if_pos h, if_pos h]
  · rw [if_neg h, if_neg h, ← setFading_emb]
    rfl

theorem expoMatN_num {n : Nat} {t : ℂ} (h : t ≠ 0) : expoMatN n t = numMat (expoMat n t) := by
  funext i j
  unfold expoMatN
  rw [if_neg (fun e => h e.1)]
  rfl

theorem expoCorrRayleigh_emb (ch : Mimo nr nt) {t r : ℂ} (ht : t ≠ 0) (hr : r ≠ 0) (bt br : ℝ) :
    ch.emb.expoCorrRayleigh t r bt br = ((ch.expoCorrRayleigh t r bt br).1.emb, (ch.expoCorrRayleigh t r bt br).2) := by
  unfold MimoN.expoCorrRayleigh Mimo.expoCorrRayleigh
  by_cases h1 : ‖t‖ - 1 > 1 / 10000
  · rw [if_pos h1, if_pos h1]
  rw [if_neg h1, if_neg h1]
  by_cases h2 : ‖r‖ - 1 > 1 / 10000
  · rw [if_pos h2, if_pos h2]
  rw [if_neg h2, if_neg h2, expoMatN_num ht, expoMatN_num hr]
  have := setFading_emb ch ⟨⟨true, 0⟩, expoMat nt t, expoMat nr r⟩
  unfold MimoFading.emb at this
  dsimp only at this
  rw [this]
  rcases ch.setFading ⟨⟨true, 0⟩, expoMat nt t, expoMat nr r⟩ with ⟨c, e | u⟩
  · rfl
  · exact updateKbsm_emb c bt br

theorem ricianMeanN_num {m : Matrix (Fin nr) (Fin nt) ℂ} (hm : m ≠ 0) {k : ℝ} (hk : 0 ≤ k * ricianNlos nr nt k) : ricianMeanN (numMat m) k = numMat (ricianMean m k) := by
  funext i j
  have hp := losGain_pos hm
  unfold ricianMeanN
  rw [losGainN_num, Option.bind_some, if_neg (by exact_mod_cast hp.ne'), Complex.ofReal_re, numSqrt_nonneg (div_nonneg hk hp.le)]
  rfl

theorem rician_sign {k : ℝ} (h : 0 ≤ k ∨ k < -1) : 0 ≤ k * ricianNlos nr nt k := by
  unfold ricianNlos
  rw [← mul_div_assoc]
  rcases h with h | h
  · exact div_nonneg (by positivity) (by linarith)
  · exact div_nonneg_of_nonpos (mul_nonpos_of_nonpos_of_nonneg (by linarith) (by positivity)) (by linarith)

theorem uncorrRician_emb (ch : Mimo nr nt) (mean : MeanMat nr nt) (hm : mean.mat ≠ 0) {k : ℝ} (hk : 0 ≤ k ∨ k < -1) :
    ch.emb.uncorrRician mean.isComplex (numMat mean.mat) k = ((ch.uncorrRician mean k).1.emb, (ch.uncorrRician mean k).2) := by
  unfold MimoN.uncorrRician Mimo.uncorrRician
  rw [if_neg (by rcases hk with h | h <;> intro e <;> linarith), ricianMeanN_num hm (rician_sign hk), ← setFading_emb]
  rfl

theorem expoCorrRician_emb (ch : Mimo nr nt) (mean : MeanMat nr nt) (hm : mean.mat ≠ 0) {k : ℝ} (hk : 0 ≤ k ∨ k < -1) {t r : ℂ} (ht : t ≠ 0) (hr : r ≠ 0) (bt br : ℝ) :
    ch.emb.expoCorrRician mean.isComplex (numMat mean.mat) k t r bt br = ((ch.expoCorrRician mean k t r bt br).1.emb, (ch.expoCorrRician mean k t r bt br).2) := by
  unfold MimoN.expoCorrRician Mimo.expoCorrRician
  by_cases h1 : ‖t‖ - 1 > 1 / 10000
  · rw [if_pos h1, if_pos h1]
  rw [if_neg h1, if_neg h1]
  by_cases h2 : ‖r‖ - 1 > 1 / 10000
  · rw [if_pos h2, if_pos h2]
  rw [if_neg h2, if_neg h2, if_neg (by rcases hk with h | h <;> intro e <;> linarith), ricianMeanN_num hm (rician_sign hk), expoMatN_num ht, expoMatN_num hr]
  have := setFading_emb ch ⟨⟨mean.isComplex, ricianMean mean.mat k⟩, fun i j => expoMat nt t i j * (ricianNlos nr nt k : ℂ) / ((nr * nt : Nat) : ℂ), expoMat nr r⟩
  unfold MimoFading.emb at this
  dsimp only at this
  have e : (fun i j => (numMat (expoMat nt t) i j).map fun v => v * (ricianNlos nr nt k : ℂ) / ((nr * nt : Nat) : ℂ)) =
      numMat (fun i j => expoMat nt t i j * (ricianNlos nr nt k : ℂ) / ((nr * nt : Nat) : ℂ)) := rfl
  rw [e, this]
  rcases ch.setFading ⟨⟨mean.isComplex, ricianMean mean.mat k⟩, fun i j => expoMat nt t i j * (ricianNlos nr nt k : ℂ) / ((nr * nt : Nat) : ℂ), expoMat nr r⟩ with ⟨c, e | u⟩
  · rfl
  · exact updateKbsm_emb c bt br

theorem num_numMat {m n : Nat} (A : Matrix (Fin m) (Fin n) ℂ) : NanMat.num (numMat A) = some A := by
  unfold NanMat.num
  rw [if_pos (show ∀ i j, (numMat A i j).isSome from fun _ _ => rfl)]
  rfl

theorem propagate_emb (sqrtmT : Matrix (Fin nt) (Fin nt) ℂ → Matrix (Fin nt) (Fin nt) ℂ)
    (sqrtmR : Matrix (Fin nr) (Fin nr) ℂ → Matrix (Fin nr) (Fin nr) ℂ) (ch : Mimo nr nt) (msg : Signal) (z : Nat → ℝ) :
    ch.emb.propagate sqrtmT sqrtmR msg z = ((ch.propagate sqrtmT sqrtmR msg z).1.emb, (ch.propagate sqrtmT sqrtmR msg z).2.map fun l => l.map fun v i => some (v i)) := by
  unfold MimoN.propagate Mimo.propagate
  by_cases h1 : msg.toC = []
  · rw [if_pos h1, if_pos h1]
    rfl
  rw [if_neg h1, if_neg h1]
  have hc : ch.emb.isComplex = ch.isComplex := rfl
  rw [hc]
  by_cases h2 : (msg.isComplex && !ch.isComplex) = true
  · rw [if_pos h2, if_pos h2]
    rfl
  rw [if_neg h2, if_neg h2]
  by_cases h3 : nt = 0
  · rw [if_pos h3, if_pos h3]
    rfl
  rw [if_neg h3, if_neg h3]
  have hs : ch.emb.noiseStd = ch.noiseStd.map some := rfl
  rw [hs]
  rcases hstd : ch.noiseStd with _ | std
  · rfl
  have hRr : NanMat.num ch.emb.fading.Rr = some ch.fading.Rr := num_numMat _
  have hRt : NanMat.num ch.emb.fading.Rt = some ch.fading.Rt := num_numMat _
  simp only [Option.map_some, hRr, hRt]
  set nv := mimoVectors nt msg.toC.length with hnv
  have hun : (List.range nv).map (fun a => fun (j : Fin nr) => numSum fun k => numMul ((((List.range nv).map fun a => fun i l =>
          (ch.emb.fading.mean i l).map fun m => (∑ j, ∑ k, sqrtmR ch.fading.Rr i j * rawGain ch.isComplex nv nr nt (fun i => z (drawCount ch.isComplex (nv * nr) + i)) a j k * sqrtmT ch.fading.Rt l k) + m).getD a fun _ _ => none) j k)
          (some ((mimoPad nt msg.toC).getD (a * nt + k.val) 0))) =
      ((List.range nv).map fun a => fun (j : Fin nr) => ∑ k, (((List.range nv).map fun a =>
        corrGain (sqrtmR ch.fading.Rr) (sqrtmT ch.fading.Rt) ch.fading.mean.mat (rawGain ch.isComplex nv nr nt (fun i => z (drawCount ch.isComplex (nv * nr) + i)) a)).getD a 0) j k *
          (mimoPad nt msg.toC).getD (a * nt + k.val) 0).map fun v i => some (v i) := by
    rw [List.map_map]
    refine List.map_congr_left fun a ha => ?_
    funext j
    have ha' : a < nv := List.mem_range.1 ha
    have g1 : ∀ {α : Type} (f : ℕ → α) (d : α), ((List.range nv).map f).getD a d = f a := by
      intro α f d
      rw [List.getD_eq_getElem _ _ (by simpa using ha')]
      simp
    simp only [g1, Function.comp_apply]
    rw [← numSum_some]
    congr 1
  refine Prod.ext ?_ ?_
  · simp only [Mimo.emb, Option.map_some, MimoN.mk.injEq, true_and]
    refine ⟨?_, ?_, ?_⟩
    · congr 1
      rw [List.map_map]
      rfl
    · congr 1
      rw [List.map_map]
      rfl
    · exact congrArg some hun
  · simp only [Except.map]
    congr 1
    have hno : ((List.range nv).map fun a => fun (i : Fin nr) => noiseSampleN ch.isComplex (some std) (nv * nr) z (a * nr + i.val)) =
      (((List.range nv).map fun a => fun (i : Fin nr) => noiseSample ch.isComplex std (nv * nr) z (a * nr + i.val)).map fun v i => some (v i)) := by rw [List.map_map]; rfl
    refine (congrArg₂ (List.zipWith fun (u v : Fin nr → Option ℂ) => fun i => numAdd (u i) (v i)) hun hno).trans ?_
    rw [List.zipWith_map_left, List.zipWith_map_right, List.map_zipWith]
    rfl

/-! ### Regular histories never meet a nan -/

/-- The same operation in the model with nan. -/
noncomputable def MimoOp.emb : MimoOp nr nt → MimoOpN nr nt
  | .setNoiseStd s => .setNoiseStd (s.map some)
  | .setFading p => .setFading p.emb
  | .setSnrDb snr rate Es => .setSnrDb snr rate Es
  | .setSnrLin snr rate Es => .setSnrLin snr rate Es
  | .uncorrRayleigh c => .uncorrRayleigh c
  | .expoCorrRayleigh t r bt br => .expoCorrRayleigh t r bt br
  | .uncorrRician m k => .uncorrRician m.isComplex (numMat m.mat) k
  | .expoCorrRician m k t r bt br => .expoCorrRician m.isComplex (numMat m.mat) k t r bt br
  | .propagate msg z => .propagate msg z

/-- Arguments within the documented range: a positive code rate and a non-negative energy and SNR, correlation coefficients and means that
are not zero, k-factors that are not negative. -/
def MimoOp.Regular : MimoOp nr nt → Prop
  | .setSnrDb _ rate Es => 0 < rate ∧ 0 ≤ Es
  | .setSnrLin snr rate Es => 0 ≤ snr ∧ 0 < rate ∧ 0 ≤ Es
  | .expoCorrRayleigh t r _ _ => t ≠ 0 ∧ r ≠ 0
  | .uncorrRician m k => m.mat ≠ 0 ∧ 0 ≤ k
  | .expoCorrRician m k t r _ _ => m.mat ≠ 0 ∧ 0 ≤ k ∧ t ≠ 0 ∧ r ≠ 0
  | _ => True

theorem noiseStdLinN_num (c : Bool) (n : Nat) {snr rate Es : ℝ} (hs : 0 ≤ snr) (hr : 0 < rate) (hE : 0 ≤ Es) :
    noiseStdLinN c n snr rate Es = (noiseStdLin c n snr rate Es).map some := by
  unfold noiseStdLinN noiseStdLin
  split
  · rfl
  · rw [numSqrt_nonneg (by split <;> positivity)]
    rfl

theorem noiseStdDbN_num (c : Bool) (n : Nat) (snr : ℝ) {rate Es : ℝ} (hr : 0 < rate) (hE : 0 ≤ Es) :
    noiseStdDbN c n snr rate Es = (noiseStdDb c n snr rate Es).map some :=
  noiseStdLinN_num c n (Real.rpow_nonneg (by norm_num) _) hr hE

theorem after_emb (sqrtmT : Matrix (Fin nt) (Fin nt) ℂ → Matrix (Fin nt) (Fin nt) ℂ) (sqrtmR : Matrix (Fin nr) (Fin nr) ℂ → Matrix (Fin nr) (Fin nr) ℂ)
    (ch : Mimo nr nt) {op : MimoOp nr nt} (h : op.Regular) : ch.emb.after sqrtmT sqrtmR op.emb = (ch.after sqrtmT sqrtmR op).emb := by
  cases op with
  | setNoiseStd s => rfl
  | setFading p => simp only [MimoN.after, MimoOp.emb, Mimo.after, setFading_emb]
  | setSnrDb snr rate Es =>
    obtain ⟨h1, h2⟩ := h
    have e : ch.emb.isComplex = ch.isComplex := rfl
    simp only [MimoN.after, MimoOp.emb, Mimo.after, e, noiseStdDbN_num _ _ _ h1 h2]
    rcases noiseStdDb ch.isComplex nt snr rate Es with _ | _ <;> rfl
  | setSnrLin snr rate Es =>
    obtain ⟨h0, h1, h2⟩ := h
    have e : ch.emb.isComplex = ch.isComplex := rfl
    simp only [MimoN.after, MimoOp.emb, Mimo.after, e, noiseStdLinN_num _ _ h0 h1 h2]
    rcases noiseStdLin ch.isComplex nt snr rate Es with _ | _ <;> rfl
  | uncorrRayleigh c => exact congrArg Prod.fst (setFading_emb ch ⟨⟨c, 0⟩, 1, 1⟩)
  | expoCorrRayleigh t r bt br => exact congrArg Prod.fst (expoCorrRayleigh_emb ch h.1 h.2 bt br)
  | uncorrRician m k => exact congrArg Prod.fst (uncorrRician_emb ch m h.1 (Or.inl h.2))
  | expoCorrRician m k t r bt br => exact congrArg Prod.fst (expoCorrRician_emb ch m h.1 (Or.inl h.2.1) h.2.2.1 h.2.2.2 bt br)
  | propagate msg z => exact congrArg Prod.fst (propagate_emb sqrtmT sqrtmR ch msg z)

theorem init_emb (s : Option ℝ) (p : Option (MimoFading nr nt)) : MimoN.init (s.map some) (p.map MimoFading.emb) = (Mimo.init s p).map Mimo.emb := by
  unfold MimoN.init Mimo.init
  have e := setFading_emb (Mimo.mk s ⟨⟨false, 0⟩, 1, 1⟩ false none none none : Mimo nr nt) (p.getD ⟨⟨false, 0⟩, 1, 1⟩)
  have e1 : (p.map MimoFading.emb).getD ⟨false, numMat 0, numMat 1, numMat 1⟩ = (p.getD ⟨⟨false, 0⟩, 1, 1⟩).emb := by
    cases p <;> rfl
  rw [e1]
  have e2 : (MimoN.mk (s.map some) ⟨false, numMat 0, numMat 1, numMat 1⟩ false none none none : MimoN nr nt) =
      (Mimo.mk s ⟨⟨false, 0⟩, 1, 1⟩ false none none none : Mimo nr nt).emb := rfl
  rw [e2, e]
  rcases (Mimo.mk s ⟨⟨false, 0⟩, 1, 1⟩ false none none none : Mimo nr nt).setFading (p.getD ⟨⟨false, 0⟩, 1, 1⟩) with ⟨c, e | u⟩ <;> rfl

/-- C142, MIMO: a channel constructed from numbers and used with arguments in the documented range (whatever fails in between) behaves as in the
model without nan (`Model/Channels`): in particular every output of `propagate` is a number. -/
theorem C142_regular (sqrtmT : Matrix (Fin nt) (Fin nt) ℂ → Matrix (Fin nt) (Fin nt) ℂ) (sqrtmR : Matrix (Fin nr) (Fin nr) ℂ → Matrix (Fin nr) (Fin nr) ℂ)
    (s : Option ℝ) (p : Option (MimoFading nr nt)) (c : MimoN nr nt) (h : MimoN.init (s.map some) (p.map MimoFading.emb) = .ok c) (ops : List (MimoOp nr nt)) (hops : ∀ op ∈ ops, op.Regular) :
    ∃ ch, Mimo.init s p = .ok ch ∧ (ops.map MimoOp.emb).foldl (fun c op => c.after sqrtmT sqrtmR op) c = (ops.foldl (fun c op => c.after sqrtmT sqrtmR op) ch).emb ∧
      ∀ (msg : Signal) (z : Nat → ℝ) (out : List (Fin nr → Option ℂ)),
        (((ops.map MimoOp.emb).foldl (fun c op => c.after sqrtmT sqrtmR op) c).propagate sqrtmT sqrtmR msg z).2 = .ok out →
          (∀ v ∈ out, ∀ j, v j ≠ none) ∧ ((ops.foldl (fun c op => c.after sqrtmT sqrtmR op) ch).propagate sqrtmT sqrtmR msg z).2 = .ok (out.map fun v j => (v j).getD 0) := by
  rw [init_emb] at h
  rcases hi : Mimo.init s p with e | ch
  · rw [hi] at h
    cases h
  · rw [hi] at h
    obtain rfl : ch.emb = c := Except.ok.inj h
    refine ⟨ch, rfl, ?_⟩
    have key : (ops.map MimoOp.emb).foldl (fun c op => c.after sqrtmT sqrtmR op) ch.emb = (ops.foldl (fun c op => c.after sqrtmT sqrtmR op) ch).emb := by
      clear h hi
      induction ops generalizing ch with
      | nil => rfl
      | cons op ops ih =>
        rw [List.map_cons, List.foldl_cons, List.foldl_cons, after_emb sqrtmT sqrtmR ch (hops op (by simp))]
        exact ih (fun o ho => hops o (by simp [ho])) _
    refine ⟨key, ?_⟩
    rw [key]
    intro msg z out ho
    rw [propagate_emb] at ho
    rcases hp : ((ops.foldl (fun c op => c.after sqrtmT sqrtmR op) ch).propagate sqrtmT sqrtmR msg z).2 with e | l
    · rw [hp] at ho
      cases ho
    · rw [hp] at ho
      obtain rfl := Except.ok.inj ho
      refine ⟨?_, ?_⟩
      · intro v hv j
        obtain ⟨w, -, rfl⟩ := List.mem_map.1 hv
        simp
      · rw [hp, List.map_map]
        congr 1
        exact (List.map_id _).symm

/-! ### What the Rician setters accept -/

theorem energyGapN_nan {p : MimoFadingN nr nt} {i : Fin nr} {j : Fin nt} (h : p.mean i j = none) : energyGapN p = none := by
  unfold energyGapN losGainN
  have : numSum (fun x : Fin nr × Fin nt => (p.mean x.1 x.2).map fun (v : ℂ) => ((‖v‖ * ‖v‖ : ℝ) : ℂ)) = none :=
    (numSum_none _).2 ⟨(i, j), by dsimp only; rw [h]; rfl⟩
  rw [this, (numAdd_none _ _).2 (Or.inr rfl)]
  rfl

theorem setFading_nan (hr : 0 < nr) (ht : 0 < nt) (ch : MimoN nr nt) {p : MimoFadingN nr nt} {i : Fin nr} {j : Fin nt} (h : p.mean i j = none) :
    ch.setFading p = ({ ch with
      fading := p
      isComplex := p.cplx }, .ok ()) := by
  unfold MimoN.setFading
  rw [energyGapN_nan h, if_neg (by rintro ⟨v, hv, -⟩; cases hv), if_neg (by omega)]

theorem ricianMeanN_nan {m : Matrix (Fin nr) (Fin nt) ℂ} (hr : 0 < nr) (ht : 0 < nt) {k : ℝ} (h : m = 0 ∨ (-1 < k ∧ k < 0)) (i : Fin nr) (j : Fin nt) : ricianMeanN (numMat m) k i j = none := by
  unfold ricianMeanN
  rw [losGainN_num, Option.bind_some]
  by_cases hm : m = 0
  · have : losGain m = 0 := by rw [hm]; simp [losGain]
    rw [this, if_pos (by simp)]
  · have hp := losGain_pos hm
    obtain ⟨h1, h2⟩ := h.resolve_left hm
    have hn : (0 : ℝ) < ((nr * nt : Nat) : ℝ) := by exact_mod_cast Nat.mul_pos hr ht
    rw [if_neg (by exact_mod_cast hp.ne'), Complex.ofReal_re, numSqrt_neg]
    · rfl
    · refine div_neg_of_neg_of_pos (mul_neg_of_neg_of_pos h2 ?_) hp
      exact div_pos hn (by linarith)

/-- C142: `uncorr_rician_fading` refuses no k-factor but -1 (ZeroDivisionError).  A zero mean, or a k-factor between -1 and 0, makes every entry of the stored
mean a nan, without an exception; otherwise the mean consists of numbers and has the energy `k nb_tx nb_rx / (k + 1)`. -/
theorem C142_uncorr_rician (hr : 0 < nr) (ht : 0 < nt) (ch : MimoN nr nt) (cplx : Bool) (mean : Matrix (Fin nr) (Fin nt) ℂ) (k : ℝ) :
    (k = -1 → ch.uncorrRician cplx (numMat mean) k = (ch, .error .zeroDivisionError)) ∧
    (k ≠ -1 → (mean = 0 ∨ (-1 < k ∧ k < 0)) → ∃ c, ch.uncorrRician cplx (numMat mean) k = (c, .ok ()) ∧ c.isComplex = cplx ∧ c.noiseStd = ch.noiseStd ∧ (∀ i j, c.fading.mean i j = none) ∧
      ∃ Rt Rr, c.fading.Rt = numMat Rt ∧ c.fading.Rr = numMat Rr) ∧
    (mean ≠ 0 → (0 ≤ k ∨ k < -1) → ∃ c m Rt, ch.uncorrRician cplx (numMat mean) k = (c, .ok ()) ∧ c.isComplex = cplx ∧ c.noiseStd = ch.noiseStd ∧ c.fading = ⟨cplx, numMat m, numMat Rt, numMat 1⟩ ∧
      (∑ i, ∑ j, ‖m i j‖ ^ 2 = k * (nr * nt) / (k + 1)) ∧ ∑ j, Rt j j = nt / (k + 1)) := by
  refine ⟨fun hk => ?_, fun hk h => ?_, fun hm hk => ?_⟩
  · unfold MimoN.uncorrRician
    rw [if_pos (by rw [hk]; norm_num)]
  · unfold MimoN.uncorrRician
    rw [if_neg (fun e => hk (by linarith)), setFading_nan hr ht ch (ricianMeanN_nan hr ht h ⟨0, hr⟩ ⟨0, ht⟩)]
    exact ⟨_, rfl, rfl, rfl, fun i j => ricianMeanN_nan hr ht h i j, _, _, rfl, rfl⟩
  · have hk1 : k + 1 ≠ 0 := by rcases hk with h | h <;> intro e <;> linarith
    have hp := losGain_pos hm
    have hrR : (0 : ℝ) < nr := by exact_mod_cast hr
    have htR : (0 : ℝ) < nt := by exact_mod_cast ht
    have hlos : losGain (ricianMean mean k) = k * (nr * nt) / (k + 1) := by
      unfold ricianMean
      rw [losGain_scale, Real.sq_sqrt (div_nonneg (rician_sign hk) hp.le)]
      unfold ricianNlos
      push_cast
      field_simp
    have htr : ∑ j, ((1 : Matrix (Fin nt) (Fin nt) ℂ) j j * (ricianNlos nr nt k : ℂ) / ((nr * nt : Nat) : ℂ)) = nt / (k + 1) := by
      have hrC : (nr : ℂ) ≠ 0 := by exact_mod_cast hr.ne'
      have htC : (nt : ℂ) ≠ 0 := by exact_mod_cast ht.ne'
      have hk1C : (k : ℂ) + 1 ≠ 0 := by exact_mod_cast hk1
      simp only [Matrix.one_apply_eq, one_mul, sum_const, card_univ, Fintype.card_fin, nsmul_eq_mul, ricianNlos]
      push_cast
      field_simp
    refine ⟨{ ch with
        fading := ⟨cplx, numMat (ricianMean mean k), numMat fun i j => (1 : Matrix (Fin nt) (Fin nt) ℂ) i j * (ricianNlos nr nt k : ℂ) / ((nr * nt : Nat) : ℂ), numMat 1⟩
        isComplex := cplx }, ricianMean mean k, fun i j => (1 : Matrix (Fin nt) (Fin nt) ℂ) i j * (ricianNlos nr nt k : ℂ) / ((nr * nt : Nat) : ℂ), ?_, rfl, rfl, rfl, ?_, htr⟩
    · unfold MimoN.uncorrRician
      rw [if_neg hk1, ricianMeanN_num hm (rician_sign hk)]
      unfold MimoN.setFading
      have hgap := energyGapN_num (⟨⟨cplx, ricianMean mean k⟩, fun i j => (1 : Matrix (Fin nt) (Fin nt) ℂ) i j * (ricianNlos nr nt k : ℂ) / ((nr * nt : Nat) : ℂ), 1⟩ : MimoFading nr nt)
      have hz : nlosGain (⟨⟨cplx, ricianMean mean k⟩, fun i j => (1 : Matrix (Fin nt) (Fin nt) ℂ) i j * (ricianNlos nr nt k : ℂ) / ((nr * nt : Nat) : ℂ), 1⟩ : MimoFading nr nt) +
          (losGain (ricianMean mean k) : ℂ) - (nt : ℂ) * (nr : ℂ) = 0 := by
        rw [nlosGain_eq, hlos]
        dsimp only
        rw [htr]
        have hk1C : (k : ℂ) + 1 ≠ 0 := by exact_mod_cast hk1
        simp only [Matrix.one_apply_eq, sum_const, card_univ, Fintype.card_fin, nsmul_eq_mul, mul_one]
        push_cast
        field_simp
        ring
      dsimp only at hgap
      rw [hz] at hgap
      rw [if_neg, if_neg (by omega)]
      rintro ⟨v, hv, hv'⟩
      have : energyGapN _ = some v := hv
      rw [show (⟨cplx, numMat (ricianMean mean k), numMat fun i j => (1 : Matrix (Fin nt) (Fin nt) ℂ) i j * (ricianNlos nr nt k : ℂ) / ((nr * nt : Nat) : ℂ), numMat 1⟩ : MimoFadingN nr nt) =
        MimoFading.emb ⟨⟨cplx, ricianMean mean k⟩, fun i j => (1 : Matrix (Fin nt) (Fin nt) ℂ) i j * (ricianNlos nr nt k : ℂ) / ((nr * nt : Nat) : ℂ), 1⟩ from rfl, hgap] at this
      rw [← Option.some.inj this] at hv'
      norm_num at hv'
    · rw [← losGain_eq, hlos]

/-- C142: the same for `expo_corr_rician_fading` (with coefficients of modulus at most 1 + 1e-4 and not negative betas): a zero mean or a k-factor between -1 and 0 is accepted
and stored as nan. -/
theorem C142_expo_corr_rician (hr : 0 < nr) (ht : 0 < nt) (ch : MimoN nr nt) (cplx : Bool) (mean : Matrix (Fin nr) (Fin nt) ℂ) (k : ℝ) (t r : ℂ) (h1 : ‖t‖ ≤ 1 + 1 / 10000) (h2 : ‖r‖ ≤ 1 + 1 / 10000)
    (bt br : ℝ) (hbt : 0 ≤ bt) (hbr : 0 ≤ br) :
    (k = -1 → ch.expoCorrRician cplx (numMat mean) k t r bt br = (ch, .error .zeroDivisionError)) ∧
    (k ≠ -1 → (mean = 0 ∨ (-1 < k ∧ k < 0)) → ∃ c, ch.expoCorrRician cplx (numMat mean) k t r bt br = (c, .ok ()) ∧ c.isComplex = cplx ∧ ∀ i j, c.fading.mean i j = none) := by
  unfold MimoN.expoCorrRician
  rw [if_neg (not_lt.2 (by linarith)), if_neg (not_lt.2 (by linarith))]
  refine ⟨fun hk => by rw [if_pos (by rw [hk]; norm_num)], fun hk h => ?_⟩
  rw [if_neg (fun e => hk (by linarith)), setFading_nan hr ht ch (ricianMeanN_nan hr ht h ⟨0, hr⟩ ⟨0, ht⟩)]
  dsimp only
  unfold MimoN.updateKbsm
  rw [if_neg (by intro e; rcases e with e | e <;> linarith)]
  dsimp only
  rw [setFading_nan hr ht _ (ricianMeanN_nan hr ht h ⟨0, hr⟩ ⟨0, ht⟩)]
  exact ⟨_, rfl, rfl, fun i j => ricianMeanN_nan hr ht h i j⟩

/-! ### What comes out -/

/-- C142: an output of `propagate` is a nan exactly when the noise level is one, or an entry of the mean in the row of the antenna. -/
theorem C142_output (sqrtmT : Matrix (Fin nt) (Fin nt) ℂ → Matrix (Fin nt) (Fin nt) ℂ) (sqrtmR : Matrix (Fin nr) (Fin nr) ℂ → Matrix (Fin nr) (Fin nr) ℂ)
    (ch : MimoN nr nt) (msg : Signal) (z : Nat → ℝ) (out : List (Fin nr → Option ℂ)) (h : (ch.propagate sqrtmT sqrtmR msg z).2 = .ok out) :
    out ≠ [] ∧ ∀ v ∈ out, ∀ j, v j = none ↔ ch.noiseStd = some none ∨ ∃ k, ch.fading.mean j k = none := by
  unfold MimoN.propagate at h
  by_cases h1 : msg.toC = []
  · rw [if_pos h1] at h
    cases h
  rw [if_neg h1] at h
  by_cases h2 : (msg.isComplex && !ch.isComplex) = true
  · rw [if_pos h2] at h
    cases h
  rw [if_neg h2] at h
  by_cases h3 : nt = 0
  · rw [if_pos h3] at h
    cases h
  rw [if_neg h3] at h
  rcases hstd : ch.noiseStd with _ | std
  · rw [hstd] at h
    cases h
  rw [hstd] at h
  dsimp only at h
  rcases hRr : NanMat.num ch.fading.Rr with _ | Rr
  · rw [hRr] at h
    cases h
  rcases hRt : NanMat.num ch.fading.Rt with _ | Rt
  · rw [hRr, hRt] at h
    cases h
  rw [hRr, hRt] at h
  have := (Except.ok.inj h).symm
  have hnv : 0 < mimoVectors nt msg.toC.length := by
    have hl : 0 < msg.toC.length := List.length_pos_of_ne_nil h1
    rw [mimoVectors_eq nt _ (by omega)]
    exact Nat.div_pos (by omega) (by omega)
  clear h
  set nv := mimoVectors nt msg.toC.length
  have hlen : out.length = nv := by rw [this]; simp
  refine ⟨by intro e; rw [e] at hlen; simp at hlen; omega, fun v hv j => ?_⟩
  obtain ⟨a, ha, hav⟩ := List.getElem_of_mem hv
  subst this
  rw [← hav]
  simp only [List.getElem_zipWith, List.getElem_map, List.getElem_range]
  have ha' : a < nv := by rw [hlen] at ha; exact ha
  rw [numAdd_none, numSum_none]
  have g1 : ∀ {α : Type} (f : ℕ → α) (d : α), ((List.range nv).map f).getD a d = f a := by
    intro α f d
    rw [List.getD_eq_getElem _ _ (by simpa using ha')]
    simp
  simp only [numMul_none, reduceCtorEq, or_false, noiseSampleN, Option.some.injEq, Option.map_eq_none_iff]
  have key : ∀ k : Fin nt, (((List.range nv).map fun a => (fun i l => (ch.fading.mean i l).map fun m => (∑ j, ∑ k, sqrtmR Rr i j *
      rawGain ch.isComplex nv nr nt (fun i => z (drawCount ch.isComplex (nv * nr) + i)) a j k * sqrtmT Rt l k) + m : NanMat nr nt)).getD a fun _ _ => none) j k = none ↔ ch.fading.mean j k = none := by
    intro k
    rw [g1]
    exact Option.map_eq_none_iff
  rw [or_comm]
  refine or_congr Iff.rfl (exists_congr key)

/-- C142: histories.  After any sequence of operations, successful or not, the energy stored is within 1/1000 of `nb_tx nb_rx` or is not a number. -/
theorem C142_history (sqrtmT : Matrix (Fin nt) (Fin nt) ℂ → Matrix (Fin nt) (Fin nt) ℂ) (sqrtmR : Matrix (Fin nr) (Fin nr) ℂ → Matrix (Fin nr) (Fin nr) ℂ)
    (hr : 0 < nr) (ht : 0 < nt) (s : Option (Option ℝ)) (p : Option (MimoFadingN nr nt)) (c : MimoN nr nt) (h : MimoN.init s p = .ok c) (ops : List (MimoOpN nr nt)) :
    (∀ v, energyGapN (ops.foldl (fun c op => c.after sqrtmT sqrtmR op) c).fading = some v → ‖v‖ ≤ 1 / 1000) ∧
      (ops.foldl (fun c op => c.after sqrtmT sqrtmR op) c).isComplex = (ops.foldl (fun c op => c.after sqrtmT sqrtmR op) c).fading.cplx := by
  set S : MimoN nr nt → Prop := fun c => (∀ v, energyGapN c.fading = some v → ‖v‖ ≤ 1 / 1000) ∧ c.isComplex = c.fading.cplx with hS
  have hset : ∀ (c : MimoN nr nt) (p : MimoFadingN nr nt), S c → S (c.setFading p).1 := by
    intro c p hc
    unfold MimoN.setFading
    by_cases hv : ∃ v, energyGapN p = some v ∧ ‖v‖ > 1 / 1000
    · rw [if_pos hv]
      exact hc
    · rw [if_neg hv, if_neg (by omega)]
      push Not at hv
      exact ⟨hv, rfl⟩
  have hkb : ∀ (c : MimoN nr nt) (bt br : ℝ), S c → S (c.updateKbsm bt br).1 := by
    intro c bt br hc
    unfold MimoN.updateKbsm
    split
    · exact hc
    · exact hset _ _ hc
  have hcomb : ∀ (c : MimoN nr nt) (p : MimoFadingN nr nt) (bt br : ℝ), S c →
      S (match c.setFading p with
        | (c, .error e) => (c, (.error e : Py Unit))
        | (c, .ok ()) => c.updateKbsm bt br).1 := by
    intro c p bt br hc
    have := hset c p hc
    rcases hh : c.setFading p with ⟨c', e | u⟩
    · rw [hh] at this
      exact this
    · rw [hh] at this
      exact hkb _ _ _ this
  have hstep : ∀ (c : MimoN nr nt) (op : MimoOpN nr nt), S c → S (c.after sqrtmT sqrtmR op) := by
    intro c op hc
    cases op with
    | setNoiseStd s => exact hc
    | setFading p => exact hset c p hc
    | setSnrDb snr rate Es => simp only [MimoN.after]; split <;> exact hc
    | setSnrLin snr rate Es => simp only [MimoN.after]; split <;> exact hc
    | uncorrRayleigh b => exact hset c _ hc
    | expoCorrRayleigh t r bt br =>
      simp only [MimoN.after, MimoN.expoCorrRayleigh]
      split
      · exact hc
      split
      · exact hc
      exact hcomb c _ bt br hc
    | uncorrRician b m k =>
      simp only [MimoN.after, MimoN.uncorrRician]
      split
      · exact hc
      · exact hset c _ hc
    | expoCorrRician b m k t r bt br =>
      simp only [MimoN.after, MimoN.expoCorrRician]
      split
      · exact hc
      split
      · exact hc
      split
      · exact hc
      exact hcomb c _ bt br hc
    | propagate msg z =>
      simp only [MimoN.after, MimoN.propagate]
      split
      · exact hc
      split
      · exact hc
      split
      · exact hc
      split
      · exact hc
      split <;> exact hc
  have h0 : S c := by
    have hd : S (MimoN.mk s ⟨false, numMat 0, numMat 1, numMat 1⟩ false none none none) := by
      refine ⟨fun v hv => ?_, rfl⟩
      have := energyGapN_num (⟨⟨false, 0⟩, 1, 1⟩ : MimoFading nr nt)
      unfold MimoFading.emb at this
      dsimp only at this hv
      rw [this, nlosGain_eq] at hv
      rw [← Option.some.inj hv]
      simp [losGain]
    have := hset _ (p.getD ⟨false, numMat 0, numMat 1, numMat 1⟩) hd
    unfold MimoN.init at h
    rcases hh : (MimoN.mk s ⟨false, numMat 0, numMat 1, numMat 1⟩ false none none none : MimoN nr nt).setFading (p.getD ⟨false, numMat 0, numMat 1, numMat 1⟩) with ⟨c', e | u⟩
    · rw [hh] at h
      cases h
    · rw [hh] at h this
      rw [← Except.ok.inj h]
      exact this
  clear h
  show S _
  induction ops generalizing c with
  | nil => exact h0
  | cons op ops ih => exact ih _ (hstep c op h0)


/-! ### The defects, from the constructor to the output -/

/-- C142, refuted as stated ("a channel that was configured without an exception outputs numbers"): after `uncorr_rician_fading` with a zero mean and any
k-factor but -1 nothing raises, and every output for every message is a nan. -/
theorem C142_zero_mean (sqrtmT : Matrix (Fin nt) (Fin nt) ℂ → Matrix (Fin nt) (Fin nt) ℂ) (sqrtmR : Matrix (Fin nr) (Fin nr) ℂ → Matrix (Fin nr) (Fin nr) ℂ)
    (hr : 0 < nr) (ht : 0 < nt) (ch : MimoN nr nt) (std : ℝ) (hstd : ch.noiseStd = some (some std)) (k : ℝ) (hk : k ≠ -1) :
    ∃ c, ch.uncorrRician true (numMat 0) k = (c, .ok ()) ∧ ∀ (msg : Signal) (z : Nat → ℝ), msg.toC ≠ [] →
      ∃ out, (c.propagate sqrtmT sqrtmR msg z).2 = .ok out ∧ out ≠ [] ∧ ∀ v ∈ out, ∀ j, v j = none := by
  obtain ⟨c, h1, h2, h3, h4, Rt, Rr, h5, h6⟩ := (C142_uncorr_rician hr ht ch true 0 k).2.1 hk (Or.inl rfl)
  refine ⟨c, h1, fun msg z hm => ?_⟩
  have hok : ∃ out, (c.propagate sqrtmT sqrtmR msg z).2 = .ok out := by
    unfold MimoN.propagate
    rw [if_neg hm, if_neg (by rw [h2]; simp), if_neg (by omega), h3, hstd, h5, h6, num_numMat, num_numMat]
    exact ⟨_, rfl⟩
  obtain ⟨out, ho⟩ := hok
  obtain ⟨o1, o2⟩ := C142_output sqrtmT sqrtmR c msg z out ho
  exact ⟨out, ho, o1, fun v hv j => (o2 v hv j).2 (Or.inr ⟨⟨0, ht⟩, h4 _ _⟩)⟩

theorem C142_refuted : ¬ ∀ (c c' : MimoN 2 2) (mean : Matrix (Fin 2) (Fin 2) ℂ) (k : ℝ), MimoN.init (some (some 1)) none = .ok c → 0 ≤ k → c.uncorrRician true (numMat mean) k = (c', .ok ()) →
    ∀ (msg : Signal) (z : Nat → ℝ) (out : List (Fin 2 → Option ℂ)), (c'.propagate id id msg z).2 = .ok out → ∀ v ∈ out, ∀ j, v j ≠ none := by
  intro H
  obtain ⟨ch, h0, -, -, h3⟩ := C87_default (nr := 2) (nt := 2) (by norm_num) (by norm_num) (some 1)
  have hi := init_emb (nr := 2) (nt := 2) (some 1) none
  rw [h0] at hi
  obtain ⟨c', h1, h2⟩ := C142_zero_mean id id (by norm_num) (by norm_num) ch.emb 1 (show ch.noiseStd.map some = _ by rw [h3]; rfl) 1 (by norm_num)
  obtain ⟨out, o1, o2, o3⟩ := h2 (.real [1, 1]) (fun _ => 0) (by simp [Signal.toC])
  obtain ⟨v, hv⟩ := List.exists_mem_of_ne_nil _ o2
  exact H ch.emb c' 0 1 hi (by norm_num) h1 _ _ out o1 v hv 0 (o3 v hv 0)

/-- C142: a k-factor below -1 is accepted with a negative definite "correlation" matrix (and `k_factor` reports it). -/
theorem C142_negative_k : ∃ (c c' : MimoN 2 2) (Rt : Matrix (Fin 2) (Fin 2) ℂ), MimoN.init (some (some 1)) none = .ok c ∧
    c.uncorrRician true (numMat 1) (-2) = (c', .ok ()) ∧ c'.fading.Rt = numMat Rt ∧ ∑ j, Rt j j = -2 := by
  obtain ⟨ch, h0, -⟩ := C87_default (nr := 2) (nt := 2) (by norm_num) (by norm_num) (some 1)
  have hi := init_emb (nr := 2) (nt := 2) (some 1) none
  rw [h0] at hi
  obtain ⟨c, m, Rt, h1, -, -, h4, -, h6⟩ := (C142_uncorr_rician (nr := 2) (nt := 2) (by norm_num) (by norm_num) ch.emb true 1 (-2)).2.2 one_ne_zero (Or.inr (by norm_num))
  refine ⟨ch.emb, c, Rt, hi, h1, by rw [h4], ?_⟩
  rw [h6]
  norm_num

/-- C142: `expo_corr_rayleigh_fading(0, r)` is accepted although the correlation matrix contains nans as soon as there are two transmit antennas; `propagate` then raises ValueError
(`sqrtm`) for every message it would transmit. -/
theorem C142_zero_correlation (sqrtmT : Matrix (Fin nt) (Fin nt) ℂ → Matrix (Fin nt) (Fin nt) ℂ) (sqrtmR : Matrix (Fin nr) (Fin nr) ℂ → Matrix (Fin nr) (Fin nr) ℂ)
    (hr : 0 < nr) (ht : 2 ≤ nt) (ch : MimoN nr nt) (std : Option ℝ) (hstd : ch.noiseStd = some std) (r : ℂ) (h2 : ‖r‖ ≤ 1 + 1 / 10000) (bt br : ℝ) (hbt : 0 ≤ bt) (hbr : 0 ≤ br) :
    ∃ c, ch.expoCorrRayleigh 0 r bt br = (c, .ok ()) ∧ ∀ (msg : Signal) (z : Nat → ℝ), msg.toC ≠ [] → (c.propagate sqrtmT sqrtmR msg z).2 = .error .valueError := by
  have hdiag : ∀ (n : Nat) (t : ℂ) (i : Fin n), expoMatN n t i i = some 1 := by
    intro n t i
    unfold expoMatN
    rw [if_neg (by simp), expoMat_diag]
  have hgap : ∀ (Rt : NanMat nt nt) (Rr : NanMat nr nr), (∀ i, Rt i i = some 1) → (∀ i, Rr i i = some 1) → energyGapN (⟨true, numMat 0, Rt, Rr⟩ : MimoFadingN nr nt) = some 0 := by
    intro Rt Rr e1 e2
    unfold energyGapN
    dsimp only
    have : nlosGainN Rt Rr = some (nt * nr : ℂ) := by
      unfold nlosGainN
      have : (fun x : Fin nt × Fin nr => Matrix.kroneckerMap numMul Rt.transpose Rr x x) = fun _ => some 1 := by
        funext x
        simp [Matrix.kroneckerMap, e1, e2, numMul]
      rw [this, numSum_some]
      simp
    rw [this, losGainN_num, numAdd_some]
    simp [losGain]
  have hset : ∀ (c : MimoN nr nt) (Rt : NanMat nt nt) (Rr : NanMat nr nr), (∀ i, Rt i i = some 1) → (∀ i, Rr i i = some 1) →
      c.setFading ⟨true, numMat 0, Rt, Rr⟩ = ({ c with
        fading := ⟨true, numMat 0, Rt, Rr⟩
        isComplex := true }, .ok ()) := by
    intro c Rt Rr e1 e2
    unfold MimoN.setFading
    rw [hgap Rt Rr e1 e2, if_neg (by rintro ⟨v, hv, hv'⟩; rw [← Option.some.inj hv] at hv'; norm_num at hv'), if_neg (by omega)]
  unfold MimoN.expoCorrRayleigh
  rw [if_neg (by norm_num), if_neg (not_lt.2 (by linarith)), hset _ _ _ (hdiag nt 0) (hdiag nr r)]
  dsimp only
  unfold MimoN.updateKbsm
  rw [if_neg (by intro e; rcases e with e | e <;> linarith)]
  dsimp only
  refine ⟨_, hset _ _ _ (fun i => by rw [hdiag, kbsmMat_diag]; simp [numMul]) (fun i => by rw [hdiag, kbsmMat_diag]; simp [numMul]), fun msg z hm => ?_⟩
  unfold MimoN.propagate
  rw [if_neg hm, if_neg (by simp), if_neg (by omega)]
  dsimp only
  rw [hstd]
  have hnan : NanMat.num (fun i j => numMul (expoMatN nt 0 i j) (some (kbsmMat nt bt i j))) = none := by
    unfold NanMat.num
    rw [if_neg]
    intro H
    have h10 : expoMatN nt 0 ⟨1, by omega⟩ ⟨0, by omega⟩ = none := if_pos ⟨rfl, by norm_num⟩
    have : (numMul (expoMatN nt 0 ⟨1, by omega⟩ ⟨0, by omega⟩) (some (kbsmMat nt bt ⟨1, by omega⟩ ⟨0, by omega⟩))).isSome := H ⟨1, by omega⟩ ⟨0, by omega⟩
    rw [h10] at this
    simp [numMul] at this
  dsimp only
  rw [hnan]
  cases NanMat.num (fun i j => numMul (expoMatN nr r i j) (some (kbsmMat nr br i j))) <;> rfl

/-- C142: `set_SNR_lin` stores a nan exactly when the signal-to-noise ratio, the code rate and the energy have a negative quotient. -/
theorem C142_snr (c : Bool) (hn : 0 < nt) (snr rate Es : ℝ) :
    noiseStdLinN c nt snr rate Es = .ok none ↔ Es / (rate * snr) < 0 := by
  unfold noiseStdLinN
  by_cases h : rate * snr = 0
  · rw [if_pos h, h]
    simp
  · rw [if_neg h]
    have hntR : (0 : ℝ) < nt := by exact_mod_cast hn
    have hpos : (0 : ℝ) < ((if c then 1 else 0) + 1 : ℝ) * (nt : ℝ) := by split <;> positivity
    have e : ((if c then 1 else 0) + 1 : ℝ) * (nt : ℝ) * Es / (rate * snr) = ((if c then 1 else 0) + 1 : ℝ) * (nt : ℝ) * (Es / (rate * snr)) := by ring
    rw [e]
    constructor
    · intro h1
      have h2 := (numSqrt_none _).1 (Except.ok.inj h1)
      by_contra hcon
      exact absurd h2 (not_lt.2 (mul_nonneg hpos.le (not_lt.1 hcon)))
    · intro h1
      rw [numSqrt_neg (mul_neg_of_pos_of_neg hpos h1)]

/-! ### SISO -/

/-- A state without nan. -/
noncomputable def Siso.emb (ch : Siso) : SisoN where
  noiseStd := ch.noiseStd.map some
  fading := ch.fading
  isComplex := ch.isComplex
  noises := ch.noises.map fun l => l.map some
  gains := ch.gains.map fun l => l.map some
  unnoisy := ch.unnoisy.map fun l => l.map some

/-- The same operation in the model with nan. -/
def SisoOp.emb : SisoOp → SisoOpN
  | .setNoiseStd s => .setNoiseStd (s.map some)
  | .setFading p => .setFading (some p)
  | .setSnrDb snr rate Es => .setSnrDb snr rate Es
  | .setSnrLin snr rate Es => .setSnrLin snr rate Es
  | .propagate msg z => .propagate msg z

/-- Arguments in the documented range: a variance that is not negative, a positive rate, an energy and SNR that are not negative. -/
def SisoOp.Regular : SisoOp → Prop
  | .setFading p => 0 ≤ p.2
  | .setSnrDb _ rate Es => 0 < rate ∧ 0 ≤ Es
  | .setSnrLin snr rate Es => 0 ≤ snr ∧ 0 < rate ∧ 0 ≤ Es
  | _ => True

theorem siso_setFading_emb (ch : Siso) (p : Num × ℝ) : ch.emb.setFading (some p) = ((ch.setFading p).1.emb, (ch.setFading p).2) := by
  unfold SisoN.setFading Siso.setFading
  dsimp only
  by_cases h : p.2 + ‖p.1.toC‖ ^ 2 ≠ 1
  · rw [if_pos h, if_pos h]
  · rw [if_neg h, if_neg h]
    rfl

theorem siso_gain_emb (ch : Siso) (hv : 0 ≤ ch.fading.2) (n : Nat) (z : Nat → ℝ) (i : Nat) : ch.emb.gainSample n z i = some (ch.gainSample n z i) := by
  unfold SisoN.gainSample Siso.gainSample Siso.emb
  dsimp only
  rw [numSqrt_nonneg (by positivity : 0 ≤ 1 / 2 * ch.fading.2), numSqrt_nonneg hv]
  split <;> rfl

theorem siso_propagate_emb (ch : Siso) (hv : 0 ≤ ch.fading.2) (msg : Signal) (z : Nat → ℝ) :
    ch.emb.propagate msg z = ((ch.propagate msg z).1.emb, (ch.propagate msg z).2.map fun l => l.map some) := by
  unfold SisoN.propagate Siso.propagate
  by_cases h1 : msg.toC = []
  · rw [if_pos h1, if_pos h1]
    rfl
  rw [if_neg h1, if_neg h1]
  have hc : ch.emb.isComplex = ch.isComplex := rfl
  rw [hc]
  by_cases h2 : (msg.isComplex && !ch.isComplex) = true
  · rw [if_pos h2, if_pos h2]
    rfl
  rw [if_neg h2, if_neg h2]
  have hs : ch.emb.noiseStd = ch.noiseStd.map some := rfl
  rw [hs]
  rcases hstd : ch.noiseStd with _ | std
  · rfl
  simp only [Option.map_some]
  set n := msg.toC.length
  set z' : Nat → ℝ := fun i => z (drawCount ch.isComplex n + i)
  have hg : (List.range n).map (ch.emb.gainSample n z') = ((List.range n).map (ch.gainSample n z')).map some := by
    rw [List.map_map]
    exact List.map_congr_left fun i _ => siso_gain_emb ch hv n z' i
  have hn : (List.range n).map (noiseSampleN ch.isComplex (some std) n z) = ((List.range n).map (noiseSample ch.isComplex std n z)).map some := by
    rw [List.map_map]
    rfl
  have hu : List.zipWith (fun a b => numMul a (some b)) (((List.range n).map (ch.gainSample n z')).map some) msg.toC =
      (List.zipWith (fun a b => a * b) ((List.range n).map (ch.gainSample n z')) msg.toC).map some := by
    rw [List.zipWith_map_left, List.map_zipWith]
    rfl
  rw [hg, hn, hu]
  refine Prod.ext ?_ ?_
  · simp only [Siso.emb, hstd, Option.map_some]
  · simp only [Except.map]
    rw [List.zipWith_map_left, List.zipWith_map_right, List.map_zipWith]
    rfl

theorem siso_step_emb (ch : Siso) (hv : 0 ≤ ch.fading.2) {op : SisoOp} (h : op.Regular) :
    ch.emb.step op.emb = ((ch.step op).1.emb, (ch.step op).2) ∧ 0 ≤ (ch.step op).1.fading.2 := by
  cases op with
  | setNoiseStd s => exact ⟨rfl, hv⟩
  | setFading p =>
    simp only [SisoN.step, SisoOp.emb, Siso.step, siso_setFading_emb]
    rcases hh : ch.setFading p with ⟨c, e | u⟩
    · refine ⟨rfl, ?_⟩
      unfold Siso.setFading at hh
      split at hh
      · rw [← (Prod.ext_iff.1 hh).1]
        exact hv
      · exact absurd (Prod.ext_iff.1 hh).2 (by simp)
    · refine ⟨rfl, ?_⟩
      unfold Siso.setFading at hh
      split at hh
      · exact absurd (Prod.ext_iff.1 hh).2 (by simp)
      · rw [← (Prod.ext_iff.1 hh).1]
        exact h
  | setSnrDb snr rate Es =>
    have e : ch.emb.isComplex = ch.isComplex := rfl
    simp only [SisoN.step, SisoOp.emb, Siso.step, e, noiseStdDbN_num _ _ _ h.1 h.2]
    rcases noiseStdDb ch.isComplex 1 snr rate Es with _ | _ <;> exact ⟨rfl, hv⟩
  | setSnrLin snr rate Es =>
    have e : ch.emb.isComplex = ch.isComplex := rfl
    simp only [SisoN.step, SisoOp.emb, Siso.step, e, noiseStdLinN_num _ _ h.1 h.2.1 h.2.2]
    rcases noiseStdLin ch.isComplex 1 snr rate Es with _ | _ <;> exact ⟨rfl, hv⟩
  | propagate msg z =>
    have hf : (ch.propagate msg z).1.fading = ch.fading := by
      unfold Siso.propagate
      split
      · rfl
      split
      · rfl
      split <;> rfl
    simp only [SisoN.step, SisoOp.emb, Siso.step, siso_propagate_emb ch hv]
    rcases hp : ch.propagate msg z with ⟨c, e | u⟩
    · exact ⟨rfl, by rw [hp] at hf; show 0 ≤ c.fading.2; rw [hf]; exact hv⟩
    · exact ⟨rfl, by rw [hp] at hf; show 0 ≤ c.fading.2; rw [hf]; exact hv⟩

/-- C142, SISO: histories with arguments in the documented range behave as in the model without nan. -/
theorem C142_siso_regular (ch : Siso) (hv : 0 ≤ ch.fading.2) (ops : List SisoOp) (hops : ∀ op ∈ ops, op.Regular) :
    (ops.map SisoOp.emb).foldl (fun c op => (c.step op).1) ch.emb = (ops.foldl (fun c op => (c.step op).1) ch).emb ∧
      ∀ (msg : Signal) (z : Nat → ℝ), ((ops.foldl (fun c op => (c.step op).1) ch).emb.propagate msg z).2 =
        ((ops.foldl (fun c op => (c.step op).1) ch).propagate msg z).2.map fun l => l.map some := by
  induction ops generalizing ch with
  | nil => exact ⟨rfl, fun msg z => by rw [List.foldl_nil, siso_propagate_emb ch hv]⟩
  | cons op ops ih =>
    obtain ⟨s1, s2⟩ := siso_step_emb ch hv (hops op (by simp))
    rw [List.map_cons, List.foldl_cons, List.foldl_cons, s1]
    exact ih _ s2 (fun o ho => hops o (by simp [ho]))

/-- C142, SISO: an output of `propagate` is a nan exactly when the noise level is one or the variance of the gain is negative. -/
theorem C142_siso_output (ch : SisoN) (msg : Signal) (z : Nat → ℝ) (out : List (Option ℂ)) (h : (ch.propagate msg z).2 = .ok out) :
    out ≠ [] ∧ ∀ v ∈ out, v = none ↔ ch.noiseStd = some none ∨ ch.fading.2 < 0 := by
  unfold SisoN.propagate at h
  by_cases h1 : msg.toC = []
  · rw [if_pos h1] at h
    cases h
  rw [if_neg h1] at h
  by_cases h2 : (msg.isComplex && !ch.isComplex) = true
  · rw [if_pos h2] at h
    cases h
  rw [if_neg h2] at h
  rcases hstd : ch.noiseStd with _ | std
  · rw [hstd] at h
    cases h
  rw [hstd] at h
  have := (Except.ok.inj h).symm
  clear h
  have hl : 0 < msg.toC.length := List.length_pos_of_ne_nil h1
  have hlen : out.length = msg.toC.length := by rw [this]; simp
  refine ⟨by intro e; rw [e] at hlen; simp at hlen; omega, fun v hv => ?_⟩
  obtain ⟨a, ha, hav⟩ := List.getElem_of_mem hv
  subst this
  rw [← hav]
  simp only [List.getElem_zipWith, List.getElem_map, List.getElem_range]
  rw [numAdd_none, numMul_none]
  have hg : ∀ n z i, ch.gainSample n z i = none ↔ ch.fading.2 < 0 := by
    intro n z i
    unfold SisoN.gainSample
    split <;> rw [Option.map_eq_none_iff, numSqrt_none]
    constructor <;> intro h <;> linarith
  rw [hg]
  simp only [reduceCtorEq, or_false, noiseSampleN, Option.map_eq_none_iff, Option.some.injEq]
  exact or_comm

/-- C142, SISO: the setter accepts `(2+0j, -3)`, since `-3 + 4 = 1`, and every message comes out as nan. -/
theorem C142_siso_negative_variance (std : ℝ) : ∃ ch, SisoN.init (some (some std)) (some (.cplx 2, -3)) = .ok ch ∧ ∀ (msg : Signal) (z : Nat → ℝ), msg.toC ≠ [] →
    ∃ out, (ch.propagate msg z).2 = .ok out ∧ out ≠ [] ∧ ∀ v ∈ out, v = none := by
  refine ⟨⟨some (some std), (.cplx 2, -3), true, none, none, none⟩, ?_, fun msg z hm => ?_⟩
  · unfold SisoN.init SisoN.setFading
    dsimp only
    rw [if_neg (by simp only [Num.toC]; norm_num)]
    rfl
  · have hok : ∃ out, ((⟨some (some std), (.cplx 2, -3), true, none, none, none⟩ : SisoN).propagate msg z).2 = .ok out := by
      unfold SisoN.propagate
      rw [if_neg hm, if_neg (by simp)]
      exact ⟨_, rfl⟩
    obtain ⟨out, ho⟩ := hok
    obtain ⟨o1, o2⟩ := C142_siso_output _ msg z out ho
    exact ⟨out, ho, o1, fun v hv => (o2 v hv).2 (Or.inr (by norm_num))⟩

/-- C142, SISO: `k_factor` of a channel with a variance that is not negative determines the fading: with `K` finite the variance is `1 / (K + 1)` and the power of the mean
`K / (K + 1)`; it is infinite exactly without fading. -/
theorem C142_k_factor (ch : SisoN) (hv : 0 ≤ ch.fading.2) (hn : ch.fading.2 + ‖ch.fading.1.toC‖ ^ 2 = 1) :
    (ch.kFactor = ⊤ ↔ ch.fading.2 = 0) ∧ ∀ K : ℝ, ch.kFactor = (K : EReal) → 0 ≤ K ∧ ch.fading.2 = 1 / (K + 1) ∧ ‖ch.fading.1.toC‖ ^ 2 = K / (K + 1) := by
  unfold SisoN.kFactor
  by_cases h : ch.fading.2 = 0
  · rw [if_pos h]
    exact ⟨⟨fun _ => h, fun _ => rfl⟩, fun K hK => absurd hK (EReal.top_ne_coe K)⟩
  · rw [if_neg h]
    refine ⟨⟨fun e => absurd e (EReal.coe_ne_top _), fun e => absurd e h⟩, fun K hK => ?_⟩
    have hK' : ‖ch.fading.1.toC‖ ^ 2 / |ch.fading.2| = K := by exact_mod_cast hK
    have hp : 0 < ch.fading.2 := lt_of_le_of_ne hv (Ne.symm h)
    rw [abs_of_pos hp] at hK'
    have hK0 : 0 ≤ K := by rw [← hK']; positivity
    have e : ‖ch.fading.1.toC‖ ^ 2 = K * ch.fading.2 := by rw [← hK']; field_simp
    have hk1 : (0 : ℝ) < K + 1 := by linarith
    have e2 : ch.fading.2 = 1 / (K + 1) := by
      rw [eq_div_iff hk1.ne']
      rw [e] at hn
      linarith
    exact ⟨hK0, e2, by rw [e, e2]; ring⟩

/-- A regular history: Rayleigh fading, an SNR, a Rician channel, a rejected k-factor and a transmission. -/
example : ∀ op ∈ [MimoOp.uncorrRayleigh (nr := 2) (nt := 2) true, .setSnrDb 10 (1 / 2) 1, .uncorrRician ⟨true, 1⟩ 3, .expoCorrRayleigh Complex.I (-1) 0 (-1), .propagate (.real [1, -1, 1]) fun _ => 0], op.Regular := by
  intro op h
  simp only [List.mem_cons, List.not_mem_nil, or_false] at h
  rcases h with rfl | rfl | rfl | rfl | rfl <;> simp [MimoOp.Regular]

example : ∀ op ∈ [SisoOp.setFading (.cplx (3 / 5 * Complex.I), 16 / 25), .setSnrLin 2 (1 / 2) 1, .propagate (.real [1, -1, 1]) fun _ => 0], op.Regular := by
  intro op h
  simp only [List.mem_cons, List.not_mem_nil, or_false] at h
  rcases h with rfl | rfl | rfl <;> simp [SisoOp.Regular]
  norm_num


end Verif
