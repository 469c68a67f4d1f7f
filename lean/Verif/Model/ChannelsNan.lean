import Verif.Model.Channels
/-
channels.py once more, with nan.  `Model/Channels` computes with numbers only; here a value is `some` number or `none` = nan.
numpy gives nan (and a warning) for `sqrt` of a negative number, for `0 / 0`, `0 * inf` and `0 ** -1` (complex); every operation on
nan gives nan; comparisons with nan are false (`!=` true).  A complex number with a nan component counts as nan.  Python numbers, not
numpy scalars, as `k_factor` and SNR: they raise ZeroDivisionError.  Infinities do not survive in the places where they arise
(`sqrt(x / 0)` is multiplied by a zero mean).
-/
namespace Verif

variable {nr nt : Nat}

/-- Sum of numbers and nans. -/
noncomputable def numSum {ι : Type*} [Fintype ι] (f : ι → Option ℂ) : Option ℂ :=
  open Classical in
  if ∀ i, (f i).isSome then some (∑ i, (f i).getD 0) else none

/-- Product of numbers and nans. -/
noncomputable def numMul (a b : Option ℂ) : Option ℂ := a.bind fun x => b.map fun y => x * y

/-- Sum of two. -/
noncomputable def numAdd (a b : Option ℂ) : Option ℂ := a.bind fun x => b.map fun y => x + y

/-- numpy's `sqrt`. -/
noncomputable def numSqrt (x : ℝ) : Option ℝ :=
  open Classical in
  if x < 0 then none else some (Real.sqrt x)

/-- channels.py:93 `set_SNR_lin`. -/
noncomputable def noiseStdLinN (isComplex : Bool) (nbTx : Nat) (snr rate Es : ℝ) : Py (Option ℝ) :=
  open Classical in
  if rate * snr = 0 then .error .zeroDivisionError
  else .ok (numSqrt (((if isComplex then 1 else 0) + 1 : ℝ) * (nbTx : ℝ) * Es / (rate * snr)))

/-- channels.py:74 `set_SNR_dB`. -/
noncomputable def noiseStdDbN (isComplex : Bool) (nbTx : Nat) (snrDb rate Es : ℝ) : Py (Option ℝ) :=
  open Classical in
  if rate * (10 : ℝ) ^ (snrDb / 10) = 0 then .error .zeroDivisionError
  else .ok (numSqrt (((if isComplex then 1 else 0) + 1 : ℝ) * (nbTx : ℝ) * Es / (rate * (10 : ℝ) ^ (snrDb / 10))))

/-- channels.py:52-55 `generate_noises`, entry `i`. -/
noncomputable def noiseSampleN (isComplex : Bool) (std : Option ℝ) (n : Nat) (z : Nat → ℝ) (i : Nat) : Option ℂ :=
  std.map fun s => noiseSample isComplex s n z i

/-! ### SISO -/

/-- The attributes of a `SISOFlatChannel`; `noiseStd = some none` is a nan.  (The fading parameters are numbers: the setter compares with
`!=` and refuses nan.) -/
structure SisoN where
  noiseStd : Option (Option ℝ)
  fading : Num × ℝ
  isComplex : Bool
  noises : Option (List (Option ℂ))
  gains : Option (List (Option ℂ))
  unnoisy : Option (List (Option ℂ))

/-- channels.py:228-234: the setter of `fading_param`; `none` is a tuple that contains a nan. -/
noncomputable def SisoN.setFading (ch : SisoN) (p : Option (Num × ℝ)) : SisoN × Py Unit :=
  open Classical in
  match p with
  | none => (ch, .error .valueError)
  | some p =>
    if p.2 + ‖p.1.toC‖ ^ 2 ≠ 1 then (ch, .error .valueError)
    else ({ ch with
      fading := p
      isComplex := p.1.isComplex }, .ok ())

/-- channels.py:176-179: the constructor. -/
noncomputable def SisoN.init (noiseStd : Option (Option ℝ)) (p : Option (Num × ℝ)) : Py SisoN :=
  match (SisoN.mk noiseStd (.real 1, 0) false none none none).setFading p with
  | (ch, .ok ()) => .ok ch
  | (_, .error e) => .error e

/-- channels.py:212-217: the gain of symbol `i`. -/
noncomputable def SisoN.gainSample (ch : SisoN) (n : Nat) (z : Nat → ℝ) (i : Nat) : Option ℂ :=
  if ch.isComplex then (numSqrt (1 / 2 * ch.fading.2)).map fun (s : ℝ) => ch.fading.1.toC + ((z i : ℂ) + Complex.I * (z (n + i) : ℂ)) * (s : ℂ)
  else (numSqrt ch.fading.2).map fun (s : ℝ) => ch.fading.1.toC + ((z i * s : ℝ) : ℂ)

/-- channels.py:181-221 `propagate`. -/
noncomputable def SisoN.propagate (ch : SisoN) (msg : Signal) (z : Nat → ℝ) : SisoN × Py (List (Option ℂ)) :=
  if msg.toC = [] then (ch, .error .indexError)
  else if msg.isComplex && !ch.isComplex then (ch, .error .typeError)
  else match ch.noiseStd with
    | none => (ch, .error .assertionError)
    | some std =>
      let n := msg.toC.length
      let noises := (List.range n).map (noiseSampleN ch.isComplex std n z)
      let z' : Nat → ℝ := fun i => z (drawCount ch.isComplex n + i)
      let gains := (List.range n).map (ch.gainSample n z')
      let unnoisy := List.zipWith (fun a b => numMul a (some b)) gains msg.toC
      ({ ch with
        noises := some noises
        gains := some gains
        unnoisy := some unnoisy }, .ok (List.zipWith numAdd unnoisy noises))

/-- channels.py:236-239 `k_factor`: numpy's quotient by zero is infinite (the setter leaves no `0 / 0`). -/
noncomputable def SisoN.kFactor (ch : SisoN) : EReal :=
  open Classical in
  if ch.fading.2 = 0 then ⊤ else ((‖ch.fading.1.toC‖ ^ 2 / |ch.fading.2| : ℝ) : EReal)

/-- The operations a user can perform on a SISO channel, nan included. -/
inductive SisoOpN where
  | setNoiseStd (s : Option (Option ℝ))
  | setFading (p : Option (Num × ℝ))
  | setSnrDb (snr rate Es : ℝ)
  | setSnrLin (snr rate Es : ℝ)
  | propagate (msg : Signal) (z : Nat → ℝ)

/-- The state after an operation and the exception raised. -/
noncomputable def SisoN.step (ch : SisoN) : SisoOpN → SisoN × Option PyErr
  | .setNoiseStd s => ({ ch with
      noiseStd := s }, none)
  | .setFading p => match ch.setFading p with
    | (c, .ok _) => (c, none)
    | (c, .error e) => (c, some e)
  | .setSnrDb snr rate Es => match noiseStdDbN ch.isComplex 1 snr rate Es with
    | .ok s => ({ ch with
        noiseStd := some s }, none)
    | .error e => (ch, some e)
  | .setSnrLin snr rate Es => match noiseStdLinN ch.isComplex 1 snr rate Es with
    | .ok s => ({ ch with
        noiseStd := some s }, none)
    | .error e => (ch, some e)
  | .propagate msg z => match ch.propagate msg z with
    | (c, .ok _) => (c, none)
    | (c, .error e) => (c, some e)

/-! ### MIMO -/

/-- A matrix of numbers and nans. -/
abbrev NanMat (m n : Nat) := Matrix (Fin m) (Fin n) (Option ℂ)

/-- `fading_param` of a MIMO channel. -/
structure MimoFadingN (nr nt : Nat) where
  cplx : Bool
  mean : NanMat nr nt
  Rt : NanMat nt nt
  Rr : NanMat nr nr

/-- The attributes of a `MIMOFlatChannel` (channels.py:318-327). -/
structure MimoN (nr nt : Nat) where
  noiseStd : Option (Option ℝ)
  fading : MimoFadingN nr nt
  isComplex : Bool
  noises : Option (List (Fin nr → Option ℂ))
  gains : Option (List (NanMat nr nt))
  unnoisy : Option (List (Fin nr → Option ℂ))

/-- channels.py:462 `trace(kron(fading_param[1].T, fading_param[2]))`. -/
noncomputable def nlosGainN (Rt : NanMat nt nt) (Rr : NanMat nr nr) : Option ℂ :=
  numSum fun x : Fin nt × Fin nr => Matrix.kroneckerMap numMul Rt.transpose Rr x x

/-- channels.py:463 `einsum('ij,ij->', absolute(fading_param[0]), absolute(fading_param[0]))`. -/
noncomputable def losGainN (m : NanMat nr nt) : Option ℂ :=
  numSum fun x : Fin nr × Fin nt => (m x.1 x.2).map fun (v : ℂ) => ((‖v‖ * ‖v‖ : ℝ) : ℂ)

/-- channels.py:464: the left side of the comparison, before `absolute`. -/
noncomputable def energyGapN (p : MimoFadingN nr nt) : Option ℂ :=
  (numAdd (nlosGainN p.Rt p.Rr) (losGainN p.mean)).map fun v => v - (nt : ℂ) * (nr : ℂ)

/-- channels.py:460-468: the setter of `fading_param`; `absolute(nan) > 1e-3` is false. -/
noncomputable def MimoN.setFading (ch : MimoN nr nt) (p : MimoFadingN nr nt) : MimoN nr nt × Py Unit :=
  open Classical in
  if ∃ v, energyGapN p = some v ∧ ‖v‖ > 1 / 1000 then (ch, .error .valueError)
  else if nr = 0 ∨ nt = 0 then ({ ch with
    fading := p }, .error .indexError)
  else ({ ch with
    fading := p
    isComplex := p.cplx }, .ok ())

/-- A matrix without nan. -/
def numMat {m n : Nat} (A : Matrix (Fin m) (Fin n) ℂ) : NanMat m n := fun i j => some (A i j)

/-- channels.py:477-485 `uncorr_rayleigh_fading`. -/
noncomputable def MimoN.uncorrRayleigh (ch : MimoN nr nt) (cplx : Bool) : MimoN nr nt × Py Unit :=
  ch.setFading ⟨cplx, numMat 0, numMat 1, numMat 1⟩

/-- channels.py:318-327: the constructor. -/
noncomputable def MimoN.init (noiseStd : Option (Option ℝ)) (p : Option (MimoFadingN nr nt)) : Py (MimoN nr nt) :=
  match (MimoN.mk noiseStd ⟨false, numMat 0, numMat 1, numMat 1⟩ false none none none).setFading (p.getD ⟨false, numMat 0, numMat 1, numMat 1⟩) with
  | (ch, .ok ()) => .ok ch
  | (_, .error e) => .error e

/-- channels.py:385-412 `_update_corr_KBSM`. -/
noncomputable def MimoN.updateKbsm (ch : MimoN nr nt) (betat betar : ℝ) : MimoN nr nt × Py Unit :=
  open Classical in
  if betar < 0 ∨ betat < 0 then (ch, .error .valueError)
  else ch.setFading ⟨ch.fading.cplx, ch.fading.mean, fun i j => numMul (ch.fading.Rt i j) (some (kbsmMat nt betat i j)),
    fun i j => numMul (ch.fading.Rr i j) (some (kbsmMat nr betar i j))⟩

/-- channels.py:528-537, 615-624: `t ** expo`; numpy's complex power gives nan for zero to a negative power. -/
noncomputable def expoMatN (n : Nat) (t : ℂ) : NanMat n n := fun i j =>
  open Classical in
  if t = 0 ∧ j.val < i.val then none else some (expoMat n t i j)

/-- channels.py:487-540 `expo_corr_rayleigh_fading`. -/
noncomputable def MimoN.expoCorrRayleigh (ch : MimoN nr nt) (t r : ℂ) (betat betar : ℝ) : MimoN nr nt × Py Unit :=
  open Classical in
  if ‖t‖ - 1 > 1 / 10000 then (ch, .error .valueError)
  else if ‖r‖ - 1 > 1 / 10000 then (ch, .error .valueError)
  else match ch.setFading ⟨true, numMat 0, expoMatN nt t, expoMatN nr r⟩ with
    | (c, .error e) => (c, .error e)
    | (c, .ok ()) => c.updateKbsm betat betar

/-- channels.py:557, 613: `mean * sqrt(k_factor * NLOS_gain / einsum(...))`.  A zero mean gives `0 / 0` for `k_factor = 0` and an
infinity (or nan) otherwise, times zero: nan. -/
noncomputable def ricianMeanN (mean : NanMat nr nt) (k : ℝ) : NanMat nr nt := fun i j =>
  open Classical in
  (losGainN mean).bind fun g => if g = 0 then none
    else (numSqrt (k * ricianNlos nr nt k / g.re)).bind fun (s : ℝ) => (mean i j).map fun m => m * (s : ℂ)

/-- channels.py:542-558 `uncorr_rician_fading`. -/
noncomputable def MimoN.uncorrRician (ch : MimoN nr nt) (cplx : Bool) (mean : NanMat nr nt) (k : ℝ) : MimoN nr nt × Py Unit :=
  open Classical in
  if k + 1 = 0 then (ch, .error .zeroDivisionError)
  else ch.setFading ⟨cplx, ricianMeanN mean k,
    numMat fun i j => (1 : Matrix (Fin nt) (Fin nt) ℂ) i j * (ricianNlos nr nt k : ℂ) / ((nr * nt : Nat) : ℂ), numMat 1⟩

/-- channels.py:560-627 `expo_corr_rician_fading`. -/
noncomputable def MimoN.expoCorrRician (ch : MimoN nr nt) (cplx : Bool) (mean : NanMat nr nt) (k : ℝ) (t r : ℂ)
    (betat betar : ℝ) : MimoN nr nt × Py Unit :=
  open Classical in
  if ‖t‖ - 1 > 1 / 10000 then (ch, .error .valueError)
  else if ‖r‖ - 1 > 1 / 10000 then (ch, .error .valueError)
  else if k + 1 = 0 then (ch, .error .zeroDivisionError)
  else match ch.setFading ⟨cplx, ricianMeanN mean k,
      fun i j => (expoMatN nt t i j).map fun v => v * (ricianNlos nr nt k : ℂ) / ((nr * nt : Nat) : ℂ), expoMatN nr r⟩ with
    | (c, .error e) => (c, .error e)
    | (c, .ok ()) => c.updateKbsm betat betar

/-- The numbers in a matrix, if there is no nan. -/
noncomputable def NanMat.num {m n : Nat} (A : NanMat m n) : Option (Matrix (Fin m) (Fin n) ℂ) :=
  open Classical in
  if ∀ i j, (A i j).isSome then some fun i j => (A i j).getD 0 else none

/-- channels.py:329-383 `propagate`.  `scipy.linalg.sqrtm` raises ValueError for a matrix with nans (`check_finite`); the noises and the
uncorrelated gains have been stored by then.  Otherwise as in `Mimo.propagate`, except that the mean may contain nans. -/
noncomputable def MimoN.propagate (sqrtmT : Matrix (Fin nt) (Fin nt) ℂ → Matrix (Fin nt) (Fin nt) ℂ)
    (sqrtmR : Matrix (Fin nr) (Fin nr) ℂ → Matrix (Fin nr) (Fin nr) ℂ) (ch : MimoN nr nt) (msg : Signal) (z : Nat → ℝ) :
    MimoN nr nt × Py (List (Fin nr → Option ℂ)) :=
  if msg.toC = [] then (ch, .error .indexError)
  else if msg.isComplex && !ch.isComplex then (ch, .error .typeError)
  else if nt = 0 then (ch, .error .zeroDivisionError)
  else match ch.noiseStd with
    | none => (ch, .error .assertionError)
    | some std =>
      let nv := mimoVectors nt msg.toC.length
      let x := mimoPad nt msg.toC
      let vect (a : Nat) : Fin nt → ℂ := fun k => x.getD (a * nt + k.val) 0
      let noises := (List.range nv).map fun a => fun (i : Fin nr) =>
        noiseSampleN ch.isComplex std (nv * nr) z (a * nr + i.val)
      let z' : Nat → ℝ := fun i => z (drawCount ch.isComplex (nv * nr) + i)
      match NanMat.num ch.fading.Rr, NanMat.num ch.fading.Rt with
      | some Rr, some Rt =>
        let gains : List (NanMat nr nt) := (List.range nv).map fun a => fun i l =>
          (ch.fading.mean i l).map fun m => (∑ j, ∑ k, sqrtmR Rr i j * rawGain ch.isComplex nv nr nt z' a j k * sqrtmT Rt l k) + m
        let unnoisy := (List.range nv).map fun a => fun (j : Fin nr) => numSum fun k => numMul ((gains.getD a fun _ _ => none) j k) (some (vect a k))
        ({ ch with
          noises := some noises
          gains := some gains
          unnoisy := some unnoisy }, .ok (List.zipWith (fun u v => fun i => numAdd (u i) (v i)) unnoisy noises))
      | _, _ => ({ ch with
          noises := some noises
          gains := some ((List.range nv).map fun a => numMat (rawGain ch.isComplex nv nr nt z' a)) }, .error .valueError)

/-- The operations a user can perform on a MIMO channel, nan included. -/
inductive MimoOpN (nr nt : Nat) where
  | setNoiseStd (s : Option (Option ℝ))
  | setFading (p : MimoFadingN nr nt)
  | setSnrDb (snr rate Es : ℝ)
  | setSnrLin (snr rate Es : ℝ)
  | uncorrRayleigh (cplx : Bool)
  | expoCorrRayleigh (t r : ℂ) (betat betar : ℝ)
  | uncorrRician (cplx : Bool) (mean : NanMat nr nt) (k : ℝ)
  | expoCorrRician (cplx : Bool) (mean : NanMat nr nt) (k : ℝ) (t r : ℂ) (betat betar : ℝ)
  | propagate (msg : Signal) (z : Nat → ℝ)

/-- The state after an operation, successful or not. -/
noncomputable def MimoN.after (sqrtmT : Matrix (Fin nt) (Fin nt) ℂ → Matrix (Fin nt) (Fin nt) ℂ)
    (sqrtmR : Matrix (Fin nr) (Fin nr) ℂ → Matrix (Fin nr) (Fin nr) ℂ) (ch : MimoN nr nt) : MimoOpN nr nt → MimoN nr nt
  | .setNoiseStd s => { ch with
      noiseStd := s }
  | .setFading p => (ch.setFading p).1
  | .setSnrDb snr rate Es => match noiseStdDbN ch.isComplex nt snr rate Es with
    | .ok s => { ch with
        noiseStd := some s }
    | .error _ => ch
  | .setSnrLin snr rate Es => match noiseStdLinN ch.isComplex nt snr rate Es with
    | .ok s => { ch with
        noiseStd := some s }
    | .error _ => ch
  | .uncorrRayleigh c => (ch.uncorrRayleigh c).1
  | .expoCorrRayleigh t r bt br => (ch.expoCorrRayleigh t r bt br).1
  | .uncorrRician c m k => (ch.uncorrRician c m k).1
  | .expoCorrRician c m k t r bt br => (ch.expoCorrRician c m k t r bt br).1
  | .propagate msg z => (ch.propagate sqrtmT sqrtmR msg z).1

end Verif
