import Verif.Py
import Mathlib.Analysis.SpecialFunctions.Complex.Circle
import Mathlib.Analysis.SpecialFunctions.Pow.Real
import Mathlib.LinearAlgebra.Matrix.Kronecker
import Mathlib.Data.Int.Bitwise
/-
Model of /repo/commpy/channels.py.  Floats are exact reals / complex numbers.  The draws of numpy's random generator are a stream
`Nat → ℝ` given as a parameter and consumed in the order of the calls.  The square root of a negative number (nan in numpy) and
the division of 0 by 0 inside numpy are outside the model: theorems assume the arguments that exclude them.
-/
namespace Verif

/-! ### Binary channels: arrays live in a heap, so that what happens to the caller's array can be stated. -/

/-- A heap of integer arrays; an array object is an index into it. -/
abbrev IntHeap := List (List Int)

/-- `a[mask]`: the selected entries. -/
def maskTake (l : List Int) (mask : List Bool) : List Int :=
  ((l.zip mask).filter fun p => p.2).map Prod.fst

/-- `a[mask] = vals`: `vals` are consumed in order at the selected positions. -/
def maskAssign : List Int → List Bool → List Int → List Int
  | x :: l, true :: mask, v :: vals => v :: maskAssign l mask vals
  | x :: l, _ :: mask, vals => x :: maskAssign l mask vals
  | l, _, _ => l

/-- channels.py:630-649 `bec`; `u` are the uniform draws.  Returns the new heap and the new array. -/
noncomputable def bec (heap : IntHeap) (inputBits : Nat) (pE : ℝ) (u : Nat → ℝ) : IntHeap × Nat :=
  open Classical in
  let output := heap.getD inputBits []
  let mask := (List.range output.length).map fun i => decide (u i ≤ pE)
  (heap ++ [maskAssign output mask (List.replicate (maskTake output mask).length (-1))], heap.length)

/-- channels.py:652-672 `bsc`: `1 ^ x` is Python's bitwise exclusive or. -/
noncomputable def bsc (heap : IntHeap) (inputBits : Nat) (pT : ℝ) (u : Nat → ℝ) : IntHeap × Nat :=
  open Classical in
  let output := heap.getD inputBits []
  let flip := (List.range output.length).map fun i => decide (u i ≤ pT)
  (heap ++ [maskAssign output flip ((maskTake output flip).map fun x => Int.xor 1 x)], heap.length)

/-! ### Numbers and arrays with their numpy kind -/

/-- A scalar that is an instance of Python's `complex` or not. -/
inductive Num where
  | real (x : ℝ)
  | cplx (z : ℂ)

/-- `isinstance(x, complex)`. -/
def Num.isComplex : Num → Bool
  | .real _ => false
  | .cplx _ => true

/-- The value. -/
def Num.toC : Num → ℂ
  | .real x => x
  | .cplx z => z

/-- A one-dimensional array of floats or of complex numbers (complex128: its entries are instances of `complex`). -/
inductive Signal where
  | real (l : List ℝ)
  | cplx (l : List ℂ)

/-- `isinstance(msg[0], complex)` for a non-empty array. -/
def Signal.isComplex : Signal → Bool
  | .real _ => false
  | .cplx _ => true

/-- The values. -/
noncomputable def Signal.toC : Signal → List ℂ
  | .real l => l.map fun (x : ℝ) => (x : ℂ)
  | .cplx l => l

/-- channels.py:52-55 `generate_noises`: entry `i` of `n` noise samples.  The complex case draws `n` real parts, then `n`
imaginary parts. -/
noncomputable def noiseSample (isComplex : Bool) (std : ℝ) (n : Nat) (z : Nat → ℝ) (i : Nat) : ℂ :=
  if isComplex then ((z i : ℂ) + Complex.I * (z (n + i) : ℂ)) * (std : ℂ) * ((1 / 2 : ℝ) : ℂ)
  else ((z i * std : ℝ) : ℂ)

/-- The number of draws consumed by one call of `generate_noises` (or of the generation of the gains) for `n` samples. -/
def drawCount (isComplex : Bool) (n : Nat) : Nat := if isComplex then 2 * n else n

/-- channels.py:93 `set_SNR_lin`: the new `noise_std` (ZeroDivisionError when the denominator is 0; nan for a negative quotient: `Model/ChannelsNan`). -/
noncomputable def noiseStdLin (isComplex : Bool) (nbTx : Nat) (snr rate Es : ℝ) : Py ℝ :=
  open Classical in
  if rate * snr = 0 then .error .zeroDivisionError
  else .ok (Real.sqrt (((if isComplex then 1 else 0) + 1 : ℝ) * (nbTx : ℝ) * Es / (rate * snr)))

/-- channels.py:74 `set_SNR_dB`. -/
noncomputable def noiseStdDb (isComplex : Bool) (nbTx : Nat) (snrDb rate Es : ℝ) : Py ℝ :=
  open Classical in
  if rate * (10 : ℝ) ^ (snrDb / 10) = 0 then .error .zeroDivisionError
  else .ok (Real.sqrt (((if isComplex then 1 else 0) + 1 : ℝ) * (nbTx : ℝ) * Es / (rate * (10 : ℝ) ^ (snrDb / 10))))

/-! ### SISO channel -/

/-- The attributes of a `SISOFlatChannel` (channels.py:32-35, 176-179, 233-234). -/
structure Siso where
  noiseStd : Option ℝ
  fading : Num × ℝ
  isComplex : Bool
  noises : Option (List ℂ)
  gains : Option (List ℂ)
  unnoisy : Option (List ℂ)

/-- channels.py:228-234: the setter of `fading_param`. -/
noncomputable def Siso.setFading (ch : Siso) (p : Num × ℝ) : Siso × Py Unit :=
  open Classical in
  if p.2 + ‖p.1.toC‖ ^ 2 ≠ 1 then (ch, .error .valueError)
  else ({ ch with
    fading := p
    isComplex := p.1.isComplex }, .ok ())

/-- channels.py:176-179: the constructor (the unset attributes hold arbitrary values before the setter runs). -/
noncomputable def Siso.init (noiseStd : Option ℝ) (p : Num × ℝ) : Py Siso :=
  match (Siso.mk noiseStd (.real 1, 0) false none none none).setFading p with
  | (ch, .ok ()) => .ok ch
  | (_, .error e) => .error e

/-- channels.py:212-217: the gains, one per symbol (nan for a negative variance: `Model/ChannelsNan`). -/
noncomputable def Siso.gainSample (ch : Siso) (n : Nat) (z : Nat → ℝ) (i : Nat) : ℂ :=
  if ch.isComplex then ch.fading.1.toC + ((z i : ℂ) + Complex.I * (z (n + i) : ℂ)) * (Real.sqrt (1 / 2 * ch.fading.2) : ℂ)
  else ch.fading.1.toC + ((z i * Real.sqrt ch.fading.2 : ℝ) : ℂ)

/-- channels.py:181-221 `propagate`; `z` is the stream of normal draws. -/
noncomputable def Siso.propagate (ch : Siso) (msg : Signal) (z : Nat → ℝ) : Siso × Py (List ℂ) :=
  if msg.toC = [] then (ch, .error .indexError)
  else if msg.isComplex && !ch.isComplex then (ch, .error .typeError)
  else match ch.noiseStd with
    | none => (ch, .error .assertionError)
    | some std =>
      let n := msg.toC.length
      let noises := (List.range n).map (noiseSample ch.isComplex std n z)
      let z' : Nat → ℝ := fun i => z (drawCount ch.isComplex n + i)
      let gains := (List.range n).map (ch.gainSample n z')
      let unnoisy := List.zipWith (fun a b => a * b) gains msg.toC
      ({ ch with
        noises := some noises
        gains := some gains
        unnoisy := some unnoisy }, .ok (List.zipWith (fun a b => a + b) unnoisy noises))

/-- channels.py:236-239 `k_factor` (`x / 0` is infinite in numpy: `SisoN.kFactor` in `Model/ChannelsNan`). -/
noncomputable def Siso.kFactor (ch : Siso) : ℝ := ‖ch.fading.1.toC‖ ^ 2 / |ch.fading.2|

/-- The operations a user can perform on a SISO channel. -/
inductive SisoOp where
  | setNoiseStd (s : Option ℝ)
  | setFading (p : Num × ℝ)
  | setSnrDb (snr rate Es : ℝ)
  | setSnrLin (snr rate Es : ℝ)
  | propagate (msg : Signal) (z : Nat → ℝ)

/-- The effect of an operation: the state afterwards and, if it was raised, the exception. -/
noncomputable def Siso.step (ch : Siso) : SisoOp → Siso × Option PyErr
  | .setNoiseStd s => ({ ch with
      noiseStd := s }, none)
  | .setFading p => match ch.setFading p with
    | (c, .ok _) => (c, none)
    | (c, .error e) => (c, some e)
  | .setSnrDb snr rate Es => match noiseStdDb ch.isComplex 1 snr rate Es with
    | .ok s => ({ ch with
        noiseStd := some s }, none)
    | .error e => (ch, some e)
  | .setSnrLin snr rate Es => match noiseStdLin ch.isComplex 1 snr rate Es with
    | .ok s => ({ ch with
        noiseStd := some s }, none)
    | .error e => (ch, some e)
  | .propagate msg z => match ch.propagate msg z with
    | (c, .ok _) => (c, none)
    | (c, .error e) => (c, some e)

/-! ### MIMO channel -/

/-- The mean of the channel gain with its dtype (complex or not). -/
structure MeanMat (nr nt : Nat) where
  isComplex : Bool
  mat : Matrix (Fin nr) (Fin nt) ℂ

/-- `fading_param` of a MIMO channel: mean, transmit correlation, receive correlation. -/
structure MimoFading (nr nt : Nat) where
  mean : MeanMat nr nt
  Rt : Matrix (Fin nt) (Fin nt) ℂ
  Rr : Matrix (Fin nr) (Fin nr) ℂ

/-- The attributes of a `MIMOFlatChannel` (channels.py:318-327).  The numbers of antennas are type parameters: reassigning
`nb_tx` or `nb_rx` after construction, and matrices whose shape does not fit them, are not modelled. -/
structure Mimo (nr nt : Nat) where
  noiseStd : Option ℝ
  fading : MimoFading nr nt
  isComplex : Bool
  noises : Option (List (Fin nr → ℂ))
  gains : Option (List (Matrix (Fin nr) (Fin nt) ℂ))
  unnoisy : Option (List (Fin nr → ℂ))

/-- channels.py:462, 473 `NLOS_gain = trace(kron(fading_param[1].T, fading_param[2]))`. -/
noncomputable def nlosGain {nr nt : Nat} (p : MimoFading nr nt) : ℂ :=
  Matrix.trace (Matrix.kroneckerMap (fun a b => a * b) p.Rt.transpose p.Rr)

/-- channels.py:463, 474 `LOS_gain = einsum('ij,ij->', absolute(fading_param[0]), absolute(fading_param[0]))`. -/
noncomputable def losGain {nr nt : Nat} (m : Matrix (Fin nr) (Fin nt) ℂ) : ℝ := ∑ i, ∑ j, ‖m i j‖ * ‖m i j‖

/-- channels.py:460-468: the setter of `fading_param`.  (`fading_param[0][0, 0]` of an empty array raises IndexError after the
assignment.) -/
noncomputable def Mimo.setFading {nr nt : Nat} (ch : Mimo nr nt) (p : MimoFading nr nt) : Mimo nr nt × Py Unit :=
  open Classical in
  if ‖nlosGain p + (losGain p.mean.mat : ℂ) - (nt : ℂ) * (nr : ℂ)‖ > 1 / 1000 then (ch, .error .valueError)
  else if nr = 0 ∨ nt = 0 then ({ ch with
    fading := p }, .error .indexError)
  else ({ ch with
    fading := p
    isComplex := p.mean.isComplex }, .ok ())

/-- channels.py:477-485 `uncorr_rayleigh_fading`; `cplx` tells whether `dtype` is complex. -/
noncomputable def Mimo.uncorrRayleigh {nr nt : Nat} (ch : Mimo nr nt) (cplx : Bool) : Mimo nr nt × Py Unit :=
  ch.setFading ⟨⟨cplx, 0⟩, 1, 1⟩

/-- channels.py:318-327: the constructor; `none` stands for the default fading. -/
noncomputable def Mimo.init {nr nt : Nat} (noiseStd : Option ℝ) (p : Option (MimoFading nr nt)) : Py (Mimo nr nt) :=
  match (Mimo.mk noiseStd ⟨⟨false, 0⟩, 1, 1⟩ false none none none).setFading (p.getD ⟨⟨false, 0⟩, 1, 1⟩) with
  | (ch, .ok ()) => .ok ch
  | (_, .error e) => .error e

/-- channels.py:470-475 `k_factor` (complex when a correlation matrix is). -/
noncomputable def Mimo.kFactor {nr nt : Nat} (ch : Mimo nr nt) : ℂ := (losGain ch.fading.mean.mat : ℂ) / nlosGain ch.fading

/-- channels.py:407-409: `exp(-beta * |m - n|)`. -/
noncomputable def kbsmMat (n : Nat) (beta : ℝ) : Matrix (Fin n) (Fin n) ℂ :=
  fun i j => (Real.exp (-beta * |((j.val : ℝ) - (i.val : ℝ))|) : ℂ)

/-- channels.py:385-412 `_update_corr_KBSM`; `*` of arrays is entry-wise. -/
noncomputable def Mimo.updateKbsm {nr nt : Nat} (ch : Mimo nr nt) (betat betar : ℝ) : Mimo nr nt × Py Unit :=
  open Classical in
  if betar < 0 ∨ betat < 0 then (ch, .error .valueError)
  else ch.setFading ⟨ch.fading.mean, fun i j => ch.fading.Rt i j * kbsmMat nt betat i j,
    fun i j => ch.fading.Rr i j * kbsmMat nr betar i j⟩

/-- channels.py:528-537, 615-624: `t ** expo` with the exponents `j - i` (`t` is a complex number). -/
noncomputable def expoMat (n : Nat) (t : ℂ) : Matrix (Fin n) (Fin n) ℂ :=
  fun i j => t ^ ((j.val : Int) - (i.val : Int))

/-- channels.py:487-540 `expo_corr_rayleigh_fading`. -/
noncomputable def Mimo.expoCorrRayleigh {nr nt : Nat} (ch : Mimo nr nt) (t r : ℂ) (betat betar : ℝ) : Mimo nr nt × Py Unit :=
  open Classical in
  if ‖t‖ - 1 > 1 / 10000 then (ch, .error .valueError)
  else if ‖r‖ - 1 > 1 / 10000 then (ch, .error .valueError)
  else match ch.setFading ⟨⟨true, 0⟩, expoMat nt t, expoMat nr r⟩ with
    | (c, .error e) => (c, .error e)
    | (c, .ok ()) => c.updateKbsm betat betar

/-- channels.py:555-557, 611-613: the NLOS gain; `mean.size` is `nr * nt`. -/
noncomputable def ricianNlos (nr nt : Nat) (k : ℝ) : ℝ := ((nr * nt : Nat) : ℝ) / (k + 1)

/-- channels.py:557, 613: the scaled mean.  (A zero mean or a k-factor between -1 and 0 gives nan: `Model/ChannelsNan`.) -/
noncomputable def ricianMean {nr nt : Nat} (mean : Matrix (Fin nr) (Fin nt) ℂ) (k : ℝ) : Matrix (Fin nr) (Fin nt) ℂ :=
  fun i j => mean i j * (Real.sqrt (k * ricianNlos nr nt k / losGain mean) : ℂ)

/-- channels.py:542-558 `uncorr_rician_fading`. -/
noncomputable def Mimo.uncorrRician {nr nt : Nat} (ch : Mimo nr nt) (mean : MeanMat nr nt) (k : ℝ) : Mimo nr nt × Py Unit :=
  ch.setFading ⟨⟨mean.isComplex, ricianMean mean.mat k⟩,
    fun i j => (1 : Matrix (Fin nt) (Fin nt) ℂ) i j * (ricianNlos nr nt k : ℂ) / ((nr * nt : Nat) : ℂ), 1⟩

/-- channels.py:560-627 `expo_corr_rician_fading`. -/
noncomputable def Mimo.expoCorrRician {nr nt : Nat} (ch : Mimo nr nt) (mean : MeanMat nr nt) (k : ℝ) (t r : ℂ)
    (betat betar : ℝ) : Mimo nr nt × Py Unit :=
  open Classical in
  if ‖t‖ - 1 > 1 / 10000 then (ch, .error .valueError)
  else if ‖r‖ - 1 > 1 / 10000 then (ch, .error .valueError)
  else match ch.setFading ⟨⟨mean.isComplex, ricianMean mean.mat k⟩,
      fun i j => expoMat nt t i j * (ricianNlos nr nt k : ℂ) / ((nr * nt : Nat) : ℂ), expoMat nr r⟩ with
    | (c, .error e) => (c, .error e)
    | (c, .ok ()) => c.updateKbsm betat betar

/-- channels.py:414-453 `specular_compo`. -/
noncomputable def specularCompo (nr nt : Nat) (thetat dt thetar dr : ℝ) : Py (Matrix (Fin nr) (Fin nt) ℂ) :=
  open Classical in
  if dr < 0 ∨ dt < 0 then .error .valueError
  else .ok fun n m => Complex.exp (Complex.I * 2 * Real.pi *
    (((n.val : ℝ) * dr * Real.cos thetar + (m.val : ℝ) * dt * Real.cos thetat : ℝ) : ℂ))

/-- channels.py:356-364: `len(msg)` padded with zeros to a multiple of `nb_tx`. -/
def mimoPad (nt : Nat) (msg : List ℂ) : List ℂ :=
  if msg.length % nt ≠ 0 then msg ++ List.replicate (nt - msg.length % nt) 0 else msg

/-- channels.py:356, 361: the number of vectors. -/
def mimoVectors (nt len : Nat) : Nat := if len % nt ≠ 0 then len / nt + 1 else len / nt

/-- channels.py:369-374: the uncorrelated gain matrix of vector `a`, from the draws `z` of the `nv × nr × nt` array(s). -/
noncomputable def rawGain (cplx : Bool) (nv nr nt : Nat) (z : Nat → ℝ) (a : Nat) : Matrix (Fin nr) (Fin nt) ℂ := fun j k =>
  let idx := (a * nr + j.val) * nt + k.val
  if cplx then ((z idx : ℂ) + Complex.I * (z (nv * nr * nt + idx) : ℂ)) * (Real.sqrt (1 / 2) : ℂ) else (z idx : ℂ)

/-- channels.py:376-379: `einsum('ij,ajk,lk->ail', sqrtm(Rr), gains, sqrtm(Rt))` plus the mean, for vector `a`; `Sr`, `St` are
the matrix square roots. -/
noncomputable def corrGain {nr nt : Nat} (Sr : Matrix (Fin nr) (Fin nr) ℂ) (St : Matrix (Fin nt) (Fin nt) ℂ)
    (mean G : Matrix (Fin nr) (Fin nt) ℂ) : Matrix (Fin nr) (Fin nt) ℂ := fun i l =>
  (∑ j, ∑ k, Sr i j * G j k * St l k) + mean i l

/-- channels.py:329-383 `propagate`.  `sqrtmT`, `sqrtmR` stand for `scipy.linalg.sqrtm`.  (A channel of real dtype whose matrix
square roots are complex cannot store the result of `einsum`; numpy's casting error is not modelled.)  `nb_tx = 0` makes `divmod`
raise ZeroDivisionError. -/
noncomputable def Mimo.propagate {nr nt : Nat} (sqrtmT : Matrix (Fin nt) (Fin nt) ℂ → Matrix (Fin nt) (Fin nt) ℂ)
    (sqrtmR : Matrix (Fin nr) (Fin nr) ℂ → Matrix (Fin nr) (Fin nr) ℂ) (ch : Mimo nr nt) (msg : Signal) (z : Nat → ℝ) :
    Mimo nr nt × Py (List (Fin nr → ℂ)) :=
  if msg.toC = [] then (ch, .error .indexError)
  else if msg.isComplex && !ch.isComplex then (ch, .error .typeError)
  else if nt = 0 then (ch, .error .zeroDivisionError)
  else match ch.noiseStd with
    | none => (ch, .error .assertionError)
    | some std =>
      let nv := mimoVectors nt msg.toC.length
      let x := mimoPad nt msg.toC
      let vect (a : Nat) : Fin nt → ℂ := fun k => x.getD (a * nt + k.val) 0
      let noises := (List.range nv).map fun a => fun (i : Fin nr) =>
        noiseSample ch.isComplex std (nv * nr) z (a * nr + i.val)
      let z' : Nat → ℝ := fun i => z (drawCount ch.isComplex (nv * nr) + i)
      let gains := (List.range nv).map fun a =>
        corrGain (sqrtmR ch.fading.Rr) (sqrtmT ch.fading.Rt) ch.fading.mean.mat (rawGain ch.isComplex nv nr nt z' a)
      let unnoisy := (List.range nv).map fun a => fun (j : Fin nr) => ∑ k, (gains.getD a 0) j k * vect a k
      ({ ch with
        noises := some noises
        gains := some gains
        unnoisy := some unnoisy }, .ok (List.zipWith (fun u v => u + v) unnoisy noises))

/-! ### AWGN function -/

/-- channels.py:701-704 `awgn`: the entry `i` of the noise; `z` is the stream of normal draws. -/
noncomputable def awgnNoise (cplx : Bool) (var : ℝ) (n : Nat) (z : Nat → ℝ) (i : Nat) : ℂ :=
  if cplx then (Real.sqrt var : ℂ) * (z i : ℂ) + (Real.sqrt var : ℂ) * (z (n + i) : ℂ) * Complex.I
  else ((Real.sqrt (2 * var) * z i : ℝ) : ℂ)

/-- channels.py:676-708 `awgn`. -/
noncomputable def awgn (input : Signal) (snrDb rate : ℝ) (z : Nat → ℝ) : Py (List ℂ) :=
  if input.toC = [] then .error .indexError
  else
    let n := input.toC.length
    let avg := (input.toC.map fun x => ‖x‖ * ‖x‖).sum / (n : ℝ)
    let var := avg / (2 * rate * (10 : ℝ) ^ (snrDb / 10))
    .ok (List.zipWith (fun a b => a + b) input.toC ((List.range n).map (awgnNoise input.isComplex var n z)))

end Verif
