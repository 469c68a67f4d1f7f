import Verif.Model.Links
import Verif.Model.Channels
import Verif.Model.Modulation
import Verif.Model.Wifi
/-
The links of /repo/commpy/links.py and /repo/commpy/wifi80211.py put together with the modelled modems, the modelled SISO channel
and the modelled coders: the world of `Model/Links` is the channel object and the state of numpy's generator.
-/
namespace Verif

/-- numpy's generator: `bits g n` is `np.random.choice((0, 1), n)`; `normals g n` the stream whose first `n` entries are the next
`n` standard normal draws. -/
structure Rng (ρ : Type) where
  bits : ρ → Nat → List Int × ρ
  normals : ρ → Nat → (Nat → ℝ) × ρ

variable {ρ : Type}

/-- links.py:220, 310 with channels.py:57-74: `self.channel.set_SNR_dB(SNR, float(code_rate), self.Es)`. -/
noncomputable def sisoSetSnr (w : Siso × ρ) (snr : ℝ) (rate : ℚ) (Es : ℝ) : Py (Siso × ρ) :=
  match w.1.step (.setSnrDb snr (rate : ℝ) Es) with
  | (ch, none) => .ok (ch, w.2)
  | (_, some e) => .error e

/-- links.py:231, 317 with channels.py:181-221: `self.channel.propagate(symbs)`: the noise samples are drawn first, then the
gains. -/
noncomputable def sisoPropagate (rng : Rng ρ) (w : Siso × ρ) (msg : Signal) : Py (List ℂ × (Siso × ρ)) :=
  let z := rng.normals w.2 (2 * drawCount w.1.isComplex msg.toC.length)
  match w.1.propagate msg z.1 with
  | (ch, .ok out) => .ok (out, (ch, z.2))
  | (_, .error e) => .error e

/-- links.py:138-153: a `LinkModel` on a SISO channel (`nb_tx = 1`, not a MIMO channel, so that `receive` is called on the whole
output).  `Es` and `num_bits_symbol` are those of the modem. -/
noncomputable def sisoLink (rng : Rng ρ) (s : Modem) (modulateF : List Int → Py Signal)
    (receiveF : List ℂ → List ℂ → List ℂ → ℝ → Py (List ℝ)) (decoder : LinkDecoder ℂ ℂ (List ℂ)) :
    Link (Siso × ρ) Signal ℂ ℂ (List ℂ) where
  bitsPerSymbol := s.nbits
  nbTx := 1
  Es := s.Es
  constellation := s.constellation
  isMimo := false
  setSnr := sisoSetSnr
  choice := fun w n => ((rng.bits w.2 n).1, (w.1, (rng.bits w.2 n).2))
  modulate := modulateF
  propagate := sisoPropagate rng
  gains := fun w => w.1.gains.getD []
  noiseStd := fun w => w.1.noiseStd.getD 0
  receive := fun _ _ _ _ => .error .typeError
  receiveAll := receiveF
  decoder := decoder

/-- The result of `demodulate` as an array of floats. -/
def DemodOut.toReals : DemodOut → List ℝ
  | .bits b => b.map fun (x : Nat) => (x : ℝ)
  | .llrs l => l

/-- An uncoded link as in the documentation of links.py: `LinkModel(modem.modulate, channel, receiver, modem.num_bits_symbol,
modem.constellation, modem.Es)` with `receiver = lambda y, h, constellation, noise_var: modem.demodulate(y, 'hard')`. -/
noncomputable def uncodedLink (rng : Rng ρ) (s : Modem) : Link (Siso × ρ) Signal ℂ ℂ (List ℂ) :=
  sisoLink rng s
    (fun msg => (modulate s (msg.map Int.toNat)).map .cplx)
    (fun y _ _ v => (demodulate s y "hard" v).map DemodOut.toReals)
    defaultDecoder

/-- wifi80211.py:51-73 `get_modem`: the modem object. -/
noncomputable def wifiModemObj (mcs : Int) : Py Modem := do
  match (← wifiGetModem mcs) with
  | .psk m => pskModem m
  | .qam m => qamModem m

/-- wifi80211.py:174-210: the link model built by `Wifi80211.link_performance` for a SISO channel and the default receiver.  `jk` is
the uninitialised memory of the Viterbi decoder (it may depend on the received values). -/
noncomputable def wifiLink (rng : Rng ρ) (junk : Nat → Nat → Nat) (outLen : Nat → Nat) (jk : List ℝ → VitJunk ℝ) (mcs : Int) (s : Modem) :
    Link (Siso × ρ) Signal ℂ ℂ (List ℂ) :=
  sisoLink rng s
    (fun msg => do
      let p ← wifiTransmit junk outLen mcs (msg.map Int.toNat)
      let y ← modulate s p
      pure (.cplx y))
    (fun y _ _ v => (demodulate s y "soft" v).map DemodOut.toReals)
    (.short fun r => (wifiReceive junk (jk r) mcs r).map fun b => b.map fun (x : Nat) => (x : ℝ))

/-- wifi80211.py:132-216 `Wifi80211.link_performance`.  The rate is passed as the float `coding[0] / coding[1]` and turned back into the
fraction by `limit_denominator(100)`. -/
noncomputable def wifiLinkPerformance (rng : Rng ρ) (junk : Nat → Nat → Nat) (outLen : Nat → Nat) (jk : List ℝ → VitJunk ℝ)
    (bufLen : ℚ → Nat → Nat) (memory : Siso × ρ → Nat → ℝ) (mcs : Int) (snrs : List ℝ) (txMax : Nat) (errMin : Int)
    (sendChunk : Option Int) (frames : Nat) (stop : Bool) (w : Siso × ρ) : Py (List MetricsRow × (Siso × ρ)) := do
  let coding ← wifiGetCoding mcs
  let s ← wifiModemObj mcs
  (wifiLink rng junk outLen jk mcs s).fullMetrics bufLen memory snrs txMax errMin sendChunk ((coding.1 : ℚ) / (coding.2 : ℚ)) frames stop w

end Verif
