import Verif.Model.BranchMetrics
import Verif.Model.Puncturing
import Verif.Model.Convcode
/-
Model of /repo/commpy/wifi80211.py: the MCS tables, the trellis, the transmit and receive chains of
`Wifi80211.link_performance` between message bits and coded (punctured) bits / LLRs.  The modems and the Monte-Carlo loop are
modelled in `Model/Modulation` and `Model/Links`.
-/
namespace Verif

/-- Which modem class is instantiated, with how many constellation points. -/
inductive WifiModem where
  | psk (m : Nat)
  | qam (m : Nat)
  deriving DecidableEq, Repr

/-- wifi80211.py:55-66: the list `bits_per_symbol` (numbers of constellation points). -/
def wifiPoints : List Nat := [2, 4, 4, 16, 16, 64, 64, 64, 256, 256]

/-- wifi80211.py:51-73 `get_modem`. -/
def wifiGetModem (mcs : Int) : Py WifiModem := do
  let m ← pyGet wifiPoints mcs
  pure (if mcs ≤ 2 then .psk m else .qam m)

/-- wifi80211.py:91-104 `_get_coding`. -/
def wifiGetCoding (mcs : Int) : Py (Nat × Nat) :=
  pyGet [(1, 2), (1, 2), (3, 4), (1, 2), (3, 4), (2, 3), (3, 4), (5, 6), (3, 4), (5, 6)] mcs

/-- wifi80211.py:75-90 `_get_puncture_matrix`. -/
def wifiPuncture (numerator denominator : Nat) : Option (List Nat) :=
  if numerator = 1 ∧ denominator = 2 then none
  else if numerator = 2 ∧ denominator = 3 then some [1, 1, 1, 0]
  else if numerator = 3 ∧ denominator = 4 then some [1, 1, 1, 0, 0, 1]
  else if numerator = 5 ∧ denominator = 6 then some [1, 1, 1, 0, 0, 1, 1, 0, 0, 1]
  else none

/-- wifi80211.py:48-49, 106-108 `_get_trellis`: memory 6, generator matrix `(133, 171)` in decimal, default format
'MSB', default code type. -/
def wifiTrellis (junk : Nat → Nat → Nat) : Py Trellis := mkTrellis junk [6] [[133, 171]] 2 none false "MSB"

/-- wifi80211.py:178-185: `modulate` up to the call of the modem: encode ('cont'), then puncture. -/
def wifiTransmit (junk : Nat → Nat → Nat) (outLen : Nat → Nat) (mcs : Int) (bits : List Nat) : Py (List Nat) := do
  let t ← wifiTrellis junk
  let coding ← wifiGetCoding mcs
  let res ← convEncode outLen t bits "cont" none
  match wifiPuncture coding.1 coding.2 with
  | some v => puncturing res v
  | none => pure res

/-- wifi80211.py:200: `math.ceil(len(msg) * coding[0] / coding[1] * 2)`.  Exact rational arithmetic: the float quotient is
exact when it is an integer or half an integer, and otherwise at least 1/6 away from the next half integer (lengths
below 2^50). -/
def wifiDepunctLen (len num den : Nat) : Nat := (len * num * 2 + (den - 1)) / den

/-- wifi80211.py:195-205: the LLRs given to the Viterbi decoder (an IndexError of `depuncturing` is caught and the
LLRs are used as they are). -/
noncomputable def wifiDepuncture (coding : Nat × Nat) (msg : List ℝ) : Py (List ℝ) :=
  match wifiPuncture coding.1 coding.2 with
  | some v =>
    match depuncturing 0 msg v (wifiDepunctLen msg.length coding.1 coding.2) with
    | .ok d => .ok d
    | .error .indexError => .ok msg
    | .error e => .error e
  | none => .ok msg

/-- wifi80211.py:195-206 `decoder_soft`; `viterbi_decode` is called with the default traceback depth.  `decLen len` is
`int(len*rate)` with rate 1/2 (exact in doubles). -/
noncomputable def wifiReceive (junk : Nat → Nat → Nat) (jk : VitJunk ℝ) (mcs : Int) (msg : List ℝ) : Py (List Nat) := do
  let t ← wifiTrellis junk
  let coding ← wifiGetCoding mcs
  let d ← wifiDepuncture coding msg
  let r ← viterbiDecode "soft" t jk (d.length / 2) (defaultDepth t (d.length / 2)) d
  pure r.1

end Verif
