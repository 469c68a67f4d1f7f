import Verif.Py
import Verif.Model.UtilitiesReal
import Verif.Model.Float53
import Mathlib.Data.Real.Basic
import Mathlib.Data.Real.Archimedean
import Mathlib.Data.Int.Bitwise
import Mathlib.Data.Rat.Floor
import Mathlib.Algebra.Order.Floor.Ring
/-
Model of /repo/commpy/links.py.

The link is simulated by user supplied functions (modulator, channel, receiver, decoder) and by numpy's random generator.
They are parameters; everything they may depend on or change (channel gains, generator state, noise level) is a *world*
`σ` threaded through the calls.  Callbacks may raise.  After an exception the simulation is abandoned, so the world at
that point is not part of the result.  Callbacks are assumed not to modify the arrays they receive.

Float rates go through `Fraction(rate).limit_denominator(100)` (standard library): the rate is a rational parameter here.
Arrays of bits or reals are lists; `np.empty` contents are given by an arbitrary function (`junk`).
-/
namespace Verif

/-- links.py:212 and 302: `(Fraction(1, num_bits_symbol * nb_tx) * 1 / code_rate).denominator`. -/
def linkDivider (B T : Nat) (rate : ℚ) : Py Nat :=
  if B * T = 0 then .error .zeroDivisionError
  else if rate = 0 then .error .zeroDivisionError
  else .ok (1 / ((B * T : Nat) : ℚ) * 1 / rate).den

/-- links.py:213 and 303: `max(divider, send_chunk // divider * divider)`. -/
def linkChunk (divider : Nat) (sendChunk : Int) : Nat :=
  (max (divider : Int) (sendChunk / (divider : Int) * divider)).toNat

/-- numpy `a[lo:hi] = v` for `0 ≤ lo ≤ hi`: the slice is clamped to the array; a value of another length than the slice is
a ValueError unless it has length one (broadcast). -/
def npSliceAssign {α : Type} (a : List α) (lo hi : Nat) (v : List α) : Py (List α) :=
  let lo' := min lo a.length
  let hi' := min hi a.length
  if hi' - lo' = v.length then .ok (a.take lo' ++ v ++ a.drop hi')
  else match v with
    | [x] => .ok (a.take lo' ++ List.replicate (hi' - lo') x ++ a.drop hi')
    | _ => .error .valueError

/-- numpy element-wise operation on two one-dimensional arrays: equal lengths, or one of them of length one. -/
def npZip {α β γ : Type} (f : α → β → γ) (a : List α) (b : List β) : Py (List γ) :=
  if a.length = b.length then .ok (List.zipWith f a b)
  else match a, b with
    | [x], _ => .ok (b.map (f x))
    | _, [y] => .ok (a.map (fun x => f x y))
    | _, _ => .error .valueError

/-- The decoder given to `LinkModel`: `decoder(received)` or `decoder(y, h, constellation, noise_var, received, bits)`; the
choice is made on the number of arguments (links.py:216, 306). -/
inductive LinkDecoder (V G C : Type) where
  | short (f : List ℝ → Py (List ℝ))
  | full (f : List V → List G → C → ℝ → List ℝ → Nat → Py (List ℝ))

/-- links.py:138-153 `LinkModel` (the attributes that the simulation uses), and the channel it holds: `isMimo` is the
`isinstance` test of links.py:234/320; `choice` is `np.random.choice((0, 1), n)`. -/
structure Link (σ Sym V G C : Type) where
  bitsPerSymbol : Nat
  nbTx : Nat
  Es : ℝ
  constellation : C
  isMimo : Bool
  setSnr : σ → ℝ → ℚ → ℝ → Py σ
  choice : σ → Nat → List Int × σ
  modulate : List Int → Py Sym
  propagate : σ → Sym → Py (List V × σ)
  gains : σ → List G
  noiseStd : σ → ℝ
  receive : V → G → C → ℝ → Py (List ℝ)
  receiveAll : List V → List G → C → ℝ → Py (List ℝ)
  decoder : LinkDecoder V G C

variable {σ Sym V G C : Type}

/-- links.py:149-152: without a decoder the received bits are used as they are. -/
def defaultDecoder : LinkDecoder V G C := .short (fun msg => .ok msg)

/-- links.py:235-240 and 321-326: the receive loop of a MIMO link, on a buffer of `bufLen` uninitialised entries. -/
def Link.mimoReceive (lk : Link σ Sym V G C) (bufLen : Nat) (junk : Nat → ℝ) (out : List V) (gains : List G) (noiseVar : ℝ) :
    Py (List ℝ) :=
  let size := lk.nbTx * lk.bitsPerSymbol
  (List.range out.length).foldlM (fun (buf : List ℝ) (i : Nat) => do
    let y ← pyGet out (i : Int)
    let h ← pyGet gains (i : Int)
    let v ← lk.receive y h lk.constellation noiseVar
    npSliceAssign buf (size * i) (size * (i + 1)) v) ((List.range bufLen).map junk)

/-- links.py:233-243 and 319-329: the received bits (or LLRs), vector by vector for a MIMO channel. -/
def Link.received (lk : Link σ Sym V G C) (bufLen : Nat) (junk : Nat → ℝ) (out : List V) (gains : List G) (noiseVar : ℝ) :
    Py (List ℝ) :=
  if lk.isMimo then lk.mimoReceive bufLen junk out gains noiseVar
  else lk.receiveAll out gains lk.constellation noiseVar

/-- links.py:245-250 and 331-337: the call of the decoder. -/
def Link.decode (lk : Link σ Sym V G C) (out : List V) (gains : List G) (noiseVar : ℝ) (received : List ℝ) : Py (List ℝ) :=
  match lk.decoder with
  | .short f => f received
  | .full f => f out gains lk.constellation noiseVar received (lk.nbTx * lk.bitsPerSymbol)

/-- links.py:228-250 and 314-337: one transmission of `n` bits: the message, the decoded array and the new world.
`bufLen n` is `int(math.ceil(n / float(rate)))`, `junk` the content of freshly allocated memory. -/
def Link.send (lk : Link σ Sym V G C) (bufLen : Nat → Nat) (junk : σ → Nat → ℝ) (n : Nat) (w : σ) :
    Py (List Int × List ℝ × σ) := do
  let msg := (lk.choice w n).1
  let w1 := (lk.choice w n).2
  let symbs ← lk.modulate msg
  let (out, w2) ← lk.propagate w1 symbs
  let received ← lk.received (bufLen msg.length) (junk w2) out (lk.gains w2) (lk.noiseStd w2 ^ 2)
  let decoded ← lk.decode out (lk.gains w2) (lk.noiseStd w2 ^ 2) received
  pure (msg, decoded, w2)

/-- links.py:335, 337: `np.bitwise_xor(msg, decoded[:len(msg)].astype(int)).sum()`. -/
noncomputable def countErrors (msg : List Int) (decoded : List ℝ) : Py Int := do
  let x ← npZip Int.xor msg ((decoded.take msg.length).map astypeInt)
  pure x.sum

/-- links.py:314-337: the errors of one chunk. -/
noncomputable def Link.chunkErrors (lk : Link σ Sym V G C) (bufLen : Nat → Nat) (junk : σ → Nat → ℝ) (chunk : Nat) (w : σ) :
    Py (Int × σ) := do
  let (msg, decoded, w') ← lk.send bufLen junk chunk w
  let e ← countErrors msg decoded
  pure (e, w')

/-- links.py:313-338: the while loop for one SNR.  State: `bit_send`, `bit_err`, world. -/
noncomputable def Link.sendLoop (lk : Link σ Sym V G C) (bufLen : Nat → Nat) (junk : σ → Nat → ℝ) (chunk : Nat)
    (sendMax errMin : Int) : Nat → Int → Int → σ → Py (Int × Int × σ)
  | 0, bitSend, bitErr, w => if bitSend < sendMax ∧ bitErr < errMin then .error .outOfFuel else .ok (bitSend, bitErr, w)
  | fuel + 1, bitSend, bitErr, w =>
    if bitSend < sendMax ∧ bitErr < errMin then do
      let (e, w') ← lk.chunkErrors bufLen junk chunk w
      lk.sendLoop bufLen junk chunk sendMax errMin fuel (bitSend + chunk) (bitErr + e) w'
    else .ok (bitSend, bitErr, w)

/-- links.py:309-341: the loop over the SNRs; entries that are not reached stay 0. -/
noncomputable def Link.snrLoop (lk : Link σ Sym V G C) (bufLen : Nat → Nat) (junk : σ → Nat → ℝ) (chunk : Nat)
    (sendMax errMin : Int) (rate : ℚ) (fuel : Nat) : List ℝ → σ → Py (List ℚ × σ)
  | [], w => .ok ([], w)
  | snr :: rest, w => do
    let w1 ← lk.setSnr w snr rate lk.Es
    let (bitSend, bitErr, w2) ← lk.sendLoop bufLen junk chunk sendMax errMin fuel 0 0 w1
    if bitSend = 0 then .error .zeroDivisionError else
    let ber : ℚ := (bitErr : ℚ) / (bitSend : ℚ)
    if bitErr < errMin then .ok (ber :: List.replicate rest.length 0, w2)
    else do
      let (bers, w3) ← lk.snrLoop bufLen junk chunk sendMax errMin rate fuel rest w2
      pure (ber :: bers, w3)

/-- links.py:269-342 `LinkModel.link_performance`; `sendChunk = none` is `send_chunk=None`. -/
noncomputable def Link.performance (lk : Link σ Sym V G C) (bufLen : ℚ → Nat → Nat) (junk : σ → Nat → ℝ) (fuel : Nat)
    (snrs : List ℝ) (sendMax errMin : Int) (sendChunk : Option Int) (rate : ℚ) (w : σ) : Py (List ℚ × σ) := do
  let requested := sendChunk.getD errMin
  let divider ← linkDivider lk.bitsPerSymbol lk.nbTx rate
  lk.snrLoop (bufLen rate) junk (linkChunk divider requested) sendMax errMin rate fuel snrs w

/-- links.py:29-64 `link_performance`: `if not send_chunk` treats `None` and 0 alike. -/
noncomputable def linkPerformance (lk : Link σ Sym V G C) (bufLen : ℚ → Nat → Nat) (junk : σ → Nat → ℝ) (fuel : Nat)
    (snrs : List ℝ) (sendMax errMin : Int) (sendChunk : Option Int) (rate : ℚ) (w : σ) : Py (List ℚ × σ) :=
  let sendChunk' := match sendChunk with
    | none => errMin
    | some c => if c = 0 then errMin else c
  lk.performance bufLen junk fuel snrs sendMax errMin (some sendChunk') rate w

/-- `v` is the value of `int(math.ceil(N / float(rate)))` (links.py:236, 322): `float(rate)` is the double nearest to the
fraction, the quotient is rounded to a double, then rounded up. -/
def IsBufLen (rate : ℚ) (N v : Nat) : Prop :=
  ∃ r q, Rounds rate r ∧ Rounds ((N : ℚ) / r) q ∧ v = ⌈q⌉₊

/-! ### `link_performance_full_metrics` -/

/-- links.py:252-256: the errors of chunk `i` of one transmission. -/
noncomputable def chunkErr (msg : List Int) (decoded : List ℝ) (chunk i : Nat) : Py Int := do
  let x ← npZip Int.xor ((msg.drop (chunk * i)).take chunk) (((decoded.drop (chunk * i)).take chunk).map astypeInt)
  pure x.sum

/-- links.py:252-256: bit errors and lost chunks of one transmission of `k` chunks. -/
noncomputable def countChunks (msg : List Int) (decoded : List ℝ) (chunk k : Nat) : Py (Int × Int) :=
  (List.range k).foldlM (fun (st : Int × Int) i => do
    let e ← chunkErr msg decoded chunk i
    pure (st.1 + e, st.2 + if 0 < e then 1 else 0)) (0, 0)

/-- The arrays `bit_err`, `chunk_loss`, `chunk_count` (links.py:221-224) and `total_tx_send`. -/
structure TxState where
  bitErr : List Int
  chunkLoss : List Int
  chunkCount : List Int
  total : Nat
  deriving DecidableEq

/-- links.py:225-259: the loop over the transmissions of one SNR.  `ids` is the part of `range(tx_max)` still to do. -/
noncomputable def Link.txLoop (lk : Link σ Sym V G C) (bufLen : Nat → Nat) (junk : σ → Nat → ℝ) (chunk k : Nat)
    (errMin : Int) (stop : Bool) : List Nat → TxState → σ → Py (TxState × σ)
  | [], st, w => .ok (st, w)
  | i :: ids, st, w =>
    if stop = true ∧ errMin < st.bitErr.sum then .ok (st, w)
    else do
      let (msg, decoded, w') ← lk.send bufLen junk (chunk * k) w
      let (e, l) ← countChunks msg decoded chunk k
      lk.txLoop bufLen junk chunk k errMin stop ids
        { bitErr := st.bitErr.set i (st.bitErr.getD i 0 + e)
          chunkLoss := st.chunkLoss.set i (st.chunkLoss.getD i 0 + l)
          chunkCount := st.chunkCount.set i (st.chunkCount.getD i 0 + k)
          total := st.total + 1 } w'

/-- One row of the four result arrays; a BER of `none` is nan (0/0 in numpy). -/
structure MetricsRow where
  ber : Option ℚ
  be : List Int
  ce : List Int
  nc : List Int
  deriving DecidableEq

/-- links.py:260-263: the row of one SNR. -/
def metricsRow (chunk : Nat) (st : TxState) : MetricsRow :=
  { ber := if st.total * chunk = 0 then none else some ((st.bitErr.sum : ℚ) / ((st.total * chunk : Nat) : ℚ))
    be := st.bitErr
    ce := st.bitErr.map (fun e => if 0 < e then 1 else 0)
    nc := st.chunkCount }

/-- links.py:202-205: the rows of the SNRs that are not reached. -/
def zeroRow (txMax : Nat) : MetricsRow :=
  { ber := some 0, be := List.replicate txMax 0, ce := List.replicate txMax 0, nc := List.replicate txMax 0 }

/-- links.py:219-265: the loop over the SNRs. -/
noncomputable def Link.metricsLoop (lk : Link σ Sym V G C) (bufLen : Nat → Nat) (junk : σ → Nat → ℝ) (chunk k : Nat)
    (txMax : Nat) (errMin : Int) (stop : Bool) (rate : ℚ) : List ℝ → σ → Py (List MetricsRow × σ)
  | [], w => .ok ([], w)
  | snr :: rest, w => do
    let w1 ← lk.setSnr w snr rate lk.Es
    let (st, w2) ← lk.txLoop bufLen junk chunk k errMin stop (List.range txMax)
      { bitErr := List.replicate txMax 0, chunkLoss := List.replicate txMax 0, chunkCount := List.replicate txMax 0, total := 0 } w1
    let row := metricsRow chunk st
    if st.bitErr.sum < errMin then .ok (row :: List.replicate rest.length (zeroRow txMax), w2)
    else do
      let (rows, w3) ← lk.metricsLoop bufLen junk chunk k txMax errMin stop rate rest w2
      pure (row :: rows, w3)

/-- links.py:155-267 `LinkModel.link_performance_full_metrics`. -/
noncomputable def Link.fullMetrics (lk : Link σ Sym V G C) (bufLen : ℚ → Nat → Nat) (junk : σ → Nat → ℝ)
    (snrs : List ℝ) (txMax : Nat) (errMin : Int) (sendChunk : Option Int) (rate : ℚ) (k : Nat) (stop : Bool) (w : σ) :
    Py (List MetricsRow × σ) := do
  let requested := sendChunk.getD errMin
  let divider ← linkDivider lk.bitsPerSymbol lk.nbTx rate
  lk.metricsLoop (bufLen rate) junk (linkChunk divider requested) k txMax errMin stop rate snrs w

/-! ### `idd_decoder` -/

/-- numpy `a -= b` on one-dimensional arrays: the shape of `a` must not change. -/
def npSubInPlace (a b : List ℝ) : Py (List ℝ) :=
  if a.length = b.length then .ok (List.zipWith (· - ·) a b)
  else match b with
    | [y] => .ok (a.map (fun x => x - y))
    | _ => .error .valueError

/-- links.py:400-403: the detector loop over the symbol vectors, writing into `a_priori_decoder`. -/
def iddDetect (detector : V → G → C → ℝ → List ℝ → Py (List ℝ)) (y : List V) (h : List G) (cst : C) (noiseVar : ℝ)
    (bits : Nat) (apDetector : List ℝ) (apDecoder : List ℝ) : Py (List ℝ) :=
  (List.range h.length).foldlM (fun (a : List ℝ) (i : Nat) => do
    let yi ← pyGet y (i : Int)
    let hi ← pyGet h (i : Int)
    let v ← detector yi hi cst noiseVar ((apDetector.drop (i * bits)).take bits)
    npSliceAssign a (i * bits) ((i + 1) * bits) v) apDecoder

/-- links.py:399-404: one iteration, from `a_priori_decoder` to the new (`a_priori_decoder`, `a_priori_detector`). -/
def iddStep (detector : V → G → C → ℝ → List ℝ → Py (List ℝ)) (decoder : List ℝ → Py (List ℝ)) (y : List V) (h : List G)
    (cst : C) (noiseVar : ℝ) (bits : Nat) (a : List ℝ) : Py (List ℝ × List ℝ) := do
  let d ← decoder a
  let b ← npZip (· - ·) d a
  let t ← iddDetect detector y h cst noiseVar bits b a
  let a' ← npSubInPlace t b
  pure (a', b)

/-- links.py:395-405: the function returned by `idd_decoder`.  `a_priori` is copied, so the caller's array is not
modified.  With `n_it = 0` the variable `a_priori_detector` is unbound (UnboundLocalError). -/
def iddDecode {β : Type} (detector : V → G → C → ℝ → List ℝ → Py (List ℝ)) (decoder : List ℝ → Py (List ℝ))
    (decision : List ℝ → Py β) (nIt : Nat) (y : List V) (h : List G) (cst : C) (noiseVar : ℝ) (aPriori : List ℝ)
    (bits : Nat) : Py β := do
  let (a, b) ← (List.range nIt).foldlM (fun (st : List ℝ × Option (List ℝ)) _ => do
    let (a', b) ← iddStep detector decoder y h cst noiseVar bits st.1
    pure (a', some b)) (aPriori, (none : Option (List ℝ)))
  match b with
  | none => .error .nameError
  | some b => do
    let s ← npZip (· + ·) a b
    decision s

end Verif
