import Verif.Model.Links
import Mathlib.Algebra.BigOperators.Group.List.Basic
import Mathlib.Data.Finset.Range
import Mathlib.Data.Finset.Card
import Mathlib.Data.Fintype.Basic
/-
What a Monte-Carlo simulation is supposed to do, independently of the loops of the model.  `Chunk w e w'` says: sending one
chunk from world `w` gives `e` bit errors and leads to world `w'`.
-/
namespace Verif

/-- `Sent Chunk w es w'`: chunks sent one after the other from `w`; `es` lists their numbers of errors. -/
inductive Sent {σ ε : Type} (Chunk : σ → ε → σ → Prop) : σ → List ε → σ → Prop
  | nil (w : σ) : Sent Chunk w [] w
  | cons {w w' w'' : σ} {e : ε} {es : List ε} : Chunk w e w' → Sent Chunk w' es w'' → Sent Chunk w (e :: es) w''

/-- One SNR: chunks of `chunk` bits are sent until `sendMax` bits have been sent or `errMin` errors have been seen, and not
one more. -/
def OneSnr {σ : Type} (Chunk : σ → Int → σ → Prop) (chunk : Nat) (sendMax errMin : Int) (w : σ) (es : List Int) (w' : σ) : Prop :=
  Sent Chunk w es w' ∧ es ≠ [] ∧ (sendMax ≤ es.length * chunk ∨ errMin ≤ es.sum) ∧
    ∀ j < es.length, (j : Int) * chunk < sendMax ∧ (es.take j).sum < errMin

/-- All SNRs in order, starting each with `setSnr`; the simulation stops after the first SNR that stays below `errMin`
errors, and the ratios of the SNRs not simulated are 0. -/
inductive SnrRun {σ : Type} (setSnr : σ → ℝ → σ → Prop) (Chunk : σ → Int → σ → Prop) (chunk : Nat) (sendMax errMin : Int) :
    List ℝ → σ → List ℚ → σ → Prop
  | nil (w : σ) : SnrRun setSnr Chunk chunk sendMax errMin [] w [] w
  | stop {snr : ℝ} {rest : List ℝ} {w w1 w2 : σ} {es : List Int} : setSnr w snr w1 → OneSnr Chunk chunk sendMax errMin w1 es w2 →
      es.sum < errMin →
      SnrRun setSnr Chunk chunk sendMax errMin (snr :: rest) w ((es.sum : ℚ) / (es.length * chunk) :: List.replicate rest.length 0) w2
  | go {snr : ℝ} {rest : List ℝ} {w w1 w2 w3 : σ} {es : List Int} {bers : List ℚ} : setSnr w snr w1 →
      OneSnr Chunk chunk sendMax errMin w1 es w2 → errMin ≤ es.sum →
      SnrRun setSnr Chunk chunk sendMax errMin rest w2 bers w3 →
      SnrRun setSnr Chunk chunk sendMax errMin (snr :: rest) w ((es.sum : ℚ) / (es.length * chunk) :: bers) w3

/-- A code of rate `rate` turns `n` message bits into a whole number of vectors of `v` bits. -/
def WholeVectors (rate : ℚ) (v n : Nat) : Prop := ∃ m : Nat, (n : ℚ) / rate = m * v

/-- Number of positions where the first `n` entries of the two arrays differ. -/
noncomputable def bitErrors (n : Nat) (msg : List Int) (decoded : List ℝ) : Nat :=
  ((Finset.range n).filter (fun i => (msg.getD i 0 : ℝ) ≠ decoded.getD i 0)).card

end Verif

namespace Verif

/-- One SNR of the simulation with full metrics: `ess` lists, per transmission, the errors of its chunks.  At most `txMax`
transmissions; with `stop` the simulation moves on as soon as more than `errMin` errors have been seen. -/
def OneSnrTx {σ : Type} (Tx : σ → List Int → σ → Prop) (txMax : Nat) (errMin : Int) (stop : Bool) (w : σ) (ess : List (List Int)) (w' : σ) :
    Prop :=
  Sent Tx w ess w' ∧ ess.length ≤ txMax ∧ (ess.length = txMax ∨ stop = true ∧ errMin < ess.flatten.sum) ∧
    ∀ j < ess.length, stop = true → (ess.take j).flatten.sum ≤ errMin

/-- `l` padded with zeros to length `n`. -/
def padZero (n : Nat) (l : List Int) : List Int := l ++ List.replicate (n - l.length) 0

/-- What a row of the full metrics should contain, given the errors `ess` of `k` chunks of `chunk` bits per transmission: bit
error ratio = errors / bits sent; bit errors, erroneous chunks and chunks per transmission. -/
def GoodRow (chunk k txMax : Nat) (ess : List (List Int)) (row : MetricsRow) : Prop :=
  row.ber = (if ess.length * k * chunk = 0 then none else some ((ess.flatten.sum : ℚ) / (ess.length * k * chunk : Nat))) ∧
  row.be = padZero txMax (ess.map List.sum) ∧
  row.ce = padZero txMax (ess.map (fun es => ((es.countP (fun e => 0 < e) : Nat) : Int))) ∧
  row.nc = padZero txMax (ess.map (fun _ => (k : Int)))

/-- All SNRs: rows as described by `Row`, until the first SNR with fewer than `errMin` errors; then rows of zeros. -/
inductive MetricsRun {σ : Type} (setSnr : σ → ℝ → σ → Prop) (Tx : σ → List Int → σ → Prop) (Row : List (List Int) → MetricsRow → Prop)
    (txMax : Nat) (errMin : Int) (stop : Bool) : List ℝ → σ → List MetricsRow → σ → Prop
  | nil (w : σ) : MetricsRun setSnr Tx Row txMax errMin stop [] w [] w
  | last {snr : ℝ} {rest : List ℝ} {w w1 w2 : σ} {ess : List (List Int)} {row : MetricsRow} : setSnr w snr w1 →
      OneSnrTx Tx txMax errMin stop w1 ess w2 → ess.flatten.sum < errMin → Row ess row →
      MetricsRun setSnr Tx Row txMax errMin stop (snr :: rest) w (row :: List.replicate rest.length (zeroRow txMax)) w2
  | go {snr : ℝ} {rest : List ℝ} {w w1 w2 w3 : σ} {ess : List (List Int)} {row : MetricsRow} {rows : List MetricsRow} :
      setSnr w snr w1 → OneSnrTx Tx txMax errMin stop w1 ess w2 → errMin ≤ ess.flatten.sum → Row ess row →
      MetricsRun setSnr Tx Row txMax errMin stop rest w2 rows w3 →
      MetricsRun setSnr Tx Row txMax errMin stop (snr :: rest) w (row :: rows) w3

end Verif
