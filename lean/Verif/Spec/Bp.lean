import Mathlib.Analysis.SpecialFunctions.Artanh
import Mathlib.Order.ConditionallyCompleteLattice.Finset
/-
Textbook belief propagation on a Tanner graph (flooding schedule), independently of the model of the code.

`H` lists, for every check node, its variable nodes.  A `rule` gives the message from a check node with the variables `ns` to
its variable `v`, from the messages `x` received by the check node.
-/
namespace Verif

/-- All checks are satisfied by the bits `d`. -/
def ChecksHold (H : List (List Nat)) (d : Nat → Bool) : Prop := ∀ ns ∈ H, 2 ∣ ns.countP (fun v => d v)

/-- Sum-product rule: `2 artanh ∏ tanh (x_u / 2)` over the other variables, limited to ±500 (500 when there is no other
variable). -/
noncomputable def spaRule (ns : List Nat) (x : Nat → ℝ) (v : Nat) : ℝ :=
  if ns.filter (fun u => u ≠ v) = [] then 500
  else max (-500) (min 500 (2 * Real.artanh (((ns.filter (fun u => u ≠ v)).map (fun u => Real.tanh (x u / 2))).prod)))

/-- Min-sum rule: product of the signs times the minimum of the magnitudes, over the other variables. -/
noncomputable def msaRule (ns : List Nat) (x : Nat → ℝ) (v : Nat) : ℝ :=
  ((ns.filter (fun u => u ≠ v)).map (fun u => (SignType.sign (x u) : ℝ))).prod * ⨅ u : {u // u ∈ ns ∧ u ≠ v}, |x u|

/-- Message from variable `v` to check `c` after `k` iterations: channel LLR plus the messages of the other checks. -/
noncomputable def bpMsgs (rule : List Nat → (Nat → ℝ) → Nat → ℝ) (H : List (List Nat)) (llr : Nat → ℝ) : Nat → Nat → Nat → ℝ
  | 0, _, v => llr v
  | k + 1, c, v => llr v +
    (((List.range H.length).filter (fun c' => v ∈ H.getD c' [] ∧ c' ≠ c)).map
      (fun c' => rule (H.getD c' []) (bpMsgs rule H llr k c') v)).sum

/-- Total LLR of variable `v` after `k` iterations: channel LLR plus the messages of all its checks. -/
noncomputable def bpTotal (rule : List Nat → (Nat → ℝ) → Nat → ℝ) (H : List (List Nat)) (llr : Nat → ℝ) : Nat → Nat → ℝ
  | 0, v => llr v
  | k + 1, v => llr v +
    (((List.range H.length).filter (fun c' => v ∈ H.getD c' [])).map
      (fun c' => rule (H.getD c' []) (bpMsgs rule H llr k c') v)).sum

/-- The iterations stop at the first total whose signs satisfy all checks, and after `n` iterations at the latest. -/
def StopsAt (rule : List Nat → (Nat → ℝ) → Nat → ℝ) (H : List (List Nat)) (llr : Nat → ℝ) (n K : Nat) : Prop :=
  K ≤ n ∧ (K = n ∨ ChecksHold H (fun v => bpTotal rule H llr K v < 0)) ∧
    ∀ j < K, ¬ ChecksHold H (fun v => bpTotal rule H llr j v < 0)

end Verif
