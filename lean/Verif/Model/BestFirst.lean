import Verif.Model.Mimo
/-
Model of /repo/commpy/modulation.py `best_first_detector`.  As in `Model/Mimo`, matrices are functions with dimensions, floats
are exact reals, `np.inf` is `⊤`, QR and argsort are parameters.
-/
namespace Verif

/-- modulation.py:459-479: a `_Node` with its chain of best siblings, as the non-empty list of (symbol vector, partial metric). -/
abbrev BChain := List (List ℂ × ℝ)

/-- `partial_metric` of a node. -/
def BChain.metric (n : BChain) : ℝ := (n.headD ([], 0)).2

/-- `symb_vector` of a node. -/
def BChain.symb (n : BChain) : List ℂ := (n.headD ([], 0)).1

/-- What does not change during the search: `argsort`, the constellation, `k = len(yt)`, the number of columns of `r`, `yt`, `r`. -/
structure BfEnv where
  argsort : List ℝ → List Nat
  c : List ℂ
  k : Nat
  cols : Nat
  yt : Nat → ℂ
  r : Nat → Nat → ℂ
  demode : List ℂ → List Nat
  order : Nat
  llrMax : ℝ

/-- modulation.py:490-491: metric of the child with symbol `s`. -/
noncomputable def bfChildMetric (e : BfEnv) (node : List ℂ × ℝ) (s : ℂ) : ℝ :=
  let cs := node.1.length + 1
  ‖e.yt (e.k - cs) - ((List.range cs).map fun j => e.r (e.k - cs) (e.cols - cs + j) * (s :: node.1).getD j 0).sum‖ ^ 2 + node.2

/-- modulation.py:481-495 `_Node.expand`.  `yt[-child_size]` raises IndexError beyond the length of `yt`, and so does building a
node from no children. -/
noncomputable def bfExpand (e : BfEnv) (node : List ℂ × ℝ) : Py BChain :=
  if e.k < node.1.length + 1 then .error .indexError
  else if e.c = [] then .error .indexError
  else .ok ((e.argsort (e.c.map (bfChildMetric e node))).map fun i => (e.c.getD i 0 :: node.1, (e.c.map (bfChildMetric e node)).getD i 0))

/-- `bisect.insort` (= `insort_right`) on a sorted list: after all nodes with a metric that is not larger. -/
noncomputable def bfInsort (stack : List BChain) (n : BChain) : List BChain :=
  stack.takeWhile (fun x => decide (x.metric ≤ n.metric)) ++ n :: stack.dropWhile (fun x => decide (x.metric ≤ n.metric))

/-- Variables of the search.  The matrices `counter_hyp_metric` and `map_bit_vector` are kept flattened, row by row. -/
structure BfState where
  stk : Nat → List BChain
  mapMetric : EReal
  mapBits : Option (List Int)
  counter : List EReal

/-- modulation.py:528-529, 554-555: the bits with 0 replaced by -1. -/
def bfSigns (bits : List Nat) : List Int := bits.map fun (b : Nat) => if b = 0 then (-1 : Int) else (b : Int)

/-- `max()` of a list of floats. -/
noncomputable def maxInf (l : List EReal) : EReal := l.foldl max ⊥

/-- modulation.py:525-536: the search radius for a node of stack `idx` (≥ 1). -/
noncomputable def bfRadius (e : BfEnv) (st : BfState) (idx : Nat) (node : BChain) : EReal :=
  match st.mapBits with
  | none => ⊤
  | some mb =>
    let bv := bfSigns (e.demode node.symb)
    let sel := (((st.counter.drop (idx * e.order)).zip ((mb.drop (idx * e.order)).zip bv)).filter fun p => p.2.1 ≠ p.2.2).map Prod.fst
    let a2 : EReal := if sel = [] then ⊤ else maxInf sel
    max (maxInf (st.counter.take (idx * e.order))) a2

/-- modulation.py:520-547: processing of stack `i + 1`. -/
noncomputable def bfProcess (e : BfEnv) (st : BfState) (i : Nat) : BfState :=
  match st.stk (i + 1) with
  | [] => st
  | node :: rest =>
    let radius := bfRadius e st (i + 1) node
    let rest' := if node.tail ≠ [] ∧ ((BChain.metric node.tail : ℝ) : EReal) ≤ radius then bfInsort rest node.tail else rest
    let st1 : BfState := { st with stk := Function.update st.stk (i + 1) rest' }
    match bfExpand e (node.headD ([], 0)) with
    | .error _ => st1
    | .ok child =>
      if ((BChain.metric child : ℝ) : EReal) ≤ radius then { st1 with stk := Function.update st1.stk i (bfInsort (st1.stk i) child) }
      else st1

/-- `np.clip(x, lo, hi)`. -/
noncomputable def npClip (x lo hi : EReal) : EReal := min (max x lo) hi

/-- modulation.py:549-558.  `reshape(-1, 0)` raises ValueError. -/
noncomputable def bfLeaf (e : BfEnv) (st : BfState) : Py BfState :=
  match st.stk 0 with
  | [] => .ok st
  | leaf :: _ =>
    let lm : EReal := ((BChain.metric leaf : ℝ) : EReal)
    if lm < st.mapMetric then
      if e.order = 0 then .error .valueError
      else .ok { st with
        counter := (st.counter.map fun x => min x st.mapMetric).map fun x => npClip x (lm - (e.llrMax : ℝ)) (lm + (e.llrMax : ℝ))
        mapMetric := lm
        mapBits := some (bfSigns (e.demode leaf.symb)) }
    else .ok { st with
      counter := (st.counter.map fun x => min x lm).map fun x => npClip x (st.mapMetric - (e.llrMax : ℝ)) (st.mapMetric + (e.llrMax : ℝ)) }

/-- modulation.py:560-563.  A tuple of sizes that is too short raises IndexError. -/
def bfTrim (n : Nat) (stackSize : List Nat) (st : BfState) : Py BfState :=
  if stackSize.length < n - 1 then .error .indexError
  else .ok { st with stk := fun i =>
    if i = 0 then [] else if i < n then (st.stk i).take (stackSize.getD (i - 1) 0) else st.stk i }

/-- modulation.py:517-563: one turn of the `while` loop. -/
noncomputable def bfTurn (e : BfEnv) (n : Nat) (stackSize : List Nat) (st : BfState) : Py BfState :=
  match bfLeaf e ((List.range (n - 1)).foldl (bfProcess e) st) with
  | .error err => .error err
  | .ok st => bfTrim n stackSize st

open Classical in
/-- modulation.py:517: the loop `while any(stacks[1:])`. -/
noncomputable def bfLoop (e : BfEnv) (n : Nat) (stackSize : List Nat) : Nat → BfState → Py BfState
  | 0, _ => .error .outOfFuel
  | fuel + 1, st =>
    if ∃ i, 1 ≤ i ∧ i < n ∧ st.stk i ≠ [] then
      match bfTurn e n stackSize st with
      | .error err => .error err
      | .ok st => bfLoop e n stackSize fuel st
    else .ok st

/-- modulation.py:501: `int(log2(m))`, exact. -/
def intLog2 (m : Nat) : Py Nat := if m = 0 then .error .overflowError else .ok m.log2

/-- modulation.py:508-511. -/
noncomputable def bfInit (n order : Nat) (first : BChain) : BfState :=
  { stk := fun i => if i = n - 1 then [first] else []
    mapMetric := ⊤
    mapBits := none
    counter := List.replicate (n * order) ⊤ }

/-- modulation.py:565: multiplying by `None` raises TypeError. -/
noncomputable def bfResult (st : BfState) : Py (List EReal) :=
  match st.mapBits with
  | none => .error .typeError
  | some mb => .ok (List.zipWith (fun (x : EReal) (b : Int) => (st.mapMetric - x) * ((b : ℝ) : EReal)) st.counter mb)

/-- modulation.py:497-565: after the QR factorisation. -/
noncomputable def bfSearch (e : BfEnv) (n : Nat) (stackSize : List Nat) (fuel : Nat) : Py (List EReal) :=
  match bfExpand e ([], 0) with
  | .error err => .error err
  | .ok first =>
    match bfLoop e n stackSize fuel (bfInit n e.order first) with
    | .error err => .error err
    | .ok st => bfResult st

/-- modulation.py:498-505: the constants of the search. -/
noncomputable def bfEnv (argsort : List ℝ → List Nat) (qr : (Nat → Nat → ℂ) → (Nat → Nat → ℂ) × (Nat → Nat → ℂ))
    (n cols : Nat) (y : Nat → ℂ) (h : Nat → Nat → ℂ) (constellation : List ℂ) (demode : List ℂ → List Nat) (llrMax : ℝ)
    (order : Nat) : BfEnv where
  argsort := argsort
  c := constellation
  k := min n cols
  cols := cols
  yt := fun k => ((List.range n).map fun i => (starRingEnd ℂ) ((qr h).1 i k) * y i).sum
  r := (qr h).2
  demode := demode
  order := order
  llrMax := llrMax

/-- modulation.py:422-565 `best_first_detector`, for `h` with `n ≥ 1` rows (called `nb_tx` there) and `cols` columns.  `noise_var` is
not used by the code.  `demode` is assumed to return `modulation_order` bits per symbol. -/
noncomputable def bestFirst (argsort : List ℝ → List Nat) (qr : (Nat → Nat → ℂ) → (Nat → Nat → ℂ) × (Nat → Nat → ℂ))
    (n cols : Nat) (y : Nat → ℂ) (h : Nat → Nat → ℂ) (constellation : List ℂ) (stackSize : List Nat) (demode : List ℂ → List Nat)
    (llrMax : ℝ) (fuel : Nat) : Py (List EReal) :=
  match intLog2 constellation.length with
  | .error err => .error err
  | .ok order => bfSearch (bfEnv argsort qr n cols y h constellation demode llrMax order) n stackSize fuel

end Verif
