import Verif.Props.Viterbi
import Verif.Props.Links
import Verif.Props.Channels
import Verif.Props.BscCoding
import Verif.Props.TrellisPlot
import Mathlib.Data.Nat.Bitwise
/-
C123: hard-decision Viterbi decoding of arbitrary samples (/repo/commpy/channelcoding/convcode.py:575-749): erasures, BPSK symbols, floats.
-/
namespace Verif

/-- What `viterbi_decode(..., decoding_type='hard')` makes of a sample: the parity of the integer part of its absolute value. -/
noncomputable def hardBit (x : ℝ) : Nat := ⌊|x|⌋₊ % 2

theorem hardBit_eq (x : ℝ) : hardBit x = (astypeInt x % 2).toNat := by
  have key : ((⌊|x|⌋₊ : Nat) : Int) = astypeInt x ∨ ((⌊|x|⌋₊ : Nat) : Int) = -astypeInt x := by
    unfold astypeInt
    by_cases h : 0 ≤ x
    · left
      rw [if_pos h, abs_of_nonneg h, Int.natCast_floor_eq_floor h]
    · right
      rw [if_neg h, abs_of_neg (not_le.1 h), Int.natCast_floor_eq_floor (by linarith), Int.floor_neg]
  unfold hardBit
  omega

/-- Offset of the metric. -/
noncomputable def hardOff (x : ℝ) : Int := astypeInt x - astypeInt x % 2

theorem hardBit_lt (x : ℝ) : hardBit x < 2 := Nat.mod_lt _ (by decide)

theorem intXor_zero (z : Int) : Int.xor z 0 = z := by
  cases z with
  | ofNat m => show ((m ^^^ 0 : Nat) : Int) = _; rw [Nat.xor_zero]; rfl
  | negSucc m => show Int.negSucc (m ^^^ 0) = _; rw [Nat.xor_zero]

theorem intXor_one (z : Int) : Int.xor z 1 = if z % 2 = 0 then z + 1 else z - 1 := by
  cases z with
  | ofNat m =>
    show ((m ^^^ 1 : Nat) : Int) = _
    rcases Nat.even_or_odd m with h | h
    · rw [Nat.xor_one_of_even h, if_pos (by have := Nat.even_iff.1 h; simp only [Int.ofNat_eq_natCast]; omega)]; simp
    · rw [Nat.xor_one_of_odd h, if_neg (by have := Nat.odd_iff.1 h; simp only [Int.ofNat_eq_natCast]; omega)]
      have := Nat.odd_iff.1 h
      simp only [Int.ofNat_eq_natCast]
      omega
  | negSucc m =>
    show Int.negSucc (m ^^^ 1) = _
    rcases Nat.even_or_odd m with h | h
    · have := Nat.even_iff.1 h
      rw [Nat.xor_one_of_even h, if_neg (by rw [Int.negSucc_eq]; omega), Int.negSucc_eq, Int.negSucc_eq]; push_cast; omega
    · have := Nat.odd_iff.1 h
      rw [Nat.xor_one_of_odd h, if_pos (by rw [Int.negSucc_eq]; omega), Int.negSucc_eq, Int.negSucc_eq]; omega

theorem hard_cost (x : ℝ) {b : Nat} (hb : b < 2) : Int.xor (astypeInt x) (b : Int) = ((hardBit x ^^^ b : Nat) : Int) + hardOff x := by
  rw [hardBit_eq]
  unfold hardOff
  have h01 : b = 0 ∨ b = 1 := by omega
  have hm : astypeInt x % 2 = 0 ∨ astypeInt x % 2 = 1 := by omega
  rcases h01 with rfl | rfl
  · rw [Nat.cast_zero, intXor_zero, Nat.xor_zero]; omega
  · rw [Nat.cast_one, intXor_one]
    rcases hm with e | e
    · rw [if_pos e, e]; norm_num; omega
    · rw [if_neg (by omega), e]; norm_num

/-- Offset of a block. -/
noncomputable def blockOff (n : Nat) (r : List ℝ) : Int :=
  if r.length = n then (r.map hardOff).sum else if r.length = 1 then n * hardOff (r.getD 0 0) else (r.map hardOff).sum

theorem hard_metric {n : Nat} (r : List ℝ) {c : List Nat} (hc : c.length = n) (hb : ∀ b ∈ c, b < 2) :
    branchMetric "hard" r c = (hammingDist (r.map hardBit) c).map (fun (d : Nat) => (d : ℝ) + (blockOff n r : ℝ)) := by
  have h1 : ∀ (r : List ℝ) (c : List Nat), r.length = c.length → (∀ b ∈ c, b < 2) →
      (List.zipWith Int.xor (r.map astypeInt) (c.map fun (b : Nat) => (b : Int))).sum =
        ((List.zipWith (· ^^^ ·) (r.map hardBit) c).sum : Nat) + (r.map hardOff).sum := by
    intro r
    induction r with
    | nil => intro c h _; simp
    | cons x r ih =>
      intro c h hb
      match c, h with
      | b :: c, h =>
        simp only [List.map_cons, List.zipWith_cons_cons, List.sum_cons]
        rw [ih c (by simpa using h) (fun b hb' => hb b (by simp [hb'])), hard_cost x (hb b (by simp))]
        push_cast
        ring
  have h2 : ∀ (x : ℝ) (c : List Nat), (∀ b ∈ c, b < 2) → ((c.map fun (b : Nat) => (b : Int)).map (Int.xor (astypeInt x))).sum =
      ((c.map (hardBit x ^^^ ·)).sum : Nat) + c.length * hardOff x := by
    intro x c
    induction c with
    | nil => intro _; simp
    | cons b c ih =>
      intro hb
      simp only [List.map_cons, List.sum_cons, List.length_cons]
      rw [ih (fun b hb' => hb b (by simp [hb'])), hard_cost x (hb b (by simp))]
      push_cast
      ring
  have h3 : ∀ (b : Nat), b < 2 → ∀ r : List ℝ, ((r.map astypeInt).map (Int.xor · (b : Int))).sum =
      (((r.map hardBit).map (· ^^^ b)).sum : Nat) + (r.map hardOff).sum := by
    intro b hb r
    induction r with
    | nil => simp
    | cons x r ih =>
      simp only [List.map_cons, List.sum_cons]
      rw [ih, hard_cost x hb]
      push_cast
      ring
  subst hc
  simp only [branchMetric, if_true, hammingDistInt, broadcast2, hammingDist, List.length_map, blockOff]
  by_cases e : r.length = c.length
  · rw [if_pos e, if_pos e, if_pos e]
    simp only [bind, Except.bind, pure, Except.pure, Except.map]
    rw [h1 r c e hb]
    rw [Int.cast_add, Int.cast_natCast]
  · rw [if_neg e, if_neg e, if_neg e]
    by_cases e1 : r.length = 1
    · obtain ⟨x, rfl⟩ := List.length_eq_one_iff.1 e1
      rw [if_pos e1, if_pos e1]
      simp only [List.map_cons, List.map_nil, bind, Except.bind, pure, Except.pure, Except.map, List.getD_cons_zero]
      rw [h2 x c hb]
      rw [Int.cast_add, Int.cast_natCast, Int.cast_mul, Int.cast_natCast]
    · rw [if_neg e1, if_neg e1]
      by_cases e2 : c.length = 1
      · obtain ⟨b, rfl⟩ := List.length_eq_one_iff.1 e2
        rw [if_pos (show [b].length = 1 from rfl)]
        split
        · rename_i x e5
          have := congrArg List.length e5
          simp at this
          exact absurd this e1
        · rename_i y e5 e6
          cases e5
          simp only [bind, Except.bind, pure, Except.pure, Except.map, List.getD_cons_zero]
          rw [h3 b (hb b (by simp)), Int.cast_add, Int.cast_natCast]
        · rename_i e7
          exact absurd rfl (e7 _)
      · rw [if_neg e2]
        match r, c with
        | [x], c => simp at e1
        | _, [y] => simp at e2
        | [], [] => simp at e
        | [], y :: y' :: c => rfl
        | x :: x' :: r, [] => rfl
        | x :: x' :: r, y :: y' :: c => rfl

/-! ### Shifting the metric by an amount that does not depend on the branch -/

/-- The shifted metric. -/
noncomputable def shiftM (c : ℝ) : WithTop Nat → WithTop ℝ := WithTop.map (fun x => (x : ℝ) + c)

theorem shiftM_strictMono (c : ℝ) : StrictMono (shiftM c) := by
  unfold shiftM
  rw [WithTop.strictMono_map_iff]
  intro a b h
  simpa using h

theorem shiftM_add (c d : ℝ) (x : WithTop Nat) (b : Nat) : shiftM c x + (((b : ℝ) + d : ℝ) : WithTop ℝ) = shiftM (c + d) (x + (b : WithTop Nat)) := by
  cases x with
  | top => rfl
  | coe x =>
    show (((x : ℝ) + c + ((b : ℝ) + d) : ℝ) : WithTop ℝ) = (((x + b : Nat) : ℝ) + (c + d) : ℝ)
    congr 1
    push_cast
    ring

theorem argminFirst_map {β γ : Type} [LinearOrder β] [LinearOrder γ] {φ : β → γ} (h : StrictMono φ) (l : List β) :
    argminFirst (l.map φ) = argminFirst l := by
  induction l with
  | nil => rfl
  | cons x l ih =>
    have e : (l.map φ).getD (argminFirst l) (φ x) = φ (l.getD (argminFirst l) x) := by
      rw [List.getD_eq_getElem?_getD, List.getD_eq_getElem?_getD, List.getElem?_map]
      cases l[argminFirst l]? <;> rfl
    simp only [List.map_cons, argminFirst, ih, e, h.lt_iff_lt]

theorem mapM_length' {α β : Type} {f : α → Py β} {l : List α} {r : List β} (e : l.mapM f = .ok r) : r.length = l.length := by
  induction l generalizing r with
  | nil => rw [List.mapM_nil] at e; cases e; rfl
  | cons a l ih =>
    rw [List.mapM_cons] at e
    cases h1 : f a with
    | error x => rw [h1] at e; cases e
    | ok b =>
      rw [h1] at e
      simp only [bind, Except.bind] at e
      cases h2 : l.mapM f with
      | error x => rw [h2] at e; cases e
      | ok bs => rw [h2] at e; cases e; simp [ih h2]

theorem pyGet_map {α β : Type} (f : α → β) (l : List α) (i : Int) : pyGet (l.map f) i = (pyGet l i).map f := by
  unfold pyGet
  rw [List.length_map]
  cases e : pyIdx l.length i with
  | none => rfl
  | some j =>
    simp only [Option.bind_some, List.getElem?_map]
    cases l[j]? <;> rfl

section

variable {t : Trellis} (h : t.Balanced) {bm : List Nat → List Nat → Py Nat} {bm' : List ℝ → List Nat → Py ℝ} {ψ : ℝ → Nat} {D : List ℝ → ℝ}
  (hbm : ∀ r c, c.length = t.n → (∀ b ∈ c, b < 2) → bm' r c = (bm (r.map ψ) c).map (fun (d : Nat) => (d : ℝ) + D r))

include h hbm in
/-- The candidates of a state. -/
theorem vals_shift {r : List ℝ} {c : ℝ} {pm : List (WithTop Nat)} {es : List (Nat × Nat)} (he : ∀ e ∈ es, e.1 < 2 ^ t.M ∧ e.2 < 2 ^ t.k) :
    (es.mapM fun e => (do
      let o ← tableGet t.outTable e.1 e.2
      let w ← dec2bitarray o t.n
      let b ← bm' r w
      let m ← pyGet (pm.map (shiftM c)) (e.1 : Int)
      pure (m + (b : WithTop ℝ)) : Py (WithTop ℝ))) =
    (es.mapM fun e => (do
      let o ← tableGet t.outTable e.1 e.2
      let w ← dec2bitarray o t.n
      let b ← bm (r.map ψ) w
      let m ← pyGet pm (e.1 : Int)
      pure (m + (b : WithTop Nat)) : Py (WithTop Nat))).map (List.map (shiftM (c + D r))) := by
  induction es with
  | nil => rfl
  | cons e es ih =>
    obtain ⟨hp, hu⟩ := he e (by simp)
    rw [List.mapM_cons, List.mapM_cons, ih (fun e he' => he e (by simp [he']))]
    rw [tableGet_ok h.wf.out_len (fun r hr => (h.wf.out_row r hr).1) hp hu]
    simp only [bind, Except.bind]
    rw [show (t.outTable.getD e.1 []).getD e.2 0 = t.out e.1 e.2 from rfl, dec2bitarray_ok (h.wf.out_lt hp hu)]
    simp only
    rw [hbm r _ (by simp [toBits]) (fun b hb => toBits_lt_two hb), pyGet_map]
    cases bm (r.map ψ) (toBits t.n (t.out e.1 e.2)) with
    | error e => rfl
    | ok b =>
      simp only [Except.map]
      cases pyGet pm (e.1 : Int) with
      | error e => rfl
      | ok m =>
        simp only [pure, Except.pure]
        rw [shiftM_add]
        generalize (es.mapM _ : Py (List (WithTop Nat))) = x
        cases x <;> rfl

/-- Relation between the two runs inside one step. -/
noncomputable def accShift (c : ℝ) (a : WithTop Nat × Nat × Nat) : WithTop ℝ × Nat × Nat := (shiftM c a.1, a.2)

include h hbm in
theorem acsState_shift {r : List ℝ} {c : ℝ} {pm : List (WithTop Nat)} {s : Nat} (hs : s < 2 ^ t.M) {x : List (WithTop Nat)} {y : List (WithTop ℝ)}
    (hx : x.length = 2 ^ t.k) (hy : y.length = 2 ^ t.k) {i j : List (Nat × Nat)} (acc : List (WithTop Nat × Nat × Nat)) :
    (∃ e, acsState t bm (r.map ψ) pm (x, i, acc) s = .error e ∧ acsState t bm' r (pm.map (shiftM c)) (y, j, acc.map (accShift (c + D r))) s = .error e) ∨
    ∃ x' i' y' j' acc', x'.length = 2 ^ t.k ∧ y'.length = 2 ^ t.k ∧ acsState t bm (r.map ψ) pm (x, i, acc) s = .ok (x', i', acc') ∧
      acsState t bm' r (pm.map (shiftM c)) (y, j, acc.map (accShift (c + D r))) s = .ok (y', j', acc'.map (accShift (c + D r))) := by
  have hf := h.fan_in s hs
  have hkM : 2 ^ t.k ≤ 2 ^ t.M := Nat.pow_le_pow_right (by omega) h.k_le
  have hv := vals_shift h hbm (r := r) (c := c) (pm := pm) (es := preds t s) (fun e he => by
    obtain ⟨h1, h2, -⟩ := (mem_preds h.wf).1 he
    exact ⟨h1, h2⟩)
  simp only [acsState, hf]
  rw [if_neg (by omega), if_neg (by omega), if_neg (by omega), if_neg (by omega)]
  rw [hv]
  generalize hq : ((preds t s).mapM fun e => (do
      let o ← tableGet t.outTable e.1 e.2
      let w ← dec2bitarray o t.n
      let b ← bm (r.map ψ) w
      let m ← pyGet pm (e.1 : Int)
      pure (m + (b : WithTop Nat)) : Py (WithTop Nat))) = q
  cases q with
  | error e => exact .inl ⟨e, rfl, rfl⟩
  | ok vals =>
    have hvl : vals.length = 2 ^ t.k := by
      rw [← hf]
      exact mapM_length' hq
    simp only [Except.map, bind, Except.bind]
    have o1 : overwrite vals x = vals := by unfold overwrite; rw [hvl, ← hx]; simp
    have o2 : overwrite (vals.map (shiftM (c + D r))) y = vals.map (shiftM (c + D r)) := by unfold overwrite; rw [List.length_map, hvl, ← hy]; simp
    rw [o1, o2, argminFirst_map (shiftM_strictMono _), pyGet_map]
    have hne : vals ≠ [] := by
      intro h0
      rw [h0] at hvl
      have := Nat.pow_pos (n := t.k) (show 0 < 2 by norm_num)
      simp at hvl
      omega
    obtain ⟨hlt, -⟩ := argminFirst_spec vals hne
    rw [pyGet_ok hlt]
    simp only [Except.map]
    have hlt' : argminFirst vals < (preds t s).length := by omega
    rw [pyGet_ok (l := overwrite (preds t s) i) (by unfold overwrite; rw [List.length_append]; omega),
      pyGet_ok (l := overwrite (preds t s) j) (by unfold overwrite; rw [List.length_append]; omega)]
    refine .inr ⟨vals, _, vals.map (shiftM (c + D r)), overwrite (preds t s) j, _, hvl, by simpa using hvl, rfl, ?_⟩
    simp only [pure, Except.pure, List.map_append, List.map_cons, List.map_nil, accShift]
    unfold overwrite
    rw [List.getElem_append_left hlt', List.getElem_append_left hlt']

include h hbm in
theorem acs_shift {r : List ℝ} {c : ℝ} {pm : List (WithTop Nat)} : ∀ (ss : List Nat), (∀ s ∈ ss, s < 2 ^ t.M) →
    ∀ (x : List (WithTop Nat)) (y : List (WithTop ℝ)), x.length = 2 ^ t.k → y.length = 2 ^ t.k →
    ∀ (i j : List (Nat × Nat)) (acc : List (WithTop Nat × Nat × Nat)),
    (∃ e, ss.foldlM (acsState t bm (r.map ψ) pm) (x, i, acc) = .error e ∧
      ss.foldlM (acsState t bm' r (pm.map (shiftM c))) (y, j, acc.map (accShift (c + D r))) = .error e) ∨
    ∃ x' i' y' j' acc', ss.foldlM (acsState t bm (r.map ψ) pm) (x, i, acc) = .ok (x', i', acc') ∧
      ss.foldlM (acsState t bm' r (pm.map (shiftM c))) (y, j, acc.map (accShift (c + D r))) = .ok (y', j', acc'.map (accShift (c + D r))) := by
  intro ss
  induction ss with
  | nil => intro _ x y _ _ i j acc; exact .inr ⟨_, _, _, _, _, rfl, rfl⟩
  | cons s ss ih =>
    intro hss x y hx hy i j acc
    rw [List.foldlM_cons, List.foldlM_cons]
    rcases acsState_shift h hbm (r := r) (c := c) (pm := pm) (hss s (by simp)) hx hy (i := i) (j := j) acc with
      ⟨e, e1, e2⟩ | ⟨x', i', y', j', acc', hx', hy', e1, e2⟩
    · rw [e1, e2]; exact .inl ⟨e, rfl, rfl⟩
    · rw [e1, e2]
      exact ih (fun s hs => hss s (by simp [hs])) x' y' hx' hy' i' j' acc'

/-- Relation between the states of the two runs. -/
structure VitRel (ψ : ℝ → Nat) (st : VitState Nat Nat) (st' : VitState ℝ ℝ) : Prop where
  pm : ∃ c, st'.pm = st.pm.map (shiftM c)
  paths : st'.paths = st.paths
  syms : st'.syms = st.syms
  bits : st'.bits = st.bits
  tbCount : st'.tbCount = st.tbCount
  count : st'.count = st.count
  coded : st.coded = st'.coded.map ψ

theorem vitRx_map {pad : ℝ} {inPlace : Bool} {L step : Nat} {coded : List ℝ} :
    vitRx t (some (ψ pad)) inPlace L (coded.map ψ) step = (vitRx t (some pad) inPlace L coded step).map (fun x => (x.1.map ψ, x.2.map ψ)) := by
  unfold vitRx
  by_cases h1 : step ≤ L / t.k
  · rw [if_pos h1, if_pos h1]; simp [Except.map, List.map_take, List.map_drop]
  · rw [if_neg h1, if_neg h1]
    simp only [Except.map]
    by_cases h2 : inPlace = true ∧ 0 < L / t.k
    · rw [if_pos h2, if_pos h2]; simp [List.map_take, List.map_drop]
    · rw [if_neg h2, if_neg h2]; simp

include h hbm in
theorem vitStep_shift {pad : ℝ} {inPlace : Bool} {jk : VitJunk Nat} {jk' : VitJunk ℝ} {L tb : Nat} {st : VitState Nat Nat} {st' : VitState ℝ ℝ}
    (hr : VitRel ψ st st') (step : Nat) :
    (∃ e, vitStep t bm (some (ψ pad)) inPlace jk L tb st step = .error e ∧ vitStep t bm' (some pad) inPlace jk' L tb st' step = .error e) ∨
    ∃ s s', VitRel ψ s s' ∧ vitStep t bm (some (ψ pad)) inPlace jk L tb st step = .ok s ∧ vitStep t bm' (some pad) inPlace jk' L tb st' step = .ok s' := by
  obtain ⟨⟨c, hpm⟩, hpa, hsy, hbi, htb, hco, hcd⟩ := hr
  simp only [vitStep]
  rw [hcd, vitRx_map]
  cases hrx : vitRx t (some pad) inPlace L st'.coded step with
  | error e => exact .inl ⟨e, rfl, rfl⟩
  | ok rx =>
    simp only [Except.map, bind, Except.bind]
    rw [hpm]
    rcases acs_shift h hbm (r := rx.1) (c := c) (pm := st.pm) (List.range (2 ^ t.M)) (fun s hs => List.mem_range.1 hs)
      ((List.range (2 ^ t.k)).map (jk.pmetrics step)) ((List.range (2 ^ t.k)).map (jk'.pmetrics step)) (by simp) (by simp)
      ((List.range (2 ^ t.M)).map (jk.index step)) ((List.range (2 ^ t.M)).map (jk'.index step)) [] with ⟨e, e1, e2⟩ | ⟨x', i', y', j', acc', e1, e2⟩
    · rw [List.map_nil] at e2
      rw [e1, e2]; exact .inl ⟨e, rfl, rfl⟩
    · rw [List.map_nil] at e2
      rw [e1, e2]
      simp only [List.map_map]
      have a1 : ((fun x : WithTop ℝ × Nat × Nat => x.1) ∘ accShift (c + D rx.1)) = (shiftM (c + D rx.1)) ∘ (fun x : WithTop Nat × Nat × Nat => x.1) := rfl
      have a2 : ((fun x : WithTop ℝ × Nat × Nat => x.2.1) ∘ accShift (c + D rx.1)) = (fun x : WithTop Nat × Nat × Nat => x.2.1) := rfl
      have a3 : ((fun x : WithTop ℝ × Nat × Nat => x.2.2) ∘ accShift (c + D rx.1)) = (fun x : WithTop Nat × Nat × Nat => x.2.2) := rfl
      rw [a1, a2, a3, ← List.map_map (g := shiftM (c + D rx.1)), argminFirst_map (shiftM_strictMono _), hpa, hsy, htb, hbi, hco]
      cases pySet st.paths (st.tbCount : Int) (acc'.map fun x => x.2.1) with
      | error e => exact .inl ⟨e, rfl, rfl⟩
      | ok paths =>
        cases pySet st.syms (st.tbCount : Int) (acc'.map fun x => x.2.2) with
        | error e => exact .inl ⟨e, rfl, rfl⟩
        | ok syms =>
          simp only
          by_cases hd : tb - 1 ≤ step
          · rw [if_pos hd, if_pos hd]
            generalize ((List.range (tb - 1)).reverse.map (· + 1)).foldlM (tbIter t paths syms (step + 1 - tb) st.count)
              (argminFirst (acc'.map fun x => x.1), st.bits) = q
            cases q with
            | error e => exact .inl ⟨e, rfl, rfl⟩
            | ok res => exact .inr ⟨_, _, ⟨⟨_, rfl⟩, rfl, rfl, rfl, rfl, rfl, rfl⟩, rfl, rfl⟩
          · rw [if_neg hd, if_neg hd]
            exact .inr ⟨_, _, ⟨⟨_, rfl⟩, rfl, rfl, rfl, rfl, rfl, rfl⟩, rfl, rfl⟩

include h hbm in
/-- A metric that differs from another one by an amount that depends only on the received block gives the same decisions. -/
theorem viterbi_shift {pad : ℝ} {inPlace : Bool} {jk : VitJunk Nat} {jk' : VitJunk ℝ} (hp : jk'.paths = jk.paths) (hb : jk'.bits = jk.bits) (L tb : Nat)
    (coded : List ℝ) :
    (viterbi t bm (some (ψ pad)) inPlace jk L tb (coded.map ψ)) = (viterbi t bm' (some pad) inPlace jk' L tb coded).map (fun x => (x.1, x.2.map ψ)) := by
  have key : ∀ (steps : List Nat) (st : VitState Nat Nat) (st' : VitState ℝ ℝ), VitRel ψ st st' →
      (∃ e, steps.foldlM (vitStep t bm (some (ψ pad)) inPlace jk L tb) st = .error e ∧
        steps.foldlM (vitStep t bm' (some pad) inPlace jk' L tb) st' = .error e) ∨
      ∃ s s', VitRel ψ s s' ∧ steps.foldlM (vitStep t bm (some (ψ pad)) inPlace jk L tb) st = .ok s ∧
        steps.foldlM (vitStep t bm' (some pad) inPlace jk' L tb) st' = .ok s' := by
    intro steps
    induction steps with
    | nil => intro st st' hr; exact .inr ⟨_, _, hr, rfl, rfl⟩
    | cons a steps ih =>
      intro st st' hr
      rw [List.foldlM_cons, List.foldlM_cons]
      rcases vitStep_shift h hbm (pad := pad) (inPlace := inPlace) (jk := jk) (jk' := jk') (L := L) (tb := tb) hr a with ⟨e, e1, e2⟩ | ⟨s, s', hr', e1, e2⟩
      · rw [e1, e2]; exact .inl ⟨e, rfl, rfl⟩
      · rw [e1, e2]; exact ih s s' hr'
  simp only [viterbi]
  by_cases h1 : t.k = 0
  · rw [if_pos h1, if_pos h1]; rfl
  · rw [if_neg h1, if_neg h1]
    by_cases h2 : tb = 0
    · rw [if_pos h2, if_pos h2]; rfl
    · rw [if_neg h2, if_neg h2]
      have h0 : VitRel ψ (vitInit t jk L tb (coded.map ψ)) (vitInit t jk' L tb coded) := by
        refine ⟨⟨0, ?_⟩, ?_, rfl, ?_, rfl, rfl, rfl⟩
        · simp only [vitInit, List.map_map]
          refine List.map_congr_left fun s _ => ?_
          by_cases hs : s = 0
          · simp only [Function.comp, hs, if_true]
            show ((0 : ℝ) : WithTop ℝ) = (((0 : Nat) : ℝ) + 0 : ℝ)
            norm_num
          · simp only [Function.comp, hs, if_false]; rfl
        · simp only [vitInit, hp]
        · simp only [vitInit, hb]
      rcases key ((List.range ((L + t.M) / t.k - 1)).map (· + 1)) _ _ h0 with ⟨e, e1, e2⟩ | ⟨s, s', hr, e1, e2⟩
      · rw [e1, e2]; rfl
      · rw [e1, e2]
        simp only [bind, Except.bind, pure, Except.pure, Except.map]
        rw [hr.bits, hr.coded]

end

/-- C123: on arbitrary samples, `viterbi_decode(..., 'hard')` decodes the parities of their integer parts. -/
theorem C123_parity {t : Trellis} (h : t.Balanced) {jk : VitJunk Nat} {jk' : VitJunk ℝ} (hp : jk'.paths = jk.paths) (hb : jk'.bits = jk.bits) (L tb : Nat)
    (rx : List ℝ) :
    (viterbiDecode "hard" t jk' L tb rx).map Prod.fst = (viterbiHard t jk L tb (rx.map hardBit)).map Prod.fst := by
  have e := viterbi_shift h (bm := hammingDist) (bm' := branchMetric "hard") (ψ := hardBit) (D := fun r => (blockOff t.n r : ℝ))
    (fun r c hc hcb => hard_metric r hc hcb) (pad := 0) (inPlace := true) hp hb L tb rx
  have e0 : hardBit 0 = 0 := by simp [hardBit]
  rw [e0] at e
  have e1 : padValue "hard" = some 0 := by simp [padValue]
  rw [show viterbiHard t jk L tb (rx.map hardBit) = viterbi t hammingDist (some 0) true jk L tb (rx.map hardBit) from rfl, e]
  simp only [viterbiDecode, e1]
  rw [if_neg (by decide)]
  cases viterbi t (branchMetric "hard") (some 0) true jk' L tb rx <;> rfl

theorem astypeInt_int (z : Int) : astypeInt (z : ℝ) = z := by
  unfold astypeInt
  split <;> simp

theorem hardBit_nat {b : Nat} (hb : b < 2) : hardBit (b : ℝ) = b := by
  have := astypeInt_int (b : Int)
  rw [Int.cast_natCast] at this
  rw [hardBit_eq, this]
  omega

theorem hardBit_neg_one : hardBit (-1) = 1 := by
  have := astypeInt_int (-1)
  rw [Int.cast_neg, Int.cast_one] at this
  rw [hardBit_eq, this]
  rfl

/-- C123, erasures: what comes out of `bec` is decoded as if every erased bit had been received as a 1. -/
theorem C123_bec {t : Trellis} (h : t.Balanced) {jk : VitJunk Nat} {jk' : VitJunk ℝ} (hp : jk'.paths = jk.paths) (hb : jk'.bits = jk.bits) (L tb : Nat)
    {c : List Nat} (hc : ∀ b ∈ c, b < 2) {heap : IntHeap} {a : Nat} (ha : a < heap.length) (hca : heap.getD a [] = c.map fun (b : Nat) => (b : Int)) (p : ℝ) (u : Nat → ℝ) :
    (viterbiDecode "hard" t jk' L tb (((bec heap a p u).1.getD (bec heap a p u).2 []).map fun (z : Int) => (z : ℝ))).map Prod.fst =
      (viterbiHard t jk L tb (open Classical in (List.range c.length).map fun i => if u i ≤ p then 1 else c.getD i 0)).map Prod.fst := by
  obtain ⟨e1, e2, e3, -⟩ := C74_bec heap a ha p u
  rw [C123_parity h hp hb, e1]
  have hlen : (heap.getD a []).length = c.length := by rw [hca, List.length_map]
  congr 2
  refine List.ext_getElem (by rw [List.length_map, List.length_map, e2, hlen, List.length_map, List.length_range]) fun i h1 h2 => ?_
  have hi : i < c.length := by simpa using h2
  have e4 := e3 i (by omega)
  rw [List.getD_eq_getElem _ _ (by omega)] at e4
  simp only [List.getElem_map, List.getElem_range, e4]
  by_cases hu : u i ≤ p
  · rw [if_pos hu, if_pos hu]
    simp only [Int.cast_neg, Int.cast_one]
    exact hardBit_neg_one
  · rw [if_neg hu, if_neg hu, hca, List.getD_eq_getElem _ _ (by simpa using hi), List.getElem_map, List.getD_eq_getElem _ _ hi, Int.cast_natCast]
    exact hardBit_nat (hc _ (List.getElem_mem hi))

open Finset in
/-- C123: of the erased bits exactly those that were sent as 0 count as errors; if there are few of them the message is recovered.  Conditions on the
code and on the lengths as in C110. -/
theorem C123_corrects {M n : Nat} {g : List Nat} {fmt : String} (h : TrellisArgs [M] [g] n none fmt) (hM : 0 < M) (hn : 0 < n)
    {D D' d d' e : Nat} (hD : columnCheck (trellisOf (fun _ _ => 0) [M] [g] n none false fmt) D d = true)
    (hD' : columnCheck (trellisOf (fun _ _ => 0) [M] [g] n none false fmt) D' d' = true) (hDD : D' ≤ D) (he : 2 * e < d) (he' : 2 * e ≤ d')
    (junk : Nat → Nat → Nat) :
    ∃ t, mkTrellis junk [M] [g] n none false fmt = .ok t ∧
      ∀ (outLen : Nat → Nat) (msg : List Nat), (∀ b ∈ msg, b < 2) → outLen (msg.length + M) = (msg.length + M) * n →
        ∃ c, convEncode outLen t msg "term" none = .ok c ∧
          ∀ (heap : IntHeap) (a : Nat) (p : ℝ) (u : Nat → ℝ) (jk : VitJunk ℝ) (tb : Nat), a < heap.length → heap.getD a [] = (c.map fun (b : Nat) => (b : Int)) →
            (open Classical in ((range c.length).filter fun i => u i ≤ p ∧ c.getD i 0 = 0).card ≤ e) → D + 2 ≤ tb → tb ≤ msg.length + 2 * M →
            ∃ dec coded', viterbiDecode "hard" t jk (msg.length + M) tb
                (((bec heap a p u).1.getD (bec heap a p u).2 []).map fun (z : Int) => (z : ℝ)) = .ok (dec, coded') ∧
              ∀ K ≤ msg.length, K + D' + 1 ≤ msg.length + 2 * M → dec.take K = msg.take K := by
  obtain ⟨t, ht, H⟩ := C110_feedforward h hM hn hD hD' hDD he he' junk
  have hteq : t = trellisOf junk [M] [g] n none false fmt := by
    have := mkTrellis_ok (junk := junk) (rsc := false) h
    rw [ht] at this
    exact Except.ok.inj this
  have hk : t.k = 1 := by rw [hteq]; rfl
  have hMt : t.M = M := by rw [hteq]; simp [trellisOf]
  have hnt : t.n = n := by rw [hteq]; rfl
  have hrsc : t.rsc = false := by rw [hteq]; rfl
  have hbal : t.Balanced := by rw [hteq]; exact ff_balanced h (by simpa using hM)
  refine ⟨t, ht, ?_⟩
  intro outLen msg hb ho
  obtain ⟨c, h1, h2, h3, h4⟩ := H outLen msg hb ho
  refine ⟨c, h1, ?_⟩
  intro heap a p u jk tb ha hca hcount htb htb2
  have hN : codedInputLen t msg.length "term" = msg.length + M := by
    simp [codedInputLen, hrsc, hk, hMt, Nat.mod_one]
  have hcb : ∀ b ∈ c, b < 2 := by
    obtain ⟨c', e1, -, e2⟩ := C33_length hbal.wf (by omega) outLen msg hb "term" (by rw [hN, hnt, hk, Nat.div_one]; exact ho)
    rw [h1] at e1
    cases e1
    exact e2
  classical
  obtain ⟨dec, c', h5, h6, h7⟩ := h4 ((List.range c.length).map fun i => if u i ≤ p then 1 else c.getD i 0)
    ⟨jk.paths, jk.bits, fun _ _ => 0, jk.index⟩ tb (by simp) (by
      intro x hx
      rw [List.mem_map] at hx
      obtain ⟨i, hi, rfl⟩ := hx
      split
      · omega
      · rw [List.getD_eq_getElem _ _ (List.mem_range.1 hi)]; exact hcb _ (List.getElem_mem _)) (by
      rw [diffCount_card _ _ (by simp)]
      refine le_trans (card_le_card ?_) hcount
      intro i hi
      rw [mem_filter] at hi ⊢
      obtain ⟨hi1, hi2⟩ := hi
      have hic := mem_range.1 hi1
      rw [List.getD_eq_getElem _ _ (by simpa using hic), List.getElem_map, List.getElem_range] at hi2
      by_cases hu : u i ≤ p
      · rw [if_pos hu] at hi2
        have : c.getD i 0 < 2 := by rw [List.getD_eq_getElem _ _ hic]; exact hcb _ (List.getElem_mem _)
        exact ⟨hi1, hu, by omega⟩
      · rw [if_neg hu] at hi2
        exact absurd rfl hi2) htb htb2
  have e := C123_bec hbal (jk := ⟨jk.paths, jk.bits, fun _ _ => 0, jk.index⟩) (jk' := jk) rfl rfl (msg.length + M) tb hcb ha hca p u
  have e' : (viterbiDecode "hard" t jk (msg.length + M) tb (((bec heap a p u).1.getD (bec heap a p u).2 []).map fun (z : Int) => (z : ℝ))).map Prod.fst = .ok dec := by
    rw [e]
    exact congrArg (Except.map Prod.fst) h5
  generalize viterbiDecode "hard" t jk (msg.length + M) tb (((bec heap a p u).1.getD (bec heap a p u).2 []).map fun (z : Int) => (z : ℝ)) = q at e' ⊢
  cases q with
  | error x => cases e'
  | ok r =>
    obtain ⟨r1, r2⟩ := r
    cases e'
    exact ⟨_, _, rfl, h7⟩

open MeasureTheory ProbabilityTheory Finset in
/-- C123, probability: with independent uniform draws, sent over `bec` with erasure probability `p` and decoded with `viterbi_decode(..., 'hard')`, the first
`K` message bits are not all returned with probability at most `C(L, e+1) p^(e+1)`, `L` being the number of coded bits. -/
theorem C123_probability {M n : Nat} {g : List Nat} {fmt : String} (h : TrellisArgs [M] [g] n none fmt) (hM : 0 < M) (hn : 0 < n)
    {D D' d d' e : Nat} (hD : columnCheck (trellisOf (fun _ _ => 0) [M] [g] n none false fmt) D d = true)
    (hD' : columnCheck (trellisOf (fun _ _ => 0) [M] [g] n none false fmt) D' d' = true) (hDD : D' ≤ D) (he : 2 * e < d) (he' : 2 * e ≤ d')
    (junk : Nat → Nat → Nat) :
    ∃ t, mkTrellis junk [M] [g] n none false fmt = .ok t ∧
      ∀ (outLen : Nat → Nat) (msg : List Nat), (∀ b ∈ msg, b < 2) → outLen (msg.length + M) = (msg.length + M) * n →
        ∃ c, convEncode outLen t msg "term" none = .ok c ∧ c.length = (msg.length + M) * n ∧
          ∀ {Ω : Type*} [MeasurableSpace Ω] {P : Measure Ω} {u : Ω → ℕ → ℝ}, UniformDraws P u → iIndepFun (fun i ω => u ω i) P →
            ∀ (p : ℝ), 0 ≤ p → p ≤ 1 → ∀ (heap : IntHeap) (a : Nat) (jk : VitJunk ℝ) (tb K : Nat), a < heap.length →
              heap.getD a [] = (c.map fun (b : Nat) => (b : Int)) → D + 2 ≤ tb → tb ≤ msg.length + 2 * M → K ≤ msg.length → K + D' + 1 ≤ msg.length + 2 * M →
              P {ω | ¬ ∃ dec coded', viterbiDecode "hard" t jk (msg.length + M) tb
                  (((bec heap a p (u ω)).1.getD (bec heap a p (u ω)).2 []).map fun (z : Int) => (z : ℝ)) = .ok (dec, coded') ∧ dec.take K = msg.take K} ≤
                ENNReal.ofReal ((((msg.length + M) * n).choose (e + 1) : ℝ) * p ^ (e + 1)) := by
  obtain ⟨t, ht, H⟩ := C123_corrects h hM hn hD hD' hDD he he' junk
  obtain ⟨t', ht', H'⟩ := C110_feedforward h hM hn hD hD' hDD he he' junk
  rw [ht] at ht'
  cases ht'
  refine ⟨t, ht, ?_⟩
  intro outLen msg hb ho
  obtain ⟨c, h1, h2⟩ := H outLen msg hb ho
  obtain ⟨c', h1', hlen, -⟩ := H' outLen msg hb ho
  rw [h1] at h1'
  cases h1'
  refine ⟨c, h1, hlen, ?_⟩
  intro Ω _ P u hu hind p h0 hp1 heap a jk tb K ha hca htb htb2 hK hK'
  refine le_trans (measure_mono ?_) (flips_tail hu hind h0 hp1 _ e)
  intro ω hω
  by_contra hcon
  apply hω
  have hle : flips ((msg.length + M) * n) p (u ω) ≤ e := not_lt.1 hcon
  obtain ⟨dec, coded', d1, d2⟩ := h2 heap a p (u ω) jk tb ha hca (by
    refine le_trans (card_le_card ?_) hle
    rw [hlen]
    intro i hi
    rw [mem_filter] at hi ⊢
    exact ⟨hi.1, hi.2.1⟩) htb htb2
  exact ⟨dec, coded', d1, d2 K hK hK'⟩

/-- The hypotheses are met by the (5, 7) code with one or two zeros erased (`e = 2`), any memory contents, and the default depth for messages of at least
5 bits. -/
example (junk : Nat → Nat → Nat) : ∃ t, mkTrellis junk [2] [[5, 7]] 2 none false "MSB" = .ok t ∧
    ∃ c, convEncode (· * 2) t [1, 0, 1, 1, 0] "term" none = .ok c ∧
      ∀ (heap : IntHeap) (a : Nat) (p : ℝ) (u : Nat → ℝ) (jk : VitJunk ℝ), a < heap.length → heap.getD a [] = (c.map fun (b : Nat) => (b : Int)) →
        (open Classical in ((Finset.range c.length).filter fun i => u i ≤ p ∧ c.getD i 0 = 0).card ≤ 2) →
        ∃ dec coded', viterbiDecode "hard" t jk 7 7 (((bec heap a p u).1.getD (bec heap a p u).2 []).map fun (z : Int) => (z : ℝ)) = .ok (dec, coded') ∧
          dec.take 5 = [1, 0, 1, 1, 0] := by
  obtain ⟨t, ht, H⟩ := C123_corrects args57 (by decide) (by decide) (D := 5) (D' := 3) (d := 5) (d' := 4) (e := 2)
    (by decide +kernel) (by decide +kernel) (by decide) (by decide) (by decide) junk
  obtain ⟨c, hc, H2⟩ := H (· * 2) [1, 0, 1, 1, 0] (by decide) rfl
  refine ⟨t, ht, c, hc, fun heap a p u jk ha hca hn => ?_⟩
  obtain ⟨dec, coded', d1, d2⟩ := H2 heap a p u jk 7 ha hca hn (by decide) (by decide)
  exact ⟨dec, coded', d1, d2 5 (by decide) (by decide)⟩

theorem trellis57_balanced : trellis57.Balanced := ⟨trellis57_wf, by decide, by decide⟩

/-- C123 as stated is false: erasures are not neutral.  For the (5, 7) code, six message bits 0 and the erasure of the coded bits 0, 1, 2 and 4, the message
sent is the only one that agrees with the bits received, but the decoder with its default depth (`min(5 * 2, 8)`) returns another one.  (The `np.empty` path
arrays contain zeros here.) -/
theorem C123_erasures_refuted (jk' : VitJunk ℝ) (hp : jk'.paths = fun _ _ => 0) (hb : jk'.bits = fun _ => 0) :
    convEncode (· * 2) trellis57 [0, 0, 0, 0, 0, 0] "term" none = .ok (List.replicate 16 0) ∧
    (∃ coded', viterbiDecode "hard" trellis57 jk' 8 8 [-1, -1, -1, 0, -1, 0, 0, 0, 0, 0, 0, 0, 0, 0, 0, 0] = .ok ([1, 1, 0, 0, 0, 0, 0, 0], coded')) ∧
    ∀ b0 b1 b2 b3 b4 b5 : Fin 2, ∀ c, convEncode (· * 2) trellis57 [b0.val, b1.val, b2.val, b3.val, b4.val, b5.val] "term" none = .ok c → c.getD 3 1 = 0 → c.drop 5 = List.replicate 11 0 →
      [b0.val, b1.val, b2.val, b3.val, b4.val, b5.val] = [0, 0, 0, 0, 0, 0] := by
  refine ⟨by decide +kernel, ?_, ?_⟩
  · have e := C123_parity trellis57_balanced (jk := ⟨fun _ _ => 0, fun _ => 0, fun _ _ => 0, fun _ _ => (0, 0)⟩) (jk' := jk') hp hb 8 8
      [-1, -1, -1, 0, -1, 0, 0, 0, 0, 0, 0, 0, 0, 0, 0, 0]
    have e0 : hardBit 0 = 0 := by simp [hardBit]
    simp only [List.map_cons, List.map_nil, hardBit_neg_one, e0] at e
    have e2 : (viterbiHard trellis57 ⟨fun _ _ => 0, fun _ => 0, fun _ _ => 0, fun _ _ => (0, 0)⟩ 8 8 [1, 1, 1, 0, 1, 0, 0, 0, 0, 0, 0, 0, 0, 0, 0, 0]).map Prod.fst =
      .ok [1, 1, 0, 0, 0, 0, 0, 0] := by decide +kernel
    rw [e2] at e
    generalize viterbiDecode "hard" trellis57 jk' 8 8 _ = q at e ⊢
    cases q with
    | error x => cases e
    | ok r =>
      obtain ⟨r1, r2⟩ := r
      cases e
      exact ⟨_, rfl⟩
  · have key : ∀ b0 b1 b2 b3 b4 b5 : Fin 2, ((convEncode (· * 2) trellis57 [b0.val, b1.val, b2.val, b3.val, b4.val, b5.val] "term" none).map
        fun c => decide (c.getD 3 1 = 0 ∧ c.drop 5 = List.replicate 11 0)) = .ok (decide ([b0.val, b1.val, b2.val, b3.val, b4.val, b5.val] = [0, 0, 0, 0, 0, 0])) := by
      decide +kernel
    intro b0 b1 b2 b3 b4 b5 c hc h1 h2
    have := key b0 b1 b2 b3 b4 b5
    rw [hc] at this
    have h3 := Except.ok.inj this
    exact of_decide_eq_true (h3.symm.trans (decide_eq_true ⟨h1, h2⟩))

/-- C123: BPSK symbols given to the hard decoder: every sample of amplitude ±1 counts as a received 1, so the result does not depend on what was sent. -/
theorem C123_bpsk {t : Trellis} (h : t.Balanced) {jk : VitJunk Nat} {jk' : VitJunk ℝ} (hp : jk'.paths = jk.paths) (hb : jk'.bits = jk.bits) (L tb : Nat)
    (bits : List Nat) (hbits : ∀ b ∈ bits, b < 2) :
    (viterbiDecode "hard" t jk' L tb (bits.map fun (b : Nat) => 2 * (b : ℝ) - 1)).map Prod.fst =
      (viterbiHard t jk L tb (List.replicate bits.length 1)).map Prod.fst := by
  rw [C123_parity h hp hb]
  congr 2
  rw [List.map_map, List.eq_replicate_iff]
  refine ⟨by simp, fun x hx => ?_⟩
  rw [List.mem_map] at hx
  obtain ⟨b, hbm, rfl⟩ := hx
  have := hbits b hbm
  have h01 : b = 0 ∨ b = 1 := by omega
  rcases h01 with rfl | rfl
  · simp only [Function.comp]
    norm_num
    exact hardBit_neg_one
  · simp only [Function.comp]
    have := hardBit_nat (b := 1) (by omega)
    norm_num at this ⊢
    exact this

end Verif
