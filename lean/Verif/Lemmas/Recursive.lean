import Verif.Spec.Recursive
import Verif.Lemmas.TrellisLinear
import Verif.Lemmas.TrellisRsc
import Mathlib.RingTheory.PowerSeries.Basic
import Mathlib.Data.ZMod.Basic
/-
Runs of trellises with feedback, and difference equations over GF(2).
-/
namespace Verif

theorem past_zero (x : Nat → Nat) (t : Nat) : past x t 0 = x t := by simp [past]

theorem past_succ (x : Nat → Nat) (t d : Nat) : past x (t + 1) (d + 1) = past x t d := by
  unfold past
  by_cases h : d ≤ t
  · rw [if_pos h, if_pos (by omega), show t + 1 - (d + 1) = t - d by omega]
  · rw [if_neg h, if_neg (by omega)]

theorem past_at_zero (x : Nat → Nat) (d : Nat) : past x 0 (d + 1) = 0 := by simp [past]

theorem past_lt_two {x : Nat → Nat} (h : ∀ t, x t < 2) (t d : Nat) : past x t d < 2 := by
  unfold past
  split
  · exact h _
  · omega

/-! ### The register sequences exist -/

/-- Values that entered the registers, most recent first. -/
def regHist (fmt : String) (memory : List Nat) (F : List (List Nat)) (u : Nat → Nat → Nat) : Nat → List (Nat → Nat)
  | 0 => []
  | t + 1 => (fun l => (∑ c ∈ Finset.range memory.length, (polyCoef fmt (memMax memory + 1) (matAt F l c) 0 * u c t +
      ∑ d ∈ Finset.range (memory.getD c 0),
        polyCoef fmt (memMax memory + 1) (matAt F l c) (d + 1) * (regHist fmt memory F u t).getD d (fun _ => 0) c)) % 2) ::
      regHist fmt memory F u t

/-- The register sequences. -/
def regSeq (fmt : String) (memory : List Nat) (F : List (List Nat)) (u : Nat → Nat → Nat) (c t : Nat) : Nat :=
  (regHist fmt memory F u (t + 1)).getD 0 (fun _ => 0) c

theorem regHist_past (fmt : String) (memory : List Nat) (F : List (List Nat)) (u : Nat → Nat → Nat) (c : Nat) :
    ∀ t d, (regHist fmt memory F u t).getD d (fun _ => 0) c = past (regSeq fmt memory F u c) t (d + 1) := by
  intro t
  induction t with
  | zero => intro d; simp [regHist, past]
  | succ t ih =>
    intro d
    cases d with
    | zero => rw [past_succ, past_zero]; rfl
    | succ d =>
      rw [past_succ, ← ih d]
      rfl

theorem regSeq_eq (fmt : String) (memory : List Nat) (F : List (List Nat)) (u : Nat → Nat → Nat) :
    RegisterEq fmt memory F u (regSeq fmt memory F u) := by
  intro l _ t
  unfold tapParity
  rw [regSeq, regHist, List.getD_cons_zero]
  congr 1
  apply Finset.sum_congr rfl
  intro c _
  congr 1
  apply Finset.sum_congr rfl
  intro d _
  rw [regHist_past]

theorem regSeq_unique {fmt : String} {memory : List Nat} {F : List (List Nat)} {u x y : Nat → Nat → Nat}
    (hx : RegisterEq fmt memory F u x) (hy : RegisterEq fmt memory F u y) :
    ∀ t, ∀ l < memory.length, x l t = y l t := by
  intro t
  induction t using Nat.strong_induction_on with
  | _ t ih =>
    intro l hl
    rw [hx l hl t, hy l hl t]
    unfold tapParity
    congr 1
    apply Finset.sum_congr rfl
    intro c hc
    rw [Finset.mem_range] at hc
    congr 1
    apply Finset.sum_congr rfl
    intro d _
    congr 1
    unfold past
    by_cases h : d + 1 ≤ t
    · rw [if_pos h, if_pos h, ih (t - (d + 1)) (by omega) c hc]
    · rw [if_neg h, if_neg h]

theorem RegisterEq.lt_two {fmt : String} {memory : List Nat} {F : List (List Nat)} {u x : Nat → Nat → Nat}
    (hx : RegisterEq fmt memory F u x) {l : Nat} (hl : l < memory.length) (t : Nat) : x l t < 2 := by
  rw [hx l hl t]
  unfold tapParity
  omega

/-! ### Runs -/

section
variable {junk : Nat → Nat → Nat} {memory : List Nat} {G : List (List Nat)} {n : Nat}
  {feedback : Option (List (List Nat))} {rsc : Bool} {fmt : String}

/-- Bits of the registers before step `t`. -/
def recState (memory : List Nat) (x : Nat → Nat → Nat) (t : Nat) : List Nat :=
  (List.range memory.length).flatMap fun c => (List.range (memory.getD c 0)).map fun r => past (x c) t (r + 1)

theorem recState_lt_two {x : Nat → Nat → Nat} (hx : ∀ c < memory.length, ∀ t, x c t < 2) (t : Nat) :
    ∀ b ∈ recState memory x t, b < 2 :=
  regs_lt_two (g := fun c r => past (x c) t (r + 1)) (fun c hc r _ => past_lt_two (hx c hc) t (r + 1))

theorem recState_length {x : Nat → Nat → Nat} (t : Nat) : (recState memory x t).length = memory.sum := by
  rw [recState, regs_length memory (fun c r => past (x c) t (r + 1)) _ (le_refl _), memOffset_length]

theorem srOf_rec_zero {bits : List Nat} (hb : ∀ b ∈ bits, b < 2) {t c s : Nat}
    (ht : (t + 1) * G.length ≤ bits.length) (hc : c < G.length) :
    srOf junk memory G s (symAt G.length bits t) 0 c = inputAt G.length bits c t := by
  unfold srOf shiftReg
  rw [if_pos rfl, symAt_getD hb ht hc]

theorem srOf_rec_succ {x : Nat → Nat → Nat} (hx : ∀ c < memory.length, ∀ t, x c t < 2) {t c r u : Nat}
    (hc : c < memory.length) (hr : r < memory.getD c 0) :
    srOf junk memory G (bitarray2dec (recState memory x t)) u (r + 1) c = past (x c) t (r + 1) := by
  unfold srOf shiftReg
  rw [if_neg (by omega), if_pos (by omega)]
  have e := toBits_bitarray2dec (recState_lt_two hx t)
  rw [recState_length] at e
  rw [e, recState]
  rw [regs_getD memory (fun c r => past (x c) t (r + 1)) _ (le_refl _) c hc (r + 1 - 1) (by omega)]
  rfl

/-- The parity sums of the tables are the parities of the specification. -/
theorem rec_sum (hml : memory.length = G.length) {bits : List Nat} (hb : ∀ b ∈ bits, b < 2) {x : Nat → Nat → Nat}
    (hx : ∀ c < memory.length, ∀ t, x c t < 2) {t : Nat} (ht : (t + 1) * G.length ≤ bits.length) {P : Nat → Nat}
    (hP : ∀ c < memory.length, ∀ d, memory.getD c 0 < d → d ≤ memMax memory →
      polyCoef fmt (memMax memory + 1) (P c) d = 0) :
    (∑ r ∈ Finset.range (memMax memory + 1), ∑ c ∈ Finset.range G.length,
      srOf junk memory G (bitarray2dec (recState memory x t)) (symAt G.length bits t) r c *
        polyCoef fmt (memMax memory + 1) (P c) r) % 2 = tapParity fmt memory P (inputAt G.length bits) x t := by
  unfold tapParity
  rw [Finset.sum_comm, hml]
  congr 1
  apply Finset.sum_congr rfl
  intro c hc
  rw [Finset.mem_range] at hc
  have hsub : Finset.range (memory.getD c 0) ⊆ Finset.range (memMax memory) := by
    intro y hy
    rw [Finset.mem_range] at hy ⊢
    have := le_memMax (memory := memory) c
    omega
  rw [Finset.sum_range_succ', add_comm, srOf_rec_zero hb ht hc, Nat.mul_comm]
  congr 1
  rw [← Finset.sum_subset hsub]
  · apply Finset.sum_congr rfl
    intro d hd
    rw [Finset.mem_range] at hd
    rw [srOf_rec_succ hx (by omega) hd, Nat.mul_comm]
  · intro d hd hd'
    rw [Finset.mem_range] at hd hd'
    rw [hP c (by omega) (d + 1) (by omega) (by omega)]; simp

theorem rec_next (h : TrellisArgs memory G n feedback fmt) (hf : FitsMemoryFb fmt memory (effFeedback fmt memory G feedback))
    {bits : List Nat} (hb : ∀ b ∈ bits, b < 2) {x : Nat → Nat → Nat}
    (hx : RegisterEq fmt memory (effFeedback fmt memory G feedback) (inputAt G.length bits) x) {t : Nat}
    (ht : (t + 1) * G.length ≤ bits.length) :
    nextBitsOf junk memory G feedback fmt (bitarray2dec (recState memory x t)) (symAt G.length bits t) =
      recState memory x (t + 1) := by
  have hlt : ∀ c < memory.length, ∀ t, x c t < 2 := fun c hc t => hx.lt_two hc t
  have hsr := fun (c r : Nat) (hc : c < memory.length) (hr : r < memory.getD c 0) =>
    srOf_rec_succ (junk := junk) (memory := memory) (G := G) hlt (t := t) (c := c) (r := r)
      (u := symAt G.length bits t) hc hr
  have hsum := fun (l : Nat) (hl : l < memory.length) => rec_sum (junk := junk) (fmt := fmt) h.mem_len hb hlt ht
    (P := fun c => matAt (effFeedback fmt memory G feedback) l c) (fun c hc d h1 h2 => hf l hl c hc d h1 h2)
  generalize recState memory x t = S at hsr hsum
  have e0 : recState memory x (t + 1) = (List.range G.length).flatMap fun c =>
      (List.range (memory.getD c 0)).map fun r => past (x c) (t + 1) (r + 1) := by rw [recState, h.mem_len]
  rw [e0]
  unfold nextBitsOf nextBits
  apply List.flatMap_congr
  intro c hc
  rw [List.mem_range] at hc
  have hc' := hc
  rw [← h.mem_len] at hc
  apply List.map_congr_left
  intro r hr
  rw [List.mem_range] at hr
  by_cases h0 : r = 0
  · subst h0
    rw [if_pos rfl, past_succ, past_zero, fbBit_sum hc', hx c hc t, ← hsum c hc]
  · obtain ⟨r, rfl⟩ : ∃ r', r = r' + 1 := ⟨r - 1, by omega⟩
    rw [if_neg h0, hsr c r hc (by omega), past_succ, Nat.mod_eq_of_lt (past_lt_two (hlt c hc) _ _)]

theorem rec_out (h : TrellisArgs memory G n feedback fmt) (hg : FitsMemory fmt memory n G) {bits : List Nat}
    (hb : ∀ b ∈ bits, b < 2) {x : Nat → Nat → Nat} (hx : ∀ c < memory.length, ∀ t, x c t < 2) {t : Nat}
    (ht : (t + 1) * G.length ≤ bits.length) :
    outBitsOf junk memory G n fmt (bitarray2dec (recState memory x t)) (symAt G.length bits t) =
      (List.range n).map fun j => tapParity fmt memory (fun c => matAt G c j) (inputAt G.length bits) x t := by
  unfold outBitsOf
  apply List.map_congr_left
  intro j hj
  rw [List.mem_range] at hj
  rw [outBit_sum hj, rec_sum (fmt := fmt) h.mem_len hb hx ht (P := fun c => matAt G c j)
    (fun c hc d h1 h2 => hg c hc j hj d h1 h2)]

theorem rec_zero (x : Nat → Nat → Nat) : bitarray2dec (recState memory x 0) = 0 := by
  have : ∀ b ∈ recState memory x 0, b = 0 := by
    intro b hb
    simp only [recState, List.mem_flatMap, List.mem_map] at hb
    obtain ⟨c, _, r, _, rfl⟩ := hb
    exact past_at_zero _ _
  generalize recState memory x 0 = l at this
  induction l with
  | nil => rfl
  | cons b l ih =>
    rw [bitarray2dec_cons, ih (fun y hy => this y (by simp [hy])), this b (by simp)]
    simp

theorem rec_state_lt {x : Nat → Nat → Nat} (hx : ∀ c < memory.length, ∀ t, x c t < 2) (t : Nat) :
    bitarray2dec (recState memory x t) < 2 ^ memory.sum := by
  have := bitarray2dec_lt (recState_lt_two hx t)
  rwa [recState_length] at this

theorem rec_run (h : TrellisArgs memory G n feedback fmt) (hf : FitsMemoryFb fmt memory (effFeedback fmt memory G feedback))
    {bits : List Nat} (hb : ∀ b ∈ bits, b < 2) {x : Nat → Nat → Nat}
    (hx : RegisterEq fmt memory (effFeedback fmt memory G feedback) (inputAt G.length bits) x) :
    ∀ T ≤ bits.length / G.length,
    (trellisOf junk memory G n feedback rsc fmt).runState 0 ((List.range T).map (symAt G.length bits)) =
      bitarray2dec (recState memory x T) := by
  have hlt : ∀ c < memory.length, ∀ t, x c t < 2 := fun c hc t => hx.lt_two hc t
  intro T
  induction T with
  | zero => intro _; rw [List.range_zero, List.map_nil, Trellis.runState_nil, rec_zero]
  | succ T ih =>
    intro hT
    rw [List.range_succ, List.map_append, Trellis.runState_append, ih (by omega)]
    simp only [List.map_cons, List.map_nil, Trellis.runState, List.foldl_cons, List.foldl_nil]
    have ht : (T + 1) * G.length ≤ bits.length :=
      le_trans (Nat.mul_le_mul_right _ hT) (Nat.div_mul_le_self _ _)
    rw [trellisOf_next (u := symAt G.length bits T) (rec_state_lt hlt T) (bitarray2dec_group_lt hb _ _), rec_next h hf hb hx ht]

theorem rec_runOut (h : TrellisArgs memory G n feedback fmt) (hg : FitsMemory fmt memory n G)
    (hf : FitsMemoryFb fmt memory (effFeedback fmt memory G feedback)) {bits : List Nat} (hb : ∀ b ∈ bits, b < 2)
    {x : Nat → Nat → Nat} (hx : RegisterEq fmt memory (effFeedback fmt memory G feedback) (inputAt G.length bits) x) :
    ∀ T ≤ bits.length / G.length,
    (trellisOf junk memory G n feedback rsc fmt).runOut 0 ((List.range T).map (symAt G.length bits)) =
      (List.range T).flatMap fun t => (List.range n).map fun j =>
        tapParity fmt memory (fun c => matAt G c j) (inputAt G.length bits) x t := by
  have hlt : ∀ c < memory.length, ∀ t, x c t < 2 := fun c hc t => hx.lt_two hc t
  intro T
  induction T with
  | zero => intro _; simp [Trellis.runOut]
  | succ T ih =>
    intro hT
    rw [List.range_succ, List.map_append, Trellis.runOut_append, ih (by omega), List.flatMap_append]
    rw [rec_run h hf hb hx T (by omega)]
    have ht : (T + 1) * G.length ≤ bits.length :=
      le_trans (Nat.mul_le_mul_right _ hT) (Nat.div_mul_le_self _ _)
    congr 1
    simp only [List.map_cons, List.map_nil, Trellis.runOut, List.append_nil, List.flatMap_cons, List.flatMap_nil]
    rw [trellisOf_out (u := symAt G.length bits T) (rec_state_lt hlt T) (bitarray2dec_group_lt hb _ _), rec_out h hg hb hlt ht]
    have e := toBits_bitarray2dec (b := (List.range n).map fun j =>
        tapParity fmt memory (fun c => matAt G c j) (inputAt G.length bits) x T) (by
          intro b hb
          simp only [List.mem_map] at hb
          obtain ⟨j, _, rfl⟩ := hb
          unfold tapParity
          omega)
    rw [List.length_map, List.length_range] at e
    exact e
end

/-! ### Difference equations as power series -/

open PowerSeries

/-- A sequence as a power series over GF(2). -/
noncomputable def toPS (x : Nat → Nat) : (ZMod 2)⟦X⟧ := PowerSeries.mk fun t => (x t : ZMod 2)

theorem cast_past_sum {p y : Nat → Nat} {M : Nat} (hp : ∀ d, M < d → p d = 0) (t : Nat) :
    ((∑ d ∈ Finset.range (M + 1), p d * past y t d : Nat) : ZMod 2) = coeff t (toPS p * toPS y) := by
  rw [coeff_mul, Finset.Nat.sum_antidiagonal_eq_sum_range_succ (fun i j => coeff i (toPS p) * coeff j (toPS y)), Nat.cast_sum]
  have e : ∀ K, M ≤ K → t ≤ K → (∑ d ∈ Finset.range (M + 1), ((p d * past y t d : Nat) : ZMod 2)) =
      ∑ d ∈ Finset.range (t + 1), coeff d (toPS p) * coeff (t - d) (toPS y) := by
    intro K hM ht
    have a : Finset.range (M + 1) ⊆ Finset.range (K + 1) := by
      intro z hz; rw [Finset.mem_range] at *; omega
    have b : Finset.range (t + 1) ⊆ Finset.range (K + 1) := by
      intro z hz; rw [Finset.mem_range] at *; omega
    have h1 := Finset.sum_subset (f := fun d => ((p d * past y t d : Nat) : ZMod 2)) a (by
      intro d _ hd
      rw [Finset.mem_range] at hd
      rw [hp d (by omega)]; simp)
    have h2 := Finset.sum_subset (f := fun d => ((p d * past y t d : Nat) : ZMod 2)) b (by
      intro d _ hd
      rw [Finset.mem_range] at hd
      rw [past, if_neg (by omega)]; simp)
    rw [h1, ← h2]
    apply Finset.sum_congr rfl
    intro d hd
    rw [Finset.mem_range] at hd
    rw [past, if_pos (by omega)]
    simp [toPS]
  exact e (max M t) (le_max_left _ _) (le_max_right _ _)

theorem polyTimes_eq_iff {p q y z : Nat → Nat} {M N : Nat} (hp : ∀ d, M < d → p d = 0) (hq : ∀ d, N < d → q d = 0) (t : Nat) :
    polyTimes p M y t = polyTimes q N z t ↔ coeff t (toPS p * toPS y) = coeff t (toPS q * toPS z) := by
  unfold polyTimes
  rw [← cast_past_sum hp, ← cast_past_sum hq, ZMod.natCast_eq_natCast_iff']

theorem add_self_two (a : (ZMod 2)⟦X⟧) : a + a = 0 := by
  ext t
  rw [map_add, map_zero]
  exact CharTwo.add_self_eq_zero _

end Verif
