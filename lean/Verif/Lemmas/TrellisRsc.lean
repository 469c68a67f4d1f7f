import Verif.Lemmas.TrellisLinear
/-
Linear encoders, one-input recursive encoders, and the backwards compatible construction.
-/
namespace Verif

/-! ### Linear tables give linear encoders -/

theorem xor_eq_add_mod {x y : Nat} (hx : x < 2) (hy : y < 2) : x ^^^ y = (x + y) % 2 := by
  have : x = 0 ∨ x = 1 := by omega
  have : y = 0 ∨ y = 1 := by omega
  rcases ‹x = 0 ∨ x = 1› with rfl | rfl <;> rcases ‹y = 0 ∨ y = 1› with rfl | rfl <;> rfl

theorem zipWith_xor_eq {a b : List Nat} (ha : ∀ x ∈ a, x < 2) (hb : ∀ x ∈ b, x < 2) :
    List.zipWith (· ^^^ ·) a b = List.zipWith (fun x y => (x + y) % 2) a b := by
  apply List.ext_getElem (by simp)
  intro i h1 h2
  simp only [List.getElem_zipWith]
  simp only [List.length_zipWith] at h1
  exact xor_eq_add_mod (ha _ (List.getElem_mem _)) (hb _ (List.getElem_mem _))

theorem Trellis.Linear.run {t : Trellis} (hw : t.WF) (hl : t.Linear) : ∀ (us vs : List Nat) (s s' : Nat),
    us.length = vs.length → s < 2 ^ t.M → s' < 2 ^ t.M → (∀ u ∈ us, u < 2 ^ t.k) → (∀ u ∈ vs, u < 2 ^ t.k) →
    t.runState (s ^^^ s') (List.zipWith (· ^^^ ·) us vs) = t.runState s us ^^^ t.runState s' vs ∧
    t.runOut (s ^^^ s') (List.zipWith (· ^^^ ·) us vs) =
      List.zipWith (fun x y => (x + y) % 2) (t.runOut s us) (t.runOut s' vs) := by
  intro us
  induction us with
  | nil =>
    intro vs s s' hlen _ _ _ _
    have : vs = [] := List.length_eq_zero_iff.1 hlen.symm
    subst this
    simp [Trellis.runState, Trellis.runOut]
  | cons u us ih =>
    intro vs s s' hlen hs hs' hu hv
    rcases vs with _ | ⟨v, vs⟩
    · simp at hlen
    have hu0 := hu u (by simp)
    have hv0 := hv v (by simp)
    have hlen' : us.length = vs.length := by simpa using hlen
    have := ih vs (t.next s u) (t.next s' v) hlen' (hw.next_lt hs hu0) (hw.next_lt hs' hv0)
      (fun x hx => hu x (by simp [hx])) (fun x hx => hv x (by simp [hx]))
    simp only [List.zipWith_cons_cons, Trellis.runState_cons, Trellis.runOut]
    rw [hl.next s hs s' hs' u hu0 v hv0, hl.out s hs s' hs' u hu0 v hv0]
    refine ⟨this.1, ?_⟩
    rw [this.2, toBits_xor, List.zipWith_append (by simp)]

theorem inSyms_xor {k : Nat} {a b : List Nat} (ha : ∀ x ∈ a, x < 2) (hb : ∀ x ∈ b, x < 2) (hl : a.length = b.length) :
    inSyms k (List.zipWith (· ^^^ ·) a b) = List.zipWith (· ^^^ ·) (inSyms k a) (inSyms k b) := by
  apply List.ext_getElem (by simp [hl])
  intro i h1 h2
  simp only [inSyms, List.getElem_map, List.getElem_range, List.getElem_zipWith]
  rw [List.drop_zipWith, List.take_zipWith, zipWith_xor_eq, bitarray2dec_xor]
  all_goals first
    | (intro x hx; exact ha x (List.mem_of_mem_drop (List.mem_of_mem_take hx)))
    | (intro x hx; exact hb x (List.mem_of_mem_drop (List.mem_of_mem_take hx)))
    | simp [hl]

/-! ### One-input recursive encoders, on bit lists -/

/-- Parity of the delayed feedback taps on the register `b` (`c d` = coefficient of `D^d`). -/
def fbParity (c : Nat → Nat) (b : List Nat) : Nat :=
  (∑ d ∈ Finset.range b.length, c (d + 1) * b.getD d 0) % 2

/-- Register after feeding `u`. -/
def regStep (c : Nat → Nat) (b : List Nat) (u : Nat) : List Nat := ((u + fbParity c b) % 2) :: b.take (b.length - 1)

theorem regStep_length {c : Nat → Nat} {b : List Nat} (u : Nat) (hb : b ≠ []) : (regStep c b u).length = b.length := by
  have := List.length_pos_of_ne_nil hb
  simp [regStep]; omega

theorem regStep_lt_two {c : Nat → Nat} {b : List Nat} (u : Nat) (hb : ∀ x ∈ b, x < 2) : ∀ x ∈ regStep c b u, x < 2 := by
  intro x hx
  rcases List.mem_cons.1 hx with rfl | hx
  · exact Nat.mod_lt _ (by omega)
  · exact hb x (List.mem_of_mem_take hx)

theorem regRun_shape (c : Nat → Nat) : ∀ (us b : List Nat), us.length ≤ b.length →
    ∃ p, p.length = us.length ∧ us.foldl (regStep c) b = p ++ b.take (b.length - us.length) := by
  intro us
  induction us with
  | nil => intro b _; exact ⟨[], rfl, by simp⟩
  | cons u us ih =>
    intro b hle
    simp only [List.length_cons] at hle
    have hb : b ≠ [] := by rintro rfl; simp at hle
    obtain ⟨p, hp, e⟩ := ih (regStep c b u) (by rw [regStep_length u hb]; omega)
    refine ⟨p ++ [(u + fbParity c b) % 2], by simp [hp], ?_⟩
    rw [List.foldl_cons, e, regStep_length u hb]
    simp only [regStep, List.length_cons, List.append_assoc, List.singleton_append]
    congr 1
    obtain ⟨q, hq⟩ : ∃ q, b.length - us.length = q + 1 := ⟨b.length - us.length - 1, by omega⟩
    rw [hq, List.take_succ_cons, List.take_take]
    congr 2
    omega

/-- Feeding suitable inputs brings the register to any desired contents. -/
theorem reg_reach (c : Nat → Nat) : ∀ (bs b : List Nat), (∀ x ∈ bs, x < 2) → bs.length ≤ b.length →
    ∃ us : List Nat, (∀ u ∈ us, u < 2) ∧ us.length = bs.length ∧
      us.foldl (regStep c) b = bs.reverse ++ b.take (b.length - bs.length) := by
  intro bs
  induction bs with
  | nil => intro b _ _; exact ⟨[], by simp, rfl, by simp⟩
  | cons x bs ih =>
    intro b hlt hle
    simp only [List.length_cons] at hle
    have hb : b ≠ [] := by rintro rfl; simp at hle
    have hx : x < 2 := hlt x (by simp)
    obtain ⟨us, hu, hl, e⟩ := ih (regStep c b ((x + fbParity c b) % 2)) (fun y hy => hlt y (by simp [hy]))
      (by rw [regStep_length _ hb]; omega)
    refine ⟨((x + fbParity c b) % 2) :: us, ?_, by simp [hl], ?_⟩
    · intro u huu
      rcases List.mem_cons.1 huu with rfl | huu
      · exact Nat.mod_lt _ (by omega)
      · exact hu u huu
    · rw [List.foldl_cons, e, regStep_length _ hb]
      have hxe : ((x + fbParity c b) % 2 + fbParity c b) % 2 = x := by omega
      simp only [regStep, hxe, List.length_cons, List.reverse_cons, List.append_assoc, List.singleton_append]
      congr 1
      obtain ⟨q, hq⟩ : ∃ q, b.length - bs.length = q + 1 := ⟨b.length - bs.length - 1, by omega⟩
      rw [hq, List.take_succ_cons, List.take_take]
      congr 2
      omega

/-- The inputs used by `conv_encode` to terminate a one-input recursive code from register `b`. -/
def tailInputs (b : List Nat) : List Nat := (List.range b.length).map fun i => b.reverse.getD i 0

theorem tailInputs_eq (b : List Nat) : tailInputs b = b.reverse := by
  unfold tailInputs
  apply List.ext_getElem (by simp)
  intro i h1 h2
  simp only [List.getElem_map, List.getElem_range]
  exact List.getD_eq_getElem _ _ h2

theorem tail_ok_aux (c : Nat → Nat) (hc : ∀ b : List Nat, ∀ x, (∀ y ∈ b, y < 2) → x < 2 → fbParity c (b ++ [x]) = x) :
    ∀ (b : List Nat) (i : Nat), (∀ y ∈ b, y < 2) →
    b.reverse.foldl (regStep c) (List.replicate i 0 ++ b) = List.replicate (i + b.length) 0 := by
  intro b
  induction b using List.reverseRecOn with
  | nil => intro i _; simp
  | append_singleton b x ih =>
    intro i hb
    have hx : x < 2 := hb x (by simp)
    have hb' : ∀ y ∈ b, y < 2 := fun y hy => hb y (by simp [hy])
    rw [List.reverse_append, List.reverse_singleton, List.singleton_append, List.foldl_cons]
    have e : regStep c (List.replicate i 0 ++ (b ++ [x])) x = List.replicate (i + 1) 0 ++ b := by
      unfold regStep
      rw [← List.append_assoc, hc _ _ (by
        intro y hy
        rw [List.mem_append] at hy
        rcases hy with hy | hy
        · have := List.eq_of_mem_replicate hy; omega
        · exact hb' y hy) hx]
      rw [show (x + x) % 2 = 0 by omega]
      rw [List.take_append_of_le_length (by simp), List.take_of_length_le (by simp), List.replicate_succ]
      rfl
    rw [e, ih (i + 1) hb']
    simp only [List.length_append, List.length_cons, List.length_nil]
    congr 1; omega

/-- The taps of `1 + D^M`. -/
theorem fbParity_last {c : Nat → Nat} {M : Nat} (h1 : ∀ d, 0 < d → d < M → c d = 0) (hM : c M = 1) (b : List Nat) (x : Nat)
    (hl : b.length + 1 = M) (hx : x < 2) : fbParity c (b ++ [x]) = x := by
  unfold fbParity
  rw [List.length_append, List.length_cons, List.length_nil, Finset.sum_range_succ, Finset.sum_eq_zero]
  · rw [show b.length + 0 + 1 = M by omega, hM, List.getD_append_right _ _ _ _ (le_refl _)]
    simp; omega
  · intro d hd
    rw [Finset.mem_range] at hd
    rw [h1 (d + 1) (by omega) (by omega), Nat.zero_mul]

theorem tail_ok {c : Nat → Nat} {b : List Nat} (h1 : ∀ d, 0 < d → d < b.length → c d = 0) (hM : c b.length = 1)
    (hb : ∀ y ∈ b, y < 2) : b.reverse.foldl (regStep c) b = List.replicate b.length 0 := by
  have key : ∀ (b' : List Nat) (i : Nat), i + b'.length = b.length → (∀ y ∈ b', y < 2) →
      b'.reverse.foldl (regStep c) (List.replicate i 0 ++ b') = List.replicate b.length 0 := by
    intro b'
    induction b' using List.reverseRecOn with
    | nil => intro i hi _; simp at hi ⊢; exact hi
    | append_singleton b' x ih =>
      intro i hi hb'
      have hx : x < 2 := hb' x (by simp)
      rw [List.reverse_append, List.reverse_singleton, List.singleton_append, List.foldl_cons]
      have e : regStep c (List.replicate i 0 ++ (b' ++ [x])) x = List.replicate (i + 1) 0 ++ b' := by
        unfold regStep
        rw [← List.append_assoc, fbParity_last h1 hM _ _ (by simp at hi ⊢; omega) hx]
        rw [show (x + x) % 2 = 0 by omega]
        rw [List.take_append_of_le_length (by simp), List.take_of_length_le (by simp), List.replicate_succ]
        rfl
      rw [e]
      exact ih (i + 1) (by simp at hi ⊢; omega) (fun y hy => hb' y (by simp [hy]))
  have := key b 0 (by simp) hb
  simpa using this

/-- Conversely, if the tail empties the register from `b`, the feedback parity of `b` is its oldest bit. -/
theorem tail_necessary {c : Nat → Nat} {b : List Nat} {x : Nat} (hx : x < 2)
    (h : (b ++ [x]).reverse.foldl (regStep c) (b ++ [x]) = List.replicate (b.length + 1) 0) :
    fbParity c (b ++ [x]) = x := by
  rw [List.reverse_append, List.reverse_singleton, List.singleton_append, List.foldl_cons] at h
  obtain ⟨p, hp, e⟩ := regRun_shape c b.reverse (regStep c (b ++ [x]) x) (by
    rw [regStep_length _ (by simp)]; simp)
  rw [e, regStep_length _ (by simp)] at h
  simp only [List.length_append, List.length_cons, List.length_nil, List.length_reverse] at h
  rw [show b.length + (0 + 1) - b.length = 1 by omega] at h
  unfold regStep at h
  have h0 : (x + fbParity c (b ++ [x])) % 2 ∈ List.replicate (b.length + 1) 0 := by
    rw [← h]; simp
  have h1 := List.eq_of_mem_replicate h0
  have h2 : fbParity c (b ++ [x]) < 2 := Nat.mod_lt _ (by omega)
  omega

theorem fbParity_unit (c : Nat → Nat) (M j : Nat) (hj : j < M) :
    fbParity c ((List.range M).map fun i => if i = j then 1 else 0) = c (j + 1) % 2 := by
  unfold fbParity
  rw [List.length_map, List.length_range, Finset.sum_eq_single j]
  · rw [getD_map_range _ _ hj]; simp
  · intro d hd hne
    rw [Finset.mem_range] at hd
    rw [getD_map_range _ _ hd, if_neg hne, Nat.mul_zero]
  · intro hn; exact absurd (Finset.mem_range.2 hj) hn

/-! ### The one-input matrix trellis in terms of bit lists -/

section
variable {junk : Nat → Nat → Nat} {M n f : Nat} {g : List Nat} {rsc : Bool} {fmt : String}

theorem memMax_single (M : Nat) : memMax [M] = M := by simp [memMax]

theorem srOf_single {s u r : Nat} :
    srOf junk [M] [g] s u r 0 = if r = 0 then u % 2 else if r ≤ M then (toBits M s).getD (r - 1) 0 else junk r 0 := by
  unfold srOf shiftReg
  simp only [List.getD_cons_zero, List.sum_cons, List.sum_nil, Nat.add_zero, List.length_cons, List.length_nil,
    memOffset, List.take_zero, Nat.zero_add]
  split
  · rw [getD_toBits (by omega)]; simp
  · rfl

theorem next_single {feedback : Option (List (List Nat))} (h : TrellisArgs [M] [g] n feedback fmt) (hM : 0 < M)
    (hc0 : polyCoef fmt (M + 1) (matAt (effFeedback fmt [M] [g] feedback) 0 0) 0 = 1) {b : List Nat} (hl : b.length = M)
    (hb : ∀ x ∈ b, x < 2) {u : Nat} (hu : u < 2) :
    (trellisOf junk [M] [g] n feedback rsc fmt).next (bitarray2dec b) u =
      bitarray2dec (regStep (polyCoef fmt (M + 1) (matAt (effFeedback fmt [M] [g] feedback) 0 0)) b u) := by
  have hs : bitarray2dec b < 2 ^ [M].sum := by
    have := bitarray2dec_lt hb; rw [hl] at this; simpa using this
  rw [trellisOf_next hs (by simpa using hu)]
  congr 1
  have htb : toBits M (bitarray2dec b) = b := by rw [← hl]; exact toBits_bitarray2dec hb
  unfold nextBitsOf nextBits
  have hl1 : ([g] : List (List Nat)).length = 1 := rfl
  simp only [List.range_succ, List.length_cons, List.length_nil, List.range_zero, List.nil_append,
    List.flatMap_cons, List.flatMap_nil, List.append_nil, List.getD_cons_zero, Nat.zero_add]
  apply List.ext_getElem (by rw [regStep_length _ (by rintro rfl; simp at hl; omega)]; simp [hl])
  intro r h1 h2
  simp only [List.length_map, List.length_range] at h1
  simp only [List.getElem_map, List.getElem_range]
  rcases r with _ | r
  · rw [if_pos rfl]
    have := fbBit_sum (fmt := fmt) (k := 1) (w := memMax [M] + 1) (F := effFeedback fmt [M] [g] feedback)
      (sr := srOf junk [M] [g] (bitarray2dec b) u) (l := 0) (by omega)
    rw [this, memMax_single]
    simp only [Finset.sum_range_one, regStep, List.getElem_cons_zero]
    rw [Finset.sum_range_succ']
    rw [hc0, Nat.mul_one, srOf_single, if_pos rfl]
    unfold fbParity
    rw [hl]
    have e : ∀ d ∈ Finset.range M, srOf junk [M] [g] (bitarray2dec b) u (d + 1) 0 *
        polyCoef fmt (M + 1) (matAt (effFeedback fmt [M] [g] feedback) 0 0) (d + 1) =
        polyCoef fmt (M + 1) (matAt (effFeedback fmt [M] [g] feedback) 0 0) (d + 1) * b.getD d 0 := by
      intro d hd
      rw [Finset.mem_range] at hd
      rw [srOf_single, if_neg (by omega), if_pos (by omega), htb, Nat.mul_comm]
      rfl
    rw [Finset.sum_congr rfl e]
    omega
  · rw [if_neg (by omega), srOf_single, if_neg (by omega), if_pos (by omega), htb]
    simp only [regStep, List.getElem_cons_succ, List.getElem_take, Nat.add_sub_cancel]
    rw [List.getD_eq_getElem _ _ (by omega)]
    exact Nat.mod_eq_of_lt (hb _ (List.getElem_mem _))

theorem run_single {feedback : Option (List (List Nat))} (h : TrellisArgs [M] [g] n feedback fmt) (hM : 0 < M)
    (hc0 : polyCoef fmt (M + 1) (matAt (effFeedback fmt [M] [g] feedback) 0 0) 0 = 1) : ∀ (us b : List Nat),
    b.length = M → (∀ x ∈ b, x < 2) → (∀ u ∈ us, u < 2) →
    (trellisOf junk [M] [g] n feedback rsc fmt).runState (bitarray2dec b) us =
      bitarray2dec (us.foldl (regStep (polyCoef fmt (M + 1) (matAt (effFeedback fmt [M] [g] feedback) 0 0))) b) ∧
    (us.foldl (regStep (polyCoef fmt (M + 1) (matAt (effFeedback fmt [M] [g] feedback) 0 0))) b).length = M ∧
    ∀ x ∈ us.foldl (regStep (polyCoef fmt (M + 1) (matAt (effFeedback fmt [M] [g] feedback) 0 0))) b, x < 2 := by
  intro us
  induction us with
  | nil => intro b hl hb _; exact ⟨rfl, hl, hb⟩
  | cons u us ih =>
    intro b hl hb hu
    rw [Trellis.runState_cons, next_single h hM hc0 hl hb (hu u (by simp)), List.foldl_cons]
    exact ih _ (by rw [regStep_length _ (by rintro rfl; simp at hl; omega), hl]) (regStep_lt_two u hb)
      (fun v hv => hu v (by simp [hv]))

end

theorem inSyms_one {bits : List Nat} : inSyms 1 bits = bits := by
  apply List.ext_getElem (by simp)
  intro i h1 h2
  simp only [inSyms, List.getElem_map, List.getElem_range, Nat.mul_one]
  rw [List.drop_eq_getElem_cons h2, List.take_succ_cons, List.take_zero, bitarray2dec_cons]
  simp

theorem zero_state (M : Nat) : bitarray2dec (List.replicate M 0) = 0 := by
  induction M with
  | zero => rfl
  | succ M ih => rw [List.replicate_succ, bitarray2dec_cons, ih]; simp

/-! ### The backwards compatible construction is the matrix one -/

theorem foldl_parity (f : Nat → Nat) (n : Nat) :
    (List.range n).foldl (fun a i => (a + f i) % 2) 0 = (∑ i ∈ Finset.range n, f i) % 2 := by
  induction n with
  | zero => rfl
  | succ n ih =>
    rw [List.range_succ, List.foldl_append, ih, Finset.sum_range_succ]
    simp only [List.foldl_cons, List.foldl_nil]
    omega

/-- The generators of the equivalent matrix construction: the feedback taps are added to every generator. -/
def legacyGens (M : Nat) (g : List Nat) (f : Nat) (rsc : Bool) : List Nat :=
  (if rsc then g.set 0 f else g).map fun p => p ^^^ (f % 2 ^ M)

/-- The feedback polynomial of the equivalent matrix construction: the leading coefficient is always 1. -/
def legacyFb (M f : Nat) : Nat := 2 ^ M + f % 2 ^ M

theorem legacyFb_coef {M f d : Nat} (hd : d ≤ M) :
    polyCoef "LSB" (M + 1) (legacyFb M f) d = if d = 0 then 1 else f / 2 ^ (M - d) % 2 := by
  unfold polyCoef legacyFb
  rw [if_neg (by decide), Nat.add_sub_cancel]
  rcases d with _ | d
  · have : f % 2 ^ M < 2 ^ M := Nat.mod_lt _ (by positivity)
    rw [if_pos rfl, Nat.sub_zero, Nat.add_div_left _ (by positivity), Nat.div_eq_of_lt this]
  · rw [if_neg (by omega)]
    have e : 2 ^ M = 2 ^ (M - (d + 1)) * (2 * 2 ^ d) := by
      rw [← Nat.pow_succ', ← Nat.pow_add]; congr 1; omega
    rw [e, Nat.mul_add_div (by positivity), Nat.mod_mul_right_div_self]
    rw [Nat.mul_add_mod, Nat.mod_mul_right_mod]

theorem toBits_coef {M p d : Nat} (hd : d ≤ M) : (toBits (M + 1) p).getD d 0 = polyCoef "LSB" (M + 1) p d := by
  rw [getD_toBits (by omega)]
  unfold polyCoef
  rw [if_neg (by decide)]

theorem polyCoef_xor (fmt : String) (w a b d : Nat) :
    polyCoef fmt w (a ^^^ b) d = (polyCoef fmt w a d + polyCoef fmt w b d) % 2 := by
  unfold polyCoef; split <;> exact xor_bit _ _ _

theorem legacyArgs {M f : Nat} {g : List Nat} {rsc : Bool} (hf : f < 2 ^ (M + 1)) (hg : ∀ p ∈ g, p < 2 ^ (M + 1)) :
    TrellisArgs [M] [legacyGens M g f rsc] g.length (some [[legacyFb M f]]) "LSB" := by
  have hlt : ∀ p ∈ legacyGens M g f rsc, p < 2 ^ (M + 1) := by
    intro p hp
    simp only [legacyGens, List.mem_map] at hp
    obtain ⟨q, hq, rfl⟩ := hp
    have hq' : q < 2 ^ (M + 1) := by
      split at hq
      · rcases List.mem_or_eq_of_mem_set hq with hq | rfl
        · exact hg q hq
        · exact hf
      · exact hg q hq
    refine Nat.xor_lt_two_pow hq' (lt_of_le_of_lt (Nat.mod_le _ _) hf)
  have hlen : (legacyGens M g f rsc).length = g.length := by unfold legacyGens; split <;> simp
  refine ⟨by simp, by simp, by simp, ⟨rfl, ?_⟩, ?_, ?_, ?_⟩
  · intro row hrow
    rw [List.mem_singleton] at hrow; subst hrow; exact hlen
  · intro i hi j hj
    have : i = 0 := by simpa using hi
    subst this
    rw [memMax_single]
    unfold matAt
    rw [List.getD_cons_zero, List.getD_eq_getElem _ _ (by omega)]
    exact hlt _ (List.getElem_mem _)
  · intro F hF
    cases hF
    exact ⟨rfl, by simp⟩
  · intro F hF i hi j hj
    cases hF
    have hi0 : i = 0 := by simpa using hi
    have hj0 : j = 0 := by simpa using hj
    subst hi0 hj0
    rw [memMax_single]
    simp only [matAt, List.getD_cons_zero, legacyFb]
    have := Nat.mod_lt f (show 0 < 2 ^ M by positivity)
    rw [Nat.pow_succ]; omega

theorem mkTrellisLegacy_eq (junk : Nat → Nat → Nat) {M f : Nat} {g : List Nat} {rsc : Bool} (hM : 0 < M)
    (hf : f < 2 ^ (M + 1)) (hg : ∀ p ∈ g, p < 2 ^ (M + 1)) :
    mkTrellisLegacy M g f rsc =
      .ok (trellisOf junk [M] [legacyGens M g f rsc] g.length (some [[legacyFb M f]]) rsc "LSB") := by
  have hargs := legacyArgs (rsc := rsc) hf hg
  set g' := (if rsc then g.set 0 f else g) with hg'
  have hg'lt : ∀ p ∈ g', p < 2 ^ (M + 1) := by
    intro p hp
    rw [hg'] at hp
    split at hp
    · rcases List.mem_or_eq_of_mem_set hp with hq | rfl
      · exact hg p hq
      · exact hf
    · exact hg p hp
  have hg'len : g'.length = g.length := by rw [hg']; split <;> simp
  have hgens : legacyGens M g f rsc = g'.map fun p => p ^^^ (f % 2 ^ M) := rfl
  unfold mkTrellisLegacy
  rw [show (if rsc = true then g.set 0 f else g) = g' from rfl]
  have hc0 : polyCoef "LSB" (M + 1) (matAt (effFeedback "LSB" [M] [legacyGens M g f rsc] (some [[legacyFb M f]])) 0 0) 0
      = 1 := by
    simp only [effFeedback, Option.getD_some, matAt, List.getD_cons_zero]
    rw [legacyFb_coef (by omega), if_pos rfl]
  have hrows : ((List.range (2 ^ M)).mapM fun s => (List.range 2).mapM fun u => (do
      let sr ← dec2bitarray s M
      let fbp ← dec2bitarray f (M + 1)
      let fb := ((List.range M).map fun i => (fbp.getD (i + 1) 0) * sr.getD i 0).sum
      let outbits ← g'.mapM fun p => do
        let gen ← dec2bitarray p (M + 1)
        let acc := (List.range M).foldl (fun a i => (a + sr.getD i 0 * gen.getD (i + 1) 0) % 2) 0
        pure ((acc + (u * gen.getD 0 0 + fb) % 2) % 2)
      let sr' ← pySet (sr.take 1 ++ sr.take (M - 1)) 0 ((u + fb) % 2)
      pure (bitarray2dec sr', bitarray2dec outbits) : Py (Nat × Nat))) =
      .ok ((List.range (2 ^ M)).map fun s => (List.range 2).map fun u =>
        (bitarray2dec (nextBitsOf junk [M] [legacyGens M g f rsc] (some [[legacyFb M f]]) "LSB" s u),
          bitarray2dec (outBitsOf junk [M] [legacyGens M g f rsc] g.length "LSB" s u))) := by
    refine mapM_ok _ ?_
    intro s hs
    refine mapM_ok _ ?_
    intro u hu
    rw [List.mem_range] at hs hu
    rw [dec2bitarray_ok hs, dec2bitarray_ok hf]
    simp only [bind, Except.bind]
    set fb := ((List.range M).map fun i => ((toBits (M + 1) f).getD (i + 1) 0) * (toBits M s).getD i 0).sum with hfb
    have houts : (g'.mapM fun p => (dec2bitarray p (M + 1)).bind fun gen =>
        (pure (((List.range M).foldl (fun a i => (a + (toBits M s).getD i 0 * gen.getD (i + 1) 0) % 2) 0 +
          (u * gen.getD 0 0 + fb) % 2) % 2) : Py Nat)) =
        .ok (g'.map fun p => ((∑ i ∈ Finset.range M, (toBits M s).getD i 0 * polyCoef "LSB" (M + 1) p (i + 1)) % 2 +
          (u * polyCoef "LSB" (M + 1) p 0 + fb) % 2) % 2) := by
      refine mapM_ok _ ?_
      intro p hp
      rw [dec2bitarray_ok (hg'lt p hp)]
      simp only [Except.bind, pure, Except.pure]
      rw [foldl_parity, toBits_coef (by omega)]
      congr 4
      apply Finset.sum_congr rfl
      intro i hi
      rw [Finset.mem_range] at hi
      rw [toBits_coef (by omega)]
    have houts' := houts
    simp only [Except.bind] at houts'
    rw [houts']
    simp only
    have hsetlen : 0 < ((toBits M s).take 1 ++ (toBits M s).take (M - 1)).length := by simp; omega
    have hset := pySet_ok ((u + fb) % 2) hsetlen
    rw [Nat.cast_zero] at hset
    rw [hset]
    simp only [pure, Except.pure]
    congr 1
    -- the feedback sum
    have hfbs : fb % 2 = fbParity (polyCoef "LSB" (M + 1) (legacyFb M f)) (toBits M s) := by
      rw [hfb, list_sum_range]
      unfold fbParity
      rw [toBits_length]
      congr 1
      apply Finset.sum_congr rfl
      intro i hi
      rw [Finset.mem_range] at hi
      rw [legacyFb_coef (by omega), if_neg (by omega), getD_toBits (by omega)]
      congr 3
    congr 1
    · have hn := next_single (junk := junk) (rsc := rsc) hargs hM hc0 (b := toBits M s) (by simp)
        (fun x hx => toBits_lt_two hx) hu
      rw [bitarray2dec_toBits hs] at hn
      rw [trellisOf_next (by simpa using hs) (by simpa using hu)] at hn
      rw [hn]
      congr 1
      unfold regStep
      simp only [effFeedback, Option.getD_some, matAt, List.getD_cons_zero]
      rw [← hfbs, toBits_length]
      obtain ⟨m, rfl⟩ : ∃ m, M = m + 1 := ⟨M - 1, by omega⟩
      rw [toBits_succ]
      simp only [List.take_succ_cons, List.take_zero, List.cons_append, List.nil_append, List.set_cons_zero]
      congr 1
      omega
    · congr 1
      unfold outBitsOf
      apply List.ext_getElem (by simp [hg'len])
      intro j h1 h2
      simp only [List.length_map, List.length_range] at h1 h2
      simp only [List.getElem_map, List.getElem_range]
      have hob := outBit_sum (fmt := "LSB") (G := [legacyGens M g f rsc]) (n := g.length) (k := 1) (w := memMax [M] + 1)
        (sr := srOf junk [M] [legacyGens M g f rsc] s u) (j := j) h2
      rw [show ([legacyGens M g f rsc] : List (List Nat)).length = 1 from rfl, hob, memMax_single]
      simp only [Finset.sum_range_one]
      rw [Finset.sum_range_succ']
      have hm : matAt [legacyGens M g f rsc] 0 j = g'[j] ^^^ (f % 2 ^ M) := by
        simp only [matAt, List.getD_cons_zero]
        rw [hgens, List.getD_eq_getElem _ _ (by simpa using h1)]
        simp
      rw [hm]
      have hf0 : polyCoef "LSB" (M + 1) (f % 2 ^ M) 0 = 0 := by
        unfold polyCoef
        rw [if_neg (by decide), Nat.add_sub_cancel, Nat.sub_zero, Nat.div_eq_of_lt (Nat.mod_lt _ (by positivity))]
      have hfd : ∀ d, d < M → polyCoef "LSB" (M + 1) (f % 2 ^ M) (d + 1) =
          polyCoef "LSB" (M + 1) (legacyFb M f) (d + 1) := by
        intro d hd
        have := @legacyFb_coef M f (d + 1) (by omega)
        rw [this, if_neg (by omega)]
        unfold polyCoef
        rw [if_neg (by decide), Nat.add_sub_cancel]
        have e : 2 ^ M = 2 ^ (M - (d + 1)) * (2 * 2 ^ d) := by
          rw [← Nat.pow_succ', ← Nat.pow_add]; congr 1; omega
        rw [e, Nat.mod_mul_right_div_self, Nat.mod_mul_right_mod]
      rw [srOf_single, if_pos rfl, Nat.mod_eq_of_lt hu]
      have hsum : (∑ d ∈ Finset.range M, srOf junk [M] [legacyGens M g f rsc] s u (d + 1) 0 *
          polyCoef "LSB" (M + 1) (g'[j] ^^^ (f % 2 ^ M)) (d + 1)) % 2 =
          ((∑ i ∈ Finset.range M, (toBits M s).getD i 0 * polyCoef "LSB" (M + 1) g'[j] (i + 1)) % 2 + fb % 2) % 2 := by
        rw [hfbs]
        unfold fbParity
        rw [toBits_length]
        apply parity_sum
        intro d hd
        rw [Finset.mem_range] at hd
        rw [srOf_single, if_neg (by omega), if_pos (by omega), polyCoef_xor, hfd d hd, Nat.add_sub_cancel]
        rw [Nat.mul_mod, Nat.mod_mod, ← Nat.mul_mod, Nat.mul_add, Nat.mul_comm _ (polyCoef "LSB" (M + 1) (legacyFb M f) _)]
      have hcl := polyCoef_lt_two "LSB" (M + 1) g'[j] 0
      have e0 : polyCoef "LSB" (M + 1) (g'[j] ^^^ (f % 2 ^ M)) 0 = polyCoef "LSB" (M + 1) g'[j] 0 := by
        rw [polyCoef_xor, hf0]; omega
      rw [e0]
      omega
  have hrows' := hrows
  simp only [bind, Except.bind, pure, Except.pure] at hrows' ⊢
  rw [hrows']
  simp only [trellisOf, hg'len, List.map_map, Function.comp_def, List.sum_cons, List.sum_nil, Nat.add_zero,
    List.length_cons, List.length_nil, Nat.zero_add, Nat.pow_one]

end Verif
