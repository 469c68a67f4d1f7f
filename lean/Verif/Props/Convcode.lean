import Verif.Lemmas.TrellisRsc
/-
Convolutional encoding: C31 - C36.

`outLen N` stands for `int(N / (k/n))` computed in double precision; the theorems assume that this is the exact
value `N*n/k` for the block length at hand (see C33 for where that holds).
`junk` is the uninitialised memory of `np.empty` inside the constructor.
-/
namespace Verif

theorem convEncode_main {t : Trellis} (h : t.WF) (hn : 0 < t.n) {outLen : Nat → Nat} {msg : List Nat}
    (hb : ∀ b ∈ msg, b < 2) {term : String} (hr : ¬ (t.rsc = true ∧ term = "term"))
    (ho : (encInput t msg term).1.length / t.k * t.n ≤ outLen (encInput t msg term).2) :
    convEncode outLen t msg term none =
      .ok (t.runOut 0 (inSyms t.k (encInput t msg term).1) ++
          List.replicate (outLen (encInput t msg term).2 - (encInput t msg term).1.length / t.k * t.n) 0) := by
  rw [convEncode_none h.k_pos hn, convEncodeRun_main h hb hr ho]
  rfl

theorem exists_out {x : Py (Nat × List Nat)} {a b : Nat} {c : List Nat} (h : x = .ok (b, c)) (e : b = a) :
    ∃ c, x = .ok (a, c) := ⟨c, by rw [h, e]⟩

theorem steps_le {k n N : Nat} (hk : 0 < k) : N / k * n ≤ N * n / k := by
  rw [Nat.le_div_iff_mul_le hk]
  calc N / k * n * k = N / k * k * n := by ring
    _ ≤ N * n := Nat.mul_le_mul_right _ (Nat.div_mul_le_self _ _)

/-- C31. For every memory layout, every generator matrix whose polynomials fit the memories, in MSB, LSB or Matlab
format, without feedback: the constructor succeeds, and for every message `conv_encode` returns the code
sequence `convSpec` of the message ('cont'), or of the message followed by the termination zeros ('term', default
codes).  (If the number of bits is not a multiple of `k`, the incomplete last step produces zeros.) -/
theorem C31_convolution {memory : List Nat} {G : List (List Nat)} {n : Nat} {fmt : String}
    (h : TrellisArgs memory G n none fmt) (hg : FitsMemory fmt memory n G) (hn : 0 < n)
    (junk : Nat → Nat → Nat) (rsc : Bool) :
    ∃ t, mkTrellis junk memory G n none rsc fmt = .ok t ∧ t.k = G.length ∧ t.n = n ∧ t.M = memory.sum ∧
      ∀ (msg : List Nat) (outLen : Nat → Nat), (∀ b ∈ msg, b < 2) →
        (outLen msg.length = msg.length * n / G.length →
          convEncode outLen t msg "cont" none =
            .ok (convSpec fmt memory G n msg ++
              List.replicate (msg.length * n / G.length - msg.length / G.length * n) 0)) ∧
        (rsc = false → ∀ tail, tail = List.replicate (memory.sum + memory.sum % G.length) 0 →
          outLen (msg ++ tail).length = (msg ++ tail).length * n / G.length →
          convEncode outLen t msg "term" none =
            .ok (convSpec fmt memory G n (msg ++ tail) ++
              List.replicate ((msg ++ tail).length * n / G.length - (msg ++ tail).length / G.length * n) 0)) := by
  refine ⟨_, mkTrellis_ok h, rfl, rfl, rfl, ?_⟩
  have hw := trellisOf_WF (junk := junk) (rsc := rsc) h
  intro msg outLen hb
  constructor
  · intro ho
    have e1 : (encInput (trellisOf junk memory G n none rsc fmt) msg "cont").1 = msg := by rw [encInput_fst]; simp
    have e2 : (encInput (trellisOf junk memory G n none rsc fmt) msg "cont").2 = msg.length := by
      rw [encInput_snd]; simp
    have := convEncode_main hw hn (outLen := outLen) hb (term := "cont") (by simp) (by
      rw [e1, e2, ho]; exact steps_le h.k_pos)
    rw [this, e1, e2, ho]
    rw [show (trellisOf junk memory G n none rsc fmt).k = G.length from rfl,
      show (trellisOf junk memory G n none rsc fmt).n = n from rfl, inSyms_eq, ff_runOut h hg hb _ (le_refl _)]
    rfl
  · intro hrsc tail ht ho
    have e1 : (encInput (trellisOf junk memory G n none rsc fmt) msg "term").1 = msg ++ tail := by
      rw [encInput_fst, ht]; simp [trellisOf, hrsc]
    have e2 : (encInput (trellisOf junk memory G n none rsc fmt) msg "term").2 = (msg ++ tail).length := by
      rw [encInput_snd, ht]; simp [trellisOf, hrsc]
    have hb' : ∀ b ∈ msg ++ tail, b < 2 := by
      intro b hbm
      rw [List.mem_append] at hbm
      rcases hbm with hbm | hbm
      · exact hb b hbm
      · rw [ht] at hbm; have := List.eq_of_mem_replicate hbm; omega
    have := convEncode_main hw hn (outLen := outLen) hb (term := "term") (by simp [trellisOf, hrsc]) (by
      rw [e1, e2, ho]; exact steps_le h.k_pos)
    rw [this, e1, e2, ho]
    rw [show (trellisOf junk memory G n none rsc fmt).k = G.length from rfl,
      show (trellisOf junk memory G n none rsc fmt).n = n from rfl, inSyms_eq, ff_runOut h hg hb' _ (le_refl _)]
    rfl

/-- The hypotheses are met by the rate-2/3 code of the documentation, whose two registers have different lengths. -/
theorem args_23 : TrellisArgs [2, 1] [[5, 7, 0], [0, 2, 3]] 3 none "MSB" ∧
    FitsMemory "MSB" [2, 1] 3 [[5, 7, 0], [0, 2, 3]] := by
  refine ⟨⟨by simp, by simp, rfl, ⟨rfl, by simp⟩, ?_, by simp, by simp⟩, ?_⟩
  · decide
  · intro i hi j hj d h1 h2
    have key : ∀ i < 2, ∀ j < 3, ∀ d ≤ 2, [2, 1].getD i 0 < d →
        polyCoef "MSB" (memMax [2, 1] + 1) (matAt [[5, 7, 0], [0, 2, 3]] i j) d = 0 := by decide
    exact key i hi j hj d h2 h1

example : (do let t ← mkTrellis (fun _ _ => 7) [2, 1] [[5, 7, 0], [0, 2, 3]] 3 none false "MSB"
              convEncode (fun N => N * 3 / 2) t [0, 0, 1, 0, 1, 1] "cont" none) = .ok [0, 0, 0, 1, 1, 0, 1, 0, 1] ∧
    convSpec "MSB" [2, 1] [[5, 7, 0], [0, 2, 3]] 3 [0, 0, 1, 0, 1, 1] = [0, 0, 0, 1, 1, 0, 1, 0, 1] := by
  decide +kernel

/-- C31, limit of the claim: if a generator has a coefficient at a delay that its register does not have, the tables
depend on uninitialised memory. -/
theorem C31_generator_wider_than_memory :
    mkTrellis (fun _ _ => 0) [2, 1] [[5, 7], [0, 4]] 2 none false "MSB" ≠
      mkTrellis (fun _ _ => 1) [2, 1] [[5, 7], [0, 4]] 2 none false "MSB" := by
  decide +kernel

/-- C32. Encoding is linear: for every trellis built with a matrix feedback or none (polynomials fitting the memories),
for all messages `a`, `b` of the same length, the code word of `a xor b` is the XOR of the code words, with 'cont'
termination and with 'term' termination of default codes. -/
theorem C32_linear {memory : List Nat} {G : List (List Nat)} {n : Nat} {feedback : Option (List (List Nat))}
    {fmt : String} (h : TrellisArgs memory G n feedback fmt) (hg : FitsMemory fmt memory n G)
    (hf : ∀ F, feedback = some F → FitsMemoryFb fmt memory F) (hn : 0 < n) (junk : Nat → Nat → Nat) (rsc : Bool) :
    ∃ t, mkTrellis junk memory G n feedback rsc fmt = .ok t ∧
      ∀ (a b : List Nat) (outLen : Nat → Nat) (term : String), (∀ x ∈ a, x < 2) → (∀ x ∈ b, x < 2) →
        a.length = b.length → (term = "cont" ∨ rsc = false) →
        outLen (codedInputLen t a.length term) = codedInputLen t a.length term * n / G.length →
        ∃ ca cb, convEncode outLen t a term none = .ok ca ∧ convEncode outLen t b term none = .ok cb ∧
          convEncode outLen t (List.zipWith (· ^^^ ·) a b) term none = .ok (List.zipWith (· ^^^ ·) ca cb) := by
  refine ⟨_, mkTrellis_ok h, ?_⟩
  have hw := trellisOf_WF (junk := junk) (rsc := rsc) h
  have hl := trellisOf_linear (junk := junk) (rsc := rsc) h hg hf
  generalize ht : trellisOf junk memory G n feedback rsc fmt = t at hw hl
  have hk : t.k = G.length := by rw [← ht]; rfl
  have hn' : t.n = n := by rw [← ht]; rfl
  have hrsc : t.rsc = rsc := by rw [← ht]; rfl
  intro a b outLen term ha hb hlen hterm ho
  have hr : ¬ (t.rsc = true ∧ term = "term") := by
    rintro ⟨h1, rfl⟩
    rcases hterm with h2 | h2
    · exact absurd h2 (by decide)
    · rw [hrsc, h2] at h1; cases h1
  have key : ∀ m : List Nat, (∀ x ∈ m, x < 2) → m.length = a.length →
      convEncode outLen t m term none =
      .ok (t.runOut 0 (inSyms t.k (encInput t m term).1) ++
          List.replicate (outLen (codedInputLen t a.length term) -
            codedInputLen t a.length term / t.k * t.n) 0) ∧
      (encInput t m term).1.length = codedInputLen t a.length term := by
    intro m hm hml
    have e2 : (encInput t m term).2 = codedInputLen t a.length term := by
      rw [encInput_snd, codedInputLen, hml]
    have e1 : (encInput t m term).1.length = codedInputLen t a.length term := by
      rw [encInput_fst, codedInputLen, ← hml]
      rcases hterm with h2 | h2
      · simp [h2]
      · have : ¬ t.rsc = true := by rw [hrsc, h2]; decide
        by_cases h3 : term = "cont"
        · simp [h3]
        · rw [if_neg (by tauto), if_neg h3, if_neg this]; simp
    refine ⟨?_, e1⟩
    have := convEncode_main hw (by omega) (outLen := outLen) hm hr (by
      rw [e1, e2, ho, ← hk, ← hn']; exact steps_le hw.k_pos)
    rw [this, e2, e1]
  have hab : ∀ x ∈ List.zipWith (· ^^^ ·) a b, x < 2 := by
    rw [zipWith_xor_eq ha hb]; exact zipWith_lt_two a b
  have hinp : (encInput t (List.zipWith (· ^^^ ·) a b) term).1 =
      List.zipWith (· ^^^ ·) (encInput t a term).1 (encInput t b term).1 := by
    rw [encInput_fst, encInput_fst, encInput_fst]
    split
    · rfl
    · rw [List.zipWith_append hlen]; simp
  have ea := key a ha rfl
  have eb := key b hb hlen.symm
  have eab := key _ hab (by simp [hlen])
  refine ⟨_, _, ea.1, eb.1, ?_⟩
  rw [eab.1, hinp, inSyms_xor (encInput_lt_two ha term) (encInput_lt_two hb term) (by rw [ea.2, eb.2])]
  have hrun := (hl.run hw (inSyms t.k (encInput t a term).1) (inSyms t.k (encInput t b term).1) 0 0
    (by simp [ea.2, eb.2]) (by positivity) (by positivity) (inSyms_lt (encInput_lt_two ha term) t.k)
    (inSyms_lt (encInput_lt_two hb term) t.k)).2
  rw [Nat.xor_self] at hrun
  rw [hrun, ← zipWith_xor_eq (t.runOut_lt_two _ _) (t.runOut_lt_two _ _), List.zipWith_append (by simp [ea.2, eb.2])]
  simp

/-- The hypotheses of C32 are met by the recursive rate-2/3 code of the test suite. -/
theorem args_fb : TrellisArgs [1, 1] [[1, 0, 0], [0, 1, 3]] 3 (some [[2, 2], [3, 1]]) "MSB" ∧
    FitsMemory "MSB" [1, 1] 3 [[1, 0, 0], [0, 1, 3]] ∧ FitsMemoryFb "MSB" [1, 1] [[2, 2], [3, 1]] := by
  refine ⟨⟨by simp, by simp, rfl, ⟨rfl, by simp⟩, by decide, ?_, ?_⟩, ?_, ?_⟩
  · intro F hF; cases hF; exact ⟨rfl, by simp⟩
  · intro F hF; cases hF; decide
  · intro i hi j hj d h1 h2
    have key : ∀ i < 2, ∀ j < 3, ∀ d ≤ 1, [1, 1].getD i 0 < d →
        polyCoef "MSB" (memMax [1, 1] + 1) (matAt [[1, 0, 0], [0, 1, 3]] i j) d = 0 := by decide
    exact key i hi j hj d h2 h1
  · intro i hi j hj d h1 h2
    have key : ∀ i < 2, ∀ j < 2, ∀ d ≤ 1, [1, 1].getD j 0 < d →
        polyCoef "MSB" (memMax [1, 1] + 1) (matAt [[2, 2], [3, 1]] i j) d = 0 := by decide
    exact key i hi j hj d h2 h1

/-- C32 also holds for the backwards compatible construction (one input, integer feedback): it is the matrix
construction for other polynomials. -/
theorem C32_legacy_is_matrix (junk : Nat → Nat → Nat) {M f : Nat} {g : List Nat} {rsc : Bool} (hM : 0 < M)
    (hf : f < 2 ^ (M + 1)) (hg : ∀ p ∈ g, p < 2 ^ (M + 1)) :
    mkTrellisLegacy M g f rsc =
      mkTrellis junk [M] [(if rsc then g.set 0 f else g).map fun p => p ^^^ (f % 2 ^ M)] g.length
        (some [[2 ^ M + f % 2 ^ M]]) rsc "LSB" := by
  have := mkTrellis_ok (junk := junk) (rsc := rsc) (legacyArgs (rsc := rsc) hf hg)
  rw [mkTrellisLegacy_eq junk hM hf hg, ← this]
  rfl

example : mkTrellisLegacy 2 [1, 7] 5 true = mkTrellis (fun _ _ => 0) [2] [[4, 6]] 2 (some [[5]]) true "LSB" := by
  decide +kernel

/-- C33. For every well-formed trellis (any tables of the right shape) and every message, `conv_encode` succeeds and
returns `n/k` output bits per input bit, counting the termination bits, all 0 or 1. -/
theorem C33_length {t : Trellis} (h : t.WF) (hn : 0 < t.n) (outLen : Nat → Nat) (msg : List Nat) (hb : ∀ b ∈ msg, b < 2)
    (term : String) (ho : outLen (codedInputLen t msg.length term) = codedInputLen t msg.length term * t.n / t.k) :
    ∃ c, convEncode outLen t msg term none = .ok c ∧ c.length = codedInputLen t msg.length term * t.n / t.k ∧
      ∀ b ∈ c, b < 2 := by
  have hk := h.k_pos
  by_cases hr : t.rsc = true ∧ term = "term"
  · obtain ⟨hr, rfl⟩ := hr
    have e : codedInputLen t msg.length "term" = msg.length + t.k * t.M := by simp [codedInputLen, hr]
    rw [e] at ho ⊢
    have hle : (msg.length / t.k + t.M) * t.n ≤ outLen (msg.length + t.k * t.M) := by
      rw [ho, ← Nat.add_mul_div_left _ _ hk]; exact steps_le hk
    rw [convEncode_none h.k_pos hn, convEncodeRun_rsc h hb hr hle]
    refine ⟨_, rfl, ?_, ?_⟩
    · rw [List.length_append, Trellis.runOut_length, List.length_append, inSyms_length, List.length_map,
        List.length_range, List.length_replicate, ← ho]
      omega
    · intro b hbm
      rw [List.mem_append] at hbm
      rcases hbm with hbm | hbm
      · exact t.runOut_lt_two _ _ b hbm
      · have := List.eq_of_mem_replicate hbm; omega
  · have e2 : (encInput t msg term).2 = codedInputLen t msg.length term := by rw [encInput_snd, codedInputLen]
    have e1 : (encInput t msg term).1.length ≤ codedInputLen t msg.length term := by
      rw [encInput_fst, codedInputLen]
      by_cases h3 : term = "cont"
      · simp [h3]
      · by_cases h4 : t.rsc = true <;> simp [h3, h4]
    have hle : (encInput t msg term).1.length / t.k * t.n ≤ outLen (encInput t msg term).2 := by
      rw [e2, ho]
      exact le_trans (Nat.mul_le_mul_right _ (Nat.div_le_div_right e1)) (steps_le hk)
    rw [convEncode_main h hn hb hr hle]
    refine ⟨_, rfl, ?_, ?_⟩
    · rw [List.length_append, Trellis.runOut_length, inSyms_length, List.length_replicate, ← ho, ← e2]
      omega
    · intro b hbm
      rw [List.mem_append] at hbm
      rcases hbm with hbm | hbm
      · exact t.runOut_lt_two _ _ b hbm
      · have := List.eq_of_mem_replicate hbm; omega

/-- Every constructor call with matching shapes gives a well-formed trellis. -/
theorem C33_trellis_WF {memory : List Nat} {G : List (List Nat)} {n : Nat} {feedback : Option (List (List Nat))}
    {fmt : String} (h : TrellisArgs memory G n feedback fmt) (junk : Nat → Nat → Nat) (rsc : Bool) :
    ∃ t, mkTrellis junk memory G n feedback rsc fmt = .ok t ∧ t.WF ∧ t.k = G.length ∧ t.n = n ∧ t.M = memory.sum ∧
      t.rsc = rsc :=
  ⟨_, mkTrellis_ok h, trellisOf_WF h, rfl, rfl, rfl, rfl⟩

/-- C34. Zero-tail termination: every rate-1/n feed-forward encoder (default code type) is in state 0 at the end of
`conv_encode(..., 'term')`, for every message. -/
theorem C34_zero_tail {M n : Nat} {g : List Nat} {fmt : String} (h : TrellisArgs [M] [g] n none fmt)
    (junk : Nat → Nat → Nat) :
    ∃ t, mkTrellis junk [M] [g] n none false fmt = .ok t ∧
      ∀ (msg : List Nat) (outLen : Nat → Nat), (∀ b ∈ msg, b < 2) → outLen (msg.length + M) = (msg.length + M) * n →
        ∃ c, convEncodeRun outLen t msg "term" = .ok (0, c) := by
  refine ⟨_, mkTrellis_ok h, ?_⟩
  intro msg outLen hb ho
  have hw := trellisOf_WF (junk := junk) (rsc := false) h
  generalize ht : trellisOf junk [M] [g] n none false fmt = t at hw
  have hk : t.k = 1 := by rw [← ht]; rfl
  have hn' : t.n = n := by rw [← ht]; rfl
  have hM : t.M = M := by rw [← ht]; simp [trellisOf]
  have hrsc : t.rsc = false := by rw [← ht]; rfl
  have e1 : (encInput t msg "term").1 = msg ++ List.replicate M 0 := by
    rw [encInput_fst, hk, hM, hrsc]; simp [Nat.mod_one]
  have e2 : (encInput t msg "term").2 = msg.length + M := by
    rw [encInput_snd, hk, hM, hrsc]; simp [Nat.mod_one]
  have := convEncodeRun_main hw (outLen := outLen) hb (term := "term") (by simp [hrsc]) (by
    rw [e1, e2, ho, hk, hn', Nat.div_one]; simp)
  refine exists_out this ?_
  rw [e1, hk, ← ht]
  have hb' : ∀ b ∈ msg ++ List.replicate M 0, b < 2 := by
    intro b hbm
    rw [List.mem_append] at hbm
    rcases hbm with hbm | hbm
    · exact hb b hbm
    · have := List.eq_of_mem_replicate hbm; omega
  have hrun := ff_run (junk := junk) (rsc := false) h hb' ((msg ++ List.replicate M 0).length / [g].length) (le_refl _)
  rw [← inSyms_eq] at hrun
  rw [show ([g] : List (List Nat)).length = 1 from rfl] at hrun
  rw [hrun]
  have hz : ffState 1 [M] (msg ++ List.replicate M 0) ((msg ++ List.replicate M 0).length / 1) = List.replicate M 0 := by
    unfold ffState
    simp only [List.range_one, List.flatMap_cons, List.flatMap_nil, List.append_nil, List.getD_cons_zero]
    rw [List.eq_replicate_iff]
    refine ⟨by simp, ?_⟩
    intro x hx
    simp only [List.mem_map, List.mem_range] at hx
    obtain ⟨r, hr, rfl⟩ := hx
    unfold delayed inputAt
    rw [Nat.div_one, List.length_append, List.length_replicate, Nat.mul_one, Nat.add_zero]
    split
    · rw [List.getD_append_right _ _ _ _ (by omega), List.getD_eq_getElem _ _ (by
        rw [List.length_replicate]; omega)]
      simp
    · rfl
  rw [hz, zero_state]

/-- C34 needs a single input: with `memory = [3, 1]` the `M = 4` termination zeros last only two steps. -/
theorem C34_two_inputs_refuted :
    ∃ msg c s, (do let t ← mkTrellis (fun _ _ => 0) [3, 1] [[9, 1], [1, 3]] 2 none false "MSB"
                   convEncodeRun (fun N => N * 2 / 2) t msg "term") = .ok (s, c) ∧ s ≠ 0 :=
  ⟨[1, 1, 1, 0], [0, 0, 1, 0, 0, 0, 1, 0], 2, by decide +kernel, by decide⟩

example : TrellisArgs [2] [[5, 7]] 2 none "MSB" ∧
    (do let t ← mkTrellis (fun _ _ => 0) [2] [[5, 7]] 2 none false "MSB"
        convEncodeRun (· * 2) t [1, 1, 0, 1] "term") = .ok (0, [1, 1, 1, 0, 1, 0, 0, 0, 0, 1, 1, 1]) := by
  refine ⟨⟨by simp, by simp, rfl, ⟨rfl, by simp⟩, by decide, by simp, by simp⟩, by decide +kernel⟩

/-- C35 as stated is false: the recursive code with feedback `1 + D + D²` does not end in state 0. -/
theorem C35_rsc_termination_refuted :
    ∃ msg c s, (do let t ← mkTrellisLegacy 2 [1, 7] 7 true
                   convEncodeRun (· * 2) t msg "term") = .ok (s, c) ∧ s ≠ 0 :=
  ⟨[1], [1, 1, 0, 0, 1, 1], 3, by decide +kernel, by decide⟩

/-- C35, the exact condition.  For a one-input recursive trellis (feedback coefficient of `D^0` equal to 1, memory
`M > 0`), every message ends in state 0 iff the feedback polynomial is `1 + D^M`. -/
theorem C35_rsc_termination_iff {M n f : Nat} {g : List Nat} {fmt : String}
    (h : TrellisArgs [M] [g] n (some [[f]]) fmt) (hM : 0 < M) (hc0 : polyCoef fmt (M + 1) f 0 = 1)
    (junk : Nat → Nat → Nat) (outLen : Nat → Nat) (ho : ∀ N, outLen N = N * n) :
    ∃ t, mkTrellis junk [M] [g] n (some [[f]]) true fmt = .ok t ∧
      ((∀ msg : List Nat, (∀ b ∈ msg, b < 2) → ∃ c, convEncodeRun outLen t msg "term" = .ok (0, c)) ↔
        ∀ d, 0 < d → d ≤ M → (polyCoef fmt (M + 1) f d = 1 ↔ d = M)) := by
  refine ⟨_, mkTrellis_ok h, ?_⟩
  have hw := trellisOf_WF (junk := junk) (rsc := true) h
  have hrs := fun us b hl hb hu => run_single (junk := junk) (rsc := true) h hM hc0 us b hl hb hu
  generalize ht : trellisOf junk [M] [g] n (some [[f]]) true fmt = t at hw hrs
  have hk : t.k = 1 := by rw [← ht]; rfl
  have hn' : t.n = n := by rw [← ht]; rfl
  have hMt : t.M = M := by rw [← ht]; simp [trellisOf]
  have hrsc : t.rsc = true := by rw [← ht]; rfl
  have hmat : matAt (effFeedback fmt [M] [g] (some [[f]])) 0 0 = f := by simp [effFeedback, matAt]
  rw [hmat] at hrs
  generalize hc : polyCoef fmt (M + 1) f = c at *
  have hclt : ∀ d, c d < 2 := fun d => by rw [← hc]; exact polyCoef_lt_two _ _ _ _
  -- the encoder's final state
  have hfin : ∀ msg : List Nat, (∀ b ∈ msg, b < 2) → ∃ out, convEncodeRun outLen t msg "term" =
      .ok (bitarray2dec ((msg.foldl (regStep c) (List.replicate M 0)).reverse.foldl (regStep c)
        (msg.foldl (regStep c) (List.replicate M 0))), out) := by
    intro msg hb
    have hr1 := hrs msg (List.replicate M 0) (by simp) (fun x hx => by
      have := List.eq_of_mem_replicate hx; omega) hb
    rw [zero_state] at hr1
    set B := msg.foldl (regStep c) (List.replicate M 0) with hB
    have hrun := convEncodeRun_rsc hw (outLen := outLen) hb hrsc (by
      rw [ho, hk, hn', hMt, Nat.div_one, Nat.one_mul])
    refine exists_out hrun ?_
    rw [hk, inSyms_one, hr1.1, hMt]
    have htb : toBits M (bitarray2dec B) = B := by
      have := toBits_bitarray2dec hr1.2.2; rw [hr1.2.1] at this; exact this
    rw [htb]
    have htail : ((List.range M).map fun i => bitarray2dec ((B.reverse.drop (i * 1)).take 1)) = B.reverse := by
      have := @inSyms_one B.reverse
      unfold inSyms at this
      rw [List.length_reverse, hr1.2.1, Nat.div_one] at this
      exact this
    rw [htail]
    exact (hrs B.reverse B hr1.2.1 hr1.2.2 (fun u hu => hr1.2.2 u (List.mem_reverse.1 hu))).1
  have hzero : ∀ b : List Nat, (∀ x ∈ b, x < 2) → b.length = M → bitarray2dec b = 0 → b = List.replicate M 0 := by
    intro b hb hl h0
    have h1 := toBits_bitarray2dec hb
    have h2 := toBits_bitarray2dec (b := List.replicate M 0) (fun x hx => by
      have := List.eq_of_mem_replicate hx; omega)
    rw [zero_state, List.length_replicate] at h2
    rw [h0, hl, h2] at h1
    exact h1.symm
  constructor
  · intro hall d hd hdM
    -- a message that leads to the register with a single one at position `d - 1`
    have hunit : ∀ x ∈ (List.range M).map (fun i => if i = d - 1 then 1 else 0), x < 2 := by
      intro x hx
      simp only [List.mem_map] at hx
      obtain ⟨i, _, rfl⟩ := hx
      split <;> omega
    obtain ⟨us, hu, hul, hreach⟩ := reg_reach c ((List.range M).map (fun i => if i = d - 1 then 1 else 0)).reverse
      (List.replicate M 0) (fun x hx => hunit x (List.mem_reverse.1 hx)) (by simp)
    rw [List.reverse_reverse] at hreach
    simp only [List.length_reverse, List.length_map, List.length_range, List.length_replicate, Nat.sub_self,
      List.take_zero, List.append_nil] at hreach
    obtain ⟨out, hout⟩ := hall us hu
    obtain ⟨out', hout'⟩ := hfin us hu
    rw [hout'] at hout
    rw [hreach] at hout
    set B := (List.range M).map (fun i => if i = d - 1 then 1 else 0) with hB
    have hBl : B.length = M := by simp [hB]
    have hz : bitarray2dec (B.reverse.foldl (regStep c) B) = 0 := by
      have := congrArg (Except.map Prod.fst) hout
      simpa [Except.map] using this
    have hr2 := hrs B.reverse B hBl hunit (fun u hu => hunit u (List.mem_reverse.1 hu))
    have hz' := hzero _ hr2.2.2 hr2.2.1 hz
    -- split off the oldest bit
    obtain ⟨b, x, hbx⟩ : ∃ b x, B = b ++ [x] :=
      ⟨B.dropLast, B.getLast (by intro h0; rw [h0] at hBl; simp at hBl; omega), (List.dropLast_append_getLast _).symm⟩
    have hbl : b.length + 1 = M := by rw [← hBl, hbx]; simp
    have hx : x = if d = M then 1 else 0 := by
      have e1 : B.getD (M - 1) 0 = x := by
        rw [hbx, List.getD_append_right _ _ _ _ (by omega)]
        rw [show M - 1 - b.length = 0 by omega]; rfl
      rw [hB, getD_map_range _ _ (by omega)] at e1
      rw [← e1]
      by_cases hdm : d = M
      · rw [if_pos (by omega), if_pos hdm]
      · rw [if_neg (by omega), if_neg hdm]
    have hx2 : x < 2 := by rw [hx]; split <;> omega
    have hnec := tail_necessary (c := c) (b := b) hx2 (by rw [← hbx, hz', hbl])
    rw [← hbx, hB, fbParity_unit c M (d - 1) (by omega)] at hnec
    rw [show d - 1 + 1 = d by omega, Nat.mod_eq_of_lt (hclt d)] at hnec
    rw [hnec, hx]
    by_cases hdm : d = M <;> simp [hdm]
  · intro hcond msg hb
    obtain ⟨out, hout⟩ := hfin msg hb
    have hr1 := hrs msg (List.replicate M 0) (by simp) (fun x hx => by
      have := List.eq_of_mem_replicate hx; omega) hb
    refine ⟨out, ?_⟩
    rw [hout]
    set B := msg.foldl (regStep c) (List.replicate M 0) with hB
    rw [tail_ok (c := c) (b := B), zero_state]
    · intro d hd hlt
      rw [hr1.2.1] at hlt
      have h1 := hcond d hd (by omega)
      have h2 := hclt d
      have : c d ≠ 1 := fun h => by have := h1.1 h; omega
      omega
    · rw [hr1.2.1]; exact (hcond M hM (le_refl _)).2 rfl
    · exact hr1.2.2

/-- C35 for the construction with an integer feedback (as used with turbo codes): same condition. -/
theorem C35_rsc_termination_legacy {M f : Nat} {g : List Nat} (hM : 0 < M) (hf : f = 2 ^ M + 1)
    (hg : ∀ p ∈ g, p < 2 ^ (M + 1)) (outLen : Nat → Nat) (ho : ∀ N, outLen N = N * g.length) :
    ∃ t, mkTrellisLegacy M g f true = .ok t ∧
      ∀ msg : List Nat, (∀ b ∈ msg, b < 2) → ∃ c, convEncodeRun outLen t msg "term" = .ok (0, c) := by
  have hflt : f < 2 ^ (M + 1) := by
    rw [hf, Nat.pow_succ]
    have := Nat.one_lt_two_pow (n := M) (by omega)
    omega
  have hmod : f % 2 ^ M = 1 := by
    rw [hf, Nat.add_mod_left, Nat.mod_eq_of_lt (Nat.one_lt_two_pow (n := M) (by omega))]
  have hargs := legacyArgs (rsc := true) hflt hg
  have hc0 : polyCoef "LSB" (M + 1) (legacyFb M f) 0 = 1 := by rw [legacyFb_coef (by omega), if_pos rfl]
  obtain ⟨t, ht, hiff⟩ := C35_rsc_termination_iff hargs hM hc0 (fun _ _ => 0) outLen ho
  refine ⟨t, ?_, hiff.2 ?_⟩
  · rw [← ht, mkTrellis_ok hargs]; exact mkTrellisLegacy_eq _ hM hflt hg
  · intro d hd hdM
    rw [legacyFb_coef hdM, if_neg (by omega), hf]
    rcases Nat.lt_or_ge d M with hlt | hge
    · have e : 2 ^ M = 2 ^ (M - d) * (2 * 2 ^ (d - 1)) := by
        rw [← Nat.pow_succ', ← Nat.pow_add]; congr 1; omega
      rw [e, Nat.mul_add_div (by positivity), Nat.div_eq_of_lt (Nat.one_lt_two_pow (n := M - d) (by omega))]
      simp; omega
    · have : d = M := by omega
      subst this
      simp only [Nat.sub_self, pow_zero, Nat.div_one, iff_true]
      obtain ⟨m, rfl⟩ : ∃ m, d = m + 1 := ⟨d - 1, by omega⟩
      rw [Nat.pow_succ]; omega

example : (do let t ← mkTrellisLegacy 2 [1, 7] 5 true
              convEncodeRun (· * 2) t [1, 1, 1] "term") = .ok (0, [1, 1, 1, 0, 1, 0, 1, 1, 0, 0]) := by
  decide +kernel

/-- C36 as stated is false: the punctured output keeps the full length, the end is filled with zeros. -/
theorem C36_puncture_refuted :
    ∃ t msg row full, convEncode (· * 2) t msg "cont" none = .ok full ∧
      convEncode (· * 2) t msg "cont" (some [row]) ≠ .ok (punctSelected row full) :=
  ⟨⟨1, 2, 2, false, [[0, 2], [0, 2], [1, 3], [1, 3]], [[0, 3], [3, 0], [1, 2], [2, 1]]⟩, [1, 0, 1, 1], [1, 0],
    [1, 1, 0, 1, 0, 0, 1, 0], by decide +kernel⟩

/-- C36, what holds.  For every trellis, message and puncture matrix with a non-empty first row, the result is the
selected bits of the unpunctured code word followed by zeros up to the unpunctured length (so the selected bits are
its prefix, and the claim of C36 holds exactly when nothing is punctured). -/
theorem C36_puncture_partial {t : Trellis} (hk : 0 < t.k) (hn : 0 < t.n) (outLen : Nat → Nat) (msg : List Nat)
    (term : String) (row : List Nat) (rows : List (List Nat)) (hrow : row ≠ []) (full : List Nat)
    (hfull : convEncode outLen t msg term none = .ok full) :
    convEncode outLen t msg term (some (row :: rows)) =
        .ok (punctSelected row full ++ List.replicate (full.length - (punctSelected row full).length) 0) ∧
      (convEncode outLen t msg term (some (row :: rows)) = .ok (punctSelected row full) ↔
        (punctSelected row full).length = full.length) := by
  rw [convEncode_none hk hn] at hfull
  have hle : (punctSelected row full).length ≤ full.length := by
    unfold punctSelected
    rw [List.length_map]
    calc _ ≤ (List.range full.length).length := List.length_filter_le _ _
      _ = full.length := List.length_range
  have e : convEncode outLen t msg term (some (row :: rows)) =
      .ok (punctSelected row full ++ List.replicate (full.length - (punctSelected row full).length) 0) := by
    unfold convEncode
    cases hc : convEncodeRun outLen t msg term with
    | error e => rw [hc] at hfull; cases hfull
    | ok r =>
      rw [hc] at hfull
      have hr : r.2 = full := by
        have : Except.ok r.2 = (Except.ok full : Py (List Nat)) := hfull
        cases this; rfl
      have h0 : pyGet ((some (row :: rows)).getD (List.replicate t.k (List.replicate t.n 1))) 0 = .ok row := by
        have := pyGet_ok (l := row :: rows) (i := 0) (by simp)
        simpa using this
      simp only [bind, Except.bind, h0]
      rw [punctLoop_eq hrow, hr]
  refine ⟨e, ?_⟩
  rw [e]
  constructor
  · intro h
    have h1 : punctSelected row full ++ List.replicate (full.length - (punctSelected row full).length) 0 =
        punctSelected row full := by injection h
    have h2 := congrArg List.length h1
    rw [List.length_append, List.length_replicate] at h2
    omega
  · intro h
    rw [h]; simp

end Verif
