import Verif.Lemmas.Recursive
import Verif.Props.Convcode
import Mathlib.Tactic.LinearCombination
/-
C115: recursive encoders and their transfer function.
-/
namespace Verif

open PowerSeries

/-- Coded stream `j` of an encoder with `n` outputs. -/
def codeStream (n : Nat) (c : List Nat) (j t : Nat) : Nat := c.getD (t * n + j) 0

/-- C115: the code sequence of an encoder with a feedback matrix, for any number of inputs and any registers: the register
sequences `x` are the only solution of the difference equations prescribed by the feedback matrix, and output `j` at time `t` is
the parity prescribed by column `j` of the generator matrix (constant coefficients act on the input, the others on the
register sequences). -/
theorem C115_state_equations {memory : List Nat} {G : List (List Nat)} {n : Nat} {F : List (List Nat)}
    {fmt : String} (h : TrellisArgs memory G n (some F) fmt) (hg : FitsMemory fmt memory n G)
    (hf : FitsMemoryFb fmt memory F) (hn : 0 < n) (junk : Nat → Nat → Nat) (rsc : Bool) :
    ∃ t, mkTrellis junk memory G n (some F) rsc fmt = .ok t ∧
      ∀ (msg : List Nat) (outLen : Nat → Nat), (∀ b ∈ msg, b < 2) → outLen msg.length = msg.length * n / G.length →
        ∃ x, RegisterEq fmt memory F (inputAt G.length msg) x ∧
          (∀ y, RegisterEq fmt memory F (inputAt G.length msg) y → ∀ l < memory.length, ∀ s, y l s = x l s) ∧
          convEncode outLen t msg "cont" none =
            .ok (((List.range (msg.length / G.length)).flatMap fun s => (List.range n).map fun j =>
                tapParity fmt memory (fun c => matAt G c j) (inputAt G.length msg) x s) ++
              List.replicate (msg.length * n / G.length - msg.length / G.length * n) 0) := by
  refine ⟨_, mkTrellis_ok h, ?_⟩
  have hw := trellisOf_WF (junk := junk) (rsc := rsc) h
  intro msg outLen hb ho
  have hx := regSeq_eq fmt memory F (inputAt G.length msg)
  refine ⟨_, hx, fun y hy l hl s => regSeq_unique hy hx s l hl, ?_⟩
  have e1 : (encInput (trellisOf junk memory G n (some F) rsc fmt) msg "cont").1 = msg := by rw [encInput_fst]; simp
  have e2 : (encInput (trellisOf junk memory G n (some F) rsc fmt) msg "cont").2 = msg.length := by
    rw [encInput_snd]; simp
  have := convEncode_main hw hn (outLen := outLen) hb (term := "cont") (by simp) (by
    rw [e1, e2, ho]; exact steps_le h.k_pos)
  rw [this, e1, e2, ho]
  rw [show (trellisOf junk memory G n (some F) rsc fmt).k = G.length from rfl,
    show (trellisOf junk memory G n (some F) rsc fmt).n = n from rfl, inSyms_eq,
    rec_runOut (feedback := some F) h hg hf hb hx _ (le_refl _)]

/-! ### One input -/

/-- Coefficients of a polynomial of degree at most `M`. -/
def coefUpTo (fmt : String) (M p d : Nat) : Nat := if d ≤ M then polyCoef fmt (M + 1) p d else 0

theorem coefUpTo_zero {fmt : String} {M p : Nat} : ∀ d, M < d → coefUpTo fmt M p d = 0 :=
  fun d hd => by rw [coefUpTo, if_neg (by omega)]

theorem coefUpTo_lt_two (fmt : String) (M p d : Nat) : coefUpTo fmt M p d < 2 := by
  unfold coefUpTo
  split
  · exact polyCoef_lt_two _ _ _ _
  · omega

theorem tapParity_cast (fmt : String) (M : Nat) (P : Nat → Nat) (u x : Nat → Nat → Nat) (t : Nat) :
    ((tapParity fmt [M] P u x t : Nat) : ZMod 2) =
      coeff t (C (coefUpTo fmt M (P 0) 0 : ZMod 2) * toPS (u 0) + toPS (coefUpTo fmt M (P 0)) * toPS (x 0) +
        C (coefUpTo fmt M (P 0) 0 : ZMod 2) * toPS (x 0)) := by
  rw [map_add, map_add, ← cast_past_sum coefUpTo_zero, Finset.sum_range_succ', coeff_C_mul, coeff_C_mul]
  unfold tapParity
  rw [ZMod.natCast_mod]
  have hm : memMax [M] = M := memMax_single M
  simp only [List.length_singleton, Finset.sum_range_one, hm, List.getD_cons_zero]
  have e : ∀ d, d < M → coefUpTo fmt M (P 0) (d + 1) = polyCoef fmt (M + 1) (P 0) (d + 1) :=
    fun d hd => by rw [coefUpTo, if_pos (by omega)]
  have e' : ∑ d ∈ Finset.range M, coefUpTo fmt M (P 0) (d + 1) * past (x 0) t (d + 1) =
      ∑ d ∈ Finset.range M, polyCoef fmt (M + 1) (P 0) (d + 1) * past (x 0) t (d + 1) := by
    apply Finset.sum_congr rfl
    intro d hd
    rw [e d (Finset.mem_range.1 hd)]
  rw [e', past_zero, show coefUpTo fmt M (P 0) 0 = polyCoef fmt (M + 1) (P 0) 0 from by rw [coefUpTo, if_pos (by omega)]]
  simp only [toPS, coeff_mk]
  push_cast
  have := CharTwo.add_self_eq_zero ((polyCoef fmt (M + 1) (P 0) 0 : ZMod 2) * (x 0 t : ZMod 2))
  linear_combination -this

/-- Numerator realised by the matrix construction: `g + g(0) (f + 1)`. -/
def realised (fmt : String) (M f g d : Nat) : Nat :=
  (coefUpTo fmt M g d + coefUpTo fmt M g 0 * (coefUpTo fmt M f d + if d = 0 then 1 else 0)) % 2

theorem realised_zero {fmt : String} {M f g : Nat} : ∀ d, M < d → realised fmt M f g d = 0 := by
  intro d hd
  rw [realised, coefUpTo_zero d hd, coefUpTo_zero d hd, if_neg (by omega)]
  simp

theorem toPS_realised (fmt : String) (M f g : Nat) :
    toPS (realised fmt M f g) = toPS (coefUpTo fmt M g) + C (coefUpTo fmt M g 0 : ZMod 2) * (toPS (coefUpTo fmt M f) + 1) := by
  ext d
  rw [map_add, coeff_C_mul, map_add]
  simp only [toPS, coeff_mk, realised, ZMod.natCast_mod, PowerSeries.coeff_one]
  push_cast
  split <;> simp

/-- The algebra of one-input encoders. -/
theorem transfer {fmt : String} {M f : Nat} (hf0 : coefUpTo fmt M f 0 = 1) {F : List (List Nat)} (hF : matAt F 0 0 = f)
    {u x : Nat → Nat → Nat} (hx : RegisterEq fmt [M] F u x) {P : Nat → Nat} {y : Nat → Nat}
    (hy : ∀ t, y t = tapParity fmt [M] P u x t) :
    toPS (coefUpTo fmt M f) * toPS y = toPS (realised fmt M f (P 0)) * toPS (u 0) := by
  have h1 : toPS (coefUpTo fmt M f) * toPS (x 0) = toPS (u 0) := by
    have e : toPS (x 0) = C (coefUpTo fmt M f 0 : ZMod 2) * toPS (u 0) + toPS (coefUpTo fmt M f) * toPS (x 0) +
        C (coefUpTo fmt M f 0 : ZMod 2) * toPS (x 0) := by
      ext t
      have := tapParity_cast fmt M (fun c => matAt F 0 c) u x t
      rw [← hx 0 (by simp) t, hF] at this
      rw [← this]
      simp [toPS]
    rw [hf0, Nat.cast_one, map_one, one_mul, one_mul] at e
    have h2 := add_self_two (toPS (u 0))
    linear_combination -e - h2
  have h2 : toPS y = C (coefUpTo fmt M (P 0) 0 : ZMod 2) * toPS (u 0) + toPS (coefUpTo fmt M (P 0)) * toPS (x 0) +
        C (coefUpTo fmt M (P 0) 0 : ZMod 2) * toPS (x 0) := by
    ext t
    have := tapParity_cast fmt M P u x t
    rw [← hy t] at this
    rw [← this]
    simp [toPS]
  rw [h2, toPS_realised]
  linear_combination (toPS (coefUpTo fmt M (P 0)) + C (coefUpTo fmt M (P 0) 0 : ZMod 2)) * h1

/-- Polynomial (in `fmt` format, degree at most `M`) times sequence, modulo 2. -/
def polyMul (fmt : String) (M p : Nat) (y : Nat → Nat) (t : Nat) : Nat := polyTimes (polyCoef fmt (M + 1) p) M y t

theorem polyTimes_congr {p q y z : Nat → Nat} {M t : Nat} (hp : ∀ d ≤ M, p d = q d) (hy : ∀ s ≤ t, y s = z s) :
    polyTimes p M y t = polyTimes q M z t := by
  unfold polyTimes
  congr 1
  apply Finset.sum_congr rfl
  intro d hd
  rw [Finset.mem_range] at hd
  rw [hp d (by omega)]
  congr 1
  unfold past
  by_cases h : d ≤ t
  · rw [if_pos h, if_pos h, hy _ (by omega)]
  · rw [if_neg h, if_neg h]

theorem flatMap_stream (n L : Nat) (y : Nat → Nat → Nat) : ∀ s < L, ∀ j < n,
    codeStream n ((List.range L).flatMap fun s => (List.range n).map fun j => y j s) j s = y j s := by
  induction L with
  | zero => intro s hs; omega
  | succ L ih =>
    intro s hs j hj
    have hlen : ∀ L, ((List.range L).flatMap fun s => (List.range n).map fun j => y j s).length = L * n := by
      intro L
      induction L with
      | zero => simp
      | succ L ih => rw [List.range_succ, List.flatMap_append, List.length_append, ih]; simp [Nat.succ_mul]
    unfold codeStream
    rw [List.range_succ, List.flatMap_append]
    by_cases h : s < L
    · have hlt : s * n + j < L * n := by
        calc s * n + j < s * n + n := by omega
          _ = (s + 1) * n := by rw [Nat.succ_mul]
          _ ≤ L * n := Nat.mul_le_mul_right _ h
      rw [List.getD_append _ _ _ _ (by rw [hlen]; exact hlt)]
      exact ih s h j hj
    · have hs' : s = L := by omega
      subst hs'
      rw [List.getD_append_right _ _ _ _ (by rw [hlen]; omega), hlen]
      simp only [List.flatMap_cons, List.flatMap_nil, List.append_nil]
      rw [show s * n + j - s * n = j by omega, getD_map_range _ _ hj]

/-- Everything about the code sequence of a one-input encoder with feedback polynomial `f`. -/
theorem one_input {M n f : Nat} {g : List Nat} {fmt : String} (h : TrellisArgs [M] [g] n (some [[f]]) fmt) (hn : 0 < n)
    (hf0 : polyCoef fmt (M + 1) f 0 = 1) (junk : Nat → Nat → Nat) (rsc : Bool) (msg : List Nat) (outLen : Nat → Nat)
    (hb : ∀ b ∈ msg, b < 2) (ho : outLen msg.length = msg.length * n) :
    ∃ c, convEncode outLen (trellisOf junk [M] [g] n (some [[f]]) rsc fmt) msg "cont" none = .ok c ∧
      c.length = msg.length * n ∧ (∀ b ∈ c, b < 2) ∧
      ∀ j < n, ∀ s < msg.length, polyMul fmt M f (codeStream n c j) s =
        polyTimes (realised fmt M f (g.getD j 0)) M (fun s => msg.getD s 0) s := by
  have hm : memMax [M] = M := memMax_single M
  have hlen1 : ([g] : List (List Nat)).length = 1 := rfl
  have hg : FitsMemory fmt [M] n [g] := by
    intro i hi j _ d h1 h2
    have : i = 0 := by simpa using hi
    subst this
    rw [hm] at h2
    simp at h1
    omega
  have hf : FitsMemoryFb fmt [M] [[f]] := by
    intro l _ c hc d h1 h2
    have : c = 0 := by simpa using hc
    subst this
    rw [hm] at h2
    simp at h1
    omega
  obtain ⟨t, ht, H⟩ := C115_state_equations h hg hf hn junk rsc
  rw [mkTrellis_ok h] at ht
  injection ht with ht
  obtain ⟨x, hx, -, henc⟩ := H msg outLen hb (by rw [ho, hlen1, Nat.div_one])
  rw [← ht] at henc
  rw [hlen1, Nat.div_one, Nat.div_one, Nat.sub_self, List.replicate_zero, List.append_nil] at henc
  refine ⟨_, henc, ?_, ?_, ?_⟩
  · have : ∀ L : Nat, ((List.range L).flatMap fun s => (List.range n).map fun j =>
        tapParity fmt [M] (fun c => matAt [g] c j) (inputAt 1 msg) x s).length = L * n := by
      intro L
      induction L with
      | zero => simp
      | succ L ih => rw [List.range_succ, List.flatMap_append, List.length_append, ih]; simp [Nat.succ_mul]
    exact this _
  · intro b hbm
    simp only [List.mem_flatMap, List.mem_map] at hbm
    obtain ⟨s, _, j, _, rfl⟩ := hbm
    unfold tapParity
    omega
  · intro j hj s hs
    have hst : ∀ r ≤ s, codeStream n ((List.range msg.length).flatMap fun s => (List.range n).map fun j =>
        tapParity fmt [M] (fun c => matAt [g] c j) (inputAt 1 msg) x s) j r =
        tapParity fmt [M] (fun c => matAt [g] c j) (inputAt 1 msg) x r :=
      fun r hr => flatMap_stream n msg.length (fun j s => tapParity fmt [M] (fun c => matAt [g] c j) (inputAt 1 msg) x s)
        r (by omega) j hj
    have hc0 : coefUpTo fmt M f 0 = 1 := by rw [coefUpTo, if_pos (by omega)]; exact hf0
    have key := transfer (fmt := fmt) (M := M) (f := f) hc0 (F := [[f]]) rfl hx (P := fun c => matAt [g] c j)
      (y := fun t => tapParity fmt [M] (fun c => matAt [g] c j) (inputAt 1 msg) x t) (fun _ => rfl)
    have key' := (polyTimes_eq_iff (M := M) (N := M) coefUpTo_zero realised_zero s).2 (congrArg (coeff s) key)
    unfold polyMul
    rw [polyTimes_congr (p := polyCoef fmt (M + 1) f) (q := coefUpTo fmt M f)
      (fun d hd => by rw [coefUpTo, if_pos hd]) hst, key']
    apply polyTimes_congr (fun d _ => rfl)
    intro r _
    simp [inputAt]

/-- C115, matrix form: with the feedback polynomial `f` (constant coefficient 1), every coded stream `y_j` satisfies
`f(D) y_j = (g_j + g_j(0) (f + 1))(D) u`. -/
theorem C115_matrix_actual {M n f : Nat} {g : List Nat} {fmt : String} (h : TrellisArgs [M] [g] n (some [[f]]) fmt) (hn : 0 < n)
    (hf0 : polyCoef fmt (M + 1) f 0 = 1) (junk : Nat → Nat → Nat) (rsc : Bool) :
    ∃ t, mkTrellis junk [M] [g] n (some [[f]]) rsc fmt = .ok t ∧
      ∀ (msg : List Nat) (outLen : Nat → Nat), (∀ b ∈ msg, b < 2) → outLen msg.length = msg.length * n →
        ∃ c, convEncode outLen t msg "cont" none = .ok c ∧ c.length = msg.length * n ∧ (∀ b ∈ c, b < 2) ∧
          ∀ j < n, ∀ s < msg.length, polyMul fmt M f (codeStream n c j) s =
            polyTimes (fun d => (polyCoef fmt (M + 1) (g.getD j 0) d + polyCoef fmt (M + 1) (g.getD j 0) 0 *
              (polyCoef fmt (M + 1) f d + if d = 0 then 1 else 0)) % 2) M (fun s => msg.getD s 0) s := by
  refine ⟨_, mkTrellis_ok h, ?_⟩
  intro msg outLen hb ho
  obtain ⟨c, h1, h2, h3, h4⟩ := one_input h hn hf0 junk rsc msg outLen hb ho
  refine ⟨c, h1, h2, h3, ?_⟩
  intro j hj s hs
  rw [h4 j hj s hs]
  refine polyTimes_congr (fun d hd => ?_) (fun _ _ => rfl)
  rw [realised, coefUpTo, coefUpTo, coefUpTo, if_pos hd, if_pos hd, if_pos (Nat.zero_le _)]

/-- Coded stream `j` of the encoder `t` is the message filtered by `g / f`: `f(D) y_j = g(D) u` for every message. -/
def RealisesQuotient (t : Trellis) (fmt : String) (M f g j : Nat) : Prop :=
  ∀ (msg : List Nat) (outLen : Nat → Nat), (∀ b ∈ msg, b < 2) → outLen msg.length = msg.length * t.n →
    ∃ c, convEncode outLen t msg "cont" none = .ok c ∧ c.length = msg.length * t.n ∧
      ∀ s < msg.length, polyMul fmt M f (codeStream t.n c j) s = polyMul fmt M g (fun s => msg.getD s 0) s

/-- The impulse. -/
theorem polyTimes_impulse {p : Nat → Nat} {M s : Nat} (hs : s ≤ M) :
    polyTimes p M (fun r => ((1 :: List.replicate M 0 : List Nat)).getD r 0) s = p s % 2 := by
  unfold polyTimes
  congr 1
  rw [Finset.sum_eq_single s]
  · simp [past]
  · intro d _ hd
    unfold past
    by_cases h : d ≤ s
    · rw [if_pos h]
      obtain ⟨r, hr⟩ : ∃ r, s - d = r + 1 := ⟨s - d - 1, by omega⟩
      rw [hr]
      dsimp only
      rw [List.getD_cons_succ, List.getD_replicate _ (by omega)]
      simp
    · rw [if_neg h]; simp
  · intro h; rw [Finset.mem_range] at h; omega

theorem realises_iff {M n f : Nat} {g : List Nat} {fmt : String} (h : TrellisArgs [M] [g] n (some [[f]]) fmt) (hn : 0 < n)
    (hf0 : polyCoef fmt (M + 1) f 0 = 1) (junk : Nat → Nat → Nat) (rsc : Bool) {j p : Nat} (hj : j < n) :
    RealisesQuotient (trellisOf junk [M] [g] n (some [[f]]) rsc fmt) fmt M f p j ↔
      ∀ d ≤ M, realised fmt M f (g.getD j 0) d = polyCoef fmt (M + 1) p d := by
  constructor
  · intro H d hd
    have hb : ∀ b ∈ (1 :: List.replicate M 0 : List Nat), b < 2 := by
      intro b hb
      rcases List.mem_cons.1 hb with rfl | hb
      · omega
      · have := List.eq_of_mem_replicate hb; omega
    obtain ⟨c, h1, -, h3⟩ := H (1 :: List.replicate M 0) (fun N => N * n) hb rfl
    obtain ⟨c', k1, -, -, k4⟩ := one_input h hn hf0 junk rsc (1 :: List.replicate M 0) (fun N => N * n) hb rfl
    rw [h1] at k1
    injection k1 with k1
    subst k1
    have a := h3 d (by simp; omega)
    have b := k4 j hj d (by simp; omega)
    change polyMul fmt M f (codeStream n c j) d = _ at a
    rw [b, polyTimes_impulse hd, polyMul, polyTimes_impulse hd] at a
    rwa [Nat.mod_eq_of_lt (show realised fmt M f (g.getD j 0) d < 2 by unfold realised; omega),
      Nat.mod_eq_of_lt (polyCoef_lt_two _ _ _ _)] at a
  · intro H msg outLen hb ho
    obtain ⟨c, h1, h2, -, h4⟩ := one_input h hn hf0 junk rsc msg outLen hb ho
    refine ⟨c, h1, h2, ?_⟩
    intro s hs
    change polyMul fmt M f (codeStream n c j) s = _
    rw [h4 j hj s hs]
    exact polyTimes_congr H (fun _ _ => rfl)

/-- C115, matrix form: coded stream `j` is `g_j / f` exactly when `g_j` has no constant coefficient or there is no feedback. -/
theorem C115_matrix_iff {M n f : Nat} {g : List Nat} {fmt : String} (h : TrellisArgs [M] [g] n (some [[f]]) fmt) (hn : 0 < n)
    (hf0 : polyCoef fmt (M + 1) f 0 = 1) (junk : Nat → Nat → Nat) (rsc : Bool) {j : Nat} (hj : j < n) :
    ∃ t, mkTrellis junk [M] [g] n (some [[f]]) rsc fmt = .ok t ∧
      (RealisesQuotient t fmt M f (g.getD j 0) j ↔
        polyCoef fmt (M + 1) (g.getD j 0) 0 = 0 ∨ ∀ d, 1 ≤ d → d ≤ M → polyCoef fmt (M + 1) f d = 0) := by
  refine ⟨_, mkTrellis_ok h, ?_⟩
  rw [realises_iff h hn hf0 junk rsc hj]
  have e : ∀ d ≤ M, realised fmt M f (g.getD j 0) d = (polyCoef fmt (M + 1) (g.getD j 0) d +
      polyCoef fmt (M + 1) (g.getD j 0) 0 * (polyCoef fmt (M + 1) f d + if d = 0 then 1 else 0)) % 2 := by
    intro d hd
    rw [realised, coefUpTo, coefUpTo, coefUpTo, if_pos hd, if_pos hd, if_pos (Nat.zero_le _)]
  have hg0 := polyCoef_lt_two fmt (M + 1) (g.getD j 0) 0
  constructor
  · intro H
    by_cases h0 : polyCoef fmt (M + 1) (g.getD j 0) 0 = 0
    · exact Or.inl h0
    · right
      intro d h1 h2
      have := H d h2
      rw [e d h2, show polyCoef fmt (M + 1) (g.getD j 0) 0 = 1 by omega, if_neg (by omega)] at this
      have a := polyCoef_lt_two fmt (M + 1) (g.getD j 0) d
      have b := polyCoef_lt_two fmt (M + 1) f d
      omega
  · intro H d hd
    rw [e d hd]
    have a := polyCoef_lt_two fmt (M + 1) (g.getD j 0) d
    rcases H with H | H
    · rw [H, Nat.zero_mul, Nat.add_zero, Nat.mod_eq_of_lt a]
    · by_cases h0 : d = 0
      · subst h0
        rw [hf0, if_pos rfl]
        omega
      · rw [H d (by omega) hd, if_neg h0, Nat.add_zero, Nat.mul_zero, Nat.add_zero, Nat.mod_eq_of_lt a]

/-- C115 is false as stated for the matrix form: feedback `1 + D + D^2`, generator `1 + D^2`. -/
theorem C115_matrix_refuted (junk : Nat → Nat → Nat) (rsc : Bool) :
    ∃ t, mkTrellis junk [2] [[1, 5]] 2 (some [[7]]) rsc "MSB" = .ok t ∧ ¬ RealisesQuotient t "MSB" 2 7 5 1 := by
  have h : TrellisArgs [2] [[1, 5]] 2 (some [[7]]) "MSB" :=
    ⟨by decide, by decide, by decide, ⟨by decide, by decide⟩, by decide, fun F hF => by
      injection hF with hF; subst hF; exact ⟨by decide, by decide⟩, fun F hF => by
      injection hF with hF; subst hF; decide⟩
  obtain ⟨t, ht, hiff⟩ := C115_matrix_iff h (by decide) (by decide) junk rsc (j := 1) (by decide)
  refine ⟨t, ht, fun H => ?_⟩
  rcases hiff.1 H with H | H
  · exact absurd H (by decide)
  · exact absurd (H 1 (by decide) (by decide)) (by decide)

/-- The polynomials of the integer form, as the encoder uses them: generator `j` (the feedback polynomial itself for the first
output of an 'rsc' code). -/
def legacyPoly (g : List Nat) (f : Nat) (rsc : Bool) (j : Nat) : Nat := if rsc = true ∧ j = 0 then f else g.getD j 0

theorem legacyFb_self {M f : Nat} (h1 : 2 ^ M ≤ f) (h2 : f < 2 ^ (M + 1)) : legacyFb M f = f := by
  unfold legacyFb
  have e : 2 ^ (M + 1) = 2 ^ M + 2 ^ M := by rw [Nat.pow_succ]; ring
  rw [Nat.mod_eq_sub_mod h1, Nat.mod_eq_of_lt (by omega)]
  omega

theorem legacyGens_getD {M f j : Nat} {g : List Nat} {rsc : Bool} (hj : j < g.length) :
    (legacyGens M g f rsc).getD j 0 = legacyPoly g f rsc j ^^^ (f % 2 ^ M) := by
  unfold legacyGens legacyPoly
  have hl : j < ((if rsc = true then g.set 0 f else g).map fun p => p ^^^ (f % 2 ^ M)).length := by
    rw [List.length_map]; split <;> simp [hj]
  rw [List.getD_eq_getElem _ _ hl, List.getElem_map]
  congr 1
  cases rsc
  · simp [hj]
  · by_cases h0 : j = 0
    · subst h0; simp
    · simp [h0, hj, Ne.symm h0]

theorem legacy_realised {M f j : Nat} {g : List Nat} {rsc : Bool} (hj : j < g.length) (h1 : 2 ^ M ≤ f)
    (h2 : f < 2 ^ (M + 1)) {d : Nat} (hd : d ≤ M) :
    realised "LSB" M f ((legacyGens M g f rsc).getD j 0) d =
      (polyCoef "LSB" (M + 1) (legacyPoly g f rsc j) d + (1 + polyCoef "LSB" (M + 1) (legacyPoly g f rsc j) 0) *
        (polyCoef "LSB" (M + 1) f d + if d = 0 then 1 else 0)) % 2 := by
  rw [legacyGens_getD hj]
  have hlow : ∀ d ≤ M, polyCoef "LSB" (M + 1) (f % 2 ^ M) d = if d = 0 then 0 else polyCoef "LSB" (M + 1) f d := by
    intro d hd
    simp only [polyCoef, if_neg (show ¬ ("LSB" = "MSB") by decide), Nat.add_sub_cancel]
    rcases d with _ | d
    · rw [if_pos rfl, Nat.sub_zero, Nat.div_eq_of_lt (Nat.mod_lt _ (by positivity))]
    · rw [if_neg (by omega)]
      have e : 2 ^ M = 2 ^ (M - (d + 1)) * (2 * 2 ^ d) := by
        rw [← Nat.pow_succ', ← Nat.pow_add]; congr 1; omega
      rw [e, Nat.mod_mul_right_div_self, Nat.mod_mul_right_mod]
  rw [realised, coefUpTo, coefUpTo, coefUpTo, if_pos hd, if_pos hd, if_pos (Nat.zero_le _), polyCoef_xor, polyCoef_xor,
    hlow d hd, hlow 0 (Nat.zero_le _), if_pos rfl, Nat.add_zero]
  have a := polyCoef_lt_two "LSB" (M + 1) (legacyPoly g f rsc j) d
  have b := polyCoef_lt_two "LSB" (M + 1) f d
  have c := polyCoef_lt_two "LSB" (M + 1) (legacyPoly g f rsc j) 0
  have hf0 : polyCoef "LSB" (M + 1) f 0 = 1 := by
    rw [← legacyFb_self h1 h2, legacyFb_coef (Nat.zero_le _), if_pos rfl]
  generalize hp0 : polyCoef "LSB" (M + 1) (legacyPoly g f rsc j) 0 = p0 at *
  by_cases h0 : d = 0
  · subst h0
    rw [if_pos rfl, if_pos rfl, hf0, hp0]
    omega
  · rw [if_neg h0, if_neg h0]
    rcases (show p0 = 0 ∨ p0 = 1 by omega) with rfl | rfl <;> omega

/-- C115, integer form: with the feedback integer `f` (leading coefficient 1), every coded stream satisfies
`f(D) y_j = (g_j + (1 + g_j(0)) (f + 1))(D) u`. -/
theorem C115_integer_actual {M f : Nat} {g : List Nat} {rsc : Bool} (hM : 0 < M) (h1 : 2 ^ M ≤ f) (h2 : f < 2 ^ (M + 1))
    (hg : ∀ p ∈ g, p < 2 ^ (M + 1)) (hn : 0 < g.length) :
    ∃ t, mkTrellisLegacy M g f rsc = .ok t ∧
      ∀ (msg : List Nat) (outLen : Nat → Nat), (∀ b ∈ msg, b < 2) → outLen msg.length = msg.length * g.length →
        ∃ c, convEncode outLen t msg "cont" none = .ok c ∧ c.length = msg.length * g.length ∧ (∀ b ∈ c, b < 2) ∧
          ∀ j < g.length, ∀ s < msg.length, polyMul "LSB" M f (codeStream g.length c j) s =
            polyTimes (fun d => (polyCoef "LSB" (M + 1) (legacyPoly g f rsc j) d +
              (1 + polyCoef "LSB" (M + 1) (legacyPoly g f rsc j) 0) *
              (polyCoef "LSB" (M + 1) f d + if d = 0 then 1 else 0)) % 2) M (fun s => msg.getD s 0) s := by
  refine ⟨_, mkTrellisLegacy_eq (fun _ _ => 0) hM h2 hg, ?_⟩
  intro msg outLen hb ho
  have hargs := legacyArgs (rsc := rsc) h2 hg
  rw [legacyFb_self h1 h2] at hargs ⊢
  have hf0 : polyCoef "LSB" (M + 1) f 0 = 1 := by
    rw [← legacyFb_self h1 h2, legacyFb_coef (Nat.zero_le _), if_pos rfl]
  obtain ⟨c, k1, k2, k3, k4⟩ := one_input hargs hn hf0 (fun _ _ => 0) rsc msg outLen hb ho
  refine ⟨c, k1, k2, k3, ?_⟩
  intro j hj s hs
  rw [k4 j hj s hs]
  exact polyTimes_congr (fun d hd => legacy_realised hj h1 h2 hd) (fun _ _ => rfl)

/-- C115, integer form: coded stream `j` is `g_j / f` exactly when `g_j` has the constant coefficient 1 or there is no
feedback.  In particular every generator whose leading bit is set works as stated. -/
theorem C115_integer_iff {M f : Nat} {g : List Nat} {rsc : Bool} (hM : 0 < M) (h1 : 2 ^ M ≤ f) (h2 : f < 2 ^ (M + 1))
    (hg : ∀ p ∈ g, p < 2 ^ (M + 1)) {j : Nat} (hj : j < g.length) :
    ∃ t, mkTrellisLegacy M g f rsc = .ok t ∧
      (RealisesQuotient t "LSB" M f (legacyPoly g f rsc j) j ↔
        polyCoef "LSB" (M + 1) (legacyPoly g f rsc j) 0 = 1 ∨ ∀ d, 1 ≤ d → d ≤ M → polyCoef "LSB" (M + 1) f d = 0) := by
  refine ⟨_, mkTrellisLegacy_eq (fun _ _ => 0) hM h2 hg, ?_⟩
  have hargs := legacyArgs (rsc := rsc) h2 hg
  rw [legacyFb_self h1 h2] at hargs ⊢
  have hf0 : polyCoef "LSB" (M + 1) f 0 = 1 := by
    rw [← legacyFb_self h1 h2, legacyFb_coef (Nat.zero_le _), if_pos rfl]
  rw [realises_iff hargs (by omega) hf0 (fun _ _ => 0) rsc hj]
  have c := polyCoef_lt_two "LSB" (M + 1) (legacyPoly g f rsc j) 0
  constructor
  · intro H
    by_cases h0 : polyCoef "LSB" (M + 1) (legacyPoly g f rsc j) 0 = 1
    · exact Or.inl h0
    · right
      intro d hd1 hd2
      have := H d hd2
      rw [legacy_realised hj h1 h2 hd2, show polyCoef "LSB" (M + 1) (legacyPoly g f rsc j) 0 = 0 by omega,
        if_neg (by omega)] at this
      have a := polyCoef_lt_two "LSB" (M + 1) (legacyPoly g f rsc j) d
      have b := polyCoef_lt_two "LSB" (M + 1) f d
      omega
  · intro H d hd
    rw [legacy_realised hj h1 h2 hd]
    have a := polyCoef_lt_two "LSB" (M + 1) (legacyPoly g f rsc j) d
    rcases H with H | H
    · rw [H]; omega
    · by_cases h0 : d = 0
      · subst h0
        rw [hf0, if_pos rfl]; omega
      · rw [H d (by omega) hd, if_neg h0]; omega

/-- Polynomials with constant coefficient 1 can be cancelled. -/
theorem polyTimes_cancel {f y z : Nat → Nat} {M : Nat} (hf : f 0 = 1) {L : Nat} (hy : ∀ s < L, y s < 2) (hz : ∀ s < L, z s < 2)
    (h : ∀ s < L, polyTimes f M y s = polyTimes f M z s) : ∀ s < L, y s = z s := by
  intro s
  induction s using Nat.strong_induction_on with
  | _ s ih =>
    intro hs
    have := h s hs
    unfold polyTimes at this
    rw [Finset.sum_range_succ', Finset.sum_range_succ', past_zero, past_zero, hf, Nat.one_mul, Nat.one_mul] at this
    have e : ∑ k ∈ Finset.range M, f (k + 1) * past y s (k + 1) = ∑ k ∈ Finset.range M, f (k + 1) * past z s (k + 1) := by
      apply Finset.sum_congr rfl
      intro k _
      congr 1
      unfold past
      by_cases hk : k + 1 ≤ s
      · rw [if_pos hk, if_pos hk, ih (s - (k + 1)) (by omega) (by omega)]
      · rw [if_neg hk, if_neg hk]
    rw [e] at this
    have a := hy s hs
    have b := hz s hs
    omega

/-- C115: 'rsc' codes with an integer feedback are systematic: the first coded stream is the message. -/
theorem C115_integer_systematic {M f : Nat} {g : List Nat} (hM : 0 < M) (h1 : 2 ^ M ≤ f) (h2 : f < 2 ^ (M + 1))
    (hg : ∀ p ∈ g, p < 2 ^ (M + 1)) (hn : 0 < g.length) :
    ∃ t, mkTrellisLegacy M g f true = .ok t ∧
      ∀ (msg : List Nat) (outLen : Nat → Nat), (∀ b ∈ msg, b < 2) → outLen msg.length = msg.length * g.length →
        ∃ c, convEncode outLen t msg "cont" none = .ok c ∧ c.length = msg.length * g.length ∧
          ∀ s < msg.length, codeStream g.length c 0 s = msg.getD s 0 := by
  obtain ⟨t, ht, H⟩ := C115_integer_actual (rsc := true) hM h1 h2 hg hn
  refine ⟨t, ht, ?_⟩
  intro msg outLen hb ho
  obtain ⟨c, k1, k2, k3, k4⟩ := H msg outLen hb ho
  refine ⟨c, k1, k2, ?_⟩
  have hf0 : polyCoef "LSB" (M + 1) f 0 = 1 := by
    rw [← legacyFb_self h1 h2, legacyFb_coef (Nat.zero_le _), if_pos rfl]
  refine polyTimes_cancel (f := polyCoef "LSB" (M + 1) f) (M := M) hf0 ?_ ?_ ?_
  · intro s hs
    unfold codeStream
    have hlt : s * g.length + 0 < c.length := by
      rw [k2, Nat.add_zero]; exact Nat.mul_lt_mul_of_pos_right hs hn
    rw [List.getD_eq_getElem _ _ hlt]
    exact k3 _ (List.getElem_mem hlt)
  · intro s hs
    rw [List.getD_eq_getElem _ _ hs]
    exact hb _ (List.getElem_mem hs)
  · intro s hs
    have := k4 0 hn s hs
    rw [polyMul] at this
    rw [this]
    refine polyTimes_congr (fun d hd => ?_) (fun _ _ => rfl)
    have hp : legacyPoly g f true 0 = f := by simp [legacyPoly]
    have b := polyCoef_lt_two "LSB" (M + 1) f d
    rw [hp, hf0]
    omega

/-- The turbo code of the examples (integer feedback 5, generators 5 and 7): the parity stream is `(1 + D + D^2) / (1 + D^2)`
and the first stream is the message. -/
example : ∃ t, mkTrellisLegacy 2 [5, 7] 5 true = .ok t ∧ RealisesQuotient t "LSB" 2 5 7 1 := by
  obtain ⟨t, ht, H⟩ := C115_integer_iff (M := 2) (f := 5) (g := [5, 7]) (rsc := true) (by decide) (by decide) (by decide)
    (by decide) (j := 1) (by decide)
  exact ⟨t, ht, H.2 (Or.inl (by decide))⟩

/-- The `k = 2` recursive code of the example script meets the hypotheses of `C115_state_equations`. -/
example : TrellisArgs [1, 1] [[1, 0, 0], [0, 1, 3]] 3 (some [[2, 2], [3, 1]]) "MSB" ∧
    FitsMemory "MSB" [1, 1] 3 [[1, 0, 0], [0, 1, 3]] ∧ FitsMemoryFb "MSB" [1, 1] [[2, 2], [3, 1]] := by
  refine ⟨⟨by decide, by decide, by decide, ⟨by decide, by decide⟩, by decide, fun F hF => by
      injection hF with hF; subst hF; exact ⟨by decide, by decide⟩, fun F hF => by
      injection hF with hF; subst hF; decide⟩, ?_, ?_⟩
  · intro i hi j hj d h1 h2
    have : memMax [1, 1] = 1 := by decide
    have : i = 0 ∨ i = 1 := by have : i < 2 := hi; omega
    rcases this with rfl | rfl <;> simp at h1 <;> omega
  · intro l hl c hc d h1 h2
    have : memMax [1, 1] = 1 := by decide
    have : c = 0 ∨ c = 1 := by have : c < 2 := hc; omega
    rcases this with rfl | rfl <;> simp at h1 <;> omega

end Verif
