import Verif.Model.ViterbiFloat
import Verif.Spec.Rounding
import Verif.Lemmas.ViterbiUse
import Mathlib.Tactic.Linarith
import Mathlib.Tactic.Positivity
/-
The Viterbi recursion with an addition that only respects the order: it minimises the cost accumulated from left to right.
-/
namespace Verif

/-- Cost of a path added up from left to right, starting with `acc`. -/
def leftCost {R : Type} [Add R] (t : Trellis) (μ : Nat → Nat → Nat → R) : R → Nat → Nat → List Nat → R
  | acc, _, _, [] => acc
  | acc, τ, s, u :: us => leftCost t μ (acc + μ (τ + 1) s u) (τ + 1) (t.next s u) us

section
variable {R α : Type} [LinearOrder R] [Add R] [Zero R]

omit [LinearOrder R] [Zero R] in
theorem leftCost_snoc (t : Trellis) (μ : Nat → Nat → Nat → R) : ∀ (us : List Nat) (acc : R) (τ s u : Nat),
    leftCost t μ acc τ s (us ++ [u]) = leftCost t μ acc τ s us + μ (τ + us.length + 1) (t.runState s us) u := by
  intro us
  induction us with
  | nil => intro acc τ s u; simp [leftCost, Trellis.runState]
  | cons v us ih =>
    intro acc τ s u
    rw [List.cons_append, leftCost, ih, leftCost, Trellis.runState_cons, List.length_cons,
      show τ + 1 + us.length + 1 = τ + (us.length + 1) + 1 by omega]

theorem survivor_left {t : Trellis} (h : t.Balanced) {μ : Nat → Nat → Nat → R} : ∀ (τ s : Nat), s < 2 ^ t.M →
    (pmSeq t μ τ).getD s ⊤ ≠ ⊤ → t.runState 0 (survivor t μ τ s) = s ∧
      (pmSeq t μ τ).getD s ⊤ = ((leftCost t μ 0 0 0 (survivor t μ τ s) : R) : WithTop R) := by
  intro τ
  induction τ with
  | zero =>
    intro s hs hne
    rw [pmSeq, getD_map_range _ _ hs] at hne ⊢
    by_cases h0 : s = 0
    · subst h0; simp [survivor, Trellis.runState, leftCost]
    · rw [if_neg h0] at hne; exact absurd rfl hne
  | succ τ ih =>
    intro s hs hne
    have hb := bestOf_spec h (pmSeq t μ τ) (μ (τ + 1)) hs
    rw [pmSeq_succ_getD hs] at hne ⊢
    have hp : prevAt t μ (τ + 1) s = (bestOf t (pmSeq t μ τ) (μ (τ + 1)) s).2.1 := rfl
    have hu : symChosen t μ (τ + 1) s = (bestOf t (pmSeq t μ τ) (μ (τ + 1)) s).2.2 := rfl
    obtain ⟨h1, h2, h3, h4, h5⟩ := hb
    have hne' : (pmSeq t μ τ).getD (bestOf t (pmSeq t μ τ) (μ (τ + 1)) s).2.1 ⊤ ≠ ⊤ := by
      intro h0; rw [h4, h0] at hne; simp at hne
    obtain ⟨i1, i2⟩ := ih _ h1 hne'
    constructor
    · rw [survivor, Trellis.runState_append, hp, i1, hu]
      simpa [Trellis.runState] using h3
    · rw [h4, i2, survivor, leftCost_snoc, hp, hu, i1, survivor_length, Nat.zero_add, WithTop.coe_add]

theorem pmSeq_left_le (hadd : ∀ a b c : R, a ≤ b → a + c ≤ b + c) {t : Trellis} (h : t.Balanced) {μ : Nat → Nat → Nat → R} :
    ∀ (us : List Nat), (∀ u ∈ us, u < 2 ^ t.k) →
    (pmSeq t μ us.length).getD (t.runState 0 us) ⊤ ≤ ((leftCost t μ 0 0 0 us : R) : WithTop R) := by
  intro us
  induction us using List.reverseRecOn with
  | nil =>
    intro _
    rw [List.length_nil, pmSeq, getD_map_range _ _ (by show (0 : Nat) < _; positivity)]
    simp [leftCost, Trellis.runState]
  | append_singleton us u ih =>
    intro hu
    have hus : ∀ v ∈ us, v < 2 ^ t.k := fun v hv => hu v (by simp [hv])
    have hs : t.runState 0 us < 2 ^ t.M := h.wf.runState_lt (by positivity) hus
    have hu0 : u < 2 ^ t.k := hu u (by simp)
    have hs' : t.next (t.runState 0 us) u < 2 ^ t.M := h.wf.next_lt hs hu0
    rw [List.length_append, List.length_cons, List.length_nil, Nat.zero_add, Trellis.runState_append]
    show (pmSeq t μ (us.length + 1)).getD (t.next (t.runState 0 us) u) ⊤ ≤ _
    rw [pmSeq_succ_getD hs', leftCost_snoc, Nat.zero_add, WithTop.coe_add]
    refine le_trans ((bestOf_spec h _ _ hs').2.2.2.2 _ _ hs hu0 rfl) ?_
    have hi := ih hus
    obtain ⟨x, hx⟩ := WithTop.ne_top_iff_exists.1 (ne_top_of_le_ne_top WithTop.coe_ne_top hi)
    rw [← hx] at hi ⊢
    rw [← WithTop.coe_add, ← WithTop.coe_add, WithTop.coe_le_coe]
    exact hadd _ _ _ (WithTop.coe_le_coe.1 hi)

/-- The selected path minimises the cost accumulated from left to right. -/
theorem bestPath_left (hadd : ∀ a b c : R, a ≤ b → a + c ≤ b + c) {t : Trellis} (h : t.Balanced) (μ : Nat → Nat → Nat → R) (τ : Nat) :
    IsInput t τ (bestPath t μ τ) ∧ ∀ vs, IsInput t τ vs → leftCost t μ 0 0 0 (bestPath t μ τ) ≤ leftCost t μ 0 0 0 vs := by
  have hlt := argmin_pmSeq_lt t μ τ
  have hne : pmSeq t μ τ ≠ [] := by
    intro h0
    have := pmSeq_length t μ τ
    rw [h0, List.length_nil] at this
    have h2 := Nat.two_pow_pos t.M
    omega
  obtain ⟨hl, hmin⟩ := argminFirst_spec (pmSeq t μ τ) hne
  have hle : ∀ vs, IsInput t τ vs →
      (pmSeq t μ τ).getD (argminFirst (pmSeq t μ τ)) ⊤ ≤ ((leftCost t μ 0 0 0 vs : R) : WithTop R) := by
    rintro vs ⟨rfl, hv⟩
    refine le_trans ?_ (pmSeq_left_le hadd h vs hv)
    have hs : t.runState 0 vs < 2 ^ t.M := h.wf.runState_lt (by positivity) hv
    rw [List.getD_eq_getElem _ _ hl, List.getD_eq_getElem _ _ (by rw [pmSeq_length]; exact hs)]
    exact hmin _ (List.getElem_mem _)
  have hfin : (pmSeq t μ τ).getD (argminFirst (pmSeq t μ τ)) ⊤ ≠ ⊤ := by
    have := hle (List.replicate τ 0) ⟨by simp, fun u hu => by
      rw [List.eq_of_mem_replicate hu]; positivity⟩
    intro h0
    rw [h0, top_le_iff] at this
    exact WithTop.coe_ne_top this
  have hsp := survivor_left h τ _ hlt hfin
  refine ⟨⟨survivor_length _ _ _ _, survivor_lt h τ _ hlt⟩, ?_⟩
  intro vs hv
  have := hle vs hv
  rw [hsp.2] at this
  exact WithTop.coe_le_coe.1 this

end

/-! ### Rounded sums -/

theorem IsRounding.zero {u : ℝ} {fl : ℝ → ℝ} (h : IsRounding u fl) : fl 0 = 0 := by
  have := h.err 0
  simpa using this

theorem IsRounding.bounds {u : ℝ} {fl : ℝ → ℝ} (h : IsRounding u fl) {x : ℝ} (hx : 0 ≤ x) : (1 - u) * x ≤ fl x ∧ fl x ≤ (1 + u) * x := by
  have := abs_le.1 (h.err x)
  rw [abs_of_nonneg hx] at this
  constructor <;> linarith [this.1, this.2]

theorem IsRounding.nonneg {u : ℝ} {fl : ℝ → ℝ} (h : IsRounding u fl) {x : ℝ} (hx : 0 ≤ x) : 0 ≤ fl x := by
  rw [← h.zero]; exact h.mono hx

/-- Between `(1-u)^a` and `(1+u)^a` times a non-negative number. -/
def Within (u : ℝ) (a : Nat) (x y : ℝ) : Prop := 0 ≤ x ∧ (1 - u) ^ a * x ≤ y ∧ y ≤ (1 + u) ^ a * x

theorem Within.nonneg {u : ℝ} {a : Nat} {x y : ℝ} (h : Within u a x y) (hu1 : u ≤ 1) : 0 ≤ y :=
  le_trans (mul_nonneg (pow_nonneg (by linarith) _) h.1) h.2.1

theorem Within.mono {u : ℝ} (hu : 0 ≤ u) (hu1 : u ≤ 1) {a b : Nat} (hab : a ≤ b) {x y : ℝ} (h : Within u a x y) : Within u b x y := by
  obtain ⟨h0, h1, h2⟩ := h
  refine ⟨h0, le_trans ?_ h1, le_trans h2 ?_⟩
  · exact mul_le_mul_of_nonneg_right (pow_le_pow_of_le_one (by linarith) (by linarith) hab) h0
  · exact mul_le_mul_of_nonneg_right (pow_le_pow_right₀ (by linarith) hab) h0

theorem Within.add {u : ℝ} {a : Nat} {x y x' y' : ℝ} (h : Within u a x y) (h' : Within u a x' y') : Within u a (x + x') (y + y') := by
  obtain ⟨h0, h1, h2⟩ := h
  obtain ⟨h0', h1', h2'⟩ := h'
  refine ⟨by linarith, ?_, ?_⟩ <;> rw [mul_add] <;> linarith

theorem Within.fl {u : ℝ} (hu : 0 ≤ u) (hu1 : u ≤ 1) {f : ℝ → ℝ} (hf : IsRounding u f) {a : Nat} {x y : ℝ} (h : Within u a x y) :
    Within u (a + 1) x (f y) := by
  have hy := h.nonneg hu1
  obtain ⟨h0, h1, h2⟩ := h
  obtain ⟨b1, b2⟩ := hf.bounds hy
  refine ⟨h0, le_trans ?_ b1, le_trans b2 ?_⟩
  · rw [pow_succ']; nlinarith
  · rw [pow_succ']; nlinarith

/-- A rounded sum of non-negative numbers, whatever the order of the additions. -/
theorem FlSum.within {u : ℝ} (hu : 0 ≤ u) (hu1 : u ≤ 1) {fl : ℝ → ℝ} (hf : IsRounding u fl) {l : List ℝ} {s : ℝ} (h : FlSum fl l s) :
    (∀ x ∈ l, 0 ≤ x) → l ≠ [] ∧ Within u (l.length - 1) l.sum s := by
  induction h with
  | one x => intro hx; exact ⟨by simp, by simpa [Within] using hx⟩
  | @add l a b s t hp _ _ iha ihb =>
    intro hx
    obtain ⟨na, wa⟩ := iha (fun x h => hx x (hp.mem_iff.2 (by simp [h])))
    obtain ⟨nb, wb⟩ := ihb (fun x h => hx x (hp.mem_iff.2 (by simp [h])))
    have la := List.length_pos_iff.2 na
    have lb := List.length_pos_iff.2 nb
    have hl : l.length = a.length + b.length := by rw [hp.length_eq, List.length_append]
    refine ⟨by intro h0; subst h0; simp at hl; omega, ?_⟩
    rw [hp.sum_eq, List.sum_append]
    have := ((wa.mono hu hu1 (b := l.length - 2) (by omega)).add (wb.mono hu hu1 (b := l.length - 2) (by omega))).fl hu hu1 hf
    rwa [show l.length - 2 + 1 = l.length - 1 by omega] at this

/-- A rounded sum of arbitrary numbers, whatever the order of the additions. -/
theorem FlSum.err {u : ℝ} (hu : 0 ≤ u) {fl : ℝ → ℝ} (hf : IsRounding u fl) {l : List ℝ} {s : ℝ} (h : FlSum fl l s) :
    l ≠ [] ∧ |s - l.sum| ≤ ((1 + u) ^ (l.length - 1) - 1) * (l.map fun x => |x|).sum := by
  induction h with
  | one x => simp
  | @add l a b s t hp _ _ iha ihb =>
    obtain ⟨na, wa⟩ := iha
    obtain ⟨nb, wb⟩ := ihb
    have la := List.length_pos_iff.2 na
    have lb := List.length_pos_iff.2 nb
    have hl : l.length = a.length + b.length := by rw [hp.length_eq, List.length_append]
    refine ⟨by intro h0; subst h0; simp at hl; omega, ?_⟩
    rw [hp.sum_eq, List.sum_append, (hp.map fun x => |x|).sum_eq, List.map_append, List.sum_append]
    have abs_sum : ∀ l : List ℝ, |l.sum| ≤ (l.map fun x => |x|).sum := by
      intro l
      induction l with
      | nil => simp
      | cons x l ih => rw [List.sum_cons, List.map_cons, List.sum_cons]; exact (abs_add_le _ _).trans (by linarith)
    have ha := abs_sum a
    have hb := abs_sum b
    set A := (a.map fun x => |x|).sum
    set B := (b.map fun x => |x|).sum
    have hA : 0 ≤ A := (abs_nonneg _).trans ha
    have hB : 0 ≤ B := (abs_nonneg _).trans hb
    have pa : (1 + u) ^ (a.length - 1) ≤ (1 + u) ^ (l.length - 2) := pow_le_pow_right₀ (by linarith) (by omega)
    have pb : (1 + u) ^ (b.length - 1) ≤ (1 + u) ^ (l.length - 2) := pow_le_pow_right₀ (by linarith) (by omega)
    rw [show l.length - 1 = l.length - 2 + 1 by omega, pow_succ']
    set P := (1 + u) ^ (l.length - 2)
    have wa' : |s - a.sum| ≤ (P - 1) * A := wa.trans (mul_le_mul_of_nonneg_right (by linarith) hA)
    have wb' : |t - b.sum| ≤ (P - 1) * B := wb.trans (mul_le_mul_of_nonneg_right (by linarith) hB)
    have e1 := hf.err (s + t)
    have e2 : |s + t| ≤ |s - a.sum| + |t - b.sum| + (A + B) := by
      have : s + t = (s - a.sum) + (t - b.sum) + (a.sum + b.sum) := by ring
      rw [this]
      refine (abs_add_le _ _).trans (add_le_add (abs_add_le _ _) ((abs_add_le _ _).trans (by linarith)))
    have e3 : |fl (s + t) - (a.sum + b.sum)| ≤ |fl (s + t) - (s + t)| + (|s - a.sum| + |t - b.sum|) := by
      have : fl (s + t) - (a.sum + b.sum) = (fl (s + t) - (s + t)) + ((s - a.sum) + (t - b.sum)) := by ring
      rw [this]
      exact (abs_add_le _ _).trans (add_le_add le_rfl (abs_add_le _ _))
    have e4 : u * |s + t| ≤ u * (|s - a.sum| + |t - b.sum| + (A + B)) := mul_le_mul_of_nonneg_left e2 hu
    have e5 : u * |s - a.sum| ≤ u * ((P - 1) * A) := mul_le_mul_of_nonneg_left wa' hu
    have e6 : u * |t - b.sum| ≤ u * ((P - 1) * B) := mul_le_mul_of_nonneg_left wb' hu
    nlinarith

/-- Terms with absolute errors: `g` approximates `f` within `ε`, and `|f| ≤ B`. -/
theorem FlSum.close {ι : Type} {u ε B : ℝ} (hu : 0 ≤ u) {fl : ℝ → ℝ} (hf : IsRounding u fl) {L : List ι} {f g : ι → ℝ} {s : ℝ}
    (h : FlSum fl (L.map g) s) (hx : ∀ i ∈ L, |g i - f i| ≤ ε ∧ |f i| ≤ B) :
    |s - (L.map f).sum| ≤ L.length * ((1 + u) ^ (L.length - 1) * (ε + B) - B) ∧ |(L.map f).sum| ≤ L.length * B := by
  obtain ⟨-, e⟩ := h.err hu hf
  rw [List.length_map] at e
  have h3 : |(L.map g).sum - (L.map f).sum| ≤ L.length * ε ∧ |(L.map f).sum| ≤ L.length * B ∧
      ((L.map g).map fun x => |x|).sum ≤ L.length * (ε + B) := by
    clear h e
    induction L with
    | nil => simp
    | cons i L ih =>
      obtain ⟨i1, i2, i3⟩ := ih (fun j hj => hx j (by simp [hj]))
      obtain ⟨j1, j2⟩ := hx i (by simp)
      simp only [List.map_cons, List.sum_cons, List.length_cons, Nat.cast_add, Nat.cast_one] at i1 i2 i3 ⊢
      refine ⟨?_, ?_, ?_⟩
      · rw [show g i + (L.map g).sum - (f i + (L.map f).sum) = (g i - f i) + ((L.map g).sum - (L.map f).sum) by ring]
        refine (abs_add_le _ _).trans ?_
        linarith
      · refine (abs_add_le _ _).trans ?_
        linarith
      · have : |g i| ≤ |g i - f i| + |f i| := by
          have : g i = (g i - f i) + f i := by ring
          conv_lhs => rw [this]
          exact abs_add_le _ _
        linarith
  obtain ⟨h1, h2, h3⟩ := h3
  refine ⟨?_, h2⟩
  have hP : (0 : ℝ) ≤ (1 + u) ^ (L.length - 1) - 1 := by
    have := one_le_pow₀ (n := L.length - 1) (by linarith : 1 ≤ 1 + u)
    linarith
  have := mul_le_mul_of_nonneg_left h3 hP
  have h4 : |s - (L.map f).sum| ≤ |s - (L.map g).sum| + |(L.map g).sum - (L.map f).sum| := abs_sub_le _ _ _
  nlinarith

/-! ### Path costs -/

theorem dbl_add_le {u : ℝ} {fl : ℝ → ℝ} (hf : IsRounding u fl) (a b c : Dbl fl) (h : a ≤ b) : a + c ≤ b + c := by
  show fl (a.val + c.val) ≤ fl (b.val + c.val)
  have : a.val ≤ b.val := h
  exact hf.mono (by linarith)

/-- Relative errors: the accumulated cost of a path is the exact cost up to the factors `(1 ± u)^(a + T)`. -/
theorem leftCost_within {u : ℝ} (hu : 0 ≤ u) (hu1 : u ≤ 1) {fl : ℝ → ℝ} (hf : IsRounding u fl) {t : Trellis} (hw : t.WF)
    {μF : Nat → Nat → Nat → Dbl fl} {μ : Nat → Nat → Nat → ℝ} {a : Nat} {T : Nat}
    (hμ : ∀ j, 1 ≤ j → j ≤ T → ∀ p < 2 ^ t.M, ∀ v < 2 ^ t.k, Within u a (μ j p v) (μF j p v).val) :
    ∀ us : List Nat, us.length ≤ T → (∀ v ∈ us, v < 2 ^ t.k) →
      Within u (a + us.length) (pathCost t μ 0 0 us) (leftCost t μF 0 0 0 us).val := by
  intro us
  induction us using List.reverseRecOn with
  | nil => intro _ _; refine ⟨le_rfl, ?_, ?_⟩ <;> simp [pathCost, leftCost] <;> rfl
  | append_singleton us v ih =>
    intro hT hv
    rw [List.length_append, List.length_singleton] at hT
    have hus : ∀ x ∈ us, x < 2 ^ t.k := fun x hx => hv x (by simp [hx])
    have h1 := ih (by omega) hus
    have h2 := hμ (us.length + 1) (by omega) (by omega) (t.runState 0 us) (hw.runState_lt (by positivity) hus) v (hv v (by simp))
    rw [pathCost_snoc, leftCost_snoc, List.length_append, List.length_singleton, Nat.zero_add]
    exact ((h1.add (h2.mono hu hu1 (by omega))).fl hu hu1 hf)

/-- Absolute errors. -/
theorem leftCost_close {u η B : ℝ} (hu : 0 ≤ u) (hη : 0 ≤ η) (hB : 0 ≤ B) {fl : ℝ → ℝ} (hf : IsRounding u fl) {t : Trellis} (hw : t.WF)
    {μF : Nat → Nat → Nat → Dbl fl} {μ : Nat → Nat → Nat → ℝ} {T : Nat}
    (hμ : ∀ j, 1 ≤ j → j ≤ T → ∀ p < 2 ^ t.M, ∀ v < 2 ^ t.k, |(μF j p v).val - μ j p v| ≤ η ∧ |μ j p v| ≤ B) :
    ∀ us : List Nat, us.length ≤ T → (∀ v ∈ us, v < 2 ^ t.k) →
      |(leftCost t μF 0 0 0 us).val - pathCost t μ 0 0 us| ≤ us.length * ((1 + u) ^ us.length * (η + B) - B) ∧
        |pathCost t μ 0 0 us| ≤ us.length * B := by
  intro us
  induction us using List.reverseRecOn with
  | nil =>
    intro _ _
    have : (leftCost t μF 0 0 0 []).val = 0 := rfl
    simp [pathCost, this]
  | append_singleton us v ih =>
    intro hT hv
    rw [List.length_append, List.length_singleton] at hT
    have hus : ∀ x ∈ us, x < 2 ^ t.k := fun x hx => hv x (by simp [hx])
    obtain ⟨i1, i2⟩ := ih (by omega) hus
    obtain ⟨j1, j2⟩ := hμ (us.length + 1) (by omega) (by omega) (t.runState 0 us) (hw.runState_lt (by positivity) hus) v (hv v (by simp))
    rw [pathCost_snoc, leftCost_snoc, List.length_append, List.length_singleton, Nat.zero_add]
    show |fl ((leftCost t μF 0 0 0 us).val + (μF (us.length + 1) (t.runState 0 us) v).val) - _| ≤ _ ∧ _
    set A := (leftCost t μF 0 0 0 us).val
    set m := (μF (us.length + 1) (t.runState 0 us) v).val
    set P := pathCost t μ 0 0 us
    set x := μ (us.length + 1) (t.runState 0 us) v
    push_cast
    refine ⟨?_, (abs_add_le _ _).trans (by linarith)⟩
    have e1 := hf.err (A + m)
    have e2 : |A + m| ≤ |A - P| + |m - x| + (|P| + |x|) := by
      rw [show A + m = (A - P) + (m - x) + (P + x) by ring]
      exact (abs_add_le _ _).trans (add_le_add (abs_add_le _ _) (abs_add_le _ _))
    have e3 : |fl (A + m) - (P + x)| ≤ |fl (A + m) - (A + m)| + (|A - P| + |m - x|) := by
      rw [show fl (A + m) - (P + x) = (fl (A + m) - (A + m)) + ((A - P) + (m - x)) by ring]
      exact (abs_add_le _ _).trans (add_le_add le_rfl (abs_add_le _ _))
    have e4 : u * |A + m| ≤ u * (|A - P| + |m - x| + (|P| + |x|)) := mul_le_mul_of_nonneg_left e2 hu
    have hQ : 1 ≤ (1 + u) ^ us.length := one_le_pow₀ (by linarith)
    rw [pow_succ']
    set Q := (1 + u) ^ us.length
    set n : ℝ := (us.length : ℝ)
    have hn : 0 ≤ n := Nat.cast_nonneg _
    have f1 : (1 + u) * |A - P| ≤ (1 + u) * (n * (Q * (η + B) - B)) := mul_le_mul_of_nonneg_left i1 (by linarith)
    have f2 : u * |P| ≤ u * (n * B) := mul_le_mul_of_nonneg_left i2 hu
    have f3 : u * |x| ≤ u * B := mul_le_mul_of_nonneg_left j2 hu
    have f4 : (1 + u) * |m - x| ≤ (1 + u) * η := mul_le_mul_of_nonneg_left j1 (by linarith)
    have f5 : (1 + u) * (η + B) ≤ (1 + u) * (Q * (η + B)) :=
      mul_le_mul_of_nonneg_left (le_mul_of_one_le_left (by linarith) hQ) (by linarith)
    nlinarith

end Verif
