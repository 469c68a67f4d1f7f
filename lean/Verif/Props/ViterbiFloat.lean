import Verif.Lemmas.ViterbiFloat
import Verif.Lemmas.Rounding
import Verif.Props.HardSamples
import Mathlib.Analysis.SpecialFunctions.Exp
/-
C133: Viterbi decoding in double precision.
-/
namespace Verif

/-- What is assumed about the arithmetic: operations are rounded with relative error `u`, `.sum()` adds in some order, and the computed
`log(exp(r) + 1)` has absolute error at most `δ` on `[-500, 500]`. -/
structure VitFloats.OK (D : VitFloats) (u δ : ℝ) : Prop where
  fl : IsRounding u D.fl
  sum : ∀ l : List ℝ, l ≠ [] → FlSum D.fl l (D.sum l)
  ll0 : ∀ x, |x| ≤ 500 → |D.ll0 x - negLL0 x| ≤ δ

/-- Squared Euclidean distance between samples and the ±1 image of bits. -/
noncomputable def sqDistBits (r : List ℝ) (c : List Nat) : ℝ := (List.zipWith (fun x (b : Nat) => (x - (2 * (b : ℝ) - 1)) ^ 2) r c).sum

/-! ### The rounded metrics -/

theorem Within.trans {u : ℝ} (hu : 0 ≤ u) (hu1 : u ≤ 1) {a b : Nat} {x y z : ℝ} (h : Within u a x y) (h' : Within u b y z) : Within u (b + a) x z := by
  obtain ⟨h0, h1, h2⟩ := h
  obtain ⟨-, h1', h2'⟩ := h'
  refine ⟨h0, le_trans ?_ h1', le_trans h2' ?_⟩
  · rw [pow_add, mul_assoc]; exact mul_le_mul_of_nonneg_left h1 (pow_nonneg (by linarith) _)
  · rw [pow_add, mul_assoc]; exact mul_le_mul_of_nonneg_left h2 (pow_nonneg (by linarith) _)

theorem within_sq {u : ℝ} (hu : 0 ≤ u) (hu1 : u ≤ 1) {fl : ℝ → ℝ} (hf : IsRounding u fl) (d : ℝ) : Within u 3 (d ^ 2) (fl (fl d * fl d)) := by
  have h : Within u 2 (d ^ 2) (fl d * fl d) := by
    have e := hf.err d
    have e1 : |fl d| ≤ (1 + u) * |d| := by
      have : |fl d| ≤ |fl d - d| + |d| := by
        have h := abs_add_le (fl d - d) d
        rwa [sub_add_cancel] at h
      linarith
    have e2 : (1 - u) * |d| ≤ |fl d| := by
      have : |d| ≤ |d - fl d| + |fl d| := by
        have h := abs_add_le (d - fl d) (fl d)
        rwa [sub_add_cancel] at h
      rw [abs_sub_comm] at this
      linarith
    refine ⟨sq_nonneg _, ?_, ?_⟩
    · rw [← sq, ← sq_abs d, ← sq_abs (fl d), ← mul_pow]
      exact pow_le_pow_left₀ (mul_nonneg (by linarith) (abs_nonneg _)) e2 2
    · rw [← sq, ← sq_abs d, ← sq_abs (fl d), ← mul_pow]
      exact pow_le_pow_left₀ (abs_nonneg _) e1 2
  exact h.fl hu hu1 hf

theorem within_sum {u : ℝ} {a : Nat} : ∀ (l : List (ℝ × Nat)) (f g : ℝ × Nat → ℝ), (∀ i ∈ l, Within u a (f i) (g i)) → Within u a (l.map f).sum (l.map g).sum := by
  intro l f g
  induction l with
  | nil => intro _; simp [Within]
  | cons i l ih =>
    intro h
    simp only [List.map_cons, List.sum_cons]
    exact (h i (by simp)).add (ih fun j hj => h j (by simp [hj]))

theorem unqF_within {D : VitFloats} {u δ : ℝ} (hu : 0 ≤ u) (hu1 : u ≤ 1) (hD : D.OK u δ) {r : List ℝ} {c : List Nat} (hl : r.length = c.length) (h0 : 0 < r.length) :
    ∃ m, branchMetricF D "unquantized" r c = .ok m ∧ Within u (r.length + 2) (sqDistBits r c) m.val := by
  unfold branchMetricF
  rw [if_neg (by decide), if_neg (by decide), if_pos rfl]
  unfold unquantizedMetricF broadcast2
  rw [if_pos (by simpa using hl), List.zipWith_map_right]
  refine ⟨_, rfl, ?_⟩
  have hz : ∀ (f : ℝ → Nat → ℝ), List.zipWith f r c = (r.zip c).map (fun p => f p.1 p.2) := by
    intro f; rw [List.zip, List.map_zipWith]
  have hzl : (r.zip c).length = r.length := by rw [List.length_zip]; omega
  unfold sqDistBits
  rw [hz, hz]
  have h1 := within_sum (u := u) (a := 3) (r.zip c) (fun p => (p.1 - (2 * (p.2 : ℝ) - 1)) ^ 2)
    (fun p => D.fl (D.fl (p.1 - (2 * (p.2 : ℝ) - 1)) * D.fl (p.1 - (2 * (p.2 : ℝ) - 1)))) (fun i _ => within_sq hu hu1 hD.fl _)
  obtain ⟨-, h2⟩ := (hD.sum ((r.zip c).map fun p => D.fl (D.fl (p.1 - (2 * (p.2 : ℝ) - 1)) * D.fl (p.1 - (2 * (p.2 : ℝ) - 1))))
    (by intro h; rw [List.map_eq_nil_iff] at h; rw [h] at hzl; simp at hzl; omega)).within hu hu1 hD.fl (by
      intro x hx
      obtain ⟨i, -, rfl⟩ := List.mem_map.1 hx
      exact (within_sq hu hu1 hD.fl (i.1 - (2 * (i.2 : ℝ) - 1))).nonneg hu1)
  have h3 := h1.trans hu hu1 h2
  rw [List.length_map, hzl, show r.length - 1 + 3 = r.length + 2 by omega] at h3
  exact h3

/-- The blocks used in the first `τ` steps are the first `τ n` samples of the padded sequence. -/
theorem pathCost_take {α : Type} {cost : α → Nat → ℝ} {t : Trellis} (h : t.Balanced) {N : Nat} {pad : α} {coded : List α} (hl : coded.length = N * t.n)
    {us : List Nat} {τ : Nat} (hτ : τ ≤ N + t.M / t.k - 1) (hu : us.length = τ) :
    pathCost t (fun j p v => seqCost cost (rxBlock t (N * t.k) pad coded j) (toBits t.n (t.out p v))) 0 0 us =
      seqCost cost ((paddedRx t pad coded).take (τ * t.n)) (t.runOut 0 us) := by
  have hk := h.wf.k_pos
  have hq := h.one_le
  rw [pathCost_eq_seqCost (fun j hj => rxBlock_length hk hl hj)]
  congr 1
  have e := rx_concat (t := t) hk (P := t.M / t.k - 1) (pad := pad) hl
  rw [paddedRx, ← e, show N + (t.M / t.k - 1) = τ + (N + (t.M / t.k - 1) - τ) by omega, List.range_add, List.flatMap_append, hu]
  rw [List.take_left']
  rw [List.length_flatMap]
  simp [rxBlock_length hk hl]

theorem taken {t : Trellis} (h : t.Balanced) {α : Type} {N : Nat} {pad : α} {coded : List α} (hl : coded.length = N * t.n) :
    (paddedRx t pad coded).take ((N + t.M / t.k - 1) * t.n) = paddedRx t pad coded := by
  have hq := h.one_le
  refine List.take_of_length_le ?_
  rw [paddedRx, List.length_append, List.length_replicate, hl, ← Nat.add_mul]
  exact le_of_eq (by congr 1; omega)

theorem sqDistBits_eq (r : List ℝ) (c : List Nat) : sqDistBits r c = seqCost (fun x (b : Nat) => (x - (2 * (b : ℝ) - 1)) ^ 2) r c := rfl

section
variable {D : VitFloats} {u δ : ℝ}

/-- The metrics of the 'unquantized' decoder and the near-minimality of the selected paths. -/
theorem unqF_best (hu : 0 ≤ u) (hu1 : u ≤ 1) (hD : D.OK u δ) {t : Trellis} (h : t.Balanced) (hn : 0 < t.n) {N : Nat} {coded : List ℝ}
    (hl : coded.length = N * t.n) :
    ∃ μF : Nat → Nat → Nat → Dbl D.fl,
      (∀ j, 1 ≤ j → j ≤ N + t.M / t.k - 1 → ∀ p < 2 ^ t.M, ∀ v < 2 ^ t.k,
        branchMetricF D "unquantized" (rxBlock t (N * t.k) (-1) coded j) (toBits t.n (t.out p v)) = .ok (μF j p v)) ∧
      ∀ τ ≤ N + t.M / t.k - 1, IsInput t τ (bestPath t μF τ) ∧ ∀ vs, IsInput t τ vs →
        (1 - u) ^ (τ + t.n + 2) * sqDistBits ((paddedRx t (-1) coded).take (τ * t.n)) (t.runOut 0 (bestPath t μF τ)) ≤
          (1 + u) ^ (τ + t.n + 2) * sqDistBits ((paddedRx t (-1) coded).take (τ * t.n)) (t.runOut 0 vs) := by
  classical
  have hk := h.wf.k_pos
  have hex : ∀ j p v, ∃ m, 1 ≤ j → branchMetricF D "unquantized" (rxBlock t (N * t.k) (-1) coded j) (toBits t.n (t.out p v)) = .ok m ∧
      Within u (t.n + 2) (sqDistBits (rxBlock t (N * t.k) (-1) coded j) (toBits t.n (t.out p v))) m.val := by
    intro j p v
    by_cases hj : 1 ≤ j
    · have hbl := rxBlock_length (pad := (-1 : ℝ)) hk hl hj
      obtain ⟨m, h1, h2⟩ := unqF_within hu hu1 hD (r := rxBlock t (N * t.k) (-1) coded j) (c := toBits t.n (t.out p v))
        (by rw [hbl, toBits_length]) (by omega)
      rw [hbl] at h2
      exact ⟨m, fun _ => ⟨h1, h2⟩⟩
    · exact ⟨⟨0⟩, fun h => absurd h hj⟩
  choose μF hμF using hex
  refine ⟨μF, fun j h1 _ p _ v _ => (hμF j p v h1).1, ?_⟩
  intro τ hτ
  obtain ⟨b1, b2⟩ := bestPath_left (dbl_add_le hD.fl) h μF τ
  refine ⟨b1, fun vs hv => ?_⟩
  have hw := leftCost_within hu hu1 hD.fl h.wf (μF := μF)
    (μ := fun j p v => seqCost (fun x (b : Nat) => (x - (2 * (b : ℝ) - 1)) ^ 2) (rxBlock t (N * t.k) (-1) coded j) (toBits t.n (t.out p v)))
    (a := t.n + 2) (T := τ) (fun j h1 _ p _ v _ => (hμF j p v h1).2)
  have w1 := hw _ b1.1.le b1.2
  have w2 := hw _ hv.1.le hv.2
  rw [pathCost_take h hl hτ b1.1, b1.1] at w1
  rw [pathCost_take h hl hτ hv.1, hv.1] at w2
  rw [show τ + t.n + 2 = t.n + 2 + τ by omega]
  exact (w1.2.1.trans (b2 vs hv)).trans w2.2.2

/-- C133, 'unquantized', any traceback depth: the bits of block `i` are those of a path that is, among the paths of the steps seen so far,
a nearest one up to the accumulated rounding errors. -/
theorem C133_window (hu : 0 ≤ u) (hu1 : u ≤ 1) (hD : D.OK u δ) {t : Trellis} (h : t.Balanced) (hn : 0 < t.n) (jk : VitJunk (Dbl D.fl)) {N tb : Nat}
    {coded : List ℝ} (hl : coded.length = N * t.n) (htb : 2 ≤ tb) (htb2 : tb ≤ N + t.M / t.k) (hB : t.k = 1 ∨ (t.M / t.k - 1) * t.k ≤ tb) :
    ∃ (path : Nat → List Nat) (coded' : List ℝ),
      viterbiDecodeF D "unquantized" t jk (N * t.k) tb coded = .ok ((List.range N).flatMap (fun i => toBits t.k ((path i).getD i 0)), coded') ∧
      ∀ i < N, IsInput t (min (N + t.M / t.k - 1) (i + tb - 1)) (path i) ∧
        ∀ vs, IsInput t (min (N + t.M / t.k - 1) (i + tb - 1)) vs →
          (1 - u) ^ (min (N + t.M / t.k - 1) (i + tb - 1) + t.n + 2) *
              sqDistBits ((paddedRx t (-1) coded).take (min (N + t.M / t.k - 1) (i + tb - 1) * t.n)) (t.runOut 0 (path i)) ≤
            (1 + u) ^ (min (N + t.M / t.k - 1) (i + tb - 1) + t.n + 2) *
              sqDistBits ((paddedRx t (-1) coded).take (min (N + t.M / t.k - 1) (i + tb - 1) * t.n)) (t.runOut 0 vs) := by
  obtain ⟨μF, h1, h2⟩ := unqF_best hu hu1 hD h hn hl
  have e := viterbi_blocks (inPlace := true) h jk htb htb2 hB hl h1
  refine ⟨fun i => bestPath t μF (min (N + t.M / t.k - 1) (i + tb - 1)),
    if t.M / t.k ≤ 1 then coded else paddedCoded t (N * t.k) true (-1) coded, ?_, fun i _ => h2 _ (min_le_left _ _)⟩
  unfold viterbiDecodeF
  rw [if_neg (by decide), show padValue "unquantized" = some (-1) by simp [padValue], e]

/-- C133, 'unquantized', window covering the block: the decoded sequence is nearest to the received one up to the factor
`((1+u)/(1-u))^(T+n+2)`, `T` being the number of steps. -/
theorem C133_unquantized (hu : 0 ≤ u) (hu1 : u ≤ 1) (hD : D.OK u δ) {t : Trellis} (h : t.Balanced) (hn : 0 < t.n) (jk : VitJunk (Dbl D.fl)) {N : Nat}
    {coded : List ℝ} (hl : coded.length = N * t.n) (hT : 2 ≤ N + t.M / t.k) (hB : t.k = 1 ∨ (t.M / t.k - 1) * t.k ≤ N + t.M / t.k) :
    ∃ us, IsInput t (N + t.M / t.k - 1) us ∧
      (∀ vs, IsInput t (N + t.M / t.k - 1) vs →
        (1 - u) ^ (N + t.M / t.k - 1 + t.n + 2) * sqDistBits (paddedRx t (-1) coded) (t.runOut 0 us) ≤
          (1 + u) ^ (N + t.M / t.k - 1 + t.n + 2) * sqDistBits (paddedRx t (-1) coded) (t.runOut 0 vs)) ∧
      ∃ coded', viterbiDecodeF D "unquantized" t jk (N * t.k) (N + t.M / t.k) coded = .ok ((us.take N).flatMap (toBits t.k), coded') := by
  obtain ⟨μF, h1, h2⟩ := unqF_best hu hu1 hD h hn hl
  obtain ⟨b1, b2⟩ := h2 _ le_rfl
  have e := viterbi_full (inPlace := true) h jk hT hB hl h1
  rw [taken h hl] at b2
  refine ⟨_, b1, b2, if t.M / t.k ≤ 1 then coded else paddedCoded t (N * t.k) true (-1) coded, ?_⟩
  unfold viterbiDecodeF
  rw [if_neg (by decide), show padValue "unquantized" = some (-1) by simp [padValue], e]

theorem double_ratio {K : Nat} (hK : K ≤ 2 ^ 30) : (1 + (2 : ℝ) ^ (-53 : ℤ)) ^ K ≤ (1 + 2 ^ (-21 : ℤ)) * (1 - (2 : ℝ) ^ (-53 : ℤ)) ^ K := by
  set v : ℝ := (2 : ℝ) ^ (-53 : ℤ) with hv
  have hv0 : 0 < v := zpow_pos (by norm_num) _
  have hKv : (K : ℝ) * v ≤ 2 ^ (-23 : ℤ) := by
    have : (K : ℝ) ≤ 2 ^ 30 := by exact_mod_cast hK
    calc (K : ℝ) * v ≤ 2 ^ 30 * v := mul_le_mul_of_nonneg_right this hv0.le
      _ = 2 ^ (-23 : ℤ) := by rw [hv]; norm_num
  have hKv0 : 0 ≤ (K : ℝ) * v := by positivity
  have h1 : 1 + (K : ℝ) * -v ≤ (1 + -v) ^ K := one_add_mul_le_pow (by rw [hv]; norm_num) K
  have h2 : (1 + v) ^ K ≤ Real.exp (K * v) := by
    rw [Real.exp_nat_mul]
    exact pow_le_pow_left₀ (by linarith) (by linarith [Real.add_one_le_exp v]) K
  have h3 : Real.exp (K * v) ≤ 1 + K * v + (K * v) ^ 2 := by
    have := Real.abs_exp_sub_one_sub_id_le (x := K * v) (by rw [abs_of_nonneg hKv0]; exact hKv.trans (by norm_num))
    linarith [(abs_le.1 this).2]
  refine h2.trans (h3.trans ?_)
  rw [show (1 : ℝ) - v = 1 + -v by ring]
  refine le_trans ?_ (mul_le_mul_of_nonneg_left h1 (by norm_num))
  set x := (K : ℝ) * v with hx
  have e : (1 : ℝ) + K * -v = 1 - x := by rw [hx]; ring
  rw [e]
  have hx' : x ≤ 2 ^ (-23 : ℤ) := hKv
  norm_num at hx' ⊢
  nlinarith

/-- C133, doubles (`u = 2^-53`): for blocks of up to 2^30 steps the decoded sequence is nearest up to the factor `1 + 2^-21`. -/
theorem C133_double (hD : D.OK ((2 : ℝ) ^ (-53 : ℤ)) δ) {t : Trellis} (h : t.Balanced) (hn : 0 < t.n) (jk : VitJunk (Dbl D.fl)) {N : Nat}
    {coded : List ℝ} (hl : coded.length = N * t.n) (hT : 2 ≤ N + t.M / t.k) (hB : t.k = 1 ∨ (t.M / t.k - 1) * t.k ≤ N + t.M / t.k)
    (hbig : N + t.M / t.k + t.n + 1 ≤ 2 ^ 30) :
    ∃ us, IsInput t (N + t.M / t.k - 1) us ∧
      (∀ vs, IsInput t (N + t.M / t.k - 1) vs → sqDistBits (paddedRx t (-1) coded) (t.runOut 0 us) ≤
          (1 + 2 ^ (-21 : ℤ)) * sqDistBits (paddedRx t (-1) coded) (t.runOut 0 vs)) ∧
      ∃ coded', viterbiDecodeF D "unquantized" t jk (N * t.k) (N + t.M / t.k) coded = .ok ((us.take N).flatMap (toBits t.k), coded') := by
  obtain ⟨us, h1, h2, h3⟩ := C133_unquantized (zpow_nonneg (by norm_num) _) (by norm_num) hD h hn jk hl hT hB
  refine ⟨us, h1, fun vs hv => ?_, h3⟩
  have hq := h.one_le
  have hK := double_ratio (K := N + t.M / t.k - 1 + t.n + 2) (by omega)
  have h0 : 0 ≤ sqDistBits (paddedRx t (-1) coded) (t.runOut 0 vs) := by
    unfold sqDistBits
    refine List.sum_nonneg fun x hx => ?_
    obtain ⟨i, hi, rfl⟩ := List.mem_iff_getElem.1 hx
    rw [List.getElem_zipWith]; positivity
  have hp : (0 : ℝ) < (1 - (2 : ℝ) ^ (-53 : ℤ)) ^ (N + t.M / t.k - 1 + t.n + 2) := pow_pos (by norm_num) _
  have h4 := h2 vs hv
  have h5 := h4.trans (mul_le_mul_of_nonneg_right hK h0)
  refine le_of_mul_le_mul_left ?_ hp
  calc _ ≤ _ := h5
    _ = _ := by ring

/-- C133: a message whose code word is nearer to the received sequence than every other one, by more than the accumulated rounding errors, is
returned exactly. -/
theorem C133_margin (hu : 0 ≤ u) (hu1 : u ≤ 1) (hD : D.OK u δ) {t : Trellis} (h : t.Balanced) (hn : 0 < t.n) (jk : VitJunk (Dbl D.fl)) {N : Nat}
    {coded : List ℝ} (hl : coded.length = N * t.n) (hT : 2 ≤ N + t.M / t.k) (hB : t.k = 1 ∨ (t.M / t.k - 1) * t.k ≤ N + t.M / t.k)
    {w : List Nat} (hw : IsInput t (N + t.M / t.k - 1) w)
    (hmargin : ∀ vs, IsInput t (N + t.M / t.k - 1) vs → vs.take N ≠ w.take N →
      (1 + u) ^ (N + t.M / t.k - 1 + t.n + 2) * sqDistBits (paddedRx t (-1) coded) (t.runOut 0 w) <
        (1 - u) ^ (N + t.M / t.k - 1 + t.n + 2) * sqDistBits (paddedRx t (-1) coded) (t.runOut 0 vs)) :
    ∃ coded', viterbiDecodeF D "unquantized" t jk (N * t.k) (N + t.M / t.k) coded = .ok ((w.take N).flatMap (toBits t.k), coded') := by
  obtain ⟨us, h1, h2, c', h3⟩ := C133_unquantized hu hu1 hD h hn jk hl hT hB
  refine ⟨c', ?_⟩
  have : us.take N = w.take N := by
    by_contra hne
    exact absurd (h2 w hw) (not_le.2 (hmargin us h1 hne))
  rw [h3, this]

end

/-! ### Hard decisions -/

/-- A natural number as a double. -/
def natDbl (fl : ℝ → ℝ) (m : Nat) : Dbl fl := ⟨(m : ℝ)⟩

theorem natDbl_strictMono (fl : ℝ → ℝ) : StrictMono (WithTop.map (natDbl fl)) := by
  rw [WithTop.strictMono_map_iff]
  intro a b h
  show (a : ℝ) < b
  exact_mod_cast h

section
variable {fl : ℝ → ℝ} (hfl : ∀ m : ℕ, m ≤ 2 ^ 53 → fl m = m) {t : Trellis} (h : t.Balanced) {μ : Nat → Nat → Nat → Nat} {T B : Nat}
  (hμ : ∀ j, 1 ≤ j → j ≤ T → ∀ p < 2 ^ t.M, ∀ v < 2 ^ t.k, μ j p v ≤ B) (hTB : T * B ≤ 2 ^ 53)

include hfl in
theorem natDbl_add {a : WithTop Nat} {b A : Nat} (ha : a = ⊤ ∨ a ≤ (A : WithTop Nat)) (hb : A + b ≤ 2 ^ 53) :
    WithTop.map (natDbl fl) a + ((natDbl fl b : Dbl fl) : WithTop (Dbl fl)) = WithTop.map (natDbl fl) (a + (b : WithTop Nat)) := by
  cases a with
  | top => rfl
  | coe m =>
    have hm : m ≤ A := by
      rcases ha with h | h
      · exact absurd h WithTop.coe_ne_top
      · exact WithTop.coe_le_coe.1 h
    show ((natDbl fl m + natDbl fl b : Dbl fl) : WithTop (Dbl fl)) = ((natDbl fl (m + b) : Dbl fl) : WithTop (Dbl fl))
    congr 1
    show (⟨fl ((m : ℝ) + (b : ℝ))⟩ : Dbl fl) = ⟨((m + b : Nat) : ℝ)⟩
    congr 1
    rw [← Nat.cast_add]
    exact hfl _ (by omega)

include hfl h hμ hTB in
theorem pmSeq_natDbl : ∀ τ ≤ T, pmSeq t (fun j p v => natDbl fl (μ j p v)) τ = (pmSeq t μ τ).map (WithTop.map (natDbl fl)) ∧
    (∀ s < 2 ^ t.M, (pmSeq t μ τ).getD s ⊤ = ⊤ ∨ (pmSeq t μ τ).getD s ⊤ ≤ ((τ * B : Nat) : WithTop Nat)) ∧
    ∀ s < 2 ^ t.M, τ < T → (bestOf t (pmSeq t (fun j p v => natDbl fl (μ j p v)) τ) (fun p v => natDbl fl (μ (τ + 1) p v)) s).2 =
        (bestOf t (pmSeq t μ τ) (μ (τ + 1)) s).2 ∧
      (bestOf t (pmSeq t (fun j p v => natDbl fl (μ j p v)) τ) (fun p v => natDbl fl (μ (τ + 1) p v)) s).1 =
        WithTop.map (natDbl fl) (bestOf t (pmSeq t μ τ) (μ (τ + 1)) s).1 := by
  have step : ∀ τ, τ < T → pmSeq t (fun j p v => natDbl fl (μ j p v)) τ = (pmSeq t μ τ).map (WithTop.map (natDbl fl)) →
      (∀ s < 2 ^ t.M, (pmSeq t μ τ).getD s ⊤ = ⊤ ∨ (pmSeq t μ τ).getD s ⊤ ≤ ((τ * B : Nat) : WithTop Nat)) →
      ∀ s < 2 ^ t.M, (bestOf t (pmSeq t (fun j p v => natDbl fl (μ j p v)) τ) (fun p v => natDbl fl (μ (τ + 1) p v)) s).2 =
          (bestOf t (pmSeq t μ τ) (μ (τ + 1)) s).2 ∧
        (bestOf t (pmSeq t (fun j p v => natDbl fl (μ j p v)) τ) (fun p v => natDbl fl (μ (τ + 1) p v)) s).1 =
          WithTop.map (natDbl fl) (bestOf t (pmSeq t μ τ) (μ (τ + 1)) s).1 := by
    intro τ hτ e1 e2 s hs
    have hc : candidates t (pmSeq t (fun j p v => natDbl fl (μ j p v)) τ) (fun p v => natDbl fl (μ (τ + 1) p v)) s =
        (candidates t (pmSeq t μ τ) (μ (τ + 1)) s).map (WithTop.map (natDbl fl)) := by
      unfold candidates
      rw [List.map_map, e1]
      refine List.map_congr_left ?_
      rintro ⟨p, v⟩ hpv
      obtain ⟨hp, hv, -⟩ := (mem_preds h.wf).1 hpv
      show ((pmSeq t μ τ).map (WithTop.map (natDbl fl))).getD p ⊤ + ((natDbl fl (μ (τ + 1) p v) : Dbl fl) : WithTop (Dbl fl)) =
        WithTop.map (natDbl fl) ((pmSeq t μ τ).getD p ⊤ + ((μ (τ + 1) p v : Nat) : WithTop Nat))
      rw [← natDbl_add hfl (e2 p hp) (b := μ (τ + 1) p v)]
      · congr 1
        rw [List.getD_eq_getElem _ _ (by simpa using hp), List.getD_eq_getElem _ _ (by simpa using hp), List.getElem_map]
      · have h1 := hμ (τ + 1) (by omega) (by omega) p hp v hv
        have h2 : (τ + 1) * B ≤ T * B := Nat.mul_le_mul_right _ (by omega)
        rw [Nat.succ_mul] at h2
        omega
    have hne : candidates t (pmSeq t μ τ) (μ (τ + 1)) s ≠ [] := by
      unfold candidates
      intro h0
      exact h.preds_ne hs (List.map_eq_nil_iff.1 h0)
    obtain ⟨hlt, -⟩ := argminFirst_spec _ hne
    unfold bestOf
    rw [hc, argminFirst_map (natDbl_strictMono fl)]
    refine ⟨rfl, ?_⟩
    show ((candidates t (pmSeq t μ τ) (μ (τ + 1)) s).map _).getD _ ⊤ = _
    rw [List.getD_eq_getElem _ _ (by simpa using hlt), List.getElem_map, List.getD_eq_getElem _ _ hlt]
  intro τ
  induction τ with
  | zero =>
    intro _
    have e1 : pmSeq t (fun j p v => natDbl fl (μ j p v)) 0 = (pmSeq t μ 0).map (WithTop.map (natDbl fl)) := by
      simp only [pmSeq, List.map_map]
      refine List.map_congr_left fun s _ => ?_
      by_cases hs : s = 0
      · simp only [Function.comp, hs, if_true]
        show (((0 : Dbl fl)) : WithTop (Dbl fl)) = ((natDbl fl 0 : Dbl fl) : WithTop (Dbl fl))
        congr 1
        show (⟨0⟩ : Dbl fl) = ⟨((0 : Nat) : ℝ)⟩
        simp
      · simp only [Function.comp, hs, if_false]; rfl
    have e2 : ∀ s < 2 ^ t.M, (pmSeq t μ 0).getD s ⊤ = ⊤ ∨ (pmSeq t μ 0).getD s ⊤ ≤ ((0 * B : Nat) : WithTop Nat) := by
      intro s hs
      rw [pmSeq, getD_map_range _ _ hs]
      by_cases h0 : s = 0
      · rw [if_pos h0]; right; simp
      · rw [if_neg h0]; exact Or.inl rfl
    exact ⟨e1, e2, fun s hs hT => step 0 hT e1 e2 s hs⟩
  | succ τ ih =>
    intro hτ
    obtain ⟨i1, i2, i3⟩ := ih (by omega)
    have e1 : pmSeq t (fun j p v => natDbl fl (μ j p v)) (τ + 1) = (pmSeq t μ (τ + 1)).map (WithTop.map (natDbl fl)) := by
      simp only [pmSeq, List.map_map]
      refine List.map_congr_left fun s hs => ?_
      exact (i3 s (List.mem_range.1 hs) (by omega)).2
    have e2 : ∀ s < 2 ^ t.M, (pmSeq t μ (τ + 1)).getD s ⊤ = ⊤ ∨ (pmSeq t μ (τ + 1)).getD s ⊤ ≤ (((τ + 1) * B : Nat) : WithTop Nat) := by
      intro s hs
      rw [pmSeq_succ_getD hs]
      obtain ⟨b1, b2, -, b4, -⟩ := bestOf_spec h (pmSeq t μ τ) (μ (τ + 1)) hs
      rw [b4]
      rcases i2 _ b1 with h0 | h0
      · left; rw [h0]; rfl
      · right
        rw [Nat.succ_mul, Nat.cast_add]
        refine add_le_add h0 ?_
        have := hμ (τ + 1) (by omega) hτ _ b1 _ b2
        exact WithTop.coe_le_coe.2 this
    exact ⟨e1, e2, fun s hs hT => step (τ + 1) hT e1 e2 s hs⟩

include hfl h hμ hTB in
theorem bestPath_natDbl {τ : Nat} (hτ : τ ≤ T) : bestPath t (fun j p v => natDbl fl (μ j p v)) τ = bestPath t μ τ := by
  have hs : ∀ τ ≤ T, ∀ s < 2 ^ t.M, survivor t (fun j p v => natDbl fl (μ j p v)) τ s = survivor t μ τ s := by
    intro τ
    induction τ with
    | zero => intro _ s _; rfl
    | succ τ ih =>
      intro hτ s hs
      obtain ⟨-, -, i3⟩ := pmSeq_natDbl hfl h hμ hTB τ (by omega)
      have e := (i3 s hs (by omega)).1
      simp only [survivor]
      have e1 : prevAt t (fun j p v => natDbl fl (μ j p v)) (τ + 1) s = prevAt t μ (τ + 1) s := congrArg Prod.fst e
      have e2 : symChosen t (fun j p v => natDbl fl (μ j p v)) (τ + 1) s = symChosen t μ (τ + 1) s := congrArg Prod.snd e
      rw [e1, e2, ih (by omega) _ (prevAt_lt h hs)]
  unfold bestPath
  rw [(pmSeq_natDbl hfl h hμ hTB τ hτ).1, argminFirst_map (natDbl_strictMono fl), hs τ hτ _ (argmin_pmSeq_lt t μ τ)]

end

theorem hamming_le {r c : List Nat} (hl : r.length = c.length) : diffCount r c ≤ r.length := by
  induction r generalizing c with
  | nil => cases c <;> simp [diffCount] at hl ⊢
  | cons x r ih =>
    cases c with
    | nil => simp at hl
    | cons y c =>
      have := ih (c := c) (by simpa using hl)
      simp only [diffCount, List.length_cons]
      split <;> omega

/-- The 'hard' metric of bits is their Hamming distance. -/
theorem hardF_metric {D : VitFloats} (hfl : ∀ m : ℕ, m ≤ 2 ^ 53 → D.fl m = m) {r c : List Nat} (hl : r.length = c.length) (hr : ∀ b ∈ r, b < 2)
    (hc : ∀ b ∈ c, b < 2) (hn : r.length ≤ 2 ^ 53) :
    branchMetricF D "hard" (r.map fun (b : Nat) => (b : ℝ)) c = .ok (natDbl D.fl (diffCount r c)) := by
  have hx : (List.zipWith Int.xor (r.map fun (b : Nat) => (b : Int)) (c.map fun (b : Nat) => (b : Int))).sum = (diffCount r c : Int) := by
    clear hn
    induction r generalizing c with
    | nil => cases c <;> simp [diffCount] at hl ⊢
    | cons x r ih =>
      cases c with
      | nil => simp at hl
      | cons y c =>
        have hi := ih (c := c) (by simpa using hl) (fun b hb => hr b (by simp [hb])) (fun b hb => hc b (by simp [hb]))
        simp only [List.map_cons, List.zipWith_cons_cons, List.sum_cons, hi, diffCount]
        have hx := hr x (by simp)
        have hy := hc y (by simp)
        have hx' : x = 0 ∨ x = 1 := by omega
        have hy' : y = 0 ∨ y = 1 := by omega
        rcases hx' with rfl | rfl <;> rcases hy' with rfl | rfl <;> simp [Int.xor] <;> rfl
  have hmap : (r.map fun (b : Nat) => (b : ℝ)).map astypeInt = r.map fun (b : Nat) => (b : Int) := by
    rw [List.map_map]
    refine List.map_congr_left fun b _ => ?_
    have := astypeInt_int (b : Int)
    rw [Int.cast_natCast] at this
    exact this
  unfold branchMetricF
  rw [if_pos rfl, hmap]
  unfold hammingDistInt broadcast2
  rw [if_pos (by simpa using hl)]
  simp only [bind, Except.bind, pure, Except.pure, Except.map]
  rw [hx]
  congr 1
  show (⟨D.fl (((diffCount r c : Nat) : Int) : ℝ)⟩ : Dbl D.fl) = ⟨((diffCount r c : Nat) : ℝ)⟩
  congr 1
  rw [Int.cast_natCast]
  exact hfl _ ((hamming_le hl).trans hn)

/-- C133, 'hard': as long as the number of received bits (with padding) is at most `2^53`, rounding does not change anything: the decoder on
doubles returns the bits of the decoder with integer metrics. -/
theorem C133_hard {D : VitFloats} (hfl : ∀ m : ℕ, m ≤ 2 ^ 53 → D.fl m = m) {t : Trellis} (h : t.Balanced) (hn : 0 < t.n) (jkF : VitJunk (Dbl D.fl)) (jk : VitJunk Nat)
    {N tb : Nat} {coded : List Nat} (hl : coded.length = N * t.n) (hc : ∀ b ∈ coded, b < 2) (htb : 2 ≤ tb) (htb2 : tb ≤ N + t.M / t.k)
    (hB : t.k = 1 ∨ (t.M / t.k - 1) * t.k ≤ tb) (hbig : (N + t.M / t.k - 1) * t.n ≤ 2 ^ 53) :
    ∃ bits after, viterbiDecodeF D "hard" t jkF (N * t.k) tb (coded.map fun (b : Nat) => (b : ℝ)) = .ok (bits, after.map fun (b : Nat) => (b : ℝ)) ∧
      viterbiHard t jk (N * t.k) tb coded = .ok (bits, after) := by
  have hk := h.wf.k_pos
  have hq := h.one_le
  set μ : Nat → Nat → Nat → Nat := fun j p v => diffCount (rxBlock t (N * t.k) 0 coded j) (toBits t.n (t.out p v)) with hμd
  have hblk : ∀ j, rxBlock t (N * t.k) (0 : ℝ) (coded.map fun (b : Nat) => (b : ℝ)) j = (rxBlock t (N * t.k) 0 coded j).map fun (b : Nat) => (b : ℝ) := by
    intro j
    unfold rxBlock
    split
    · rw [List.map_take, List.map_drop]
    · simp
  have hlt : ∀ j, ∀ b ∈ rxBlock t (N * t.k) 0 coded j, b < 2 := rxBlock_mem (P := (· < 2)) (by decide) hc
  have hlen : ∀ j, 1 ≤ j → (rxBlock t (N * t.k) 0 coded j).length = t.n := fun j hj => rxBlock_length hk hl hj
  have hn53 : t.n ≤ 2 ^ 53 := le_trans (Nat.le_mul_of_pos_left _ (by omega)) hbig
  have e1 := viterbi_blocks (inPlace := true) (coded := coded.map fun (b : Nat) => (b : ℝ)) (bm := branchMetricF D "hard") (pad := (0 : ℝ))
    (μ := fun j p v => natDbl D.fl (μ j p v)) h jkF htb htb2 hB (by simpa using hl) (by
      intro j h1 _ p _ v _
      rw [hblk]
      exact hardF_metric hfl (by rw [hlen j h1, toBits_length]) (hlt j) (fun b hb => toBits_lt_two hb) (by rw [hlen j h1]; exact hn53))
  have e2 := viterbi_blocks (inPlace := true) (coded := coded) (bm := hammingDist) (pad := 0) (μ := μ) h jk htb htb2 hB hl (by
      intro j h1 _ p _ v _
      exact hammingDist_eq_diffCount _ _ (by rw [hlen j h1, toBits_length]) (fun x hx => by have := hlt j x hx; omega)
        (fun x hx => by have := toBits_lt_two hx; omega))
  have e3 : (if t.M / t.k ≤ 1 then coded.map fun (b : Nat) => (b : ℝ) else paddedCoded t (N * t.k) true 0 (coded.map fun (b : Nat) => (b : ℝ))) =
      (if t.M / t.k ≤ 1 then coded else paddedCoded t (N * t.k) true 0 coded).map fun (b : Nat) => (b : ℝ) := by
    split
    · rfl
    · unfold paddedCoded
      split <;> simp [List.map_take, List.map_drop]
  refine ⟨_, _, ?_, e2⟩
  · unfold viterbiDecodeF
    rw [if_neg (by decide), show padValue "hard" = some 0 by simp [padValue], e1, e3]
    congr 2
    refine List.flatMap_congr fun i _ => ?_
    rw [bestPath_natDbl hfl h (T := N + t.M / t.k - 1) (B := t.n) (fun j h1 _ p _ v _ => ?_) hbig (min_le_left _ _)]
    have := hamming_le (r := rxBlock t (N * t.k) 0 coded j) (c := toBits t.n (t.out p v)) (by rw [hlen j h1, toBits_length])
    rwa [hlen j h1] at this

/-! ### Soft decisions -/

theorem negLL0_bounds {x : ℝ} (hx : |x| ≤ 500) : |negLL0 x| ≤ 501 ∧ |negLL1 x| ≤ 501 := by
  obtain ⟨h1, h2⟩ := abs_le.1 hx
  have key : ∀ y : ℝ, y ≤ 500 → 0 ≤ Real.log (Real.exp y + 1) ∧ Real.log (Real.exp y + 1) ≤ 501 := by
    intro y hy
    have hp := Real.exp_pos y
    refine ⟨Real.log_nonneg (by linarith), ?_⟩
    have e : Real.exp y + 1 ≤ Real.exp 501 := by
      have a1 : Real.exp y ≤ Real.exp 500 := Real.exp_le_exp.2 hy
      have a2 : Real.exp 501 = Real.exp 500 * Real.exp 1 := by rw [← Real.exp_add]; norm_num
      have a3 : (2 : ℝ) ≤ Real.exp 1 := by have := Real.add_one_le_exp (1 : ℝ); linarith
      have a4 : (1 : ℝ) ≤ Real.exp 500 := Real.one_le_exp (by norm_num)
      nlinarith
    calc _ ≤ Real.log (Real.exp 501) := Real.log_le_log (by linarith) e
      _ = 501 := Real.log_exp _
  have hk0 := key x h2
  have hk1 := key (-x) (by linarith)
  have e1 : negLL1 x = Real.log (Real.exp (-x) + 1) := by
    unfold negLL1 negLL0
    have hp := Real.exp_pos x
    rw [Real.exp_neg, show (Real.exp x)⁻¹ + 1 = (Real.exp x + 1) / Real.exp x by field_simp; ring,
      Real.log_div (by positivity) hp.ne', Real.log_exp]
  unfold negLL0 at *
  rw [e1, abs_of_nonneg hk0.1, abs_of_nonneg hk1.1]
  exact ⟨hk0.2, hk1.2⟩

section
variable {D : VitFloats} {u δ : ℝ}

theorem softF_close (hu : 0 ≤ u) (hD : D.OK u δ) {r : List ℝ} (hr : ∀ x ∈ r, |x| ≤ 500) {c : List Nat} (hl : r.length = c.length) (h0 : 0 < r.length) :
    ∃ m, branchMetricF D "soft" r c = .ok m ∧
      |m.val - seqCost (fun x b => if b ≠ 0 then negLL1 x else negLL0 x) r c| ≤ r.length * ((1 + u) ^ r.length * (501 + δ) - 501) ∧
      |seqCost (fun x b => if b ≠ 0 then negLL1 x else negLL0 x) r c| ≤ r.length * 501 := by
  unfold branchMetricF
  rw [if_neg (by decide), if_pos rfl]
  unfold softMetricF
  rw [if_pos hl]
  refine ⟨_, rfl, ?_⟩
  have hz : ∀ (f : ℝ → Nat → ℝ), List.zipWith f r c = (r.zip c).map (fun p => f p.1 p.2) := by
    intro f; rw [List.zip, List.map_zipWith]
  have hzl : (r.zip c).length = r.length := by rw [List.length_zip]; omega
  unfold seqCost
  rw [hz, hz]
  have hs := hD.sum ((r.zip c).map fun p => if p.2 ≠ 0 then D.fl (D.ll0 p.1 - p.1) else D.ll0 p.1)
    (by intro h; rw [List.map_eq_nil_iff] at h; rw [h] at hzl; simp at hzl; omega)
  have hδ : 0 ≤ δ := (abs_nonneg _).trans (hD.ll0 0 (by norm_num))
  have hcl := hs.close (ε := (1 + u) * (501 + δ) - 501) (B := 501) hu hD.fl (f := fun p => if p.2 ≠ 0 then negLL1 p.1 else negLL0 p.1) (by
    rintro ⟨x, b⟩ hp
    have hx := hr x (List.of_mem_zip hp).1
    obtain ⟨b0, b1⟩ := negLL0_bounds hx
    have e := hD.ll0 x hx
    dsimp only
    by_cases hb : b ≠ 0
    · rw [if_pos hb, if_pos hb]
      refine ⟨?_, b1⟩
      have e1 := hD.fl.err (D.ll0 x - x)
      have e2 : |D.ll0 x - x| ≤ δ + 501 := by
        rw [show D.ll0 x - x = (D.ll0 x - negLL0 x) + negLL1 x by unfold negLL1; ring]
        exact (abs_add_le _ _).trans (by linarith)
      rw [show D.fl (D.ll0 x - x) - negLL1 x = (D.fl (D.ll0 x - x) - (D.ll0 x - x)) + (D.ll0 x - negLL0 x) by unfold negLL1; ring]
      refine (abs_add_le _ _).trans ?_
      have := mul_le_mul_of_nonneg_left e2 hu
      linarith
    · rw [if_neg hb, if_neg hb]
      refine ⟨e.trans ?_, b0⟩
      have : 0 ≤ u * (501 + δ) := mul_nonneg hu (by linarith)
      linarith)
  rw [hzl] at hcl
  refine ⟨?_, hcl.2⟩
  have e : (1 + u) ^ r.length = (1 + u) ^ (r.length - 1) * (1 + u) := by rw [← pow_succ]; congr 1; omega
  rw [e]
  have := hcl.1
  rw [show (1 + u) ^ (r.length - 1) * ((1 + u) * (501 + δ) - 501 + 501) = (1 + u) ^ (r.length - 1) * (1 + u) * (501 + δ) by ring] at this
  exact this

/-- Bound on the rounding errors of the metric of a path of `T` steps with `n` samples each. -/
noncomputable def softErr (u δ : ℝ) (T n : Nat) : ℝ := T * (n * ((1 + u) ^ (T + n) * (501 + δ) - 501))

theorem clip500_abs (x : ℝ) : |clip500 x| ≤ 500 := by
  unfold clip500
  rw [abs_le]
  exact ⟨le_min (le_max_right _ _) (by norm_num), min_le_right _ _⟩

/-- C133, 'soft': the decoded sequence is most probable given the (clipped) LLRs, up to the factor `exp(2 E)`, where `E` bounds the rounding
errors of the metric of a path. -/
theorem C133_soft (hu : 0 ≤ u) (hD : D.OK u δ) {t : Trellis} (h : t.Balanced) (hn : 0 < t.n) (jk : VitJunk (Dbl D.fl)) {N : Nat}
    {llr : List ℝ} (hl : llr.length = N * t.n) (hT : 2 ≤ N + t.M / t.k) (hB : t.k = 1 ∨ (t.M / t.k - 1) * t.k ≤ N + t.M / t.k) :
    ∃ us, IsInput t (N + t.M / t.k - 1) us ∧
      (∀ vs, IsInput t (N + t.M / t.k - 1) vs →
        Real.exp (-(2 * softErr u δ (N + t.M / t.k - 1) t.n)) * seqProb (paddedRx t 0 (llr.map clip500)) (t.runOut 0 vs) ≤
          seqProb (paddedRx t 0 (llr.map clip500)) (t.runOut 0 us)) ∧
      viterbiDecodeF D "soft" t jk (N * t.k) (N + t.M / t.k) llr = .ok ((us.take N).flatMap (toBits t.k), llr) := by
  classical
  have hk := h.wf.k_pos
  set cl := llr.map clip500 with hcl
  have hl' : cl.length = N * t.n := by rw [hcl, List.length_map, hl]
  have hab : ∀ j, ∀ x ∈ rxBlock t (N * t.k) 0 cl j, |x| ≤ 500 := rxBlock_mem (P := fun x => |x| ≤ 500) (by norm_num) (by
    intro x hx
    obtain ⟨y, -, rfl⟩ := List.mem_map.1 hx
    exact clip500_abs y)
  set T := N + t.M / t.k - 1 with hTd
  have hδ : 0 ≤ δ := (abs_nonneg _).trans (hD.ll0 0 (by norm_num))
  set cost : ℝ → Nat → ℝ := fun x b => if b ≠ 0 then negLL1 x else negLL0 x with hcost
  have hex : ∀ j p v, ∃ m, 1 ≤ j → branchMetricF D "soft" (rxBlock t (N * t.k) 0 cl j) (toBits t.n (t.out p v)) = .ok m ∧
      |m.val - seqCost cost (rxBlock t (N * t.k) 0 cl j) (toBits t.n (t.out p v))| ≤ t.n * ((1 + u) ^ t.n * (501 + δ) - 501) ∧
      |seqCost cost (rxBlock t (N * t.k) 0 cl j) (toBits t.n (t.out p v))| ≤ t.n * 501 := by
    intro j p v
    by_cases hj : 1 ≤ j
    · have hbl := rxBlock_length (pad := (0 : ℝ)) hk hl' hj
      obtain ⟨m, h1, h2, h3⟩ := softF_close hu hD (hab j) (c := toBits t.n (t.out p v)) (by rw [hbl, toBits_length]) (by omega)
      rw [hbl] at h2 h3
      exact ⟨m, fun _ => ⟨h1, h2, h3⟩⟩
    · exact ⟨⟨0⟩, fun h => absurd h hj⟩
  choose μF hμF using hex
  obtain ⟨b1, b2⟩ := bestPath_left (dbl_add_le hD.fl) h μF T
  have hη : (0 : ℝ) ≤ t.n * ((1 + u) ^ t.n * (501 + δ) - 501) := by
    refine mul_nonneg (Nat.cast_nonneg _) ?_
    have : 1 ≤ (1 + u) ^ t.n := one_le_pow₀ (by linarith)
    nlinarith
  have hlc := leftCost_close hu hη (B := t.n * 501) (by positivity) hD.fl h.wf (μF := μF)
    (μ := fun j p v => seqCost cost (rxBlock t (N * t.k) 0 cl j) (toBits t.n (t.out p v))) (T := T)
    (fun j h1 _ p _ v _ => (hμF j p v h1).2)
  have hE : ∀ us, IsInput t T us → |(leftCost t μF 0 0 0 us).val - -Real.log (seqProb (paddedRx t 0 cl) (t.runOut 0 us))| ≤ softErr u δ T t.n := by
    intro us hus
    have := (hlc us hus.1.le hus.2).1
    rw [pathCost_take (τ := T) h hl' le_rfl hus.1, hTd, taken h hl', hus.1, (seqCost_soft _ _).1] at this
    refine this.trans (le_of_eq ?_)
    unfold softErr
    rw [pow_add]; ring
  have e := viterbi_full (inPlace := false) h jk hT hB hl' (fun j h1 _ p _ v _ => (hμF j p v h1).1)
  refine ⟨_, b1, fun vs hv => ?_, ?_⟩
  · have e1 := abs_le.1 (hE _ b1)
    have e2 := abs_le.1 (hE vs hv)
    have e3 : (leftCost t μF 0 0 0 (bestPath t μF T)).val ≤ (leftCost t μF 0 0 0 vs).val := b2 vs hv
    have p1 := (seqCost_soft (paddedRx t 0 cl) (t.runOut 0 (bestPath t μF T))).2
    have p2 := (seqCost_soft (paddedRx t 0 cl) (t.runOut 0 vs)).2
    have e4 : -(2 * softErr u δ T t.n) + Real.log (seqProb (paddedRx t 0 cl) (t.runOut 0 vs)) ≤
        Real.log (seqProb (paddedRx t 0 cl) (t.runOut 0 (bestPath t μF T))) := by linarith [e1.1, e1.2, e2.1, e2.2]
    have := Real.exp_le_exp.2 e4
    rwa [Real.exp_add, Real.exp_log p2, Real.exp_log p1] at this
  · unfold viterbiDecodeF
    rw [if_pos rfl, show padValue "soft" = some 0 by simp [padValue], e]
    rfl

/-- C133: for doubles (`u = 2^-53`), `T + n ≤ 2^20` and `log(exp(r) + 1)` accurate to `2^-40`, the bound is `2^-23` per received sample. -/
theorem C133_soft_double {δ : ℝ} (hδ : δ ≤ 2 ^ (-40 : ℤ)) (hδ0 : 0 ≤ δ) {T n : Nat} (h : T + n ≤ 2 ^ 20) : softErr ((2 : ℝ) ^ (-53 : ℤ)) δ T n ≤ T * (n * 2 ^ (-23 : ℤ)) := by
  unfold softErr
  refine mul_le_mul_of_nonneg_left (mul_le_mul_of_nonneg_left ?_ (Nat.cast_nonneg _)) (Nat.cast_nonneg _)
  set v : ℝ := (2 : ℝ) ^ (-53 : ℤ) with hv
  have hv0 : 0 < v := zpow_pos (by norm_num) _
  set K := T + n
  have hKv : (K : ℝ) * v ≤ 2 ^ (-33 : ℤ) := by
    have : (K : ℝ) ≤ 2 ^ 20 := by exact_mod_cast h
    calc (K : ℝ) * v ≤ 2 ^ 20 * v := mul_le_mul_of_nonneg_right this hv0.le
      _ = 2 ^ (-33 : ℤ) := by rw [hv]; norm_num
  have hKv0 : 0 ≤ (K : ℝ) * v := by positivity
  have h2 : (1 + v) ^ K ≤ Real.exp (K * v) := by
    rw [Real.exp_nat_mul]
    exact pow_le_pow_left₀ (by linarith) (by linarith [Real.add_one_le_exp v]) K
  have h3 : Real.exp (K * v) ≤ 1 + K * v + (K * v) ^ 2 := by
    have := Real.abs_exp_sub_one_sub_id_le (x := K * v) (by rw [abs_of_nonneg hKv0]; exact hKv.trans (by norm_num))
    linarith [(abs_le.1 this).2]
  set x := (K : ℝ) * v
  have h4 : (1 + v) ^ K ≤ 1 + 2 ^ (-32 : ℤ) := by
    refine (h2.trans h3).trans ?_
    norm_num at hKv ⊢
    nlinarith
  have h5 : (1 + v) ^ K * (501 + δ) ≤ (1 + 2 ^ (-32 : ℤ)) * (501 + 2 ^ (-40 : ℤ)) :=
    mul_le_mul h4 (by linarith) (by linarith) (by norm_num)
  refine (sub_le_sub_right h5 501).trans ?_
  norm_num

/-! ### Noise-free reception, and examples -/

/-- The ±1 image of bits. -/
noncomputable def pm1 (c : List Nat) : List ℝ := c.map fun (b : Nat) => 2 * (b : ℝ) - 1

theorem sqDistBits_pm1 {c c' : List Nat} (hl : c.length = c'.length) (hc : ∀ b ∈ c, b < 2) (hc' : ∀ b ∈ c', b < 2) :
    sqDistBits (pm1 c) c' = 4 * diffCount c c' := by
  unfold sqDistBits pm1
  induction c generalizing c' with
  | nil => cases c' <;> simp [diffCount] at hl ⊢
  | cons x c ih =>
    cases c' with
    | nil => simp at hl
    | cons y c' =>
      have hi := ih (c' := c') (by simpa using hl) (fun b hb => hc b (by simp [hb])) (fun b hb => hc' b (by simp [hb]))
      simp only [List.map_cons, List.zipWith_cons_cons, List.sum_cons, hi, diffCount]
      have hx := hc x (by simp)
      have hy := hc' y (by simp)
      have hx' : x = 0 ∨ x = 1 := by omega
      have hy' : y = 0 ∨ y = 1 := by omega
      rcases hx' with rfl | rfl <;> rcases hy' with rfl | rfl <;> norm_num <;> ring

/-- C133, noise-free samples: if only the message's own paths have its code word as output, it is returned exactly, whatever the rounding. -/
theorem C133_noise_free (hu : 0 ≤ u) (hu1 : u < 1) (hD : D.OK u δ) {t : Trellis} (h : t.Balanced) (hn : 0 < t.n) (jk : VitJunk (Dbl D.fl)) {N : Nat}
    {coded : List ℝ} (hl : coded.length = N * t.n) (hT : 2 ≤ N + t.M / t.k) (hB : t.k = 1 ∨ (t.M / t.k - 1) * t.k ≤ N + t.M / t.k)
    {w : List Nat} (hw : IsInput t (N + t.M / t.k - 1) w) (hrx : paddedRx t (-1) coded = pm1 (t.runOut 0 w))
    (hinj : ∀ vs, IsInput t (N + t.M / t.k - 1) vs → t.runOut 0 vs = t.runOut 0 w → vs.take N = w.take N) :
    ∃ coded', viterbiDecodeF D "unquantized" t jk (N * t.k) (N + t.M / t.k) coded = .ok ((w.take N).flatMap (toBits t.k), coded') := by
  refine C133_margin hu hu1.le hD h hn jk hl hT hB hw fun vs hv hne => ?_
  have hbits : ∀ us : List Nat, ∀ b ∈ t.runOut 0 us, b < 2 := by
    intro us
    generalize 0 = s
    induction us generalizing s with
    | nil => intro b hb; simp [Trellis.runOut] at hb
    | cons x us ih =>
      intro b hb
      rw [Trellis.runOut, List.mem_append] at hb
      rcases hb with hb | hb
      · exact toBits_lt_two hb
      · exact ih _ b hb
  have hlen : (t.runOut 0 w).length = (t.runOut 0 vs).length := by rw [Trellis.runOut_length, Trellis.runOut_length, hw.1, hv.1]
  rw [hrx, sqDistBits_pm1 rfl (hbits w) (hbits w), sqDistBits_pm1 hlen (hbits w) (hbits vs), toBits_seq_zero]
  have hd : 0 < diffCount (t.runOut 0 w) (t.runOut 0 vs) := diffCount_pos hlen fun e => hne (hinj vs hv e.symm)
  have hd' : (0 : ℝ) < diffCount (t.runOut 0 w) (t.runOut 0 vs) := by exact_mod_cast hd
  have : (0 : ℝ) < (1 - u) ^ (N + t.M / t.k - 1 + t.n + 2) := pow_pos (by linarith) _
  simp only [Nat.cast_zero, mul_zero]
  positivity

end

/-- An arithmetic that satisfies the contract: rounding to 53 bits, sums from left to right. -/
noncomputable def vitFloats53 : VitFloats where
  fl := rnd53
  sum := fun l => match l with
    | [] => 0
    | x :: xs => xs.foldl (fun s y => rnd53 (s + y)) x
  ll0 := negLL0

theorem vitFloats53_ok : vitFloats53.OK ((2 : ℝ) ^ (-53 : ℤ)) 0 where
  fl := rnd53_isRounding
  sum := by
    intro l hl
    cases l with
    | nil => exact absurd rfl hl
    | cons x xs =>
      show FlSum rnd53 (x :: xs) (xs.foldl (fun s y => rnd53 (s + y)) x)
      have key : ∀ (xs pre : List ℝ) (s : ℝ), FlSum rnd53 pre s → FlSum rnd53 (pre ++ xs) (xs.foldl (fun s y => rnd53 (s + y)) s) := by
        intro xs
        induction xs with
        | nil => intro pre s h; simpa using h
        | cons y ys ih =>
          intro pre s h
          have := ih (pre ++ [y]) (rnd53 (s + y)) (.add (List.Perm.refl _) h (.one y))
          simpa using this
      exact key xs [x] x (.one x)
  ll0 := by intro x _; show |negLL0 x - negLL0 x| ≤ 0; simp

/-- The (5,7) code in double precision: noisy samples, the hypotheses of `C133_double` hold. -/
example (jk : VitJunk (Dbl rnd53)) : ∃ t, ∃ us : List Nat, ∃ coded', mkTrellis (fun _ _ => 0) [2] [[5, 7]] 2 none false "MSB" = .ok t ∧ us.length = 4 ∧
    viterbiDecodeF vitFloats53 "unquantized" t jk 3 5 [0.9, 1.1, -0.3, 0.2, 1, 1.5] = .ok ((us.take 3).flatMap (toBits 1), coded') := by
  have hbal := ff_balanced (junk := fun _ _ => 0) (rsc := false) viterbiEx_args (by simp)
  obtain ⟨us, h1, -, c', h3⟩ := C133_double (t := trellisOf (fun _ _ => 0) [2] [[5, 7]] 2 none false "MSB") vitFloats53_ok hbal (by decide) jk (N := 3)
    (coded := [0.9, 1.1, -0.3, 0.2, 1, 1.5]) rfl (by decide) (Or.inl rfl) (by decide)
  exact ⟨_, us, c', mkTrellis_ok viterbiEx_args, h1.1, h3⟩

/-- The (5,7) code in double precision, the noise-free code word of `1 0 0`. -/
example (jk : VitJunk (Dbl rnd53)) : ∃ t coded', mkTrellis (fun _ _ => 0) [2] [[5, 7]] 2 none false "MSB" = .ok t ∧
    viterbiDecodeF vitFloats53 "unquantized" t jk 3 5 [1, 1, -1, 1, 1, 1] = .ok ([1, 0, 0], coded') := by
  have hbal := ff_balanced (junk := fun _ _ => 0) (rsc := false) viterbiEx_args (by simp)
  have hout : (trellisOf (fun _ _ => 0) [2] [[5, 7]] 2 none false "MSB").runOut 0 [1, 0, 0, 0] = [1, 1, 0, 1, 1, 1, 0, 0] := by decide +kernel
  obtain ⟨c', h3⟩ := C133_noise_free (t := trellisOf (fun _ _ => 0) [2] [[5, 7]] 2 none false "MSB") (zpow_nonneg (by norm_num) _) (by norm_num) vitFloats53_ok hbal
    (by decide) jk (N := 3) (coded := [1, 1, -1, 1, 1, 1]) rfl (by decide) (Or.inl rfl) (w := [1, 0, 0, 0])
    ⟨rfl, by decide⟩ (by
      rw [hout]
      show [1, 1, -1, 1, 1, 1] ++ [-1, -1] = pm1 [1, 1, 0, 1, 1, 1, 0, 0]
      simp [pm1]; norm_num) (by
      rintro vs ⟨h1, h2⟩ he
      have h1' : vs.length = 4 := h1
      match vs, h1' with
      | [a, b, c, d], _ =>
        have h2' : ∀ x ∈ [a, b, c, d], x < 2 := h2
        have hall : ∀ a < (2 : Nat), ∀ b < (2 : Nat), ∀ c < (2 : Nat), ∀ d < (2 : Nat),
          [a, b, c, d].take 3 ≠ [1, 0, 0] →
          0 < diffCount ((trellisOf (fun _ _ => 0) [2] [[5, 7]] 2 none false "MSB").runOut 0 [a, b, c, d]) [1, 1, 0, 1, 1, 1, 0, 0] := by decide +kernel
        rw [hout] at he
        by_contra hne
        have := hall a (h2' a (by simp)) b (h2' b (by simp)) c (h2' c (by simp)) d (h2' d (by simp)) hne
        rw [he, toBits_seq_zero] at this
        exact absurd this (by decide))
  exact ⟨_, c', mkTrellis_ok viterbiEx_args, h3⟩

/-- Hard decisions in doubles with one wrong bit: same result as with integers. -/
example (jkF : VitJunk (Dbl rnd53)) (jk : VitJunk Nat) : ∃ t bits after, mkTrellis (fun _ _ => 0) [2] [[5, 7]] 2 none false "MSB" = .ok t ∧
    viterbiDecodeF vitFloats53 "hard" t jkF 3 4 [1, 1, 1, 1, 1, 1] = .ok (bits, after.map fun (b : Nat) => (b : ℝ)) ∧
    viterbiHard t jk 3 4 [1, 1, 1, 1, 1, 1] = .ok (bits, after) := by
  have hbal := ff_balanced (junk := fun _ _ => 0) (rsc := false) viterbiEx_args (by simp)
  obtain ⟨bits, after, h1, h2⟩ := C133_hard (D := vitFloats53) rnd53_nat (t := trellisOf (fun _ _ => 0) [2] [[5, 7]] 2 none false "MSB") hbal (by decide) jkF jk (N := 3) (tb := 4)
    (coded := [1, 1, 1, 1, 1, 1]) rfl (by decide) (by decide) (by decide) (Or.inl rfl) (by decide)
  refine ⟨_, bits, after, mkTrellis_ok viterbiEx_args, ?_, h2⟩
  simp only [List.map_cons, List.map_nil, Nat.cast_one] at h1
  exact h1

/-- Soft decisions in doubles: the hypotheses of `C133_soft` hold. -/
example (jk : VitJunk (Dbl rnd53)) : ∃ t, ∃ us : List Nat, mkTrellis (fun _ _ => 0) [2] [[5, 7]] 2 none false "MSB" = .ok t ∧ us.length = 4 ∧
    viterbiDecodeF vitFloats53 "soft" t jk 3 5 [4, 700, -3, 0, 1, 2.5] = .ok ((us.take 3).flatMap (toBits 1), [4, 700, -3, 0, 1, 2.5]) := by
  have hbal := ff_balanced (junk := fun _ _ => 0) (rsc := false) viterbiEx_args (by simp)
  obtain ⟨us, h1, -, h3⟩ := C133_soft (t := trellisOf (fun _ _ => 0) [2] [[5, 7]] 2 none false "MSB") (zpow_nonneg (by norm_num) _) vitFloats53_ok hbal (by decide) jk (N := 3)
    (llr := [4, 700, -3, 0, 1, 2.5]) rfl (by decide) (Or.inl rfl)
  exact ⟨_, us, mkTrellis_ok viterbiEx_args, h1.1, h3⟩

end Verif
