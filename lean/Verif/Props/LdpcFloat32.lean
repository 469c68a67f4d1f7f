import Verif.Model.LdpcFloat32
import Verif.Spec.Float32
import Verif.Props.LdpcCode
import Verif.Props.LdpcFile
import Mathlib.Data.Int.Log
import Mathlib.LinearAlgebra.Matrix.Block
import Mathlib.Tactic.Linarith
import Mathlib.Tactic.Ring
/-
C138: LDPC encoding with single-precision inversion.
-/
namespace Verif

/-- A single-precision number of magnitude at least 2^25 is an even integer. -/
theorem float32_even {x : ℚ} (h : IsFloat32 x) (hx : 2 ^ 25 ≤ |x|) : ∃ k : ℤ, x = 2 * k := by
  obtain ⟨m, e, hm, rfl⟩ := h
  have he : 1 ≤ e := by
    by_contra hc
    have h1 : (2 : ℚ) ^ e ≤ 2 ^ (0 : ℤ) := zpow_le_zpow_right₀ (by norm_num) (by omega)
    rw [zpow_zero] at h1
    have h2 : |(m : ℚ)| ≤ 2 ^ 24 := by exact_mod_cast hm
    rw [abs_mul, abs_of_pos (zpow_pos (by norm_num : (0 : ℚ) < 2) e)] at hx
    have := mul_le_mul h2 h1 (zpow_pos (by norm_num) e).le (by norm_num)
    norm_num at this hx
    linarith
  refine ⟨m * 2 ^ (e - 1).toNat, ?_⟩
  have : (2 : ℚ) ^ e = 2 * 2 ^ (e - 1).toNat := by
    rw [← zpow_natCast, Int.toNat_of_nonneg (by omega), ← zpow_one_add₀ (by norm_num)]
    congr 1; ring
  rw [this]; push_cast; ring

theorem parityBit_even (k : ℤ) : parityBit (2 * k) = 0 := by
  unfold parityBit
  have : (2 * (k : ℚ)) / 2 = k := by ring
  rw [this, Int.floor_intCast, sub_self, Int.floor_zero]

/-- The code: check `i` joins the parity bits `i`, `i - 1` and `i - 3`, and check 0 also the only message bit. -/
def narRows (n : Nat) : List (List Nat) :=
  (List.range n).map fun i => (List.range (n + 1)).map fun v => if (v = 0 ∧ i = 0) ∨ v = i + 1 ∨ (v = i ∧ 1 ≤ v) ∨ (v + 2 = i ∧ 1 ≤ v) then 1 else 0

/-- The parity check matrix of the code, with integer entries. -/
def narRowsInt (n : Nat) : List (List Int) := (narRows n).map fun r => r.map fun (x : Nat) => (x : Int)

theorem nar_getD {n i v : Nat} (hi : i < n) (hv : v < n + 1) : ((narRowsInt n).getD i []).getD v 0 =
    if (v = 0 ∧ i = 0) ∨ v = i + 1 ∨ (v = i ∧ 1 ≤ v) ∨ (v + 2 = i ∧ 1 ≤ v) then 1 else 0 := by
  unfold narRowsInt narRows
  simp only [List.map_map, List.getD_eq_getElem?_getD, List.getElem?_map, List.getElem?_range hi, Option.map_some, Option.getD_some, Function.comp, List.getElem?_range hv]
  split_ifs <;> rfl

theorem narRowsInt_length (n : Nat) : (narRowsInt n).length = n := by simp [narRowsInt, narRows]

/-- The entries of the first column of the inverse. -/
def nar : Nat → Int
  | 0 => 1
  | 1 => -1
  | 2 => 1
  | i + 3 => -nar (i + 2) - nar i

/-- Their magnitudes. -/
def narAbs : Nat → Nat
  | 0 => 1
  | 1 => 1
  | 2 => 1
  | i + 3 => narAbs (i + 2) + narAbs i

theorem nar_abs (i : Nat) : nar i = (-1) ^ i * (narAbs i : Int) := by
  induction i using nar.induct with
  | case1 => rfl
  | case2 => rfl
  | case3 => rfl
  | case4 i h1 h2 =>
    rw [nar, h1, h2, narAbs]
    push_cast
    show _ = (-1 : ℤ) ^ (i + 3) * _
    ring

theorem narAbs_mono (i : Nat) : narAbs i ≤ narAbs (i + 1) := by
  rcases i with _ | _ | i
  · decide
  · decide
  · show narAbs (i + 2) ≤ narAbs (i + 2) + narAbs i
    omega

theorem narAbs_big {i : Nat} (h : 50 ≤ i) : 2 ^ 26 ≤ narAbs i := by
  induction i, h using Nat.le_induction with
  | base => decide +kernel
  | succ i _ ih => exact ih.trans (narAbs_mono i)

theorem sum_fin_ite {n : Nat} (f : Nat → ℚ) {c : Nat} (hc : c < n) : ∑ j : Fin n, (if (j : Nat) = c then f j else 0) = f c := by
  rw [Finset.sum_eq_single (⟨c, hc⟩ : Fin n)]
  · simp
  · intro b _ hb
    rw [if_neg]
    exact fun h => hb (Fin.ext h)
  · simp

theorem nar_sys {n : Nat} (i j : Fin n) : sysPart n (n + 1) (narRowsInt n) i j =
    (if (j : Nat) = i then 1 else 0) + (if (j : Nat) + 1 = i then 1 else 0) + (if (j : Nat) + 3 = i then 1 else 0) := by
  unfold sysPart
  rw [nar_getD i.2 (by have := j.2; omega)]
  have e : n + 1 - n + (j : Nat) = j + 1 := by omega
  rw [e, if_congr (show _ ↔ (j : Nat) = i ∨ (j : Nat) + 1 = i ∨ (j : Nat) + 3 = i by omega) rfl rfl]
  split_ifs <;> first | omega | norm_num

theorem nar_par {n : Nat} (i : Fin n) (j : Fin (n + 1 - n)) : parPart n (n + 1) (narRowsInt n) i j = if (i : Nat) = 0 then 1 else 0 := by
  unfold parPart
  have := j.2
  rw [nar_getD i.2 (by omega)]
  split_ifs <;> first | omega | norm_num

/-- A sum over a check: the terms of the parity bits `i`, `i - 1`, `i - 3`. -/
theorem nar_sum {n : Nat} (i : Nat) (hi : i < n) (f : Nat → ℚ) :
    ∑ j : Fin n, ((if (j : Nat) = i then 1 else 0) + (if (j : Nat) + 1 = i then 1 else 0) + (if (j : Nat) + 3 = i then 1 else 0)) * f j =
      f i + (if 1 ≤ i then f (i - 1) else 0) + (if 3 ≤ i then f (i - 3) else 0) := by
  have h : ∀ j : Fin n, (((if (j : Nat) = i then 1 else 0) + (if (j : Nat) + 1 = i then 1 else 0) + (if (j : Nat) + 3 = i then 1 else 0)) * f j : ℚ) =
      (if (j : Nat) = i then f j else 0) + (if (j : Nat) + 1 = i then f j else 0) + (if (j : Nat) + 3 = i then f j else 0) := by
    intro j
    split_ifs <;> ring
  rw [Finset.sum_congr rfl fun j _ => h j, Finset.sum_add_distrib, Finset.sum_add_distrib, sum_fin_ite f hi]
  congr 1
  · congr 1
    by_cases h1 : 1 ≤ i
    · rw [if_pos h1, ← sum_fin_ite (n := n) f (c := i - 1) (by omega)]
      refine Finset.sum_congr rfl fun j _ => ?_
      congr 1
      exact propext (by omega)
    · rw [if_neg h1]
      refine Finset.sum_eq_zero fun j _ => ?_
      rw [if_neg (by omega)]
  · by_cases h1 : 3 ≤ i
    · rw [if_pos h1, ← sum_fin_ite (n := n) f (c := i - 3) (by omega)]
      refine Finset.sum_congr rfl fun j _ => ?_
      congr 1
      exact propext (by omega)
    · rw [if_neg h1]
      refine Finset.sum_eq_zero fun j _ => ?_
      rw [if_neg (by omega)]

theorem nar_lower (n : Nat) : LowerTriangularTail (narRowsInt n) (n + 1) := by
  intro i hi j hj hij
  rw [narRowsInt_length] at *
  rw [nar_getD hi (by omega)]
  split_ifs <;> omega

theorem nar_det (n : Nat) : (sysPart n (n + 1) (narRowsInt n)).det = 1 := by
  rw [Matrix.det_of_isLowerTriangular]
  · refine Finset.prod_eq_one fun i _ => ?_
    rw [nar_sys, if_pos rfl, if_neg (by omega), if_neg (by omega)]; norm_num
  · intro i j hij
    replace hij : i < j := hij
    have := Fin.lt_def.1 hij
    rw [nar_sys, if_neg (by omega), if_neg (by omega), if_neg (by omega)]; norm_num

theorem nar_mulVec {n : Nat} (hn : 0 < n) : (sysPart n (n + 1) (narRowsInt n)).mulVec (fun j => (nar j : ℚ)) = Pi.single ⟨0, hn⟩ 1 := by
  funext i
  unfold Matrix.mulVec dotProduct
  simp only [nar_sys]
  rw [nar_sum i i.2 (fun j => (nar j : ℚ))]
  rcases i with ⟨i, hi⟩
  rcases i with _ | _ | _ | i
  · norm_num [nar]
  · rw [Pi.single_eq_of_ne (by intro h; simp at h)]
    norm_num [nar]
  · rw [Pi.single_eq_of_ne (by intro h; simp at h)]
    norm_num [nar]
  · rw [Pi.single_eq_of_ne (by intro h; simp at h)]
    show ((nar (i + 3) : Int) : ℚ) + (if 1 ≤ i + 3 then (nar (i + 2) : ℚ) else 0) + (if 3 ≤ i + 3 then (nar (i + 3 - 3) : ℚ) else 0) = 0
    rw [if_pos (by omega), if_pos (by omega), nar, show i + 3 - 3 = i from rfl]
    push_cast; ring

theorem nar_inv {n : Nat} (hn : 0 < n) (i : Fin n) : (sysPart n (n + 1) (narRowsInt n))⁻¹ i ⟨0, hn⟩ = nar i := by
  have h := congrArg (fun v => (sysPart n (n + 1) (narRowsInt n))⁻¹.mulVec v) (nar_mulVec hn)
  simp only [Matrix.mulVec_mulVec] at h
  rw [Matrix.nonsing_inv_mul _ (by rw [nar_det]; exact isUnit_one), Matrix.one_mulVec, Matrix.mulVec_single_one] at h
  exact (congrFun h i).symm

theorem matmul_col {fl : ℚ → ℚ} (hfl : ∀ x, IsFloat32 x → fl x = x) {n k : Nat} (hn : 0 < n) (X : Matrix (Fin n) (Fin n) ℚ) (P : Matrix (Fin n) (Fin k) ℚ)
    (hX : ∀ i j, IsFloat32 (X i j)) (j : Fin k) (hP : ∀ l, P l j = if (l : Nat) = 0 then 1 else 0) (i : Fin n) : matmulF32 fl X P i j = X i ⟨0, hn⟩ := by
  have h0 : fl 0 = 0 := hfl 0 ⟨0, 0, by norm_num, by norm_num⟩
  obtain ⟨m, rfl⟩ : ∃ m, n = m + 1 := ⟨n - 1, by omega⟩
  unfold matmulF32
  rw [List.finRange_succ, List.foldl_cons, List.foldl_map, hP, if_pos (show ((0 : Fin (m + 1)) : Nat) = 0 from rfl), mul_one, zero_add, hfl _ (hX i 0), hfl _ (hX i 0)]
  have : ∀ (l : List (Fin m)), l.foldl (fun acc x => fl (acc + fl (X i x.succ * P x.succ j))) (X i 0) = X i 0 := by
    intro l
    induction l with
    | nil => rfl
    | cons a l ih =>
      rw [List.foldl_cons, hP, if_neg (by simp), mul_zero, h0, add_zero, hfl _ (hX i 0), ih]
  rw [this]
  rfl

/-- A word that satisfies the checks has the parities of the entries of the inverse. -/
theorem nar_syndrome {n : Nat} (b : Nat → Int) (h : Syndrome0 (narRowsInt n) (1 :: (List.finRange n).map fun i : Fin n => b i)) :
    ∀ i < n, (b i - nar i) % 2 = 0 := by
  have hrow : ∀ i < n, (b i + (if 1 ≤ i then b (i - 1) else 0) + (if 3 ≤ i then b (i - 3) else 0) + (if i = 0 then 1 else 0)) % 2 = 0 := by
    intro i hi
    have hm : (narRowsInt n).getD i [] ∈ narRowsInt n := by
      rw [List.getD_eq_getElem _ _ (by rw [narRowsInt_length]; exact hi)]
      exact List.getElem_mem _
    have := h _ hm
    rw [zipWith_sum_fin (n + 1) _ _ (by
      obtain ⟨r, hr, e⟩ := List.mem_map.1 hm
      obtain ⟨r', hr', e'⟩ := List.mem_map.1 hr
      rw [← e, ← e']; simp) (by simp), Fin.sum_univ_succ] at this
    have e0 : ((narRowsInt n).getD i []).getD ((0 : Fin (n + 1)) : Nat) 0 = if i = 0 then 1 else 0 := by
      show ((narRowsInt n).getD i []).getD 0 0 = _
      rw [nar_getD hi (by omega), if_congr (show _ ↔ i = 0 by omega) rfl rfl]
    have es : ∀ j : Fin n, ((((narRowsInt n).getD i []).getD (j.succ : Nat) 0 * (1 :: (List.finRange n).map fun i : Fin n => b i).getD (j.succ : Nat) 0 : Int) : ℚ) =
        ((if (j : Nat) = i then 1 else 0) + (if (j : Nat) + 1 = i then 1 else 0) + (if (j : Nat) + 3 = i then 1 else 0)) * (b j : ℚ) := by
      intro j
      have := nar_sys (⟨i, hi⟩ : Fin n) j
      unfold sysPart at this
      rw [show n + 1 - n + (j : Nat) = (j.succ : Nat) by rw [Fin.val_succ]; omega] at this
      push_cast
      rw [this]
      congr 1
      simp
    have hsum : ((∑ j : Fin n, ((narRowsInt n).getD i []).getD (j.succ : Nat) 0 * (1 :: (List.finRange n).map fun i : Fin n => b i).getD (j.succ : Nat) 0 : Int) : ℚ) =
        ((b i + (if 1 ≤ i then b (i - 1) else 0) + (if 3 ≤ i then b (i - 3) else 0) : Int) : ℚ) := by
      rw [Int.cast_sum, Finset.sum_congr rfl fun j _ => es j, nar_sum i hi (fun j => (b j : ℚ))]
      push_cast
      rfl
    rw [Int.cast_injective hsum, e0] at this
    change ((if i = 0 then (1 : Int) else 0) * 1 + _) % 2 = 0 at this
    rw [mul_one, add_comm] at this
    exact this
  intro i
  induction i using nar.induct with
  | case1 => intro hi; have := hrow 0 hi; norm_num at this; rw [nar]; omega
  | case2 =>
    intro hi
    have h0 := hrow 0 (by omega)
    have h1 := hrow 1 hi
    norm_num at h0 h1
    rw [nar]; omega
  | case3 =>
    intro hi
    have h0 := hrow 0 (by omega)
    have h1 := hrow 1 (by omega)
    have h2 := hrow 2 hi
    norm_num at h0 h1 h2
    rw [nar]; omega
  | case4 i h1 h2 =>
    intro hi
    replace hi : i + 3 < n := hi
    have h3 := hrow (i + 3) hi
    have a1 := h1 (by omega)
    have a2 := h2 (by omega)
    rw [if_pos (by omega), if_pos (by omega), if_neg (by omega), show i + 3 - 1 = i + 2 from rfl, show i + 3 - 3 = i from rfl] at h3
    show (b (i + 3) - nar (i + 3)) % 2 = 0
    rw [nar]
    replace a1 : (b (i + 2) - nar (i + 2)) % 2 = 0 := a1
    omega

theorem nar_gen {n : Nat} (hn : 0 < n) (inv : ∀ n, Matrix (Fin n) (Fin n) ℚ → Matrix (Fin n) (Fin n) ℚ) (fl : ℚ → ℚ) :
    generatorMatrixF32 inv fl n (n + 1) (narRowsInt n) = .ok (matmulF32 fl (inv n (sysPart n (n + 1) (narRowsInt n))) (parPart n (n + 1) (narRowsInt n))) := by
  unfold generatorMatrixF32
  rw [if_neg (by omega), if_neg (by rw [nar_det]; norm_num)]

theorem ldpcEncodeF32_eq (inv : ∀ n, Matrix (Fin n) (Fin n) ℚ → Matrix (Fin n) (Fin n) ℚ) (fl : ℚ → ℚ) (p : LdpcParams) {r n : Nat} (hr : p.nc.toNat = r)
    (hn : p.nv.toNat = n) (H : List (List Int)) (hb : buildParity p = .ok H) (msg : List Int) (pad : Bool) :
    ldpcEncodeF32 inv fl p msg pad = (generatorMatrixF32 inv fl r n H >>= fun G => encodeWith G msg pad) := by
  subst hr hn
  simp only [ldpcEncodeF32, hb, bind, Except.bind]

theorem encodeWith_one {n k : Nat} (hk : k = 1) (G : Matrix (Fin n) (Fin k) ℚ) (pad : Bool) :
    encodeWith G [1] pad = .ok [1 :: (List.finRange n).map fun i => parityBit (G i ⟨0, by omega⟩)] := by
  subst hk
  show (.ok [[1] ++ (List.finRange n).map (fun i => parityBit (∑ j : Fin 1, G i j * (([(1 : Int)].getD j 0 : Int) : ℚ)))] : Py _) = _
  have : ∀ i : Fin n, (∑ j : Fin 1, G i j * (([(1 : Int)].getD j 0 : Int) : ℚ)) = G i 0 := by
    intro i
    simp
  simp only [this]
  rfl

/-- **C138 is false as stated**: for every length `n ≥ 53` there is a code, with a lower triangular matrix of parity columns and read from its design file, for which exact
arithmetic encodes the message 1 as a codeword while the encoder with single-precision inversion returns a word that violates a check: however the inversion rounds, provided
its results are single-precision numbers with a relative error of at most 50%. -/
theorem C138_refuted (n : Nat) (hn : 53 ≤ n) (inv : ∀ n, Matrix (Fin n) (Fin n) ℚ → Matrix (Fin n) (Fin n) ℚ) (hinv : InvFloat32 inv) (fl : ℚ → ℚ)
    (hfl : ∀ x, IsFloat32 x → fl x = x) (pad : Bool) :
    ∃ txt p w x, writeLdpc (n + 1) (narRows n) = .ok txt ∧ getLdpc txt = .ok p ∧ buildParity p = .ok (narRowsInt n) ∧ LowerTriangularTail (narRowsInt n) (n + 1) ∧
      ldpcEncode p [1] pad = .ok [x] ∧ SystematicCodeword (narRowsInt n) (n + 1) [1] x ∧
      ldpcEncodeF32 inv fl p [1] pad = .ok [w] ∧ ¬ Syndrome0 (narRowsInt n) w := by
  have hlen : (narRows n).length = n := by simp [narRows]
  have hget : ∀ i < n, ∃ r ∈ narRows n, ∀ v < n + 1, r.getD v 0 = if (v = 0 ∧ i = 0) ∨ v = i + 1 ∨ (v = i ∧ 1 ≤ v) ∨ (v + 2 = i ∧ 1 ≤ v) then 1 else 0 := by
    intro i hi
    refine ⟨_, List.mem_map.2 ⟨i, List.mem_range.2 hi, rfl⟩, ?_⟩
    intro v hv
    simp only [List.getD_eq_getElem?_getD, List.getElem?_map, List.getElem?_range hv, Option.map_some, Option.getD_some]
  obtain ⟨txt, p, h1, h2, h3, h4, -, -, h5⟩ := C54_roundtrip (n + 1) (narRows n) (by intro h; rw [h] at hlen; simp at hlen; omega)
    (by intro r hr; obtain ⟨i, -, rfl⟩ := List.mem_map.1 hr; simp)
    (by
      intro r hr x hx
      obtain ⟨i, -, rfl⟩ := List.mem_map.1 hr
      obtain ⟨v, -, rfl⟩ := List.mem_map.1 hx
      split_ifs <;> simp)
    (by
      intro r hr
      obtain ⟨i, hi, rfl⟩ := List.mem_map.1 hr
      refine List.mem_map.2 ⟨i + 1, List.mem_range.2 (by have := List.mem_range.1 hi; omega), ?_⟩
      rw [if_pos (by omega)])
    (by
      intro j hj
      rcases Nat.eq_zero_or_pos j with h | h
      · obtain ⟨r, hr, hv⟩ := hget 0 (by omega)
        exact ⟨r, hr, by rw [hv j hj, if_pos (by omega)]⟩
      · obtain ⟨r, hr, hv⟩ := hget (j - 1) (by omega)
        exact ⟨r, hr, by rw [hv j hj, if_pos (by omega)]⟩)
  change buildParity p = .ok (narRowsInt n) at h5
  have e1 : p.nc.toNat = n := by rw [h4, hlen]; simp
  have e2 : p.nv.toNat = n + 1 := by rw [h3]; simp
  have hk : n + 1 - n = 1 := by omega
  obtain ⟨ms, z, blocks, hE, hm, hz, hF⟩ := C56_triangular p _ h5 (by omega) (by omega) (Or.inl (by rw [e2]; exact nar_lower n)) [1] (by simp) pad
    (Or.inr (by rw [e1, e2, hk]; exact one_dvd _))
  rw [e1, e2, hk] at hz hF
  obtain rfl : z = 0 := by omega
  have hE' := hE
  rw [ldpcEncode_eq p e1 e2 _ h5] at hE'
  have hx : ∃ x, blocks = [x] := by
    unfold generatorMatrix at hE'
    rw [if_neg (by omega), if_neg (by rw [nar_det]; norm_num)] at hE'
    simp only [bind, Except.bind] at hE'
    rw [encodeWith_one hk] at hE'
    injection hE' with hE'
    exact ⟨_, hE'.symm⟩
  obtain ⟨x, rfl⟩ := hx
  have hmx : ms = [[1]] := by
    cases hF with
    | cons hh ht => cases ht; simpa using hm
  subst hmx
  have hsys : SystematicCodeword (narRowsInt n) (n + 1) [1] x := by
    cases hF with
    | cons hh ht => exact hh.2
  refine ⟨txt, p, 1 :: (List.finRange n).map fun i => parityBit (inv n (sysPart n (n + 1) (narRowsInt n)) i ⟨0, by omega⟩), x, h1, h2, h5, nar_lower n, hE, hsys, ?_, ?_⟩
  · rw [ldpcEncodeF32_eq inv fl p e1 e2 _ h5, nar_gen (by omega)]
    simp only [bind, Except.bind]
    rw [encodeWith_one hk]
    congr 3
    refine List.map_congr_left fun i _ => ?_
    rw [matmul_col hfl (by omega) _ _ (hinv.float n _) _ (fun l => nar_par l _) i]
  · intro hs
    set A := sysPart n (n + 1) (narRowsInt n) with hA
    have hpar := nar_syndrome (n := n) (fun i => if h : i < n then parityBit (inv n A ⟨i, h⟩ ⟨0, by omega⟩) else 0) (by
      convert hs using 3
      funext i
      rw [dif_pos i.2])
    have hzero : ∀ i, 50 ≤ i → (hi : i < n) → parityBit (inv n A ⟨i, hi⟩ ⟨0, by omega⟩) = 0 := by
      intro i h50 hi
      have hnear := hinv.near n A ⟨i, hi⟩ ⟨0, by omega⟩ (by rw [nar_det]; norm_num)
      rw [nar_inv (by omega)] at hnear
      have hbig : (2 : ℚ) ^ 26 ≤ |(nar i : ℚ)| := by
        rw [nar_abs]
        push_cast
        rw [abs_mul, abs_pow, abs_neg, abs_one, one_pow, one_mul, abs_of_nonneg (by positivity)]
        exact_mod_cast narAbs_big h50
      obtain ⟨k, hk⟩ := float32_even (hinv.float n A ⟨i, hi⟩ ⟨0, by omega⟩) (by
        have := abs_sub_abs_le_abs_sub (nar i : ℚ) (inv n A ⟨i, hi⟩ ⟨0, by omega⟩)
        rw [abs_sub_comm] at this
        norm_num at hbig ⊢
        linarith)
      rw [hk, parityBit_even]
    have h50 := hpar 50 (by omega)
    have h51 := hpar 51 (by omega)
    have h52 := hpar 52 (by omega)
    simp only [dif_pos (show 50 < n by omega), dif_pos (show 51 < n by omega), dif_pos (show 52 < n by omega), hzero 50 le_rfl (by omega),
      hzero 51 (by omega) (by omega), hzero 52 (by omega) (by omega)] at h50 h51 h52
    revert h50 h51 h52
    rw [nar_abs, nar_abs, nar_abs]
    have n50 : narAbs 50 % 2 + narAbs 51 % 2 + narAbs 52 % 2 ≠ 0 := by decide +kernel
    intro a b c
    norm_num at a b c
    omega

theorem isFloat32_int {z : Int} (h : |z| ≤ 2 ^ 24) : IsFloat32 z := ⟨z, 0, h, by simp⟩

/-- A product of integer matrices is computed exactly if the sums of magnitudes are at most 2^24. -/
theorem matmulF32_exact {fl : ℚ → ℚ} (hfl : ∀ x, IsFloat32 x → fl x = x) {r n k : Nat} (X : Matrix (Fin r) (Fin n) Int) (P : Matrix (Fin n) (Fin k) Int)
    (hb : ∀ i j, ∑ l, |X i l * P l j| ≤ 2 ^ 24) : matmulF32 fl (X.map (Int.castRingHom ℚ)) (P.map (Int.castRingHom ℚ)) = (X * P).map (Int.castRingHom ℚ) := by
  funext i j
  unfold matmulF32
  have key : ∀ (l : List (Fin n)) (acc : Int), |acc| + (l.map fun x => |X i x * P x j|).sum ≤ 2 ^ 24 →
      l.foldl (fun acc x => fl (acc + fl (X.map (Int.castRingHom ℚ) i x * P.map (Int.castRingHom ℚ) x j))) (acc : ℚ) = ((acc + (l.map fun x => X i x * P x j).sum : Int) : ℚ) := by
    intro l
    induction l with
    | nil => intro acc _; simp
    | cons a l ih =>
      intro acc h
      rw [List.map_cons, List.sum_cons] at h
      have hs : 0 ≤ (l.map fun x => |X i x * P x j|).sum := List.sum_nonneg (by
        intro y hy; obtain ⟨x, -, rfl⟩ := List.mem_map.1 hy; exact abs_nonneg _)
      have hadd := abs_add_le acc (X i a * P a j)
      have h1 : fl (X.map (Int.castRingHom ℚ) i a * P.map (Int.castRingHom ℚ) a j) = ((X i a * P a j : Int) : ℚ) := by
        have e : (X.map (Int.castRingHom ℚ) i a * P.map (Int.castRingHom ℚ) a j) = ((X i a * P a j : Int) : ℚ) := by simp
        rw [e]
        exact hfl _ (isFloat32_int (by have := abs_nonneg acc; omega))
      rw [List.foldl_cons, h1, ← Int.cast_add, hfl _ (isFloat32_int (by omega)), ih _ (by omega), List.map_cons, List.sum_cons, add_assoc]
  have h0 := key (List.finRange n) 0 (by
    have := hb i j
    rw [← List.sum_toFinset _ (List.nodup_finRange n)]
    simpa using this)
  rw [Int.cast_zero] at h0
  rw [h0, Matrix.map_apply, Matrix.mul_apply, zero_add]
  rw [← List.sum_toFinset _ (List.nodup_finRange n)]
  simp

/-- **C138** (_partial: for codes whose inverse is computed exactly): with a triangular matrix of parity columns whose inverse comes out exactly, and as long as the sums of
magnitudes of the product with the message columns stay within 2^24, the encoder returns systematic codewords. -/
theorem C138_small_partial (p : LdpcParams) (H : List (List Int)) (hb : buildParity p = .ok H) (h1 : 0 < p.nc) (h2 : p.nc < p.nv)
    (hT : LowerTriangularTail H p.nv.toNat ∨ UpperTriangularTail H p.nv.toNat)
    (inv : ∀ n, Matrix (Fin n) (Fin n) ℚ → Matrix (Fin n) (Fin n) ℚ) (fl : ℚ → ℚ) (hfl : ∀ x, IsFloat32 x → fl x = x)
    (T' : Matrix (Fin p.nc.toNat) (Fin p.nc.toNat) Int) (hT' : tailMatrix H p.nc.toNat p.nv.toNat * T' = 1)
    (hinv : inv p.nc.toNat ((tailMatrix H p.nc.toNat p.nv.toNat).map (Int.castRingHom ℚ)) = T'.map (Int.castRingHom ℚ))
    (hsum : ∀ i j, ∑ l, |T' i l * headMatrix H p.nc.toNat p.nv.toNat l j| ≤ 2 ^ 24)
    (msg : List Int) (hmsg : ∀ x ∈ msg, x = 0 ∨ x = 1) (pad : Bool) (hpad : pad = true ∨ (p.nv.toNat - p.nc.toNat) ∣ msg.length) :
    ∃ ms z blocks, ldpcEncodeF32 inv fl p msg pad = .ok blocks ∧ ms.flatten = msg ++ List.replicate z 0 ∧ z < p.nv.toNat - p.nc.toNat ∧
      List.Forall₂ (fun m b => m.length = p.nv.toNat - p.nc.toNat ∧ SystematicCodeword H p.nv.toNat m b) ms blocks := by
  obtain ⟨ms, z, blocks, hE, hrest⟩ := C56_triangular p H hb h1 h2 hT msg hmsg pad hpad
  refine ⟨ms, z, blocks, ?_, hrest⟩
  rw [← hE, ldpcEncode_eq p rfl rfl H hb, ldpcEncodeF32_eq inv fl p rfl rfl H hb]
  congr 1
  unfold generatorMatrixF32 generatorMatrix
  congr 3
  rw [sysPart_cast, parPart_cast, hinv, matmulF32_exact hfl _ _ hsum]
  have hi : (tailMatrix H p.nc.toNat p.nv.toNat).map (Int.castRingHom ℚ) * T'.map (Int.castRingHom ℚ) = 1 := by
    rw [← Matrix.map_mul, hT', Matrix.map_one _ (map_zero _) (map_one _)]
  rw [Matrix.inv_eq_right_inv hi, ← Matrix.map_mul]

/-- Rounding to single precision (towards minus infinity). -/
def fl32 (x : ℚ) : ℚ := ⌊x / 2 ^ (Int.log 2 |x| - 23)⌋ * 2 ^ (Int.log 2 |x| - 23)

theorem fl32_spec (x : ℚ) : IsFloat32 (fl32 x) ∧ |fl32 x - x| ≤ 1 / 2 * |x| := by
  rcases eq_or_ne x 0 with rfl | hx
  · have : fl32 0 = 0 := by simp [fl32]
    rw [this]
    exact ⟨⟨0, 0, by norm_num, by norm_num⟩, by simp⟩
  have hx' : 0 < |x| := abs_pos.2 hx
  have l1 := Int.zpow_log_le_self (b := 2) (by norm_num) hx'
  have l2 := Int.lt_zpow_succ_log_self (b := 2) (by norm_num) |x|
  push_cast at l1 l2
  unfold fl32
  set e := Int.log 2 |x| - 23 with he
  have hlog : Int.log 2 |x| = 23 + e := by omega
  rw [hlog, zpow_add₀ (by norm_num)] at l1
  rw [hlog, show (23 : ℤ) + e + 1 = 24 + e by ring, zpow_add₀ (by norm_num)] at l2
  have hp : (0 : ℚ) < 2 ^ e := zpow_pos (by norm_num) e
  clear_value e
  norm_num at l1 l2
  have f1 := Int.floor_le (x / 2 ^ e)
  have f2 := Int.lt_floor_add_one (x / 2 ^ e)
  rw [div_lt_iff₀ hp] at f2
  rw [le_div_iff₀ hp] at f1
  constructor
  · refine ⟨⌊x / 2 ^ e⌋, e, ?_, rfl⟩
    obtain ⟨a, b⟩ := abs_lt.1 l2
    rw [abs_le]
    constructor
    · rw [Int.le_floor]
      push_cast
      rw [le_div_iff₀ hp]
      norm_num
      linarith
    · have : ⌊x / 2 ^ e⌋ < 2 ^ 24 := by
        rw [Int.floor_lt]
        push_cast
        rw [div_lt_iff₀ hp]
        norm_num
        exact b
      exact this.le
  · rw [abs_le]
    constructor <;> nlinarith

theorem fl32_exact {x : ℚ} (h : IsFloat32 x) : fl32 x = x := by
  rcases eq_or_ne x 0 with rfl | hx
  · simp [fl32]
  obtain ⟨m, k, hm, rfl⟩ := h
  have hx' : 0 < |(m : ℚ) * 2 ^ k| := abs_pos.2 hx
  have l1 := Int.zpow_log_le_self (b := 2) (by norm_num) hx'
  push_cast at l1
  have hpk : (0 : ℚ) < 2 ^ k := zpow_pos (by norm_num) k
  have habs : |(m : ℚ) * 2 ^ k| = |(m : ℚ)| * 2 ^ k := by rw [abs_mul, abs_of_pos hpk]
  have hmq : |(m : ℚ)| ≤ 2 ^ 24 := by exact_mod_cast hm
  have hle : Int.log 2 |(m : ℚ) * 2 ^ k| ≤ 24 + k := by
    have : (2 : ℚ) ^ Int.log 2 |(m : ℚ) * 2 ^ k| ≤ 2 ^ (24 + k) := by
      rw [zpow_add₀ (by norm_num)]
      refine l1.trans ?_
      rw [habs]
      exact mul_le_mul_of_nonneg_right (by exact_mod_cast hmq) hpk.le
    exact (zpow_le_zpow_iff_right₀ (by norm_num)).1 this
  have key : ∃ z : ℤ, (m : ℚ) * 2 ^ k / 2 ^ (Int.log 2 |(m : ℚ) * 2 ^ k| - 23) = z := by
    rcases hle.lt_or_eq with hlt | heq
    · refine ⟨m * 2 ^ (k - (Int.log 2 |(m : ℚ) * 2 ^ k| - 23)).toNat, ?_⟩
      push_cast
      rw [← zpow_natCast, Int.toNat_of_nonneg (by omega), mul_div_assoc, ← zpow_sub₀ (by norm_num)]
    · rw [heq] at l1 ⊢
      rw [zpow_add₀ (by norm_num), habs] at l1
      have h24 := le_of_mul_le_mul_right l1 hpk
      have hm24 : |m| = 2 ^ 24 := le_antisymm hm (by
        have : (2 : ℚ) ^ 24 ≤ |(m : ℚ)| := by exact_mod_cast h24
        exact_mod_cast this)
      have e1 : (2 : ℚ) ^ k / 2 ^ (24 + k - 23) = 1 / 2 := by
        rw [← zpow_sub₀ (by norm_num), show k - (24 + k - 23) = -1 by ring]; norm_num
      rw [mul_div_assoc, e1]
      rcases abs_eq (by norm_num : (0 : ℤ) ≤ 2 ^ 24) |>.1 hm24 with h | h
      · exact ⟨2 ^ 23, by rw [h]; norm_num⟩
      · exact ⟨-2 ^ 23, by rw [h]; norm_num⟩
  obtain ⟨z, hz⟩ := key
  unfold fl32
  rw [hz, Int.floor_intCast, ← hz, div_mul_cancel₀]
  exact (zpow_pos (by norm_num) _).ne'

/-- An inversion that rounds each entry of the exact inverse. -/
noncomputable def inv32 : ∀ n, Matrix (Fin n) (Fin n) ℚ → Matrix (Fin n) (Fin n) ℚ := fun _ A => (A⁻¹).map fl32

/-- The hypotheses of `C138_refuted` are met by correctly rounded inversion: 54 bits, 53 checks. -/
example : ∃ txt p w x, writeLdpc 54 (narRows 53) = .ok txt ∧ getLdpc txt = .ok p ∧ buildParity p = .ok (narRowsInt 53) ∧ LowerTriangularTail (narRowsInt 53) 54 ∧
    ldpcEncode p [1] true = .ok [x] ∧ SystematicCodeword (narRowsInt 53) 54 [1] x ∧ ldpcEncodeF32 inv32 fl32 p [1] true = .ok [w] ∧ ¬ Syndrome0 (narRowsInt 53) w :=
  C138_refuted 53 le_rfl inv32 ⟨fun _ _ _ _ => (fl32_spec _).1, fun _ _ _ _ _ => (fl32_spec _).2⟩ fl32 (fun _ h => fl32_exact h) true

/-- The hypotheses of `C138_small_partial` are met: the code with the checks 110 and 011. -/
example : ∃ txt p, writeLdpc 3 [[1, 1, 0], [0, 1, 1]] = .ok txt ∧ getLdpc txt = .ok p ∧
    ∃ ms z blocks, ldpcEncodeF32 inv32 fl32 p [1, 0] false = .ok blocks ∧ ms.flatten = [1, 0] ++ List.replicate z 0 ∧ z < 1 ∧
      List.Forall₂ (fun m b => m.length = 1 ∧ SystematicCodeword [[1, 1, 0], [0, 1, 1]] 3 m b) ms blocks := by
  obtain ⟨txt, p, h1, h2, h3, h4, -, -, h5⟩ := C54_roundtrip 3 [[1, 1, 0], [0, 1, 1]] (by simp) (by decide) (by decide) (by decide) (by decide)
  obtain ⟨nv, nc, mv, mc, va, ca, vd, cd⟩ := p
  have e1 : nc = 2 := h4
  have e2 : nv = 3 := h3
  subst e1 e2
  have hT' : tailMatrix [[1, 1, 0], [0, 1, 1]] 2 3 * !![1, 0; -1, 1] = 1 := by
    ext i j; fin_cases i <;> fin_cases j <;> decide
  refine ⟨txt, _, h1, h2, ?_⟩
  refine C138_small_partial _ _ h5 (by show (0 : Int) < 2; norm_num) (by show (2 : Int) < 3; norm_num) (Or.inl (by show LowerTriangularTail _ 3; unfold LowerTriangularTail; decide)) inv32 fl32
    (fun _ h => fl32_exact h) !![1, 0; -1, 1] hT' ?_ ?_ [1, 0] (by decide) false (Or.inr (by show 3 - 2 ∣ 2; decide))
  · have hi : (tailMatrix [[1, 1, 0], [0, 1, 1]] 2 3).map (Int.castRingHom ℚ) * (!![1, 0; -1, 1] : Matrix (Fin 2) (Fin 2) Int).map (Int.castRingHom ℚ) = 1 := by
      rw [← Matrix.map_mul, hT', Matrix.map_one _ (map_zero _) (map_one _)]
    show (((tailMatrix [[1, 1, 0], [0, 1, 1]] 2 3).map (Int.castRingHom ℚ))⁻¹).map fl32 = _
    rw [Matrix.inv_eq_right_inv hi]
    ext i j
    refine fl32_exact (isFloat32_int ?_)
    fin_cases i <;> fin_cases j <;> decide
  · show ∀ (i : Fin 2) (j : Fin 1), ∑ l : Fin 2, |(!![1, 0; -1, 1] : Matrix (Fin 2) (Fin 2) Int) i l * headMatrix [[1, 1, 0], [0, 1, 1]] 2 3 l j| ≤ 2 ^ 24
    decide

end Verif
