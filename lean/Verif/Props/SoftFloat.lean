import Verif.Model.SoftFloat
import Verif.Props.ModemNoise
/-
C109: are the soft outputs finite numbers?
-/
namespace Verif

/-- What is used of the double-precision exponential of a non-positive number: it is never negative, it is positive down to -745
(the smallest positive double is about exp(-744.44), and exp(-745) rounds to it) and it is zero from -746 on. -/
structure DoubleExp (fexp : ℝ → ℝ) : Prop where
  nonneg : ∀ x, 0 ≤ fexp x
  underflow : ∀ x, x ≤ -746 → fexp x = 0
  pos : ∀ x, -745 ≤ x → 0 < fexp x

/-- The labels whose bit number `j` (most significant first) is `b`. -/
def labelsWith (s : Modem) (j b : Nat) : Finset Nat := (Finset.range s.m).filter fun l => (toBits s.nbits l).getD j 0 = b

theorem addF_some (a b : ℝ) : addF (some a) (some b) = some (a + b) := rfl
theorem addF_none_right (a : Option ℝ) : addF a none = none := by cases a <;> rfl
theorem addF_none_left (a : Option ℝ) : addF none a = none := rfl

/-- Sum of double terms in order. -/
noncomputable def sumF (t : Nat → Option ℝ) : List Nat → Option ℝ := fun l => l.foldl (fun a i => addF a (t i)) (some 0)

theorem llrSumsF_gen (fexp : ℝ → ℝ) (y : ℂ) (v : ℝ) (b : Nat) :
    ∀ (c : List ℂ) (k : Nat) (acc : Option ℝ × Option ℝ),
    (c.zipIdx k).foldl (fun (acc : Option ℝ × Option ℝ) (p : ℂ × Nat) =>
      if (p.2 >>> b) &&& 1 ≠ 0 then (addF acc.1 (expTerm fexp (‖y - p.1‖ ^ 2) v), acc.2)
      else (acc.1, addF acc.2 (expTerm fexp (‖y - p.1‖ ^ 2) v))) acc =
    (((List.range c.length).filter fun i => (k + i) / 2 ^ b % 2 = 1).foldl
        (fun a i => addF a (expTerm fexp (‖y - c.getD i 0‖ ^ 2) v)) acc.1,
     ((List.range c.length).filter fun i => (k + i) / 2 ^ b % 2 = 0).foldl
        (fun a i => addF a (expTerm fexp (‖y - c.getD i 0‖ ^ 2) v)) acc.2) := by
  intro c
  induction c with
  | nil => intro k acc; simp
  | cons z c ih =>
    intro k acc
    rw [List.zipIdx_cons, List.foldl_cons, ih, List.length_cons, List.range_succ_eq_map, List.filter_cons, List.filter_cons,
      List.filter_map, List.filter_map]
    have hb : ((k >>> b) &&& 1 ≠ 0) ↔ k / 2 ^ b % 2 = 1 := by
      rw [Nat.and_one_is_mod, Nat.shiftRight_eq_div_pow]; omega
    have hk : ∀ i, k + 1 + i = k + (i + 1) := fun i => by omega
    simp only [Function.comp_def, hk, Nat.succ_eq_add_one, Nat.add_zero, decide_eq_true_eq]
    by_cases h : k / 2 ^ b % 2 = 1
    · rw [if_pos (hb.2 h), if_pos h, if_neg (by omega), List.foldl_cons, List.foldl_map, List.foldl_map]
      simp only [List.getD_cons_succ, List.getD_cons_zero]
    · rw [if_neg (fun e => h (hb.1 e)), if_neg h, if_pos (by omega), List.foldl_cons, List.foldl_map, List.foldl_map]
      simp only [List.getD_cons_succ, List.getD_cons_zero]

theorem foldl_addF_some (f : Nat → ℝ) : ∀ (l : List Nat) (a : ℝ),
    l.foldl (fun a i => addF a (some (f i))) (some a) = some (a + (l.map f).sum) := by
  intro l
  induction l with
  | nil => intro a; simp
  | cons x l ih => intro a; rw [List.foldl_cons, addF_some, ih, List.map_cons, List.sum_cons, add_assoc]

theorem foldl_addF_none (t : Nat → Option ℝ) : ∀ (l : List Nat), l.foldl (fun a i => addF a (t i)) none = none := by
  intro l
  induction l with
  | nil => rfl
  | cons x l ih => rw [List.foldl_cons, addF_none_left, ih]

theorem foldl_addF_bad (t : Nat → Option ℝ) : ∀ (l : List Nat) (a : Option ℝ), (∃ i ∈ l, t i = none) →
    l.foldl (fun a i => addF a (t i)) a = none := by
  intro l
  induction l with
  | nil => intro a h; simp at h
  | cons x l ih =>
    rintro a ⟨i, hi, hn⟩
    rw [List.foldl_cons]
    rcases List.mem_cons.1 hi with rfl | hi
    · rw [hn, addF_none_right, foldl_addF_none]
    · exact ih _ ⟨i, hi, hn⟩

/-- The sum of the doubles of the labels with bit `j` equal to `b`. -/
noncomputable def massF (fexp : ℝ → ℝ) (s : Modem) (y : ℂ) (v : ℝ) (j b : Nat) : ℝ :=
  ∑ l ∈ labelsWith s j b, fexp (-‖y - s.constellation.getD l 0‖ ^ 2 / v)

theorem labelsWith_list {s : Modem} (hs : s.Consistent) {j : Nat} (hj : j < s.nbits) (b : Nat) :
    ((List.range s.constellation.length).filter fun i => (0 + i) / 2 ^ (s.nbits - 1 - j) % 2 = b).toFinset = labelsWith s j b := by
  ext l
  simp only [labelsWith, List.mem_toFinset, List.mem_filter, List.mem_range, decide_eq_true_eq, Finset.mem_filter, Finset.mem_range,
    toBits_getD hj, Nat.zero_add, hs.size]

theorem llrSumsF_pos {fexp : ℝ → ℝ} {s : Modem} (hs : s.Consistent) (y : ℂ) {v : ℝ} (hv : v ≠ 0) {j : Nat} (hj : j < s.nbits) :
    llrSumsF fexp s y v (s.nbits - 1 - j) = (some (massF fexp s y v j 1), some (massF fexp s y v j 0)) := by
  unfold llrSumsF
  rw [llrSumsF_gen]
  simp only [expTerm, if_neg hv]
  have key : ∀ b, ((List.range s.constellation.length).filter fun i => (0 + i) / 2 ^ (s.nbits - 1 - j) % 2 = b).foldl
      (fun a i => addF a (some (fexp (-‖y - s.constellation.getD i 0‖ ^ 2 / v)))) (some 0) = some (massF fexp s y v j b) := by
    intro b
    rw [foldl_addF_some, zero_add, massF, ← labelsWith_list hs hj, List.sum_toFinset _ (List.nodup_range.filter _)]
  rw [key, key]

theorem llrSumsF_zero {fexp : ℝ → ℝ} {s : Modem} (y : ℂ) (i : Nat) :
    logRatioF (llrSumsF fexp s y 0 i).1 (llrSumsF fexp s y 0 i).2 = none := by
  unfold llrSumsF
  rw [llrSumsF_gen]
  have key : ∀ l : List Nat, (l.foldl (fun a i => addF a (expTerm fexp (‖y - s.constellation.getD i 0‖ ^ 2) 0)) (some 0)) = none ∨
      (l.foldl (fun a i => addF a (expTerm fexp (‖y - s.constellation.getD i 0‖ ^ 2) 0)) (some 0)) = some 0 := by
    intro l
    by_cases h : ∃ i ∈ l, expTerm fexp (‖y - s.constellation.getD i 0‖ ^ 2) 0 = none
    · exact .inl (foldl_addF_bad _ _ _ h)
    · right
      push Not at h
      have : ∀ i ∈ l, expTerm fexp (‖y - s.constellation.getD i 0‖ ^ 2) 0 = some 0 := by
        intro i hi
        have := h i hi
        unfold expTerm at this ⊢
        rw [if_pos rfl] at this ⊢
        by_cases hz : ‖y - s.constellation.getD i 0‖ ^ 2 = 0
        · rw [if_pos hz] at this; exact absurd rfl this
        · rw [if_neg hz]
      clear h
      induction l with
      | nil => rfl
      | cons x l ih =>
        rw [List.foldl_cons, this x (List.mem_cons_self ..), addF_some, add_zero]
        exact ih fun i hi => this i (List.mem_cons_of_mem _ hi)
  dsimp only
  rcases key ((List.range s.constellation.length).filter fun k => (0 + k) / 2 ^ i % 2 = 1) with h | h <;>
    rcases key ((List.range s.constellation.length).filter fun k => (0 + k) / 2 ^ i % 2 = 0) with h' | h' <;>
    simp only [h, h', logRatioF, if_true]

theorem demodSoftF_spec (fexp : ℝ → ℝ) (s : Modem) (ys : List ℂ) (v : ℝ) :
    (demodSoftF fexp s ys v).length = ys.length * s.nbits ∧
    ∀ i (hi : i < ys.length), ∀ b < s.nbits, (demodSoftF fexp s ys v)[i * s.nbits + s.nbits - 1 - b]? =
      some (logRatioF (llrSumsF fexp s ys[i] v b).1 (llrSumsF fexp s ys[i] v b).2) := by
  set ps : List (Nat × Option EReal) := ys.zipIdx.flatMap fun p => (List.range s.nbits).map fun b =>
    (p.2 * s.nbits + s.nbits - 1 - b, logRatioF (llrSumsF fexp s p.1 v b).1 (llrSumsF fexp s p.1 v b).2) with hps
  have e : demodSoftF fexp s ys v = ps.foldl (fun y p => y.set p.1 p.2) (List.replicate (ys.length * s.nbits) (some 0)) := by
    unfold demodSoftF
    rw [hps, List.foldl_flatMap]
    simp only [List.foldl_map]
  constructor
  · rw [e, foldl_set_length, List.length_replicate]
  · intro i hi b hb
    rw [e]
    apply foldl_set_mem
    · rw [hps, List.map_flatMap]
      simp only [List.map_map, Function.comp_def]
      rw [List.nodup_flatMap]
      constructor
      · intro p _
        refine List.Nodup.map_on ?_ List.nodup_range
        intro x hx y hy hxy
        rw [List.mem_range] at hx hy
        have : s.nbits ≤ p.2 * s.nbits + s.nbits := Nat.le_add_left _ _
        omega
      · have hpw : (ys.zipIdx).Pairwise fun a b => a.2 < b.2 := by
          have h1 : (ys.zipIdx.map Prod.snd) = List.range' 0 ys.length := List.zipIdx_map_snd _ _
          have h2 : (ys.zipIdx.map Prod.snd).Pairwise (· < ·) := by rw [h1]; exact List.pairwise_lt_range'
          rwa [List.pairwise_map] at h2
        refine hpw.imp ?_
        intro p q hpq
        intro x hx hx'
        obtain ⟨b1, h1, rfl⟩ := List.mem_map.1 hx
        obtain ⟨b2, h2, h3⟩ := List.mem_map.1 hx'
        rw [List.mem_range] at h1 h2
        have : p.2 * s.nbits + s.nbits ≤ q.2 * s.nbits := by rw [← Nat.succ_mul]; exact Nat.mul_le_mul_right _ hpq
        omega
    · rw [hps, List.mem_flatMap]
      refine ⟨(ys[i], i), ?_, List.mem_map.2 ⟨b, by simpa using hb, rfl⟩⟩
      rw [List.mem_iff_getElem]
      exact ⟨i, by simpa using hi, by simp⟩
    · rw [List.length_replicate]
      have : i * s.nbits + s.nbits ≤ ys.length * s.nbits := by rw [← Nat.succ_mul]; exact Nat.mul_le_mul_right _ hi
      omega

theorem demodSoftF_at {fexp : ℝ → ℝ} (s : Modem) (ys : List ℂ) (v : ℝ) {i : Nat} (hi : i < ys.length) {j : Nat} (hj : j < s.nbits) :
    (demodSoftF fexp s ys v)[i * s.nbits + j]? =
      some (logRatioF (llrSumsF fexp s ys[i] v (s.nbits - 1 - j)).1 (llrSumsF fexp s ys[i] v (s.nbits - 1 - j)).2) := by
  have := (demodSoftF_spec fexp s ys v).2 i hi (s.nbits - 1 - j) (by omega)
  rw [← this]
  congr 1
  have : s.nbits ≤ i * s.nbits + s.nbits := Nat.le_add_left _ _
  omega

/-- C109, the default noise variance.  With `noise_var = 0`, the default of `demodulate`, every soft output is nan, whatever the
received symbols: "the soft outputs are numbers" is false of the default call. -/
theorem C109_default_refuted (fexp : ℝ → ℝ) (s : Modem) (ys : List ℂ) :
    (demodSoftF fexp s ys 0).length = ys.length * s.nbits ∧ ∀ x ∈ demodSoftF fexp s ys 0, x = none := by
  refine ⟨(demodSoftF_spec fexp s ys 0).1, ?_⟩
  intro x hx
  obtain ⟨p, hp, rfl⟩ := List.mem_iff_getElem.1 hx
  have hl := (demodSoftF_spec fexp s ys 0).1
  have hn : 0 < s.nbits := by
    rcases Nat.eq_zero_or_pos s.nbits with h | h
    · rw [hl, h] at hp; omega
    · exact h
  have hi : p / s.nbits < ys.length := by rw [Nat.div_lt_iff_lt_mul hn, ← hl]; exact hp
  have := demodSoftF_at (fexp := fexp) s ys 0 hi (Nat.mod_lt p hn)
  rw [llrSumsF_zero, show p / s.nbits * s.nbits + p % s.nbits = p by rw [Nat.mul_comm]; exact Nat.div_add_mod _ _,
    List.getElem?_eq_getElem hp] at this
  exact Option.some.inj this

theorem massF_pos {fexp : ℝ → ℝ} (hf : DoubleExp fexp) {s : Modem} {y : ℂ} {v : ℝ} (hv : 0 < v) {j b l : Nat} (hl : l ∈ labelsWith s j b)
    (hd : ‖y - s.constellation.getD l 0‖ ^ 2 ≤ 745 * v) : 0 < massF fexp s y v j b := by
  refine Finset.sum_pos' (fun i _ => hf.nonneg _) ⟨l, hl, hf.pos _ ?_⟩
  rw [le_div_iff₀ hv]; linarith

theorem massF_zero {fexp : ℝ → ℝ} (hf : DoubleExp fexp) {s : Modem} {y : ℂ} {v : ℝ} (hv : 0 < v) {j b : Nat}
    (hd : ∀ l ∈ labelsWith s j b, 746 * v ≤ ‖y - s.constellation.getD l 0‖ ^ 2) : massF fexp s y v j b = 0 := by
  refine Finset.sum_eq_zero fun l hl => hf.underflow _ ?_
  rw [div_le_iff₀ hv]; have := hd l hl; linarith

/-- C109, what is true: if, for the bit `j` of received symbol `i`, each bit value has a constellation point within squared distance
`745 noise_var`, the soft output is a finite number: the logarithm of the ratio of the two sums of (double) exponentials. -/
theorem C109_finite {fexp : ℝ → ℝ} (hf : DoubleExp fexp) {s : Modem} (hs : s.Consistent) (ys : List ℂ) {v : ℝ} (hv : 0 < v)
    {i : Nat} (hi : i < ys.length) {j : Nat} (hj : j < s.nbits)
    (hnear : ∀ b < 2, ∃ l ∈ labelsWith s j b, ‖ys[i] - s.constellation.getD l 0‖ ^ 2 ≤ 745 * v) :
    (demodSoftF fexp s ys v)[i * s.nbits + j]? = some (some ((Real.log
      ((∑ l ∈ labelsWith s j 1, fexp (-‖ys[i] - s.constellation.getD l 0‖ ^ 2 / v)) /
       (∑ l ∈ labelsWith s j 0, fexp (-‖ys[i] - s.constellation.getD l 0‖ ^ 2 / v))) : ℝ) : EReal)) := by
  rw [demodSoftF_at s ys v hi hj, llrSumsF_pos hs _ hv.ne' hj]
  obtain ⟨l1, h1, d1⟩ := hnear 1 (by decide)
  obtain ⟨l0, h0, d0⟩ := hnear 0 (by decide)
  have p1 := massF_pos hf hv h1 d1
  have p0 := massF_pos hf hv h0 d0
  simp only [logRatioF, if_neg p1.ne', if_neg p0.ne']
  rfl

/-- C109, the outputs that are infinite: a point whose bit `j` is `b` lies within `745 noise_var` (squared distance) of the received
symbol and all points with the other bit value are at least `746 noise_var` away: the soft output is infinite, with the sign of `b`. -/
theorem C109_infinite {fexp : ℝ → ℝ} (hf : DoubleExp fexp) {s : Modem} (hs : s.Consistent) (ys : List ℂ) {v : ℝ} (hv : 0 < v)
    {i : Nat} (hi : i < ys.length) {j : Nat} (hj : j < s.nbits) {b : Nat} (hb : b < 2)
    (hnear : ∃ l ∈ labelsWith s j b, ‖ys[i] - s.constellation.getD l 0‖ ^ 2 ≤ 745 * v)
    (hfar : ∀ l ∈ labelsWith s j (1 - b), 746 * v ≤ ‖ys[i] - s.constellation.getD l 0‖ ^ 2) :
    (demodSoftF fexp s ys v)[i * s.nbits + j]? = some (some (if b = 1 then ⊤ else ⊥)) := by
  rw [demodSoftF_at s ys v hi hj, llrSumsF_pos hs _ hv.ne' hj]
  obtain ⟨l, h1, d1⟩ := hnear
  have p1 := massF_pos hf hv h1 d1
  have p0 := massF_zero hf hv hfar
  interval_cases b
  · simp only [logRatioF, Nat.sub_zero] at p0 ⊢
    rw [p0, if_neg p1.ne', if_pos rfl, if_neg (by decide)]
  · simp only [logRatioF, Nat.sub_self] at p0 ⊢
    rw [p0, if_pos rfl, if_neg p1.ne', if_pos trivial]

/-- C109, the outputs that are not numbers: a received symbol at least `746 noise_var` (squared distance) away from every
constellation point gives nan for all of its bits. -/
theorem C109_far {fexp : ℝ → ℝ} (hf : DoubleExp fexp) {s : Modem} (hs : s.Consistent) (ys : List ℂ) {v : ℝ} (hv : 0 < v)
    {i : Nat} (hi : i < ys.length) (hfar : ∀ c ∈ s.constellation, 746 * v ≤ ‖ys[i] - c‖ ^ 2) {j : Nat} (hj : j < s.nbits) :
    (demodSoftF fexp s ys v)[i * s.nbits + j]? = some none := by
  rw [demodSoftF_at s ys v hi hj, llrSumsF_pos hs _ hv.ne' hj]
  have h : ∀ b, massF fexp s ys[i] v j b = 0 := fun b => massF_zero hf hv fun l hl => by
    have : l < s.constellation.length := by
      rw [← hs.size]; exact Finset.mem_range.1 (Finset.mem_filter.1 hl).1
    rw [List.getD_eq_getElem _ _ this]
    exact hfar _ (List.getElem_mem _)
  simp only [h, logRatioF, if_true]

/-- C109, good channels.  Constellation points at least `d` apart, `746 noise_var` at most `d²`: a message received
without noise has only infinite soft outputs, with the signs of the bits sent. -/
theorem C109_clean {fexp : ℝ → ℝ} (hf : DoubleExp fexp) {s : Modem} (hs : s.Consistent) (hm : 2 ≤ s.m) {d v : ℝ}
    (hd : Separated s.constellation d) (hd0 : 0 ≤ d) (hv : 0 < v) (hbound : 746 * v ≤ d ^ 2) {bits : List Nat}
    (hb : ∀ x ∈ bits, x < 2) (hne : bits ≠ []) (hl : s.nbits ∣ bits.length) :
    ∃ syms, modulate s bits = .ok syms ∧
      demodSoftF fexp s syms v = bits.map fun x => some (if x = 1 then ⊤ else ⊥) := by
  obtain ⟨N, hN⟩ := hl
  rw [Nat.mul_comm] at hN
  have hn := hs.nbits_pos hm
  refine ⟨_, modulate_ok hs hm hb hne hN, ?_⟩
  set syms := (inSyms s.nbits bits).map fun l => s.constellation.getD l 0 with hsyms
  have hlen0 : syms.length = N := by
    rw [hsyms, List.length_map, inSyms_length, hN, Nat.mul_div_cancel _ hn]
  have hlen : (demodSoftF fexp s syms v).length = bits.length := by rw [(demodSoftF_spec _ _ _ _).1, hlen0, hN]
  refine List.ext_getElem (by rw [hlen, List.length_map]) ?_
  intro i hi1 hi2
  have hi : i < bits.length := by rw [← hlen]; exact hi1
  have hq : i / s.nbits < syms.length := by rw [hlen0, Nat.div_lt_iff_lt_mul hn, ← hN]; exact hi
  have hr : i % s.nbits < s.nbits := Nat.mod_lt _ hn
  have hq' : i / s.nbits < (inSyms s.nbits bits).length := by simpa [hsyms] using hq
  set k := (inSyms s.nbits bits)[i / s.nbits] with hkdef
  have hk : k < s.m := by rw [hs.pow]; exact inSyms_lt hb _ _ (List.getElem_mem _)
  have hsym : syms[i / s.nbits] = s.constellation.getD k 0 := by simp only [hsyms, List.getElem_map, hkdef]
  have hbit : (toBits s.nbits k).getD (i % s.nbits) 0 = bits.getD i 0 := by
    have hf := flatMap_inSyms hn hb hN
    have hblk := flatMap_block (toBits s.nbits) s.nbits (fun a => toBits_length _ _) (inSyms s.nbits bits) _ hq'
    rw [hf] at hblk
    rw [hkdef, ← hblk, List.getD_eq_getElem?_getD, List.getElem?_take, if_pos hr, List.getElem?_drop,
      show i / s.nbits * s.nbits + i % s.nbits = i by rw [Nat.mul_comm]; exact Nat.div_add_mod _ _, ← List.getD_eq_getElem?_getD]
  have hx : bits.getD i 0 < 2 := by rw [List.getD_eq_getElem _ _ hi]; exact hb _ (List.getElem_mem _)
  have h := C109_infinite hf hs syms hv hq hr (b := bits.getD i 0) hx
    ⟨k, Finset.mem_filter.2 ⟨Finset.mem_range.2 hk, hbit⟩, by
      rw [hsym, sub_self, norm_zero]; norm_num; positivity⟩ (by
      intro l hl
      obtain ⟨hl1, hl2⟩ := Finset.mem_filter.1 hl
      have hne : l ≠ k := by rintro rfl; rw [hbit] at hl2; omega
      have := hd.getD (by rw [← hs.size]; exact hk) (by rw [← hs.size]; exact Finset.mem_range.1 hl1) hne
      rw [hsym]
      nlinarith)
  rw [show i / s.nbits * s.nbits + i % s.nbits = i by rw [Nat.mul_comm]; exact Nat.div_add_mod _ _, List.getElem?_eq_getElem hi1] at h
  rw [Option.some.inj h, List.getElem_map, List.getD_eq_getElem _ _ hi]

/-- An exponential with the underflow of double precision. -/
example : DoubleExp fun x => if x < -745.5 then 0 else Real.exp x where
  nonneg x := by split_ifs <;> positivity
  underflow x h := by rw [if_pos (by linarith)]
  pos x h := by rw [if_neg (by linarith)]; positivity

/-- The points 1, -1.  Noise variance 1/1000: the bits 1 0 received without noise give +∞, -∞; a symbol received at 100 with
noise variance 1 gives nan; a symbol received at 0 with noise variance 1 gives a finite number. -/
example {fexp : ℝ → ℝ} (hf : DoubleExp fexp) : ∃ s : Modem, s.constellation = [1, -1] ∧ s.nbits = 1 ∧
    (∃ syms, modulate s [1, 0] = .ok syms ∧ demodSoftF fexp s syms (1 / 1000) = [some ⊤, some ⊥]) ∧
    (demodSoftF fexp s [100] 1)[0]? = some none ∧
    (demodSoftF fexp s [0] 1)[0]? = some (some 0) := by
  have hs : Modem.Consistent ⟨[1, -1], 1, 2, 1⟩ := ⟨rfl, rfl, by norm_num⟩
  have hd : Separated [(1 : ℂ), -1] 2 := by
    simp [Separated]; norm_num
  refine ⟨⟨[1, -1], 1, 2, 1⟩, rfl, rfl, ?_, ?_, ?_⟩
  · have := C109_clean hf hs (le_refl 2) hd (by norm_num) (v := 1 / 1000) (by norm_num) (by norm_num) (bits := [1, 0]) (by decide)
      (by simp) (one_dvd _)
    simpa using this
  · exact C109_far hf hs [100] (v := 1) one_pos (i := 0) (by simp) (by
      intro c hc
      simp only [List.mem_cons, List.not_mem_nil, or_false] at hc
      rcases hc with rfl | rfl
      · simp only [List.getElem_cons_zero]; norm_num
      · simp only [List.getElem_cons_zero]; norm_num) (j := 0) one_pos
  · have l1 : labelsWith ⟨[1, -1], 1, 2, 1⟩ 0 1 = {1} := by
      show (Finset.range 2).filter (fun l => (toBits 1 l).getD 0 0 = 1) = {1}; decide
    have l0 : labelsWith ⟨[1, -1], 1, 2, 1⟩ 0 0 = {0} := by
      show (Finset.range 2).filter (fun l => (toBits 1 l).getD 0 0 = 0) = {0}; decide
    have := C109_finite hf hs [0] (v := 1) one_pos (i := 0) (by simp) (j := 0) one_pos (by
      intro b hb
      interval_cases b
      · exact ⟨0, by rw [l0]; simp, by simp⟩
      · exact ⟨1, by rw [l1]; simp, by simp⟩)
    rw [l1, l0] at this
    simp only [Finset.sum_singleton, List.getElem_cons_zero] at this
    rw [show (0 * 1 + 0 : Nat) = 0 by norm_num] at this
    rw [this]
    have e : fexp (-1) ≠ 0 := (hf.pos _ (by norm_num)).ne'
    simp [div_self e]

end Verif
