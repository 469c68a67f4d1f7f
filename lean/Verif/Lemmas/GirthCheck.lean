import Verif.Props.LdpcDesigns
import Mathlib.Data.Nat.Bitwise
import Mathlib.Data.List.Sort
/-
Checking by bit masks that no two bits are in two common checks, and that every bit is in enough checks.
-/
namespace Verif

/-- The set of numbers `ns` as a bit mask. -/
def maskOf : List Nat → Nat
  | [] => 0
  | v :: ns => Nat.lor (Nat.shiftLeft 1 v) (maskOf ns)

theorem testBit_maskOf (ns : List Nat) (v : Nat) : (maskOf ns).testBit v = decide (v ∈ ns) := by
  induction ns with
  | nil => simp [maskOf]
  | cons u ns ih =>
    show ((1 <<< u) ||| maskOf ns).testBit v = _
    rw [Nat.testBit_or, ih, Nat.shiftLeft_eq, one_mul, Nat.testBit_two_pow]
    by_cases h : u = v
    · subst h; simp
    · have : ¬ v = u := fun e => h e.symm
      simp [h, this]

/-- Does the mask have two or more ones? -/
def bad (z : Nat) : Bool := !(Nat.beq (Nat.land z (Nat.sub z 1)) 0)

theorem bad_of_two {z u v : Nat} (huv : u ≠ v) (hu : z.testBit u = true) (hv : z.testBit v = true) : bad z = true := by
  by_contra h
  have h0 : z &&& (z - 1) = 0 := by
    have : Nat.beq (Nat.land z (Nat.sub z 1)) 0 = true := by
      unfold bad at h
      cases h' : Nat.beq (Nat.land z (Nat.sub z 1)) 0
      · rw [h'] at h; simp at h
      · rfl
    exact Nat.eq_of_beq_eq_true this
  have hz : z ≠ 0 := by rintro rfl; simp at hu
  obtain ⟨k, rfl⟩ := (Nat.and_sub_one_eq_zero_iff_isPowerOfTwo hz).1 h0
  rw [Nat.testBit_two_pow] at hu hv
  simp at hu hv
  omega

/-- `a < l[0] < l[1] < … < nv`, with `a` already known to be smaller than `nv`. -/
def increasing (nv : Nat) : Nat → List Nat → Bool
  | _, [] => true
  | a, b :: l => Nat.ble (a + 1) b && Nat.ble (b + 1) nv && increasing nv b l

def sortedFast (H : Checks) (nv : Nat) : Bool := H.all fun
  | [] => true
  | a :: l => Nat.ble (a + 1) nv && increasing nv a l

theorem increasing_spec (nv : Nat) : ∀ (l : List Nat) (a : Nat), increasing nv a l = true →
    (∀ b ∈ l, a < b ∧ b < nv) ∧ l.Pairwise (· < ·) := by
  intro l
  induction l with
  | nil => intro a _; exact ⟨by simp, List.Pairwise.nil⟩
  | cons b l ih =>
    intro a h
    simp only [increasing, Bool.and_eq_true] at h
    have h1 := Nat.le_of_ble_eq_true h.1.1
    have h2 := Nat.le_of_ble_eq_true h.1.2
    obtain ⟨i1, i2⟩ := ih b h.2
    refine ⟨?_, List.Pairwise.cons (fun c hc => (i1 c hc).1) i2⟩
    intro c hc
    rcases List.mem_cons.1 hc with rfl | hc
    · omega
    · have := i1 c hc
      omega

theorem sorted_of_fast {H : Checks} {nv : Nat} (h : sortedFast H nv = true) : sortedChecks H nv = true := by
  simp only [sortedChecks, List.all_eq_true, decide_eq_true_eq]
  simp only [sortedFast, List.all_eq_true] at h
  intro ns hns
  have hp : ns.Pairwise (· < ·) ∧ ∀ v ∈ ns, v < nv := by
    have := h ns hns
    rcases ns with _ | ⟨a, l⟩
    · exact ⟨List.Pairwise.nil, by simp⟩
    · simp only [Bool.and_eq_true] at this
      obtain ⟨i1, i2⟩ := increasing_spec nv l a this.2
      refine ⟨List.Pairwise.cons (fun b hb => (i1 b hb).1) i2, ?_⟩
      intro v hv
      rcases List.mem_cons.1 hv with rfl | hv
      · exact Nat.le_of_ble_eq_true this.1
      · exact (i1 v hv).2
  refine List.Pairwise.eq_of_mem_iff (r := (· < ·)) (List.Pairwise.filter _ List.pairwise_lt_range) hp.1 ?_
  intro v
  simp only [List.mem_filter, List.mem_range, decide_eq_true_eq, and_iff_right_iff_imp]
  exact fun hv => hp.2 v hv

/-- The pairwise intersections. -/
def pairs : List Nat → List Nat
  | [] => []
  | x :: l => l.map (Nat.land x) ++ pairs l

def pairsGood : List Nat → Bool
  | [] => true
  | x :: l => (l.all fun y => !bad (Nat.land x y)) && pairsGood l

theorem pairsGood_pairwise {l : List Nat} (h : pairsGood l = true) : l.Pairwise fun x y => bad (x &&& y) = false := by
  induction l with
  | nil => exact List.Pairwise.nil
  | cons x l ih =>
    simp only [pairsGood, Bool.and_eq_true, List.all_eq_true] at h
    refine List.Pairwise.cons (fun y hy => ?_) (ih h.2)
    have := h.1 y hy
    simpa using this

theorem noFourCycle_of_masks {H : Checks} (h : pairsGood (H.map maskOf) = true) : NoFourCycle H := by
  have hp := List.pairwise_iff_getElem.1 (pairsGood_pairwise h)
  have key : ∀ c c', c < c' → c' < H.length → ∀ u v, u ∈ H.getD c [] → v ∈ H.getD c [] → u ∈ H.getD c' [] → v ∈ H.getD c' [] → u = v := by
    intro c c' hcc hc' u v h1 h2 h3 h4
    by_contra huv
    have hc : c < H.length := by omega
    have := hp c c' (by simpa using hc) (by simpa using hc') hcc
    rw [List.getElem_map, List.getElem_map] at this
    rw [List.getD_eq_getElem _ _ hc] at h1 h2
    rw [List.getD_eq_getElem _ _ hc'] at h3 h4
    rw [bad_of_two huv (by rw [Nat.testBit_and, testBit_maskOf, testBit_maskOf]; simp [h1, h3])
      (by rw [Nat.testBit_and, testBit_maskOf, testBit_maskOf]; simp [h2, h4])] at this
    cases this
  intro c hc c' hc' hne u hu v hv hu' hv'
  rcases Nat.lt_or_gt_of_ne hne with h | h
  · exact key c c' h hc' u v hu hv hu' hv'
  · exact key c' c h hc u v hu' hv' hu hv

/-- Counters as masks: bit `v` of the `k`-th mask is set when `v` is in more than `k` of the checks seen. -/
def stepMasks (m : Nat) : List Nat → List Nat
  | [] => []
  | a :: accs => Nat.lor a m :: stepMasks (Nat.land a m) accs

def degMasks (d : Nat) : List Nat → List Nat
  | [] => List.replicate d 0
  | m :: ms => stepMasks m (degMasks d ms)

theorem stepMasks_spec (v : Nat) : ∀ (accs : List Nat) (m n : Nat), (∀ k < accs.length, (accs.getD k 0).testBit v = true → k + 1 ≤ n) →
    (∀ k < accs.length, ((stepMasks m accs).getD k 0).testBit v = true → k + 1 ≤ n + if m.testBit v then 1 else 0) ∧ (stepMasks m accs).length = accs.length := by
  intro accs
  induction accs with
  | nil => intro m n _; exact ⟨fun k hk => by simp at hk, rfl⟩
  | cons a accs ih =>
    intro m n h
    have ha : a.testBit v = true → 1 ≤ n := fun hx => h 0 (by simp) hx
    -- the rest counts from one on
    rcases Nat.eq_zero_or_pos n with rfl | hn
    · have h0 : ∀ k < accs.length, (accs.getD k 0).testBit v = true → k + 1 ≤ 0 := by
        intro k hk hb
        have := h (k + 1) (by simpa using hk) (by simpa using hb)
        omega
      obtain ⟨i1, i2⟩ := ih (Nat.land a m) 0 h0
      refine ⟨?_, by simp only [stepMasks, List.length_cons, i2]⟩
      intro k hk hb
      have hav : a.testBit v = false := by
        by_contra hx
        have := ha (by simpa using hx)
        omega
      rcases k with _ | k
      · simp only [stepMasks, List.getD_cons_zero] at hb
        have : (a ||| m).testBit v = true := hb
        rw [Nat.testBit_or, hav, Bool.false_or] at this
        rw [this]; simp
      · simp only [stepMasks, List.getD_cons_succ] at hb
        have := i1 k (by simpa using hk) hb
        have e : (Nat.land a m).testBit v = false := by
          show (a &&& m).testBit v = false
          rw [Nat.testBit_and, hav, Bool.false_and]
        rw [e] at this
        simp at this
    · have h1 : ∀ k < accs.length, (accs.getD k 0).testBit v = true → k + 1 ≤ n - 1 := by
        intro k hk hb
        have := h (k + 1) (by simpa using hk) (by simpa using hb)
        omega
      obtain ⟨i1, i2⟩ := ih (Nat.land a m) (n - 1) h1
      refine ⟨?_, by simp only [stepMasks, List.length_cons, i2]⟩
      intro k hk hb
      rcases k with _ | k
      · have : 1 ≤ n := hn
        omega
      · simp only [stepMasks, List.getD_cons_succ] at hb
        have := i1 k (by simpa using hk) hb
        have e : (Nat.land a m).testBit v = (a.testBit v && m.testBit v) := Nat.testBit_and a m v
        rw [e] at this
        cases hm : m.testBit v
        · rw [hm, Bool.and_false] at this
          simp at this ⊢
          omega
        · rw [hm, Bool.and_true] at this
          simp only [if_true]
          split at this <;> omega

theorem degMasks_spec (d v : Nat) (ms : List Nat) : (degMasks d ms).length = d ∧
    ∀ k < d, ((degMasks d ms).getD k 0).testBit v = true → k + 1 ≤ ms.countP fun m => m.testBit v := by
  induction ms with
  | nil =>
    refine ⟨by simp [degMasks], ?_⟩
    intro k hk hb
    simp [degMasks, List.getD_eq_getElem?_getD, List.getElem?_replicate, hk] at hb
  | cons m ms ih =>
    obtain ⟨h1, h2⟩ := stepMasks_spec v (degMasks d ms) m (ms.countP fun m => m.testBit v) (fun k hk hb => ih.2 k (by omega) hb)
    refine ⟨by rw [degMasks, h2, ih.1], ?_⟩
    intro k hk hb
    have := h1 k (by rw [ih.1]; exact hk) hb
    rw [List.countP_cons]
    exact this

theorem countP_range_getD {α : Type} (l : List α) (x0 : α) (p : α → Bool) : (List.range l.length).countP (fun i => p (l.getD i x0)) = l.countP p := by
  induction l using List.reverseRecOn with
  | nil => rfl
  | append_singleton l a ih =>
    rw [List.length_append, List.length_singleton, List.range_succ, List.countP_append, List.countP_append, ← ih]
    congr 1
    · refine List.countP_congr fun i hi => ?_
      rw [List.mem_range] at hi
      rw [List.getD_append _ _ _ _ hi]
    · simp [List.getD_eq_getElem?_getD]

theorem checksOf_length (H : Checks) (v : Nat) : (checksOf H v).length = (H.map maskOf).countP fun m => m.testBit v := by
  unfold checksOf
  rw [← List.countP_eq_length_filter, List.countP_map, ← countP_range_getD H []]
  refine List.countP_congr fun i hi => ?_
  simp [testBit_maskOf]

/-- Every bit below `nv` is in at least `d + 1` checks. -/
theorem degree_of_masks {H : Checks} {nv d : Nat} (h : Nat.beq ((degMasks (d + 1) (H.map maskOf)).getD d 0) (2 ^ nv - 1) = true) :
    ∀ v < nv, d + 1 ≤ (checksOf H v).length := by
  intro v hv
  rw [checksOf_length]
  refine (degMasks_spec (d + 1) v (H.map maskOf)).2 d (by omega) ?_
  rw [Nat.eq_of_beq_eq_true h, Nat.testBit_two_pow_sub_one]
  simpa using hv

theorem hitChecks_single (H : Checks) {u v : Nat} (huv : v ≠ u) :
    hitChecks H {u} v = (H.map maskOf).countP fun m => m.testBit u && m.testBit v := by
  unfold hitChecks checksOf
  rw [List.countP_filter, List.countP_map, ← countP_range_getD H []]
  refine List.countP_congr fun i hi => ?_
  simp only [Function.comp, testBit_maskOf, Finset.mem_singleton, Bool.and_eq_true, decide_eq_true_eq]
  constructor
  · rintro ⟨⟨x, h1, -, rfl⟩, h2⟩
    exact ⟨h1, h2⟩
  · rintro ⟨h1, h2⟩
    exact ⟨⟨u, h1, huv.symm, rfl⟩, h2⟩

theorem exists_pair {p q : Nat → Bool} (hpq : ∀ x y, p x = true → p y = true → q (x &&& y) = true) (l : List Nat) (h : 2 ≤ l.countP p) :
    ∃ z ∈ pairs l, q z = true := by
  induction l with
  | nil => simp at h
  | cons x l ih =>
    by_cases h2 : 2 ≤ l.countP p
    · obtain ⟨z, h1, h2⟩ := ih h2
      exact ⟨z, by simp [pairs, h1], h2⟩
    · rw [List.countP_cons] at h
      have hx : p x = true := by
        by_contra hx
        rw [if_neg hx] at h
        omega
      rw [if_pos hx] at h
      obtain ⟨y, hy, hpy⟩ := List.countP_pos_iff.1 (show 0 < l.countP p by omega)
      refine ⟨x &&& y, ?_, hpq x y hx hpy⟩
      rw [pairs, List.mem_append, List.mem_map]
      exact Or.inl ⟨y, hy, rfl⟩

/-- Two bits share at most two checks, and then both are in at least four. -/
def sharedOk (masks : List Nat) (four : Nat) : Bool :=
  ((pairs masks).filter bad).all fun z => Nat.beq (Nat.land z four) z && Nat.ble (masks.countP fun m => bad (Nat.land z m)) 2

theorem singleOk_of_shared {H : Checks} {nv : Nat} (hcol : ∀ v < nv, 2 ≤ (checksOf H v).length)
    (h : sharedOk (H.map maskOf) ((degMasks 4 (H.map maskOf)).getD 3 0) = true) {ρ : ℝ} (hρ0 : 0 ≤ ρ) (hρ : ρ < 3 / 2) : SingleOk H nv ρ := by
  simp only [sharedOk, List.all_eq_true, List.mem_filter, Bool.and_eq_true] at h
  intro u hu
  have hc : ∀ v < nv, (2 : ℝ) ≤ (checksOf H v).length := fun v hv => by exact_mod_cast hcol v hv
  refine ⟨by linarith [hc u hu], ?_⟩
  intro v hv hvu
  have hd := hc v hv
  by_cases h2 : 2 ≤ hitChecks H {u} v
  · have h2' := h2
    rw [hitChecks_single H hvu] at h2'
    obtain ⟨z, hz, hzq⟩ := exists_pair (p := fun m => m.testBit u && m.testBit v) (q := fun m => m.testBit u && m.testBit v)
      (fun x y hx hy => by
        simp only [Bool.and_eq_true, Nat.testBit_and] at hx hy ⊢
        exact ⟨⟨hx.1, hy.1⟩, ⟨hx.2, hy.2⟩⟩) _ h2'
    rw [Bool.and_eq_true] at hzq
    obtain ⟨e1, e2⟩ := h z ⟨hz, bad_of_two hvu.symm hzq.1 hzq.2⟩
    have e1' := Nat.eq_of_beq_eq_true e1
    have e2' := Nat.le_of_ble_eq_true e2
    have hv4 : ((degMasks 4 (H.map maskOf)).getD 3 0).testBit v = true := by
      have : (z &&& (degMasks 4 (H.map maskOf)).getD 3 0).testBit v = true := by
        have e : z &&& (degMasks 4 (H.map maskOf)).getD 3 0 = z := e1'
        rw [e]; exact hzq.2
      rw [Nat.testBit_and, Bool.and_eq_true] at this
      exact this.2
    have hdeg : 4 ≤ (checksOf H v).length := by
      rw [checksOf_length]
      exact (degMasks_spec 4 v (H.map maskOf)).2 3 (by omega) hv4
    have hle : hitChecks H {u} v ≤ 2 := by
      rw [hitChecks_single H hvu]
      refine le_trans (List.countP_mono_left fun m _ hm => ?_) e2'
      simp only [Bool.and_eq_true] at hm
      refine bad_of_two hvu.symm ?_ ?_
      · show (z &&& m).testBit u = true
        rw [Nat.testBit_and, hzq.1, hm.1]; rfl
      · show (z &&& m).testBit v = true
        rw [Nat.testBit_and, hzq.2, hm.2]; rfl
    have e : hitChecks H {u} v = 2 := by omega
    rw [e]
    have : (4 : ℝ) ≤ (checksOf H v).length := by exact_mod_cast hdeg
    push_cast
    linarith
  · have h1 : (hitChecks H {u} v : ℝ) ≤ 1 := by exact_mod_cast (by omega : hitChecks H {u} v ≤ 1)
    have h0 : (0 : ℝ) ≤ hitChecks H {u} v := by positivity
    nlinarith

end Verif
