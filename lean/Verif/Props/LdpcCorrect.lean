import Verif.Props.LdpcBp
/-
C112: min-sum decoding corrects errors and erasures.
-/
namespace Verif

variable (nanSign : NanSigns) (oneLeft : Py (List (List Bool × List (Option ℝ))))

/-- The sign pattern of a code word can be removed from min-sum decoding. -/
theorem bpTotal_flip {H : Checks} {nv : Nat} (hH : GoodChecks H nv) {w : Nat → Bool} (hw : ChecksHold H w) (llr : Nat → ℝ) (k v : Nat) :
    bpTotal msaRule H llr k v = flipSign w v * bpTotal msaRule H (fun v => flipSign w v * llr v) k v :=
  (bpTotal_congr_rule msaRule H (fun v => flipSign w v * llr v) llr (flipSign w)
    (fun v => by rw [← mul_assoc, flipSign_mul_self, one_mul])
    (fun ns hns x x' hx _ hv => msaRule_flip w (hH ns hns).1 (hw ns hns) x x' hx hv) k).2 v

theorem exists_other {ns : List Nat} (hnd : ns.Nodup) (hl : ns.length ≠ 1) {v : Nat} (hv : v ∈ ns) : ∃ u ∈ ns, u ≠ v := by
  by_contra h
  push Not at h
  rcases ns with _ | ⟨x, _ | ⟨y, l⟩⟩
  · simp at hv
  · simp at hl
  · have h1 := h x (by simp)
    have h2 := h y (by simp)
    rw [List.nodup_cons] at hnd
    exact hnd.1 (by rw [h1, ← h2]; simp)

theorem prod_signs_one {l : List Nat} {x : Nat → ℝ} (h : ∀ u ∈ l, 0 < x u) : (l.map (fun u => (SignType.sign (x u) : ℝ))).prod = 1 := by
  apply List.prod_eq_one
  intro z hz
  obtain ⟨u, hu, rfl⟩ := List.mem_map.1 hz
  rw [sign_pos (h u hu)]; simp

theorem abs_prod_signs_le (l : List Nat) (x : Nat → ℝ) : |(l.map (fun u => (SignType.sign (x u) : ℝ))).prod| ≤ 1 := by
  induction l with
  | nil => simp
  | cons u l ih =>
    rw [List.map_cons, List.prod_cons, abs_mul]
    have : |(SignType.sign (x u) : ℝ)| ≤ 1 := by
      rcases lt_trichotomy (x u) 0 with h | h | h
      · rw [sign_neg h]; simp
      · rw [h]; simp
      · rw [sign_pos h]; simp
    calc _ ≤ 1 * 1 := mul_le_mul this ih (abs_nonneg _) zero_le_one
      _ = 1 := one_mul 1

theorem bdd_abs (ns : List Nat) (x : Nat → ℝ) (v : Nat) : BddBelow (Set.range fun u : {u // u ∈ ns ∧ u ≠ v} => |x u|) :=
  ⟨0, by rintro _ ⟨u, rfl⟩; exact abs_nonneg _⟩

/-- All other messages right and at least `a`: so is the message of the check. -/
theorem msaRule_ge {ns : List Nat} (hnd : ns.Nodup) (hl : ns.length ≠ 1) {v : Nat} (hv : v ∈ ns) {x : Nat → ℝ} {a : ℝ} (ha : 0 < a)
    (h : ∀ u ∈ ns, u ≠ v → a ≤ x u) : a ≤ msaRule ns x v := by
  obtain ⟨u0, h1, h2⟩ := exists_other hnd hl hv
  unfold msaRule
  rw [prod_signs_one (fun u hu => by
    simp only [List.mem_filter, decide_eq_true_eq] at hu
    exact ha.trans_le (h u hu.1 hu.2)), one_mul]
  haveI : Nonempty {u // u ∈ ns ∧ u ≠ v} := ⟨⟨u0, h1, h2⟩⟩
  exact le_ciInf fun u => (h u u.2.1 u.2.2).trans (le_abs_self _)

/-- One other message of magnitude at most `b`: so is the message of the check. -/
theorem msaRule_abs_le {ns : List Nat} {v u : Nat} (hu : u ∈ ns) (huv : u ≠ v) {x : Nat → ℝ} {b : ℝ} (h : |x u| ≤ b) : -b ≤ msaRule ns x v := by
  have h1 : (⨅ u : {u // u ∈ ns ∧ u ≠ v}, |x u|) ≤ b := (ciInf_le (bdd_abs ns x v) ⟨u, hu, huv⟩).trans h
  have h0 : 0 ≤ ⨅ u : {u // u ∈ ns ∧ u ≠ v}, |x u| := Real.iInf_nonneg fun u => abs_nonneg _
  have h2 := abs_prod_signs_le (ns.filter (fun u => u ≠ v)) x
  have : |msaRule ns x v| ≤ b := by
    unfold msaRule
    rw [abs_mul, abs_of_nonneg h0]
    calc _ ≤ 1 * b := mul_le_mul h2 h1 h0 zero_le_one
      _ = b := one_mul b
  exact (abs_le.1 this).1

/-- The number of checks of `v` that contain another variable of `E`. -/
def hitChecks (H : Checks) (E : Finset Nat) (v : Nat) : Nat :=
  (checksOf H v).countP fun c => ∃ u ∈ H.getD c [], u ≠ v ∧ u ∈ E

theorem sum_ge_count (l : List Nat) (p : Nat → Prop) [DecidablePred p] (f : Nat → ℝ) (a b : ℝ) (h1 : ∀ c ∈ l, p c → -b ≤ f c)
    (h2 : ∀ c ∈ l, ¬ p c → a ≤ f c) : ((l.length : ℝ) - l.countP (fun c => p c)) * a - l.countP (fun c => p c) * b ≤ (l.map f).sum := by
  induction l with
  | nil => simp
  | cons c l ih =>
    have ih := ih (fun c hc => h1 c (List.mem_cons_of_mem _ hc)) (fun c hc => h2 c (List.mem_cons_of_mem _ hc))
    rw [List.map_cons, List.sum_cons, List.countP_cons, List.length_cons]
    by_cases hp : p c
    · have := h1 c (by simp) hp
      simp only [hp, decide_true, if_true]
      push_cast
      nlinarith
    · have := h2 c (by simp) hp
      simp only [hp, decide_false, Bool.false_eq_true, if_false]
      push_cast
      nlinarith

theorem mem_checksOf {H : Checks} {c v : Nat} : c ∈ checksOf H v ↔ c < H.length ∧ v ∈ H.getD c [] := by
  simp [checksOf]

/-- The first total, relative to the code word. -/
theorem first_total {H : Checks} {nv : Nat} (hH : GoodChecks H nv) (hdeg : ∀ ns ∈ H, ns.length ≠ 1) (y : Nat → ℝ) {a b : ℝ} (ha : 0 < a)
    (E : Finset Nat) (hgood : ∀ v < nv, v ∉ E → a ≤ y v) (hbad : ∀ v ∈ E, |y v| ≤ b) (v : Nat) :
    y v + (((checksOf H v).length : ℝ) - hitChecks H E v) * a - hitChecks H E v * b ≤ bpTotal msaRule H y 1 v := by
  have := sum_ge_count (checksOf H v) (fun c => ∃ u ∈ H.getD c [], u ≠ v ∧ u ∈ E)
    (fun c => msaRule (H.getD c []) (bpMsgs msaRule H y 0 c) v) a b
    (by
      rintro c - ⟨u, hu, huv, hE⟩
      exact msaRule_abs_le hu huv (hbad u hE))
    (by
      intro c hc hno
      rw [mem_checksOf] at hc
      have hm := getD_mem hc.1
      refine msaRule_ge (hH _ hm).1 (hdeg _ hm) hc.2 ha ?_
      intro u hu huv
      exact hgood u ((hH _ hm).2 u hu) (fun hE => hno ⟨u, hu, huv, hE⟩))
  simp only [bpTotal]
  unfold hitChecks
  unfold checksOf at *
  linarith

/-- Two words that satisfy the checks and differ: every check of a position where they differ contains another one. -/
theorem differ_check {H : Checks} {nv : Nat} (hH : GoodChecks H nv) {w d : Nat → Bool} (hw : ChecksHold H w) (hd : ChecksHold H d) {ns : List Nat}
    (hns : ns ∈ H) {v : Nat} (hv : v ∈ ns) (hne : d v ≠ w v) : ∃ u ∈ ns, u ≠ v ∧ d u ≠ w u := by
  have hx : ChecksHold H (fun v => xor (d v) (w v)) := (checksHold_xor H w d _ hw (fun _ _ _ _ => rfl)).2 hd
  have h2 := hx ns hns
  by_contra hno
  push Not at hno
  have hnd := (hH ns hns).1
  have h1 : ns.countP (fun v => xor (d v) (w v)) = ns.countP (fun u => u == v) := by
    apply List.countP_congr
    intro u hu
    by_cases huv : u = v
    · subst huv; simpa using hne
    · have := hno u hu huv
      simp [this, huv]
  rw [h1] at h2
  have h3 : ns.countP (fun u => u == v) = 1 := by
    have := List.count_eq_one_of_mem hnd hv
    rwa [List.count] at this
  rw [h3] at h2
  omega

theorem clip_ge {a x : ℝ} (ha : a ≤ 500) (h : a ≤ x) : a ≤ max (-500) (min 500 x) := le_max_of_le_right (le_min ha h)

theorem abs_clip (x : ℝ) : |max (-500) (min 500 x)| = min 500 |x| := by
  rcases le_total x 500 with h1 | h1 <;> rcases le_total (-500) x with h2 | h2
  · rw [min_eq_right h1, max_eq_right h2, min_eq_right (abs_le.2 ⟨h2, h1⟩)]
  · rw [min_eq_right h1, max_eq_left h2, abs_of_nonpos (by linarith : x ≤ 0), min_eq_left (by linarith)]; norm_num
  · rw [min_eq_left h1, max_eq_right (by norm_num), abs_of_nonneg (by linarith : 0 ≤ x), min_eq_left h1]; norm_num
  · exfalso; linarith

theorem decide_flip {w : Nat → Bool} {v : Nat} {z t : ℝ} (e : t = flipSign w v * z) (hz : 0 < z) : decide (t < 0) = w v := by
  subst e
  unfold flipSign
  cases w v
  · simp [hz.le]
  · simp [hz]

/-- C112, any pattern of unreliable positions `E` (wrong sign, or erased, or right): if outside `E` every LLR has the sign of the code word `w`
and magnitude at least `a`, inside `E` the magnitude is at most `b`, and at every position the checks without other unreliable positions outweigh
the others, one iteration of min-sum decoding returns `w`. -/
theorem C112_pattern (H : Checks) (nv n : Nat) (llrs : List ℝ) (hnv : 0 < nv) (hl : llrs.length = nv) (hH : GoodChecks H nv)
    (hdeg : ∀ ns ∈ H, ns.length ≠ 1) (w : Nat → Bool) (hw : ChecksHold H w) (hn : 1 ≤ n) (a b : ℝ) (ha : 0 < a) (ha5 : a ≤ 500) (E : Finset Nat)
    (hgood : ∀ v < nv, v ∉ E → if w v then llrs.getD v 0 ≤ -a else a ≤ llrs.getD v 0)
    (hbad : ∀ v ∈ E, min 500 |llrs.getD v 0| ≤ b)
    (hout : ∀ v < nv, v ∉ E → hitChecks H E v * b < ((checksOf H v).length - hitChecks H E v + 1) * a)
    (hin : ∀ v < nv, v ∈ E → (hitChecks H E v + 1) * b < ((checksOf H v).length - hitChecks H E v) * a) :
    ∃ out arr, bpDecode nanSign oneLeft .msa H nv n llrs = .ok ([((List.range nv).map w, out)], arr) := by
  obtain ⟨K, hK, hdec⟩ := C89_msa nanSign oneLeft H nv n llrs hnv hl hH hdeg
  rw [hdec]
  set y : Nat → ℝ := fun v => flipSign w v * clippedLlr llrs v with hy
  have hyg : ∀ v < nv, v ∉ E → a ≤ y v := by
    intro v hv hE
    have := hgood v hv hE
    rw [hy]
    show a ≤ flipSign w v * max (-500) (min 500 _)
    rw [← clip_flip]
    apply clip_ge ha5
    unfold flipSign
    split at this <;> rename_i hwv <;> simp only [hwv, if_true, if_false, Bool.false_eq_true] <;> linarith
  have hyb : ∀ v ∈ E, |y v| ≤ b := by
    intro v hE
    rw [hy]
    show |flipSign w v * max (-500) (min 500 _)| ≤ b
    rw [abs_mul, abs_flipSign, one_mul, abs_clip]
    exact hbad v hE
  -- the decisions after one iteration
  have h1 : ∀ v < nv, decide (bpTotal msaRule H (clippedLlr llrs) 1 v < 0) = w v := by
    intro v hv
    have e := bpTotal_flip hH hw (clippedLlr llrs) 1 v
    have hpos : 0 < bpTotal msaRule H y 1 v := by
      have := first_total hH hdeg y ha E hyg hyb v
      by_cases hE : v ∈ E
      · have h2 := hin v hv hE
        have h3 := (abs_le.1 (hyb v hE)).1
        nlinarith
      · have h2 := hout v hv hE
        have h3 := hyg v hv hE
        nlinarith
    exact decide_flip e hpos
  -- the hard decisions before the first iteration, if they satisfy the checks
  have h0 : ChecksHold H (fun v => bpTotal msaRule H (clippedLlr llrs) 0 v < 0) → ∀ v < nv, decide (bpTotal msaRule H (clippedLlr llrs) 0 v < 0) = w v := by
    intro hch
    by_contra hcon
    push Not at hcon
    obtain ⟨v, hv, hne⟩ := hcon
    have inE : ∀ u < nv, decide (bpTotal msaRule H (clippedLlr llrs) 0 u < 0) ≠ w u → u ∈ E := by
      intro u hu hne
      by_contra hE
      apply hne
      exact decide_flip (z := y u) (by rw [hy]; simp only [bpTotal]; rw [← mul_assoc, flipSign_mul_self, one_mul]) (ha.trans_le (hyg u hu hE))
    have hE := inE v hv hne
    have hit : hitChecks H E v = (checksOf H v).length := by
      unfold hitChecks
      rw [List.countP_eq_length]
      intro c hc
      rw [mem_checksOf] at hc
      have hm := getD_mem hc.1
      obtain ⟨u, hu, huv, hd⟩ := differ_check hH hw hch hm hc.2 hne
      simp only [decide_eq_true_eq]
      exact ⟨u, hu, huv, inE u ((hH _ hm).2 u hu) hd⟩
    have h2 := hin v hv hE
    rw [hit] at h2
    have h3 : 0 ≤ b := (abs_nonneg _).trans (hyb v hE)
    have h4 : (0 : ℝ) ≤ ((checksOf H v).length + 1) * b := by positivity
    nlinarith
  have hfin : ∀ v < nv, decide (bpTotal msaRule H (clippedLlr llrs) K v < 0) = w v := by
    obtain ⟨k1, k2, k3⟩ := hK
    have hch1 : ChecksHold H (fun v => bpTotal msaRule H (clippedLlr llrs) 1 v < 0) := by
      intro ns hns
      rw [List.countP_congr (q := fun v => w v)]
      · exact hw ns hns
      · intro v hv
        show decide _ = true ↔ _
        rw [h1 v ((hH ns hns).2 v hv)]
    rcases Nat.eq_zero_or_pos K with rfl | hKp
    · rcases k2 with k2 | k2
      · omega
      · exact h0 k2
    · have : K = 1 := by
        by_contra hne
        exact k3 1 (by omega) hch1
      subst this
      exact h1
  unfold bpResult
  have e : (List.range nv).map (fun v => decide (bpTotal msaRule H (clippedLlr llrs) K v < 0)) = (List.range nv).map w :=
    List.map_congr_left fun v hv => hfin v (List.mem_range.1 hv)
  rw [e]
  exact ⟨_, _, rfl⟩

/-- No two positions are in two common checks (the Tanner graph has no cycle of length 4). -/
def NoFourCycle (H : Checks) : Prop :=
  ∀ c < H.length, ∀ c' < H.length, c ≠ c' → ∀ u ∈ H.getD c [], ∀ v ∈ H.getD c [], u ∈ H.getD c' [] → v ∈ H.getD c' [] → u = v

theorem checksOf_nodup (H : Checks) (v : Nat) : (checksOf H v).Nodup := List.Nodup.filter _ List.nodup_range

/-- Without cycles of length 4 every other unreliable position spoils at most one check. -/
theorem hitChecks_le {H : Checks} (hg : NoFourCycle H) (E : Finset Nat) (v : Nat) : hitChecks H E v ≤ (E.erase v).card := by
  classical
  unfold hitChecks
  rw [List.countP_eq_length_filter]
  have hnd := (checksOf_nodup H v).filter (fun c => decide (∃ u ∈ H.getD c [], u ≠ v ∧ u ∈ E))
  rw [← List.toFinset_card_of_nodup hnd]
  have hex : ∀ c ∈ ((checksOf H v).filter (fun c => decide (∃ u ∈ H.getD c [], u ≠ v ∧ u ∈ E))).toFinset,
      c < H.length ∧ v ∈ H.getD c [] ∧ ∃ u ∈ H.getD c [], u ≠ v ∧ u ∈ E := by
    intro c hc
    rw [List.mem_toFinset, List.mem_filter, mem_checksOf, decide_eq_true_eq] at hc
    exact ⟨hc.1.1, hc.1.2, hc.2⟩
  choose! hc1 hc2 f hf using hex
  apply Finset.card_le_card_of_injOn f
  · intro c hc
    have := hf c hc
    simp only [Finset.coe_erase, Set.mem_diff, Finset.mem_coe, Set.mem_singleton_iff]
    exact ⟨this.2.2, this.2.1⟩
  · intro c hc c' hc' he
    by_contra hne
    have h1 := hf c hc
    have h2 := hf c' hc'
    exact h1.2.1 (hg c (hc1 c hc) c' (hc1 c' hc') hne (f c) h1.1 v (hc2 c hc) (by rw [he]; exact h2.1) (hc2 c' hc'))

/-- C112, codes without cycles of length 4: at most `e` unreliable positions (magnitude at most `b`, whatever the sign; the others right with
magnitude at least `a`) are corrected by the first iteration if every bit is in `d` checks with `e b < (d + 1 - e) a`. -/
theorem C112_girth (H : Checks) (nv n : Nat) (llrs : List ℝ) (hnv : 0 < nv) (hl : llrs.length = nv) (hH : GoodChecks H nv)
    (hdeg : ∀ ns ∈ H, ns.length ≠ 1) (hg : NoFourCycle H) (w : Nat → Bool) (hw : ChecksHold H w) (hn : 1 ≤ n) (a b : ℝ) (ha : 0 < a) (ha5 : a ≤ 500)
    (hb : 0 ≤ b) (E : Finset Nat) (hgood : ∀ v < nv, v ∉ E → if w v then llrs.getD v 0 ≤ -a else a ≤ llrs.getD v 0)
    (hbad : ∀ v ∈ E, min 500 |llrs.getD v 0| ≤ b)
    (hcol : ∀ v < nv, E.card * b < (((checksOf H v).length : ℝ) + 1 - E.card) * a) :
    ∃ out arr, bpDecode nanSign oneLeft .msa H nv n llrs = .ok ([((List.range nv).map w, out)], arr) := by
  refine C112_pattern nanSign oneLeft H nv n llrs hnv hl hH hdeg w hw hn a b ha ha5 E hgood hbad ?_ ?_
  · intro v hv hE
    have h1 := hitChecks_le hg E v
    rw [Finset.erase_eq_of_notMem hE] at h1
    have h2 : (hitChecks H E v : ℝ) ≤ E.card := by exact_mod_cast h1
    have := hcol v hv
    nlinarith
  · intro v hv hE
    have h1 := hitChecks_le hg E v
    rw [Finset.card_erase_of_mem hE] at h1
    have h3 : 0 < E.card := Finset.card_pos.2 ⟨v, hE⟩
    have h2 : (hitChecks H E v : ℝ) + 1 ≤ E.card := by exact_mod_cast (by omega : hitChecks H E v + 1 ≤ E.card)
    have := hcol v hv
    nlinarith

/-- C112, hard-decision input (every LLR has magnitude `a`): `e` errors are corrected if no two bits share two checks and every bit is in at
least `2 e` checks. -/
theorem C112_errors (H : Checks) (nv n e : Nat) (llrs : List ℝ) (hnv : 0 < nv) (hl : llrs.length = nv) (hH : GoodChecks H nv)
    (hdeg : ∀ ns ∈ H, ns.length ≠ 1) (hg : NoFourCycle H) (hcol : ∀ v < nv, 2 * e ≤ (checksOf H v).length) (w : Nat → Bool) (hw : ChecksHold H w)
    (hn : 1 ≤ n) (a : ℝ) (ha : 0 < a) (hmag : ∀ x ∈ llrs, |x| = a)
    (herr : ((List.range nv).filter (fun v => decide (llrs.getD v 0 < 0) ≠ w v)).length ≤ e) :
    ∃ out arr, bpDecode nanSign oneLeft .msa H nv n llrs = .ok ([((List.range nv).map w, out)], arr) := by
  classical
  set E : Finset Nat := ((List.range nv).filter (fun v => decide (llrs.getD v 0 < 0) ≠ w v)).toFinset with hE
  have hcard : E.card ≤ e := (List.toFinset_card_le _).trans herr
  have habs : ∀ v < nv, |llrs.getD v 0| = a := by
    intro v hv
    rw [List.getD_eq_getElem _ _ (by omega)]
    exact hmag _ (List.getElem_mem _)
  refine C112_girth nanSign oneLeft H nv n llrs hnv hl hH hdeg hg w hw hn (min 500 a) (min 500 a) (lt_min (by norm_num) ha) (min_le_left _ _)
    (le_min (by norm_num) ha.le) E ?_ ?_ ?_
  · intro v hv hnE
    have hd : decide (llrs.getD v 0 < 0) = w v := by
      by_contra hne
      exact hnE (by rw [hE, List.mem_toFinset, List.mem_filter]; exact ⟨List.mem_range.2 hv, by simpa using hne⟩)
    have h1 := habs v hv
    rw [← hd]
    by_cases hneg : llrs.getD v 0 < 0
    · rw [abs_of_neg hneg] at h1
      simp only [hneg, decide_true, if_true]
      have := min_le_right 500 a
      linarith
    · rw [abs_of_nonneg (not_lt.1 hneg)] at h1
      simp only [hneg, decide_false, Bool.false_eq_true, if_false]
      have := min_le_right 500 a
      linarith
  · intro v hv
    rw [hE, List.mem_toFinset, List.mem_filter] at hv
    rw [habs v (List.mem_range.1 hv.1)]
  · intro v hv
    have h1 : (2 : ℝ) * E.card ≤ (checksOf H v).length := by exact_mod_cast (by have := hcol v hv; omega : 2 * E.card ≤ (checksOf H v).length)
    have h2 : 0 < min 500 a := lt_min (by norm_num) ha
    nlinarith

end Verif
