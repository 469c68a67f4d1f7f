import Verif.Model.LdpcDecode
import Verif.Spec.Bp
import Mathlib.Tactic.FieldSimp
import Mathlib.Tactic.Linarith
import Mathlib.Tactic.Ring
namespace Verif

theorem syndromeOk_iff (H : Checks) (d : Nat → Bool) : syndromeOk H d = true ↔ ChecksHold H d := by
  simp only [syndromeOk, ChecksHold, List.all_eq_true, decide_eq_true_eq, Nat.dvd_iff_mod_eq_zero]

theorem mapM_some {α β : Type} (l : List α) (f : α → Option β) (g : α → β) (h : ∀ a ∈ l, f a = some (g a)) :
    l.mapM f = some (l.map g) := by
  induction l with
  | nil => rfl
  | cons a l ih =>
    rw [List.mapM_cons, h a (by simp), ih (fun b hb => h b (List.mem_cons_of_mem _ hb))]
    rfl

theorem logProd_eq : ∀ l : List ℝ, logProd l = l.prod := by
  intro l
  unfold logProd
  by_cases h : (0 : ℝ) ∈ l
  · rw [if_pos h, List.prod_eq_zero h]
  · rw [if_neg h]
    have : ∀ l : List ℝ, (0 : ℝ) ∉ l → Complex.exp ((l.map (fun (x : ℝ) => Complex.log (x : ℂ))).sum) = ((l.prod : ℝ) : ℂ) := by
      intro l
      induction l with
      | nil => simp
      | cons a l ih =>
        intro h
        rw [List.mem_cons, not_or] at h
        rw [List.map_cons, List.sum_cons, Complex.exp_add, ih h.2, Complex.exp_log (by
          intro e
          exact h.1 (by exact_mod_cast e.symm)), List.prod_cons]
        push_cast
        rfl
    rw [this l h, Complex.ofReal_re]

theorem tanh_ne_zero {x : ℝ} (hx : x ≠ 0) : Real.tanh x ≠ 0 := by
  intro h
  exact hx (Real.tanh_injective (by rw [h, Real.tanh_zero]))

theorem abs_tanh_lt (x : ℝ) : |Real.tanh x| < 1 := by
  have := Real.tanh_bijOn.mapsTo (Set.mem_univ x)
  exact abs_lt.2 this

/-- Product of the values at the elements of a duplicate-free list, one factored out. -/
theorem prod_factor {ns : List Nat} (hnd : ns.Nodup) {v : Nat} (hv : v ∈ ns) (f : Nat → ℝ) :
    (ns.map f).prod = f v * ((ns.filter (fun u => u ≠ v)).map f).prod := by
  induction ns with
  | nil => simp at hv
  | cons a ns ih =>
    rw [List.nodup_cons] at hnd
    by_cases ha : a = v
    · subst ha
      have : (a :: ns).filter (fun u => u ≠ a) = ns := by
        rw [List.filter_cons_of_neg (by simp)]
        refine List.filter_eq_self.2 fun u hu => ?_
        simp only [decide_eq_true_eq]
        rintro rfl
        exact hnd.1 hu
      rw [this]
      simp
    · have hv' : v ∈ ns := by
        rcases List.mem_cons.1 hv with h | h
        · exact absurd h.symm ha
        · exact h
      rw [List.filter_cons_of_pos (by simpa using ha)]
      simp only [List.map_cons, List.prod_cons]
      rw [ih hnd.2 hv']
      ring

theorem sum_factor {ns : List Nat} (hnd : ns.Nodup) {v : Nat} (hv : v ∈ ns) (f : Nat → ℝ) :
    (ns.map f).sum = f v + ((ns.filter (fun u => u ≠ v)).map f).sum := by
  induction ns with
  | nil => simp at hv
  | cons a ns ih =>
    rw [List.nodup_cons] at hnd
    by_cases ha : a = v
    · subst ha
      have : (a :: ns).filter (fun u => u ≠ a) = ns := by
        rw [List.filter_cons_of_neg (by simp)]
        refine List.filter_eq_self.2 fun u hu => ?_
        simp only [decide_eq_true_eq]
        rintro rfl
        exact hnd.1 hu
      rw [this]
      simp
    · have hv' : v ∈ ns := by
        rcases List.mem_cons.1 hv with h | h
        · exact absurd h.symm ha
        · exact h
      rw [List.filter_cons_of_pos (by simpa using ha)]
      simp only [List.map_cons, List.sum_cons]
      rw [ih hnd.2 hv']
      ring

theorem abs_prod_lt_one (l : List ℝ) (hne : l ≠ []) (h : ∀ x ∈ l, |x| < 1) : |l.prod| < 1 := by
  induction l with
  | nil => exact absurd rfl hne
  | cons a l ih =>
    rw [List.prod_cons, abs_mul]
    by_cases hl : l = []
    · subst hl; simpa using h a (by simp)
    · have h1 := ih hl (fun x hx => h x (List.mem_cons_of_mem _ hx))
      have h2 := h a (by simp)
      calc |a| * |l.prod| ≤ 1 * |l.prod| := mul_le_mul_of_nonneg_right h2.le (abs_nonneg _)
        _ < 1 := by rw [one_mul]; exact h1

/-- The model's row update is the textbook sum-product rule when no incoming message is zero. -/
theorem spaRow_eq {ns : List Nat} (hnd : ns.Nodup) (x : Nat → Option ℝ) (y : Nat → ℝ) (h : ∀ u ∈ ns, x u = some (y u))
    (hy : ∀ u ∈ ns, y u ≠ 0) {v : Nat} (hv : v ∈ ns) : spaRow ns x v = some (spaRule ns y v) := by
  simp only [spaRow]
  rw [mapM_some ns x y h, h v hv]
  simp only
  have e : ∀ z : ℝ, z * (1 / 2) = z / 2 := fun z => by ring
  simp only [e]
  have ht : Real.tanh (y v / 2) ≠ 0 := tanh_ne_zero (by have := hy v hv; simpa using this)
  rw [if_neg ht, logProd_eq, List.map_map]
  congr 1
  have hf := prod_factor hnd hv (fun u => Real.tanh (y u / 2))
  rw [show ((fun y => Real.tanh (y / 2)) ∘ y) = (fun u => Real.tanh (y u / 2)) from rfl, hf, ← mul_assoc,
    one_div, inv_mul_cancel₀ ht, one_mul]
  unfold spaRule atanhClip clipR llrMax
  by_cases he : ns.filter (fun u => u ≠ v) = []
  · rw [if_pos he, he]
    simp
  · rw [if_neg he]
    have hlt : |((ns.filter (fun u => u ≠ v)).map (fun u => Real.tanh (y u / 2))).prod| < 1 := by
      refine abs_prod_lt_one _ (by simpa using he) fun z hz => ?_
      obtain ⟨u, -, rfl⟩ := List.mem_map.1 hz
      exact abs_tanh_lt _
    rw [abs_lt] at hlt
    rw [if_neg (by linarith [hlt.2]), if_neg (by linarith [hlt.1])]

theorem npSign_eq (x : ℝ) : npSign x = (SignType.sign x : ℝ) := by
  unfold npSign
  rcases lt_trichotomy x 0 with h | h | h
  · rw [if_neg (by linarith), if_pos h, sign_neg h]; simp
  · subst h; simp
  · rw [if_pos h, sign_pos h]; simp

theorem foldl_min_spec (l : List ℝ) : ∀ a : ℝ, l.foldl min a ≤ a ∧ (∀ x ∈ l, l.foldl min a ≤ x) ∧ (l.foldl min a = a ∨ l.foldl min a ∈ l) := by
  induction l with
  | nil => intro a; simp
  | cons b l ih =>
    intro a
    obtain ⟨h1, h2, h3⟩ := ih (min a b)
    rw [List.foldl_cons]
    refine ⟨h1.trans (min_le_left _ _), ?_, ?_⟩
    · intro x hx
      rcases List.mem_cons.1 hx with rfl | hx
      · exact h1.trans (min_le_right _ _)
      · exact h2 x hx
    · rcases h3 with h3 | h3
      · rcases min_choice a b with h | h
        · exact Or.inl (h3.trans h)
        · exact Or.inr (by rw [h3, h]; simp)
      · exact Or.inr (List.mem_cons_of_mem _ h3)

theorem minAbs_eq (ns : List Nat) (y : Nat → ℝ) (v : Nat) (hne : ns.filter (fun u => u ≠ v) ≠ []) :
    minAbs ((ns.filter (fun u => u ≠ v)).map y) = ⨅ u : {u // u ∈ ns ∧ u ≠ v}, |y u| := by
  have hmem : ∀ u, u ∈ ns.filter (fun u => u ≠ v) ↔ u ∈ ns ∧ u ≠ v := fun u => by simp
  generalize ns.filter (fun u => u ≠ v) = l at hne hmem
  obtain ⟨a, l, rfl⟩ := List.exists_cons_of_ne_nil hne
  unfold minAbs
  simp only [List.map_cons, List.tail_cons, List.headD_cons, List.map_map]
  obtain ⟨h1, h2, h3⟩ := foldl_min_spec (l.map ((fun x => |x|) ∘ y)) |y a|
  have hb : BddBelow (Set.range (fun u : {u // u ∈ ns ∧ u ≠ v} => |y u|)) := ⟨0, by rintro _ ⟨u, rfl⟩; exact abs_nonneg _⟩
  haveI : Nonempty {u // u ∈ ns ∧ u ≠ v} := ⟨⟨a, (hmem a).1 (by simp)⟩⟩
  refine le_antisymm (le_ciInf fun u => ?_) ?_
  · rcases List.mem_cons.1 ((hmem u.1).2 u.2) with h | h
    · rw [h]; exact h1
    · exact h2 _ (List.mem_map.2 ⟨u.1, h, rfl⟩)
  · rcases h3 with h3 | h3
    · rw [h3]
      exact ciInf_le hb ⟨a, (hmem a).1 (by simp)⟩
    · obtain ⟨u, hu, he⟩ := List.mem_map.1 h3
      rw [← he]
      exact ciInf_le hb ⟨u, (hmem u).1 (List.mem_cons_of_mem _ hu)⟩

/-- The model's row update is the textbook min-sum rule, for rows of at least two entries. -/
theorem msaRow_eq {ns : List Nat} (hnd : ns.Nodup) (hl : ns.length ≠ 1) (x : Nat → Option ℝ) (y : Nat → ℝ)
    (h : ∀ u ∈ ns, x u = some (y u)) {v : Nat} (hv : v ∈ ns) : msaRow ns x v = some (msaRule ns y v) := by
  have hne : ns.filter (fun u => u ≠ v) ≠ [] := by
    intro he
    have : ∀ u ∈ ns, u = v := by
      intro u hu
      by_contra hc
      have : u ∈ ns.filter (fun u => u ≠ v) := by simp [hu, hc]
      rw [he] at this
      simp at this
    match ns, hnd, hl, hv, this with
    | [a], _, hl, _, _ => exact hl rfl
    | a :: b :: ns, hnd, _, _, this =>
      have h1 := this a (by simp)
      have h2 := this b (by simp)
      rw [List.nodup_cons] at hnd
      exact hnd.1 (by rw [h1, h2]; simp)
  simp only [msaRow]
  rw [mapM_some (ns.filter (fun u => u ≠ v)) x y (fun u hu => h u (List.mem_of_mem_filter hu))]
  simp only [Option.map_some]
  rw [minAbs_eq ns y v hne, List.map_map]
  unfold msaRule
  congr 3
  refine List.map_congr_left fun u _ => ?_
  exact npSign_eq _

/-- Edges of the graph. -/
def BpEdge (H : Checks) (c v : Nat) : Prop := c < H.length ∧ v ∈ H.getD c []

theorem totalLlr_eq (H : Checks) (llr : Nat → ℝ) (m : Nat → Nat → Option ℝ) (r : Nat → Nat → ℝ)
    (h : ∀ c v, BpEdge H c v → m c v = some (r c v)) (v : Nat) :
    totalLlr H llr m v = some (llr v + ((checksOf H v).map (fun c => r c v)).sum) := by
  have he : ∀ c ∈ checksOf H v, m c v = some (r c v) := by
    intro c hc
    simp only [checksOf, List.mem_filter, List.mem_range, decide_eq_true_eq] at hc
    exact h c v hc
  simp only [totalLlr, nanSum]
  rw [mapM_some ((checksOf H v).map (fun c => m c v)) id (fun o => o.getD 0) (by
    intro o ho
    obtain ⟨c, hc, rfl⟩ := List.mem_map.1 ho
    rw [he c hc]
    rfl)]
  simp only [Option.map_some, List.map_map]
  congr 1
  rw [add_comm]
  congr 2
  refine List.map_congr_left fun c hc => ?_
  simp only [Function.comp]
  rw [he c hc]
  rfl

theorem bpMsgs_succ (rule : List Nat → (Nat → ℝ) → Nat → ℝ) (H : Checks) (llr : Nat → ℝ) (k c v : Nat) (he : BpEdge H c v) :
    bpMsgs rule H llr (k + 1) c v = -(rule (H.getD c []) (bpMsgs rule H llr k c) v) + bpTotal rule H llr (k + 1) v := by
  simp only [bpMsgs, bpTotal]
  have hnd : ((List.range H.length).filter (fun c' => v ∈ H.getD c' [])).Nodup := List.Nodup.filter _ List.nodup_range
  have hc : c ∈ (List.range H.length).filter (fun c' => decide (v ∈ H.getD c' [])) := by
    simp only [List.mem_filter, List.mem_range, decide_eq_true_eq]; exact he
  rw [sum_factor hnd hc, List.filter_filter]
  have : (List.range H.length).filter (fun c' => decide (v ∈ H.getD c' [] ∧ c' ≠ c)) =
      (List.range H.length).filter (fun a => decide (a ≠ c) && decide (v ∈ H.getD a [])) := by
    refine List.filter_congr fun a _ => ?_
    simp only [Bool.decide_and]
    rw [Bool.and_comm]
  rw [this]
  ring

/-- The iterations of the model follow the textbook recursion, provided every check node update does. -/
theorem bpLoop_spec (ns : Nat → Nat → Bool) (alg : BpAlg) (rule : List Nat → (Nat → ℝ) → Nat → ℝ) (H : Checks) (llr : Nat → ℝ) (N : Nat)
    (hstep : ∀ k < N, ∀ msg, (∀ c v, BpEdge H c v → msg c v = some (bpMsgs rule H llr k c v)) →
      ∃ m', checkUpdate alg H msg = .ok m' ∧ ∀ c v, BpEdge H c v → m' c v = some (rule (H.getD c []) (bpMsgs rule H llr k c) v)) :
    ∀ n k st, k + n = N → (∀ c v, BpEdge H c v → st.msg c v = some (bpMsgs rule H llr k c v)) →
      (∀ v, st.dec v = decide (bpTotal rule H llr k v < 0)) → (∀ v, st.out v = some (bpTotal rule H llr k v)) →
      ∃ st' K, bpLoop ns alg H llr n k st = .ok st' ∧ k ≤ K ∧ K ≤ N ∧
        (K = N ∨ ChecksHold H (fun v => bpTotal rule H llr K v < 0)) ∧
        (∀ j, k ≤ j → j < K → ¬ ChecksHold H (fun v => bpTotal rule H llr j v < 0)) ∧
        (∀ v, st'.dec v = decide (bpTotal rule H llr K v < 0)) ∧ (∀ v, st'.out v = some (bpTotal rule H llr K v)) := by
  intro n
  induction n with
  | zero =>
    intro k st hk hm hd ho
    refine ⟨st, k, rfl, le_rfl, by omega, Or.inl (by omega), ?_, hd, ho⟩
    intro j h1 h2
    omega
  | succ n ih =>
    intro k st hk hm hd ho
    have hdec : st.dec = fun v => decide (bpTotal rule H llr k v < 0) := funext hd
    by_cases hs : syndromeOk H st.dec = true
    · refine ⟨st, k, ?_, le_rfl, by omega, Or.inr ?_, ?_, hd, ho⟩
      · simp only [bpLoop]
        rw [if_pos hs]
      · rw [hdec] at hs
        exact (syndromeOk_iff _ _).1 hs
      · intro j h1 h2
        omega
    · obtain ⟨m', hc, hm'⟩ := hstep k (by omega) st.msg hm
      have htot : ∀ v, totalLlr H llr m' v = some (bpTotal rule H llr (k + 1) v) := by
        intro v
        rw [totalLlr_eq H llr m' _ hm' v]
        rfl
      have hit : bpIter ns alg H llr k st = .ok
          ⟨fun c v => (m' c v).bind (fun a => (totalLlr H llr m' v).map (fun t => -a + t)),
            fun v => signBit (ns k v) (totalLlr H llr m' v), totalLlr H llr m'⟩ := by
        simp only [bpIter, hc]
        rfl
      obtain ⟨st', K, h1, h2, h3, h4, h5, h6, h7⟩ := ih (k + 1)
          ⟨fun c v => (m' c v).bind (fun a => (totalLlr H llr m' v).map (fun t => -a + t)),
            fun v => signBit (ns k v) (totalLlr H llr m' v), totalLlr H llr m'⟩ (by omega) (by
          intro c v he
          simp only
          rw [hm' c v he, htot v, bpMsgs_succ rule H llr k c v he]
          rfl) (by
          intro v
          simp only
          rw [htot v]
          rfl) htot
      refine ⟨st', K, ?_, by omega, h3, h4, ?_, h6, h7⟩
      · simp only [bpLoop]
        rw [if_neg hs, hit]
        exact h1
      · intro j hj1 hj2
        by_cases hjk : j = k
        · subst hjk
          rw [hdec] at hs
          intro hcon
          exact hs ((syndromeOk_iff _ _).2 hcon)
        · exact h5 j (by omega) hj2

end Verif
