import Verif.Model.Cache
import Verif.Lemmas.Utilities
/- Helper lemmas for the memoisation model and for array conversion. -/
namespace Verif

theorem writeBlock_append {α : Type} (pre mid post : List α) (blk : List α) (h : blk.length = mid.length) :
    writeBlock (pre ++ (mid ++ post)) pre.length blk = pre ++ (blk ++ post) := by
  unfold writeBlock
  rw [List.take_left, h, ← List.length_append, ← List.append_assoc pre mid post, List.drop_left]
  simp

theorem decimal2bitarray_length {n w : Nat} {v : List Nat} (h : decimal2bitarray n w = .ok v) : v.length = w := by
  rw [decimal2bitarray_eq] at h
  split at h
  · cases h; simp
  · cases h

/-- Loop of the array conversion, started in the middle. -/
theorem dec2bitarrayArr_loop (w : Nat) : ∀ (ns : List Nat) (k : Nat) (pre : List Nat), pre.length = k * w →
    (ns.zipIdx k).foldlM (m := Except PyErr) (fun result (p : Nat × Nat) => do
        let b ← decimal2bitarray p.1 w
        pure (writeBlock result (p.2 * w) b))
      (pre ++ List.replicate (w * ns.length) 0) =
    (ns.mapM (fun n => dec2bitarray n w)).map (fun bs => pre ++ bs.flatten) := by
  intro ns
  induction ns with
  | nil => intro k pre h; simp [Except.map, pure, Except.pure]
  | cons n ns ih =>
    intro k pre h
    rw [List.zipIdx_cons, List.foldlM_cons, List.mapM_cons]
    simp only [dec2bitarray]
    cases hd : decimal2bitarray n w with
    | error e => rfl
    | ok v =>
      have hv := decimal2bitarray_length hd
      have hw : writeBlock (pre ++ List.replicate (w * (n :: ns).length) 0) (k * w) v
          = (pre ++ v) ++ List.replicate (w * ns.length) 0 := by
        rw [← h, List.length_cons, Nat.mul_succ, Nat.add_comm, ← List.replicate_append_replicate,
          writeBlock_append _ _ _ _ (by simp [hv])]
        simp
      simp only [bind, Except.bind, pure, Except.pure]
      rw [hw]
      have := ih (k + 1) (pre ++ v) (by simp [h, hv, Nat.succ_mul])
      simp only [bind, Except.bind, pure, Except.pure, dec2bitarray] at this
      rw [this]
      cases List.mapM (fun n => decimal2bitarray n w) ns with
      | error e => rfl
      | ok bs => simp [Except.map]

theorem dec2bitarrayArr_eq (ns : List Nat) (w : Nat) :
    dec2bitarrayArr ns w = (ns.mapM (fun n => dec2bitarray n w)).map List.flatten := by
  have := dec2bitarrayArr_loop w ns 0 [] (by simp)
  simpa [dec2bitarrayArr] using this

/-- Every cache entry holds the right bits at a live address the caller cannot reach. -/
def CacheInv (s : CacheSt) : Prop :=
  (∀ e ∈ s.cache, e.2 < s.heap.length ∧ decimal2bitarray e.1.1 e.1.2 = .ok (s.read e.2) ∧ e.2 ∉ s.handles) ∧
  (∀ a ∈ s.handles, a < s.heap.length)

theorem CacheInv_init : CacheInv CacheSt.init := by
  simp [CacheInv, CacheSt.init]

theorem lookup_mem {α β : Type} [BEq α] [LawfulBEq α] {l : List (α × β)} {k : α} {v : β}
    (h : l.lookup k = some v) : (k, v) ∈ l := by
  induction l with
  | nil => simp at h
  | cons e l ih =>
    obtain ⟨k', v'⟩ := e
    rw [List.lookup_cons] at h
    split at h
    · rename_i hk; simp only [beq_iff_eq] at hk; cases h; simp [hk]
    · exact List.mem_cons_of_mem _ (ih h)

theorem read_append_lt {s : CacheSt} {x : List Nat} {a : Nat} (h : a < s.heap.length) :
    ({ s with heap := s.heap ++ [x] } : CacheSt).read a = s.read a := by
  simp [CacheSt.read, List.getD_eq_getElem?_getD, List.getElem?_append_left h]

theorem cachedCall_spec {maxsize : Nat} {s : CacheSt} (hs : CacheInv s) (n w : Nat) :
    CacheInv (cachedCall maxsize s n w).2 ∧
    (cachedCall maxsize s n w).2.handles = s.handles ∧
    s.heap.length ≤ (cachedCall maxsize s n w).2.heap.length ∧
    (match (cachedCall maxsize s n w).1 with
      | .error e => decimal2bitarray n w = .error e
      | .ok a => decimal2bitarray n w = .ok ((cachedCall maxsize s n w).2.read a)) := by
  unfold cachedCall
  cases hl : s.cache.lookup (n, w) with
  | some a =>
    have hm := lookup_mem hl
    have h1 := hs.1 _ hm
    refine ⟨⟨?_, hs.2⟩, rfl, le_rfl, h1.2.1⟩
    intro e he
    simp only [List.mem_cons, List.mem_filter] at he
    rcases he with rfl | he
    · exact h1
    · exact hs.1 _ he.1
  | none =>
    cases hd : decimal2bitarray n w with
    | error e => exact ⟨hs, rfl, le_rfl, rfl⟩
    | ok v =>
      have hread : ({ s with heap := s.heap ++ [v] } : CacheSt).read s.heap.length = v := by
        simp [CacheSt.read]
      refine ⟨⟨?_, ?_⟩, rfl, by simp, ?_⟩
      · intro e he
        have he' := List.mem_of_mem_take he
        simp only [List.mem_cons] at he'
        rcases he' with rfl | he'
        · refine ⟨by simp, ?_, fun hc => absurd (hs.2 _ hc) (by simp)⟩
          show decimal2bitarray n w = .ok (({ s with heap := s.heap ++ [v] } : CacheSt).read s.heap.length)
          rw [hread, hd]
        · have h1 := hs.1 _ he'
          refine ⟨by simp; omega, ?_, h1.2.2⟩
          have := read_append_lt (s := s) (x := v) h1.1
          rw [h1.2.1]
          exact congrArg _ this.symm
      · intro a ha
        have := hs.2 a ha
        simp; omega
      · exact congrArg _ hread.symm

/-- Allocating a new array for the caller keeps the invariant. -/
theorem CacheInv_alloc {s : CacheSt} (hs : CacheInv s) (x : List Nat) :
    CacheInv { s with heap := s.heap ++ [x], handles := s.handles ++ [s.heap.length] } := by
  refine ⟨?_, ?_⟩
  · intro e he
    have h1 := hs.1 e he
    refine ⟨by simp; omega, ?_, ?_⟩
    · have := read_append_lt (s := s) (x := x) h1.1
      rw [h1.2.1]; exact congrArg _ this.symm
    · simp only [List.mem_append, List.mem_singleton, not_or]
      exact ⟨h1.2.2, by omega⟩
  · intro a ha
    simp only [List.mem_append, List.mem_singleton] at ha
    rcases ha with ha | rfl
    · have := hs.2 a ha; simp; omega
    · simp

theorem decArrLoop_spec {maxsize w : Nat} : ∀ (ps : List (Nat × Nat)) (result : List Nat) (s : CacheSt), CacheInv s →
    CacheInv (decArrLoop maxsize w ps result s).2 ∧
    (decArrLoop maxsize w ps result s).1 = ps.foldlM (m := Except PyErr) (fun result (p : Nat × Nat) => do
        let b ← decimal2bitarray p.1 w
        pure (writeBlock result (p.2 * w) b)) result := by
  intro ps
  induction ps with
  | nil => intro r s hs; exact ⟨hs, rfl⟩
  | cons p ps ih =>
    obtain ⟨n, pox⟩ := p
    intro r s hs
    have hc := cachedCall_spec (maxsize := maxsize) hs n w
    unfold decArrLoop
    rw [List.foldlM_cons]
    rcases hcc : cachedCall maxsize s n w with ⟨res, s'⟩
    rw [hcc] at hc
    cases res with
    | error e =>
      simp only at hc ⊢
      refine ⟨hc.1, ?_⟩
      rw [hc.2.2.2]; rfl
    | ok a =>
      simp only at hc ⊢
      have := ih (writeBlock r (pox * w) (s'.read a)) s' hc.1
      refine ⟨this.1, ?_⟩
      rw [this.2, hc.2.2.2]; rfl

theorem cacheStep_inv {maxsize : Nat} {s : CacheSt} (hs : CacheInv s) (op : CacheOp)
    (hop : ∀ n w, op ≠ .direct n w) :
    CacheInv (cacheStep maxsize s op).2 ∧
    (cacheStep maxsize s op).1 = (match (generalizing := false) op with
      | .dec n w => some (dec2bitarray n w)
      | .decArr ns w => some (dec2bitarrayArr ns w)
      | .direct n w => some (decimal2bitarray n w)
      | .mutate _ _ _ => none) := by
  cases op with
  | direct n w => exact absurd rfl (hop n w)
  | dec n w =>
    have hc := cachedCall_spec (maxsize := maxsize) hs n w
    simp only [cacheStep]
    rcases hcc : cachedCall maxsize s n w with ⟨res, s'⟩
    rw [hcc] at hc
    cases res with
    | error e =>
      simp only at hc ⊢
      exact ⟨hc.1, by rw [dec2bitarray, hc.2.2.2]⟩
    | ok a =>
      simp only at hc ⊢
      exact ⟨CacheInv_alloc hc.1 _, by rw [dec2bitarray, hc.2.2.2]⟩
  | decArr ns w =>
    have hc := decArrLoop_spec (maxsize := maxsize) (w := w) ns.zipIdx (List.replicate (w * ns.length) 0) s hs
    simp only [cacheStep]
    rcases hcc : decArrLoop maxsize w ns.zipIdx (List.replicate (w * ns.length) 0) s with ⟨res, s'⟩
    simp only [hcc] at hc
    cases res with
    | error e =>
      simp only at hc ⊢
      exact ⟨hc.1, by rw [dec2bitarrayArr, ← hc.2]⟩
    | ok r =>
      simp only at hc ⊢
      exact ⟨CacheInv_alloc hc.1 _, by rw [dec2bitarrayArr, ← hc.2]⟩
  | mutate h i v =>
    simp only [cacheStep]
    cases hh : s.handles[h]? with
    | none => exact ⟨hs, rfl⟩
    | some a =>
      refine ⟨⟨?_, ?_⟩, rfl⟩
      · intro e he
        have h1 := hs.1 e he
        have hne : a ≠ e.2 := fun hc => h1.2.2 (hc ▸ List.mem_of_getElem? hh)
        refine ⟨by simpa using h1.1, ?_, h1.2.2⟩
        rw [h1.2.1]
        simp [CacheSt.read, List.getD_eq_getElem?_getD, List.getElem?_set_ne hne]
      · intro b hb
        simpa using hs.2 b hb

theorem cacheRun_eq (maxsize : Nat) (out : CacheOp → Option (Py (List Nat))) (P : CacheOp → Prop)
    (h1 : ∀ n w, out (.dec n w) = some (dec2bitarray n w))
    (h2 : ∀ ns w, out (.decArr ns w) = some (dec2bitarrayArr ns w))
    (h3 : ∀ h i v, out (.mutate h i v) = none)
    (hP : ∀ op, P op → ∀ n w, op ≠ .direct n w) :
    ∀ (ops : List CacheOp) (s : CacheSt), CacheInv s → (∀ op ∈ ops, P op) →
      cacheRun maxsize s ops = ops.map out := by
  intro ops
  induction ops with
  | nil => intro s _ _; rfl
  | cons op ops ih =>
    intro s hs hops
    have hne := hP op (hops op (by simp))
    have hst := cacheStep_inv (maxsize := maxsize) hs op hne
    rw [cacheRun, List.map_cons, ih _ hst.1 (fun o ho => hops o (by simp [ho])), hst.2]
    congr 1
    cases op with
    | direct n w => exact absurd rfl (hne n w)
    | dec n w => exact (h1 n w).symm
    | decArr ns w => exact (h2 ns w).symm
    | mutate h i v => exact (h3 h i v).symm

end Verif
