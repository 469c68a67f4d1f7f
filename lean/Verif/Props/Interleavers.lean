import Verif.Model.Interleavers
import Verif.Lemmas.Lists
import Mathlib.Data.List.Perm.Basic
/-
Property theorems for commpy/channelcoding/interleavers.py: C10, C11.
`p.Perm (List.range L)` says that `p` is a permutation of 0..L-1, which is what `RandInterlv(L, seed)` draws.
-/
namespace Verif

theorem perm_lt {p : List Nat} {L : Nat} (hp : p.Perm (List.range L)) {i : Nat} (hi : i ∈ p) : i < L :=
  List.mem_range.1 (hp.mem_iff.1 hi)

theorem perm_nodup {p : List Nat} {L : Nat} (hp : p.Perm (List.range L)) : p.Nodup :=
  hp.nodup_iff.2 List.nodup_range

theorem interlv_ok {α : Type} (d : α) {p : List Nat} {L : Nat} (hp : p.Perm (List.range L)) {x : List α}
    (hx : L ≤ x.length) : interlv p x = .ok (p.map (fun i => x.getD i d)) := by
  refine mapM_ok p ?_
  intro i hi
  have : i < x.length := lt_of_lt_of_le (perm_lt hp hi) hx
  rw [pyGet_ok this]
  simp [List.getD_eq_getElem?_getD, this]

theorem deinterlv_foldl {α : Type} (zero : α) {p : List Nat} {L : Nat} (hp : p.Perm (List.range L)) {x : List α}
    (hx : L ≤ x.length) :
    deinterlv zero p x = .ok ((p.zipIdx.map (fun e => (e.1, x.getD e.2 zero))).foldl (fun y e => y.set e.1 e.2)
      (List.replicate x.length zero)) := by
  have hpl : p.length = L := by simpa using hp.length_eq
  have key : ∀ (l : List (Nat × Nat)) (out : List α), out.length = x.length →
      (∀ e ∈ l, e.1 < x.length ∧ e.2 < x.length) →
      l.foldlM (m := Except PyErr) (fun out (e : Nat × Nat) => do
        let v ← pyGet x (e.2 : Int)
        pySet out (e.1 : Int) v) out =
      .ok ((l.map (fun e => (e.1, x.getD e.2 zero))).foldl (fun y e => y.set e.1 e.2) out) := by
    intro l
    induction l with
    | nil => intro out _ _; rfl
    | cons e l ih =>
      intro out hout hl
      have he := hl e (by simp)
      rw [List.foldlM_cons, pyGet_ok he.2]
      simp only [bind, Except.bind]
      rw [pySet_ok _ (by omega)]
      have := ih (out.set e.1 x[e.2]) (by simpa using hout) (fun e he => hl e (by simp [he]))
      simp only [bind, Except.bind] at this
      simp only [this, List.map_cons, List.foldl_cons]
      simp [List.getD_eq_getElem?_getD, he.2]
  refine key _ _ (by simp) ?_
  rintro ⟨a, b⟩ he
  have h1 := List.mem_zipIdx' he
  have h2 : a ∈ p := by rw [h1.2]; exact List.getElem_mem _
  exact ⟨lt_of_lt_of_le (perm_lt hp h2) hx, by have := h1.1; simp only; omega⟩

/-- What `deinterlv` computes: element `j` of the input goes to position `p[j]`, positions ≥ L stay zero. -/
theorem deinterlv_spec {α : Type} (zero : α) {p : List Nat} {L : Nat} (hp : p.Perm (List.range L)) {x : List α}
    (hx : L ≤ x.length) :
    ∃ z, deinterlv zero p x = .ok z ∧ z.length = x.length ∧
      (∀ j (hj : j < p.length), z[p[j]]? = x[j]?) ∧ (∀ i, L ≤ i → i < x.length → z[i]? = some zero) := by
  have hpl : p.length = L := by simpa using hp.length_eq
  have hfst : (p.zipIdx.map (fun e => (e.1, x.getD e.2 zero))).map Prod.fst = p := by
    rw [List.map_map]
    exact List.zipIdx_map_fst 0 p
  refine ⟨_, deinterlv_foldl zero hp hx, by simp [foldl_set_length], ?_, ?_⟩
  · intro j hj
    have hjx : j < x.length := by omega
    rw [List.getElem?_eq_getElem hjx]
    apply foldl_set_mem
    · rw [hfst]; exact perm_nodup hp
    · rw [List.mem_map]
      refine ⟨(p[j], j), ?_, by simp [List.getD_eq_getElem?_getD, hjx]⟩
      rw [List.mk_mem_zipIdx_iff_getElem?]
      simp [hj]
    · have := perm_lt hp (List.getElem_mem hj)
      simp; omega
  · intro i hi hix
    rw [foldl_set_notMem]
    · simp [hix]
    · rw [hfst]; intro hc; have := perm_lt hp hc; omega

/-- C10. Both orders of composition are the identity, and both functions only reorder. -/
theorem C10_interleave_inverse {α : Type} (zero : α) (L : Nat) (p : List Nat) (hp : p.Perm (List.range L))
    (x : List α) (hx : x.length = L) :
    (∃ y, interlv p x = .ok y ∧ y.Perm x ∧ deinterlv zero p y = .ok x) ∧
    (∃ z, deinterlv zero p x = .ok z ∧ z.Perm x ∧ interlv p z = .ok x) := by
  have hpl : p.length = L := by simpa using hp.length_eq
  have hperm : ∀ z : List α, z.length = L → (p.map (fun i => z.getD i zero)).Perm z := by
    intro z hz
    have h2 : (List.range L).map (fun i => z.getD i zero) = z := by
      apply List.ext_getElem (by simp [hz])
      intro i h1 h2
      simp [List.getD_eq_getElem?_getD, h2]
    exact (hp.map _).trans (by rw [h2])
  constructor
  · refine ⟨_, interlv_ok zero hp (by omega), hperm x hx, ?_⟩
    obtain ⟨z, h1, h2, h3, _⟩ := deinterlv_spec zero hp (x := p.map (fun i => x.getD i zero)) (by simp [hpl])
    rw [h1]
    congr 1
    apply List.ext_getElem? 
    intro i
    by_cases hi : i < L
    · obtain ⟨j, hj, rfl⟩ := List.mem_iff_getElem.1 (hp.mem_iff.2 (List.mem_range.2 hi))
      rw [h3 j hj]
      have : p[j] < x.length := by omega
      simp [List.getD_eq_getElem?_getD, hj, this]
    · rw [List.getElem?_eq_none (by simp [h2, hpl]; omega), List.getElem?_eq_none (by omega)]
  · obtain ⟨z, h1, h2, h3, _⟩ := deinterlv_spec zero hp (x := x) (by omega)
    have heq : p.map (fun i => z.getD i zero) = x := by
      apply List.ext_getElem (by simp [hpl, hx])
      intro j hj1 hj2
      have hj : j < p.length := by simpa using hj1
      have := h3 j hj
      simp [List.getD_eq_getElem?_getD, this, hj2]
    refine ⟨z, h1, ?_, ?_⟩
    · have := hperm z (by omega)
      rw [heq] at this
      exact this.symm
    · rw [interlv_ok zero hp (by omega), heq]

example : [2, 0, 1].Perm (List.range 3) := by decide

theorem foldlM_indexError {α β : Type} {f : β → α → Py β} (l : List α) (e0 : α) (h0 : e0 ∈ l)
    (hf : ∀ b a, (∃ b', f b a = .ok b') ∨ f b a = .error .indexError) (he : ∀ b, f b e0 = .error .indexError) (b : β) :
    l.foldlM f b = .error .indexError := by
  induction l generalizing b with
  | nil => simp at h0
  | cons a l ih =>
    rw [List.foldlM_cons]
    rcases List.mem_cons.1 h0 with rfl | h0
    · rw [he b]; rfl
    · rcases hf b a with ⟨b', h⟩ | h
      · rw [h]; exact ih h0 b'
      · rw [h]; rfl

theorem pyGet_cases {α : Type} (l : List α) (i : Int) : (∃ b', pyGet l i = .ok b') ∨ pyGet l i = .error .indexError := by
  unfold pyGet; split <;> simp

theorem pySet_cases {α : Type} (l : List α) (i : Int) (x : α) :
    (∃ b', pySet l i x = .ok b') ∨ pySet l i x = .error .indexError := by
  unfold pySet; split <;> simp

/-- C11, arrays that are too short raise IndexError in both directions. -/
theorem C11_short {α : Type} (zero : α) (L : Nat) (p : List Nat) (hp : p.Perm (List.range L)) (x : List α)
    (hx : x.length < L) :
    interlv p x = .error .indexError ∧ deinterlv zero p x = .error .indexError := by
  have hpl : p.length = L := by simpa using hp.length_eq
  constructor
  · have hm : x.length ∈ p := hp.mem_iff.2 (List.mem_range.2 hx)
    unfold interlv
    clear hp hpl hx
    induction p with
    | nil => simp at hm
    | cons a p ih =>
      rw [List.mapM_cons]
      rcases List.mem_cons.1 hm with rfl | hm
      · rw [pyGet_out le_rfl]; rfl
      · rcases pyGet_cases x (a : Int) with ⟨b, h⟩ | h
        · rw [h]; simp only [bind, Except.bind] ; rw [ih hm]
        · rw [h]; rfl
  · unfold deinterlv
    refine foldlM_indexError _ (p[x.length], x.length) ?_ ?_ ?_ _
    · rw [List.mk_mem_zipIdx_iff_getElem?]; simp [hpl, hx]
    · intro b a
      rcases pyGet_cases x (a.2 : Int) with ⟨v, h⟩ | h
      · simp only [h, bind, Except.bind]; exact pySet_cases _ _ _
      · simp only [h, bind, Except.bind]; exact Or.inr trivial
    · intro b
      simp only
      rw [pyGet_out le_rfl]; rfl

/-- C11, arrays that are too long: `interlv` ignores the elements beyond the interleaver length, `deinterlv` replaces
them by zeros; no error. -/
theorem C11_long {α : Type} (zero : α) (L : Nat) (p : List Nat) (hp : p.Perm (List.range L)) (x : List α)
    (hx : L ≤ x.length) :
    (∃ y, interlv p x = .ok y ∧ interlv p (x.take L) = .ok y ∧ y.length = L) ∧
    (∃ z, deinterlv zero p (x.take L) = .ok z ∧
      deinterlv zero p x = .ok (z ++ List.replicate (x.length - L) zero)) := by
  have hpl : p.length = L := by simpa using hp.length_eq
  constructor
  · refine ⟨_, interlv_ok zero hp hx, ?_, by simp [hpl]⟩
    rw [interlv_ok zero hp (by simp [hx])]
    congr 1
    apply List.map_congr_left
    intro i hi
    simp [List.getD_eq_getElem?_getD, perm_lt hp hi]
  · obtain ⟨z, h1, h2, h3, _⟩ := deinterlv_spec zero hp (x := x.take L) (by simp [hx])
    obtain ⟨w, g1, g2, g3, g4⟩ := deinterlv_spec zero hp (x := x) hx
    refine ⟨z, h1, ?_⟩
    rw [g1]
    congr 1
    have hzl : z.length = L := by simp [h2, hx]
    apply List.ext_getElem?
    intro i
    by_cases hi : i < L
    · obtain ⟨j, hj, rfl⟩ := List.mem_iff_getElem.1 (hp.mem_iff.2 (List.mem_range.2 hi))
      rw [g3 j hj, List.getElem?_append_left (by omega), h3 j hj, List.getElem?_take, if_pos (by omega)]
    · by_cases hi2 : i < x.length
      · rw [g4 i (by omega) hi2, List.getElem?_append_right (by omega)]
        rw [List.getElem?_replicate, if_pos (by omega)]
      · rw [List.getElem?_eq_none (by omega), List.getElem?_eq_none (by simp [hzl]; omega)]

example : interlv [2, 0, 1] [10, 11, 12, 13] = .ok [12, 10, 11] ∧
    deinterlv 0 [2, 0, 1] [10, 11, 12, 13] = .ok [11, 12, 10, 0] ∧
    interlv [2, 0, 1] [10, 11] = .error .indexError := by decide

end Verif
