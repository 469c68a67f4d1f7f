import Verif.Spec.Tanner
import Verif.Lemmas.BpTree2
/-
Cycle-free Tanner graphs: every non-empty set of checks has one that shares at most one variable with the others.
-/
namespace Verif

open Finset SimpleGraph

/-- The variables of check `c`. -/
def checkVars (H : List (List Nat)) (c : Nat) : Finset Nat := (H.getD c []).toFinset

/-- The part of the Tanner graph on the checks `B` and the variables shared by two checks of `B`. -/
def sharedGraph (H : List (List Nat)) (nv : Nat) (B : Finset Nat) : SimpleGraph (Fin H.length ⊕ Fin nv) where
  Adj
    | .inl c, .inr v => v.1 ∈ H.getD c.1 [] ∧ c.1 ∈ B ∧ ∃ c' ∈ B, c' ≠ c.1 ∧ v.1 ∈ H.getD c' []
    | .inr v, .inl c => v.1 ∈ H.getD c.1 [] ∧ c.1 ∈ B ∧ ∃ c' ∈ B, c' ≠ c.1 ∧ v.1 ∈ H.getD c' []
    | _, _ => False
  symm := ⟨by rintro (a | a) (b | b) h <;> simpa using h⟩
  loopless := ⟨by rintro (a | a) h <;> simp at h⟩

theorem sharedGraph_le (H : List (List Nat)) (nv : Nat) (B : Finset Nat) : sharedGraph H nv B ≤ tannerGraph H nv := by
  rintro (a | a) (b | b) h
  · exact h.elim
  · exact h.1
  · exact h.1
  · exact h.elim

theorem exists_longest_path {V : Type} [Fintype V] (G : SimpleGraph V) (x : V) :
    ∃ (y : V) (p : G.Walk x y), p.IsPath ∧ ∀ (z : V) (q : G.Walk x z), q.IsPath → q.length ≤ p.length := by
  classical
  have hb : ∃ n, ∃ (y : V) (p : G.Walk x y), p.IsPath ∧ p.length = n := ⟨0, x, Walk.nil, Walk.IsPath.nil, rfl⟩
  have hbd : ∀ n, (∃ (y : V) (p : G.Walk x y), p.IsPath ∧ p.length = n) → n ≤ Fintype.card V := by
    rintro n ⟨y, p, hp, rfl⟩
    exact hp.length_lt.le
  obtain ⟨n, ⟨y, p, hp, hn⟩, hmax⟩ : ∃ n, (∃ (y : V) (p : G.Walk x y), p.IsPath ∧ p.length = n) ∧
      ∀ m, (∃ (y : V) (p : G.Walk x y), p.IsPath ∧ p.length = m) → m ≤ n := by
    refine ⟨Nat.findGreatest (fun n => ∃ (y : V) (p : G.Walk x y), p.IsPath ∧ p.length = n) (Fintype.card V), ?_, ?_⟩
    · exact Nat.findGreatest_spec (P := fun n => ∃ (y : V) (p : G.Walk x y), p.IsPath ∧ p.length = n) (Nat.zero_le _)
        ⟨x, Walk.nil, Walk.IsPath.nil, rfl⟩
    · intro m hm
      exact Nat.le_findGreatest (hbd m hm) hm
  exact ⟨y, p, hp, fun z q hq => by rw [hn]; exact hmax _ ⟨z, q, hq, rfl⟩⟩

theorem leafy_of_acyclic {H : List (List Nat)} {nv : Nat} (hlt : ∀ ns ∈ H, ∀ v ∈ ns, v < nv) (hne : ∀ ns ∈ H, ns ≠ [])
    (hac : (tannerGraph H nv).IsAcyclic) : Leafy (checkVars H) (range H.length) := by
  intro B hB ⟨c0, hc0⟩
  have hBlt : ∀ c ∈ B, c < H.length := fun c hc => mem_range.1 (hB hc)
  have hmem : ∀ c, c < H.length → H.getD c [] ∈ H := fun c hc => by
    rw [List.getD_eq_getElem _ _ hc]; exact List.getElem_mem hc
  have hG : (sharedGraph H nv B).IsAcyclic := hac.anti (sharedGraph_le H nv B)
  obtain ⟨y, p, hp, hmax⟩ := exists_longest_path (sharedGraph H nv B) (Sum.inl ⟨c0, hBlt c0 hc0⟩)
  have hnb : ∀ w, (sharedGraph H nv B).Adj y w → w = p.penultimate := by
    intro w hw
    refine hG.eq_penultimate_of_adj_end hp hw ?_
    by_contra hns
    have := hmax w (p.concat hw) (hp.concat hns hw)
    rw [Walk.length_concat] at this
    omega
  match y, p, hp, hnb with
  | .inl c, p, hp, hnb =>
    have hcB : c.1 ∈ B := by
      by_cases hnil : p.Nil
      · have := hnil.eq
        have h2 : (⟨c0, hBlt c0 hc0⟩ : Fin H.length) = c := by simpa using this
        rw [← h2]
        exact hc0
      · have := p.adj_penultimate hnil
        match hpen : p.penultimate, this with
        | .inl _, h => exact h.elim
        | .inr _, h => exact h.2.1
    by_cases hex : ∃ v : Fin nv, (sharedGraph H nv B).Adj (.inl c) (.inr v)
    · obtain ⟨v0, hv0⟩ := hex
      refine ⟨c.1, hcB, v0.1, by rw [checkVars, List.mem_toFinset]; exact hv0.1, ?_⟩
      intro v hv hne' c' hc' hcc hv'
      rw [checkVars, List.mem_toFinset] at hv hv'
      have hvlt := hlt _ (hmem c.1 c.2) v hv
      have h1 := hnb (.inr ⟨v, hvlt⟩) ⟨hv, hcB, c', hc', hcc, hv'⟩
      have h2 := hnb (.inr v0) hv0
      rw [← h2] at h1
      have h3 : (⟨v, hvlt⟩ : Fin nv) = v0 := by simpa using h1
      exact hne' (by rw [← h3])
    · obtain ⟨v0, hv0⟩ := List.exists_mem_of_ne_nil _ (hne _ (hmem c.1 c.2))
      refine ⟨c.1, hcB, v0, by rw [checkVars, List.mem_toFinset]; exact hv0, ?_⟩
      intro v hv _ c' hc' hcc hv'
      rw [checkVars, List.mem_toFinset] at hv hv'
      exact hex ⟨⟨v, hlt _ (hmem c.1 c.2) v hv⟩, hv, hcB, c', hc', hcc, hv'⟩
  | .inr v, p, hp, hnb =>
    exfalso
    have hnil : ¬ p.Nil := fun h => by have := h.eq; simp at this
    have hadj := p.adj_penultimate hnil
    match hpen : p.penultimate, hadj with
    | .inr _, h => exact h.elim
    | .inl c1, h =>
      obtain ⟨h1, h2, c', hc', hcc, hv'⟩ := h
      have := hnb (.inl ⟨c', hBlt c' hc'⟩) ⟨hv', hc', c1.1, h2, hcc.symm, h1⟩
      rw [hpen] at this
      have h3 : (⟨c', hBlt c' hc'⟩ : Fin H.length) = c1 := by simpa using this
      exact hcc (by rw [← h3])

/-- A graph whose vertices can be numbered such that each has at most one neighbour with a smaller number has no cycle. -/
theorem acyclic_of_rank {V : Type} (G : SimpleGraph V) (f : V → Nat) (hinj : Function.Injective f)
    (h : ∀ x y z, G.Adj x y → G.Adj x z → f y < f x → f z < f x → y = z) : G.IsAcyclic := by
  classical
  intro a w hw
  obtain ⟨x, hx, hmax⟩ := Finset.exists_max_image w.support.toFinset f ⟨a, by simp⟩
  rw [List.mem_toFinset] at hx
  have hc := hw.rotate hx
  have hle : ∀ y ∈ (w.rotate x hx).support, f y ≤ f x := by
    intro y hy
    refine hmax y ?_
    rw [List.mem_toFinset]
    exact (Walk.mem_support_rotate_iff w x hx).1 hy
  have hnn : ¬ (w.rotate x hx).Nil := hc.not_nil
  have h1 := (w.rotate x hx).adj_snd hnn
  have h2 := ((w.rotate x hx).adj_penultimate hnn).symm
  have l1 : f (w.rotate x hx).snd < f x :=
    lt_of_le_of_ne (hle _ (Walk.getVert_mem_support _ _)) (fun e => h1.ne' (hinj e))
  have l2 : f (w.rotate x hx).penultimate < f x :=
    lt_of_le_of_ne (hle _ (Walk.getVert_mem_support _ _)) (fun e => h2.ne' (hinj e))
  exact hc.snd_ne_penultimate (h x _ _ h1 h2 l1 l2)

end Verif
