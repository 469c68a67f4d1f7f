import Verif.Model.LdpcFile
import Verif.Lemmas.Lists
import Mathlib.Tactic.IntervalCases
import Mathlib.Data.List.Nodup
/-
Text round trips: numbers, lines, separated fields.
-/
namespace Verif

theorem digit_ok : ∀ d < 10, isDig (Char.ofNat (48 + d)) = true ∧ (Char.ofNat (48 + d)).toNat - 48 = d ∧ isWs (Char.ofNat (48 + d)) = false := by
  decide

theorem natStr_digits (n : Nat) : natStr n ≠ [] ∧ (∀ c ∈ natStr n, isDig c = true ∧ isWs c = false) ∧ digitsVal (natStr n) = n := by
  induction n using Nat.strong_induction_on with
  | _ n ih =>
    rw [natStr]
    split
    · rename_i h
      obtain ⟨h1, h2, h3⟩ := digit_ok n h
      refine ⟨by simp, ?_, ?_⟩
      · intro c hc
        rw [List.mem_singleton.1 hc]
        exact ⟨h1, h3⟩
      · simp [digitsVal, h2]
    · rename_i h
      obtain ⟨i1, i2, i3⟩ := ih (n / 10) (by omega)
      obtain ⟨h1, h2, h3⟩ := digit_ok (n % 10) (by omega)
      refine ⟨by simp, ?_, ?_⟩
      · intro c hc
        rcases List.mem_append.1 hc with hc | hc
        · exact i2 c hc
        · rw [List.mem_singleton.1 hc]
          exact ⟨h1, h3⟩
      · rw [digitsVal, List.foldl_append]
        rw [digitsVal] at i3
        rw [i3]
        simp only [List.foldl_cons, List.foldl_nil, h2]
        omega

theorem natStr_notMem {c : Char} (hc : isDig c = false) (n : Nat) : c ∉ natStr n := by
  intro h
  have := ((natStr_digits n).2.1 c h).1
  rw [hc] at this
  cases this

theorem dropWhile_eq_self_of_head {α : Type} {p : α → Bool} {l : List α} (h : ∀ a ∈ l.head?, p a = false) : l.dropWhile p = l := by
  cases l with
  | nil => rfl
  | cons a l => rw [List.dropWhile_cons_of_neg]; simp [h a (by simp)]

theorem dropWhile_append_all {α : Type} {p : α → Bool} : ∀ {w l : List α}, (∀ a ∈ w, p a = true) → (w ++ l).dropWhile p = l.dropWhile p
  | [], _, _ => rfl
  | a :: w, l, h => by
    rw [List.cons_append, List.dropWhile_cons_of_pos (h a (by simp))]
    exact dropWhile_append_all (fun b hb => h b (List.mem_cons_of_mem _ hb))

/-- A number followed by white space reads back. -/
theorem pyInt_natStr (n : Nat) (w : List Char) (hw : ∀ c ∈ w, isWs c = true) : pyInt (natStr n ++ w) = .ok (n : Int) := by
  obtain ⟨h1, h2, h3⟩ := natStr_digits n
  have hs : pyStrip (natStr n ++ w) = natStr n := by
    have e1 : (natStr n ++ w).dropWhile isWs = natStr n ++ w := by
      refine dropWhile_eq_self_of_head fun a ha => ?_
      cases hn : natStr n with
      | nil => exact absurd hn h1
      | cons b l =>
        rw [hn] at ha
        have hab : b = a := by simpa using ha
        exact (h2 a (by rw [hn, hab]; simp)).2
    have e2 : (natStr n).reverse.dropWhile isWs = (natStr n).reverse := by
      refine dropWhile_eq_self_of_head fun a ha => ?_
      rw [List.head?_reverse] at ha
      exact (h2 a (List.mem_of_mem_getLast? ha)).2
    unfold pyStrip
    rw [e1, List.reverse_append, dropWhile_append_all (by simpa using hw), e2, List.reverse_reverse]
  have hn : pyNat (natStr n) = .ok n := by
    unfold pyNat
    rw [if_pos ⟨h1, by rw [List.all_eq_true]; exact fun c hc => (h2 c hc).1⟩, h3]
  simp only [pyInt]
  rw [hs]
  split
  · rename_i r heq
    have := natStr_notMem (c := '-') (by decide) n
    rw [heq] at this; simp at this
  · rename_i r heq
    have := natStr_notMem (c := '+') (by decide) n
    rw [heq] at this; simp at this
  · rw [hn]; rfl

theorem pyReadline_line {l : List Char} (h : '\n' ∉ l) (t : List Char) : pyReadline (l ++ '\n' :: t) = (l ++ ['\n'], t) := by
  induction l with
  | nil => simp [pyReadline]
  | cons c l ih =>
    have hc : c ≠ '\n' := fun e => h (by simp [e])
    have := ih (fun e => h (List.mem_cons_of_mem _ e))
    simp only [List.cons_append, pyReadline, this]
    rw [if_neg hc]

theorem pySplit_ne_nil (sep : Char) (s : List Char) : pySplit sep s ≠ [] := by
  cases s with
  | nil => simp [pySplit]
  | cons c cs =>
    simp only [pySplit]
    split
    · simp
    · split <;> simp

theorem pySplit_single {sep : Char} {s : List Char} (h : sep ∉ s) : pySplit sep s = [s] := by
  induction s with
  | nil => rfl
  | cons c cs ih =>
    simp only [pySplit]
    rw [if_neg (fun e => h (by simp [e])), ih (fun e => h (List.mem_cons_of_mem _ e))]

theorem pySplit_cons {sep : Char} {p : List Char} (h : sep ∉ p) (s : List Char) : pySplit sep (p ++ sep :: s) = p :: pySplit sep s := by
  induction p with
  | nil => simp [pySplit]
  | cons c cs ih =>
    simp only [List.cons_append, pySplit]
    rw [if_neg (fun e => h (by simp [e])), ih (fun e => h (List.mem_cons_of_mem _ e))]

theorem pySplit_fields {sep : Char} : ∀ (ps : List (List Char)) (s : List Char), (∀ p ∈ ps, sep ∉ p) → sep ∉ s →
    pySplit sep (ps.flatMap (fun p => p ++ [sep]) ++ s) = ps ++ [s]
  | [], s, _, hs => by simp [pySplit_single hs]
  | p :: ps, s, hp, hs => by
    rw [List.flatMap_cons, List.append_assoc, List.append_assoc]
    show pySplit sep (p ++ sep :: (_ ++ s)) = _
    rw [pySplit_cons (hp p (by simp)), pySplit_fields ps s (fun q hq => hp q (List.mem_cons_of_mem _ hq)) hs]
    rfl

/-! ### Lines of the design file -/

theorem readPair_line (a b : Nat) : readPair (natStr a ++ [' '] ++ natStr b ++ ['\n']) = .ok ((a : Int), (b : Int)) := by
  have hs : pySplit ' ' (natStr a ++ [' '] ++ natStr b ++ ['\n']) = [natStr a, natStr b ++ ['\n']] := by
    rw [List.append_assoc, List.append_assoc]
    show pySplit ' ' (natStr a ++ ' ' :: (natStr b ++ ['\n'])) = _
    rw [pySplit_cons (natStr_notMem (by decide) a), pySplit_single]
    rw [List.mem_append, not_or]
    exact ⟨natStr_notMem (by decide) b, by decide⟩
  have h1 : pyInt (natStr a) = .ok (a : Int) := by
    have := pyInt_natStr a [] (by simp)
    rwa [List.append_nil] at this
  have h2 := pyInt_natStr b ['\n'] (by decide)
  simp only [readPair]
  rw [hs]
  simp only [List.mapM_cons, List.mapM_nil, h1, h2]
  rfl

theorem pair_noNl (a b : Nat) : '\n' ∉ natStr a ++ [' '] ++ natStr b := by
  simp only [List.mem_append, not_or]
  exact ⟨⟨natStr_notMem (by decide) a, by decide⟩, natStr_notMem (by decide) b⟩

theorem readDegs_line (l : List Nat) : readDegs (l.flatMap (fun d => natStr d ++ [' ']) ++ ['\n']) = .ok (l.map (fun (d : Nat) => (d : Int))) := by
  have : l.flatMap (fun d => natStr d ++ [' ']) = (l.map natStr).flatMap (fun p => p ++ [' ']) := by
    rw [List.flatMap_map]
  simp only [readDegs]
  rw [this, pySplit_fields _ _ (by
    intro p hp
    obtain ⟨d, -, rfl⟩ := List.mem_map.1 hp
    exact natStr_notMem (by decide) d) (by decide), List.dropLast_concat, List.mapM_map]
  refine mapM_ok l (fun d _ => ?_)
  have := pyInt_natStr d [] (by simp)
  rwa [List.append_nil] at this

theorem degs_noNl (l : List Nat) : '\n' ∉ l.flatMap (fun d => natStr d ++ [' ']) := by
  intro h
  obtain ⟨d, -, hd⟩ := List.mem_flatMap.1 h
  rcases List.mem_append.1 hd with h | h
  · exact natStr_notMem (by decide) d h
  · exact absurd h (by decide)

/-- The line of the nodes `nodes` (non-empty): without its end of line. -/
def nodesText (nodes : List Nat) : List Char :=
  nodes.dropLast.flatMap (fun x => natStr (x + 1) ++ ['\t']) ++ natStr (nodes.getLastD 0 + 1)

theorem nodesLine_ok {nodes : List Nat} (h : nodes ≠ []) : nodesLine nodes = .ok (nodesText nodes ++ ['\n']) := by
  unfold nodesLine nodesText
  rw [List.getLastD_eq_getLast?]
  rw [List.getLast?_eq_some_getLast h]
  rfl

theorem nodesText_noNl (nodes : List Nat) : '\n' ∉ nodesText nodes := by
  unfold nodesText
  rw [List.mem_append, not_or]
  refine ⟨?_, natStr_notMem (by decide) _⟩
  intro h
  obtain ⟨d, -, hd⟩ := List.mem_flatMap.1 h
  rcases List.mem_append.1 hd with h | h
  · exact natStr_notMem (by decide) _ h
  · exact absurd h (by decide)

theorem readNodes {nodes : List Nat} (h : nodes ≠ []) :
    ((pySplit '\t' (nodesText nodes ++ ['\n'])).mapM pyInt : Py (List Int)) = .ok (nodes.map (fun (x : Nat) => (x : Int) + 1)) := by
  have e : nodesText nodes ++ ['\n'] = (nodes.dropLast.map (fun x => natStr (x + 1))).flatMap (fun p => p ++ ['\t']) ++
      (natStr (nodes.getLastD 0 + 1) ++ ['\n']) := by
    unfold nodesText
    rw [List.flatMap_map, List.append_assoc]
  rw [e, pySplit_fields _ _ (by
    intro p hp
    obtain ⟨d, -, rfl⟩ := List.mem_map.1 hp
    exact natStr_notMem (by decide) _) (by
    rw [List.mem_append, not_or]
    exact ⟨natStr_notMem (by decide) _, by decide⟩), List.mapM_append]
  have h1 : ((nodes.dropLast.map (fun x => natStr (x + 1))).mapM pyInt : Py (List Int)) = .ok (nodes.dropLast.map (fun (x : Nat) => (x : Int) + 1)) := by
    rw [List.mapM_map]
    refine mapM_ok _ (fun d _ => ?_)
    have := pyInt_natStr (d + 1) [] (by simp)
    rw [List.append_nil] at this
    show pyInt (natStr (d + 1)) = _
    rw [this]; push_cast; rfl
  have h2 := pyInt_natStr (nodes.getLastD 0 + 1) ['\n'] (by decide)
  rw [h1]
  simp only [List.mapM_cons, List.mapM_nil, h2]
  show Except.ok _ = _
  congr 1
  conv_rhs => rw [← List.dropLast_append_getLast h, List.map_append]
  have : nodes.getLastD 0 = nodes.getLast h := by
    rw [List.getLastD_eq_getLast?, List.getLast?_eq_some_getLast h]; rfl
  rw [this]
  simp

/-- Reading the lines of all nodes. -/
theorem readRows_lines (degs : List Int) (maxDeg : Nat) : ∀ (nss : List (List Nat)) (i : Nat) (t : List Char),
    (∀ ns ∈ nss, ns ≠ [] ∧ ns.length ≤ maxDeg) → (∀ k, k < nss.length → degs[i + k]? = some (((nss.getD k []).length : Nat) : Int)) →
    readRows degs maxDeg nss.length i ((nss.map (fun ns => nodesText ns ++ ['\n'])).flatten ++ t) =
      .ok (nss.map (fun ns => ns.map (fun (x : Nat) => (x : Int)) ++ List.replicate (maxDeg - ns.length) (-1)), t)
  | [], i, t, _, _ => rfl
  | ns :: nss, i, t, hn, hd => by
    have hns := hn ns (by simp)
    simp only [List.length_cons, readRows, List.map_cons, List.flatten_cons]
    rw [show nodesText ns ++ ['\n'] ++ (nss.map (fun ns => nodesText ns ++ ['\n'])).flatten ++ t =
      nodesText ns ++ '\n' :: ((nss.map (fun ns => nodesText ns ++ ['\n'])).flatten ++ t) by simp]
    rw [pyReadline_line (nodesText_noNl ns)]
    simp only
    rw [readNodes hns.1]
    have h0 := hd 0 (by simp)
    have hi : i < degs.length := by
      by_contra hc
      rw [List.getElem?_eq_none (by omega)] at h0
      cases h0
    have hdeg : pyGet degs (i : Int) = .ok ((ns.length : Nat) : Int) := by
      rw [pyGet_ok hi]
      rw [Nat.add_zero, List.getElem?_eq_getElem hi] at h0
      simpa using h0
    simp only [bind, Except.bind]
    rw [hdeg]
    simp only
    have hb : pyBound maxDeg ((ns.length : Nat) : Int) = ns.length := by
      unfold pyBound
      rw [if_pos (by omega)]
      simp; omega
    have hass : npSliceAssign (List.replicate maxDeg (-1 : Int)) 0 ns.length ((ns.map (fun (x : Nat) => (x : Int) + 1)).map (· - 1)) =
        .ok (ns.map (fun (x : Nat) => (x : Int)) ++ List.replicate (maxDeg - ns.length) (-1)) := by
      simp only [npSliceAssign]
      rw [if_pos (by simp; omega)]
      simp only [Nat.zero_min, List.take_zero, List.nil_append, List.length_replicate, Nat.min_eq_left hns.2, List.drop_replicate, List.map_map]
      congr 2
      refine List.map_congr_left fun x _ => ?_
      simp
    rw [hb, hass]
    simp only
    rw [readRows_lines degs maxDeg nss (i + 1) t (fun m hm => hn m (List.mem_cons_of_mem _ hm)) (by
      intro k hk
      have := hd (k + 1) (by simpa using hk)
      rw [show i + 1 + k = i + (k + 1) by omega, this]
      simp)]
    rfl

end Verif
