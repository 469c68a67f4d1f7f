import Verif.Props.LdpcFile
/-
Property C55, second part: shape and padding of the tables returned by `get_ldpc_code_params`.
-/
namespace Verif

/-- A row of an adjacency table or edge map: `width` entries, `-1` from position `used` on. -/
def PaddedRow (width used : Nat) (row : List Int) : Prop :=
  row.length = width ∧ ∀ i, used ≤ i → i < width → row[i]? = some (-1)

theorem npSliceAssign_padded {w hi : Nat} {xs row : List Int} (hhi : hi ≤ w)
    (h : npSliceAssign (List.replicate w (-1)) 0 hi xs = .ok row) : PaddedRow w hi row := by
  have main : ∀ v : List Int, v.length = hi → PaddedRow w hi (v ++ (List.replicate w (-1 : Int)).drop hi) := by
    intro v hv
    refine ⟨by simp [hv]; omega, fun i h1 h2 => ?_⟩
    rw [List.getElem?_append_right (by omega), List.getElem?_drop, List.getElem?_replicate, if_pos (by omega)]
  simp only [npSliceAssign, List.length_replicate, Nat.zero_min, Nat.sub_zero, List.take_zero, List.nil_append, Nat.min_eq_left hhi] at h
  by_cases hl : hi = xs.length
  · rw [if_pos hl] at h
    cases h
    exact main xs hl.symm
  · rw [if_neg hl] at h
    match xs, h with
    | [x], h => cases h; exact main _ (by simp)
    | [], h => cases h
    | _ :: _ :: _, h => cases h

theorem pyBound_le (len : Nat) (i : Int) (h : i ≤ len) : pyBound len i ≤ len := by
  unfold pyBound; split <;> omega

theorem readRows_padded {degs : List Int} {w : Nat} : ∀ {n i : Nat} {t t' : List Char} {rows : List (List Int)},
    readRows degs w n i t = .ok (rows, t') → rows.length = n ∧ ∀ j < n, ∃ row deg, rows[j]? = some row ∧ degs[i + j]? = some deg ∧
      PaddedRow w (pyBound w deg) row := by
  intro n
  induction n with
  | zero => intro i t t' rows h; cases h; simp
  | succ n ih =>
    intro i t t' rows h
    simp only [readRows, bind, Except.bind] at h
    rcases h1 : (pySplit '\t' (pyReadline t).1).mapM pyInt with e | xs
    · rw [h1] at h; cases h
    rw [h1] at h
    simp only at h
    rcases h2 : pyGet degs (i : Int) with e | deg
    · rw [h2] at h; cases h
    rw [h2] at h
    simp only at h
    rcases h3 : npSliceAssign (List.replicate w (-1)) 0 (pyBound w deg) (xs.map (· - 1)) with e | row
    · rw [h3] at h; cases h
    rw [h3] at h
    simp only at h
    rcases h4 : readRows degs w n (i + 1) (pyReadline t).2 with e | ⟨rs, t2⟩
    · rw [h4] at h; cases h
    rw [h4] at h
    cases h
    obtain ⟨l1, l2⟩ := ih h4
    refine ⟨by simp [l1], fun j hj => ?_⟩
    rcases j with _ | j
    · have hd : degs[i]? = some deg := by
        by_cases hl : i < degs.length
        · rw [pyGet_ok hl] at h2
          rw [List.getElem?_eq_getElem hl]
          exact congrArg some (Except.ok.inj h2)
        · rw [pyGet_out (by omega)] at h2; cases h2
      refine ⟨row, deg, rfl, hd, ?_⟩
      by_cases hneg : deg ≤ w
      · exact npSliceAssign_padded (pyBound_le w deg hneg) h3
      · have hb : pyBound w deg = w := by unfold pyBound; rw [if_pos (by omega)]; omega
        rw [hb] at h3 ⊢
        exact npSliceAssign_padded le_rfl h3
    · obtain ⟨row', deg', e1, e2, e3⟩ := l2 j (by omega)
      exact ⟨row', deg', by simpa using e1, by rw [← e2]; congr 1; omega, e3⟩

theorem edgeMap_padded {n w : Nat} {degs : List Int} {adj other m : List (List Int)} (h : edgeMap n degs w adj other = .ok m)
    (hadj : ∀ c < n, ∃ row deg, adj[c]? = some row ∧ degs[c]? = some deg ∧ PaddedRow w (pyBound w deg) row) :
    m.length = n ∧ ∀ c < n, ∃ row deg, m[c]? = some row ∧ degs[c]? = some deg ∧ PaddedRow w (pyBound w deg) row := by
  obtain ⟨h1, h2⟩ := mapM_getElem_ok h
  rw [List.length_range] at h1
  refine ⟨h1, fun c hc => ?_⟩
  have hh := h2 c (by simpa using hc) (by omega)
  rw [List.getElem_range] at hh
  obtain ⟨arow, deg, e1, e2, e3⟩ := hadj c hc
  have get : ∀ {α : Type} (l : List α) (a : α), l[c]? = some a → pyGet l (c : Int) = .ok a := by
    intro α l a hg
    obtain ⟨hl, rfl⟩ := List.getElem?_eq_some_iff.1 hg
    exact pyGet_ok hl
  rw [get _ _ e1] at hh
  simp only [bind, Except.bind] at hh
  rw [get _ _ e2] at hh
  simp only at hh
  rcases he : ((pySlice arow 0 deg).mapM (mapEntry other c) : Py _) with e | es
  · rw [he] at hh; cases hh
  rw [he] at hh
  have hrow := Except.ok.inj hh
  refine ⟨_, deg, List.getElem?_eq_getElem (by omega), e2, ?_⟩
  rw [← hrow]
  have hes := (mapM_getElem_ok he).1
  have hl : (pySlice arow 0 deg).length = min (pyBound w deg) w := by
    unfold pySlice
    rw [e3.1]
    have : pyBound w 0 = 0 := by unfold pyBound; simp
    rw [this, List.drop_zero, List.length_take, e3.1]
  refine ⟨by simp; omega, fun i h1 h2 => ?_⟩
  rw [List.getElem?_append_right (by omega), List.getElem?_replicate, if_pos (by omega)]

/-- One side of the tables: `n` rows of `w` entries, the row of node `c` is `-1` from position `min(deg[c], w)` on. -/
def PaddedTable (n w : Int) (degs : List Int) (tbl : List (List Int)) : Prop :=
  (tbl.length : Int) = n ∧ ∀ c : Nat, (c : Int) < n → ∃ row deg, tbl[c]? = some row ∧ degs[c]? = some deg ∧
    PaddedRow w.toNat (pyBound w.toNat deg) row

/-- C55, shape: whatever the file, every table returned has one row per node, of the maximal degree given in the file, with `-1`
after the entries in use. -/
theorem C55_padding (txt : List Char) (p : LdpcParams) (h : getLdpc txt = .ok p) :
    PaddedTable p.nc p.maxC p.cdeg p.cadj ∧ PaddedTable p.nv p.maxV p.vdeg p.vadj ∧
    PaddedTable p.nc p.maxC p.cdeg p.cvmap ∧ PaddedTable p.nv p.maxV p.vdeg p.vcmap := by
  simp only [getLdpc] at h
  rcases h1 : readPair (pyReadline txt).1 with e | ⟨nv, nc⟩
  · rw [h1] at h; cases h
  rw [h1] at h
  simp only [bind, Except.bind] at h
  rcases h2 : readPair (pyReadline (pyReadline txt).2).1 with e | ⟨maxV, maxC⟩
  · rw [h2] at h; cases h
  rw [h2] at h
  simp only at h
  generalize readDegs _ = rd1 at h
  rcases rd1 with e | vdeg
  · cases h
  simp only at h
  generalize readDegs _ = rd2 at h
  rcases rd2 with e | cdeg
  · cases h
  simp only at h
  by_cases hneg : nv < 0 ∨ nc < 0 ∨ maxV < 0 ∨ maxC < 0
  · rw [if_pos hneg] at h; cases h
  rw [if_neg hneg] at h
  push Not at hneg
  generalize hr1 : readRows vdeg _ _ _ _ = rr1 at h
  rcases rr1 with e | ⟨vadj, t5⟩
  · cases h
  simp only at h
  generalize hr2 : readRows cdeg _ _ _ _ = rr2 at h
  rcases rr2 with e | ⟨cadj, t6⟩
  · cases h
  simp only at h
  rcases h3 : edgeMap nc.toNat cdeg maxC.toNat cadj vadj with e | cv
  · rw [h3] at h; cases h
  rw [h3] at h
  simp only at h
  rcases h4 : edgeMap nv.toNat vdeg maxV.toNat vadj cadj with e | vc
  · rw [h4] at h; cases h
  rw [h4] at h
  cases h
  obtain ⟨a1, a2⟩ := readRows_padded hr1
  obtain ⟨b1, b2⟩ := readRows_padded hr2
  simp only [Nat.zero_add] at a2 b2
  obtain ⟨c1, c2⟩ := edgeMap_padded h3 b2
  obtain ⟨d1, d2⟩ := edgeMap_padded h4 a2
  exact ⟨⟨by simp only; omega, fun c hc => b2 c (by simp only at hc; omega)⟩, ⟨by simp only; omega, fun c hc => a2 c (by simp only at hc; omega)⟩,
    ⟨by simp only; omega, fun c hc => c2 c (by simp only at hc; omega)⟩, ⟨by simp only; omega, fun c hc => d2 c (by simp only at hc; omega)⟩⟩

end Verif
