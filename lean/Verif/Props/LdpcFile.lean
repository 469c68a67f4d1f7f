import Verif.Lemmas.LdpcFile
import Mathlib.Tactic.Linarith
/-
C54, C55: LDPC design files (/repo/commpy/channelcoding/ldpc.py:51-141, 257-299).
-/
namespace Verif

theorem filter_range_unique {n j : Nat} {p : Nat → Bool} (hj : j < n) (hp : p j = true) (hu : ∀ i < n, p i = true → i = j) :
    (List.range n).filter p = [j] := by
  have hn : ((List.range n).filter p).Nodup := List.nodup_range.filter p
  have hm : ∀ i, i ∈ (List.range n).filter p ↔ i = j := by
    intro i
    rw [List.mem_filter, List.mem_range]
    exact ⟨fun h => hu i h.1 h.2, fun h => h ▸ ⟨hj, hp⟩⟩
  generalize (List.range n).filter p = l at hn hm
  match l, hn, hm with
  | [], _, hm => exact absurd ((hm j).2 rfl) (by simp)
  | [a], _, hm => rw [(hm a).1 (by simp)]
  | a :: b :: l, hn, hm =>
    have h1 := (hm a).1 (by simp)
    have h2 := (hm b).1 (by simp)
    rw [h1, h2] at hn
    simp at hn

theorem nonzeroIdx_nodup (l : List Nat) : (nonzeroIdx l).Nodup := List.nodup_range.filter _

theorem mem_nonzeroIdx {l : List Nat} {i : Nat} : i ∈ nonzeroIdx l ↔ i < l.length ∧ l.getD i 0 ≠ 0 := by
  simp [nonzeroIdx, List.mem_filter]

theorem length_nonzeroIdx : ∀ {l : List Nat}, (∀ x ∈ l, x = 0 ∨ x = 1) → (nonzeroIdx l).length = l.sum := by
  intro l
  induction l with
  | nil => intro _; rfl
  | cons a l ih =>
    intro h
    have ih' := ih (fun x hx => h x (List.mem_cons_of_mem _ hx))
    unfold nonzeroIdx at ih' ⊢
    rw [List.length_cons, List.range_succ_eq_map, List.filter_cons, List.filter_map]
    have e : ((List.range l.length).filter ((fun i => decide ((a :: l).getD i 0 ≠ 0)) ∘ Nat.succ)) =
        (List.range l.length).filter (fun i => decide (l.getD i 0 ≠ 0)) := by
      refine List.filter_congr fun i _ => ?_
      simp
    rw [e]
    rcases h a (by simp) with rfl | rfl
    · simp only [List.getD_cons_zero, List.sum_cons]
      rw [if_neg (by simp), List.length_map, ih']
      omega
    · simp only [List.getD_cons_zero, List.sum_cons]
      rw [if_pos (by simp), List.length_cons, List.length_map, ih']
      omega

theorem foldl_max_le {l : List Nat} {x : Nat} (h : x ∈ l) (b : Nat) : x ≤ l.foldl max b := by
  have mono : ∀ (l : List Nat) (b : Nat), b ≤ l.foldl max b := by
    intro l
    induction l with
    | nil => intro b; exact le_rfl
    | cons a l ih => intro b; exact le_trans (le_max_left b a) (ih _)
  induction l generalizing b with
  | nil => simp at h
  | cons a l ih =>
    rcases List.mem_cons.1 h with rfl | h
    · exact le_trans (le_max_right b x) (mono l _)
    · exact ih h _

/-- One adjacency row: the nodes, then -1. -/
def adjRow (maxDeg : Nat) (ns : List Nat) : List Int := ns.map (fun (x : Nat) => (x : Int)) ++ List.replicate (maxDeg - ns.length) (-1)

theorem pySlice_adjRow {maxDeg : Nat} {ns : List Nat} (h : ns.length ≤ maxDeg) :
    pySlice (adjRow maxDeg ns) 0 ((ns.length : Nat) : Int) = ns.map (fun (x : Nat) => (x : Int)) := by
  have hl : (adjRow maxDeg ns).length = maxDeg := by simp [adjRow]; omega
  have hb : pyBound (adjRow maxDeg ns).length ((ns.length : Nat) : Int) = ns.length := by
    unfold pyBound
    rw [if_pos (by omega), hl]
    simp; omega
  have hb0 : pyBound (adjRow maxDeg ns).length 0 = 0 := by simp [pyBound]
  unfold pySlice
  rw [hb, hb0, List.drop_zero]
  unfold adjRow
  rw [List.take_left' (by simp)]

theorem mapEntry_ok {adj : List (List Int)} {maxDeg v c : Nat} {ns : List Nat} (ha : adj[v]? = some (adjRow maxDeg ns))
    (hn : ns.Nodup) (hc : c ∈ ns) : ∃ p, mapEntry adj c (v : Int) = .ok p := by
  have hv : v < adj.length := by
    by_contra h
    rw [List.getElem?_eq_none (by omega)] at ha
    cases ha
  have hrow : pyGet adj (v : Int) = .ok (adjRow maxDeg ns) := by
    rw [pyGet_ok hv]
    rw [List.getElem?_eq_getElem hv] at ha
    simpa using ha
  obtain ⟨j, hj, hjc⟩ := List.getElem_of_mem hc
  have hlen : (adjRow maxDeg ns).length = ns.length + (maxDeg - ns.length) := by simp [adjRow]
  have hget : ∀ i < (adjRow maxDeg ns).length, (adjRow maxDeg ns).getD i 0 = (c : Int) → i = j := by
    intro i hi he
    by_cases hin : i < ns.length
    · have : (adjRow maxDeg ns).getD i 0 = ((ns[i] : Nat) : Int) := by
        unfold adjRow
        rw [List.getD_append _ _ _ _ (by simpa using hin), List.getD_eq_getElem _ _ (by simpa using hin), List.getElem_map]
      rw [this] at he
      have he' : ns[i] = ns[j] := by rw [hjc]; exact_mod_cast he
      exact (List.Nodup.getElem_inj_iff hn).1 he'
    · have : (adjRow maxDeg ns).getD i 0 = -1 := by
        unfold adjRow
        rw [List.getD_append_right _ _ _ _ (by simpa using hin), List.getD_eq_getElem _ _ (by simp at hlen ⊢; omega)]
        simp
      rw [this] at he
      omega
  have hj2 : j < (adjRow maxDeg ns).length := by omega
  have hgetj : (adjRow maxDeg ns).getD j 0 = (c : Int) := by
    unfold adjRow
    rw [List.getD_append _ _ _ _ (by simpa using hj), List.getD_eq_getElem _ _ (by simpa using hj), List.getElem_map, hjc]
  refine ⟨(j : Int), ?_⟩
  simp only [mapEntry]
  rw [hrow]
  simp only [bind, Except.bind]
  rw [filter_range_unique hj2 (by simpa using hgetj) (fun i hi h => hget i hi (by simpa using h))]
  rfl

theorem mapM_exists_ok {α β : Type} {f : α → Py β} (l : List α) (h : ∀ a ∈ l, ∃ b, f a = .ok b) : ∃ bs, l.mapM f = .ok bs := by
  induction l with
  | nil => exact ⟨[], rfl⟩
  | cons a l ih =>
    obtain ⟨b, hb⟩ := h a (by simp)
    obtain ⟨bs, hbs⟩ := ih (fun a ha => h a (List.mem_cons_of_mem _ ha))
    exact ⟨b :: bs, by rw [List.mapM_cons, hb, hbs]; rfl⟩

theorem edgeMap_ok {n maxDeg maxO : Nat} {nss oss : List (List Nat)} (hn : nss.length = n)
    (hle : ∀ ns ∈ nss, ns.length ≤ maxDeg) (hod : ∀ os ∈ oss, os.Nodup)
    (hsym : ∀ c, c < n → ∀ v ∈ nss.getD c [], v < oss.length ∧ c ∈ oss.getD v []) :
    ∃ m, edgeMap n (nss.map (fun ns => ((ns.length : Nat) : Int))) maxDeg (nss.map (adjRow maxDeg)) (oss.map (adjRow maxO)) = .ok m := by
  refine mapM_exists_ok _ fun c hc => ?_
  rw [List.mem_range] at hc
  have hcl : c < nss.length := by omega
  have hcl1 : c < (nss.map (adjRow maxDeg)).length := by simpa using hcl
  have hcl2 : c < (nss.map (fun ns => ((ns.length : Nat) : Int))).length := by simpa using hcl
  have hle' := hle nss[c] (List.getElem_mem hcl)
  have hg : nss.getD c [] = nss[c] := List.getD_eq_getElem _ _ hcl
  obtain ⟨es, hes⟩ := mapM_exists_ok (f := mapEntry (oss.map (adjRow maxO)) c) (nss[c].map (fun (x : Nat) => (x : Int))) (by
    intro a ha
    obtain ⟨v, hv, rfl⟩ := List.mem_map.1 ha
    obtain ⟨h1, h2⟩ := hsym c hc v (hg ▸ hv)
    rw [List.getD_eq_getElem _ _ h1] at h2
    exact mapEntry_ok (ns := oss[v]) (by rw [List.getElem?_map, List.getElem?_eq_getElem h1]; rfl) (hod _ (List.getElem_mem h1)) h2)
  rw [pyGet_ok hcl1, pyGet_ok hcl2]
  simp only [bind, Except.bind, List.getElem_map]
  rw [pySlice_adjRow hle', hes]
  exact ⟨_, rfl⟩

theorem foldlM_pySet : ∀ (ns : List Nat) (row : List Int), (∀ v ∈ ns, v < row.length) →
    (ns.map (fun (x : Nat) => (x : Int))).foldlM (fun row v => pySet row v 1) row = .ok (ns.foldl (fun r v => r.set v 1) row)
  | [], row, _ => rfl
  | v :: ns, row, h => by
    rw [List.map_cons, List.foldlM_cons, pySet_ok _ (h v (by simp))]
    show List.foldlM _ _ _ = _
    rw [foldlM_pySet ns _ (fun u hu => by rw [List.length_set]; exact h u (List.mem_cons_of_mem _ hu))]
    rfl

theorem foldl_set_one : ∀ (ns : List Nat) (row : List Int) (i : Nat), (ns.foldl (fun r v => r.set v 1) row).length = row.length ∧
    (i < row.length → (ns.foldl (fun r v => r.set v 1) row).getD i 0 = if i ∈ ns then 1 else row.getD i 0)
  | [], row, i => by simp
  | v :: ns, row, i => by
    obtain ⟨h1, h2⟩ := foldl_set_one ns (row.set v 1) i
    rw [List.foldl_cons]
    refine ⟨by rw [h1, List.length_set], fun hi => ?_⟩
    rw [h2 (by rw [List.length_set]; exact hi)]
    by_cases hm : i ∈ ns
    · rw [if_pos hm, if_pos (List.mem_cons_of_mem _ hm)]
    · rw [if_neg hm]
      rw [List.getD_eq_getElem _ _ (by rw [List.length_set]; exact hi), List.getElem_set]
      by_cases hv : v = i
      · rw [if_pos hv, if_pos (by rw [hv]; simp)]
      · rw [if_neg hv, if_neg (by
          rw [List.mem_cons, not_or]; exact ⟨fun e => hv e.symm, hm⟩), List.getD_eq_getElem _ _ hi]

/-- C54: for every 0/1 matrix with at least one row and without empty row or column, the design file is written, read back
without error, and gives the same sizes, degrees and parity check matrix. -/
theorem C54_roundtrip (nv : Nat) (rows : List (List Nat)) (hne : rows ≠ []) (hw : ∀ r ∈ rows, r.length = nv)
    (hb : ∀ r ∈ rows, ∀ x ∈ r, x = 0 ∨ x = 1) (hr : ∀ r ∈ rows, 1 ∈ r) (hc : ∀ j < nv, ∃ r ∈ rows, r.getD j 0 = 1) :
    ∃ txt p, writeLdpc nv rows = .ok txt ∧ getLdpc txt = .ok p ∧ p.nv = nv ∧ p.nc = rows.length ∧
      p.vdeg = (List.range nv).map (fun j => (((colOf rows j).sum : Nat) : Int)) ∧
      p.cdeg = rows.map (fun r => ((r.sum : Nat) : Int)) ∧
      buildParity p = .ok (rows.map (fun r => r.map (fun (x : Nat) => (x : Int)))) := by
  set vs := (List.range nv).map (fun j => nonzeroIdx (colOf rows j)) with hvs
  set cs := rows.map nonzeroIdx with hcs
  set vdeg := (List.range nv).map (fun j => (colOf rows j).sum) with hvdeg
  set cdeg := rows.map List.sum with hcdeg
  clear_value vs cs vdeg cdeg
  -- columns
  have hcolb : ∀ j, ∀ x ∈ colOf rows j, x = 0 ∨ x = 1 := by
    intro j x hx
    obtain ⟨r, hr', rfl⟩ := List.mem_map.1 hx
    by_cases hj : j < r.length
    · rw [List.getD_eq_getElem _ _ hj]
      exact hb r hr' _ (List.getElem_mem hj)
    · rw [List.getD_eq_default _ _ (by omega)]; exact Or.inl rfl
  have hvne : ∀ ns ∈ vs, ns ≠ [] := by
    intro ns hns
    rw [hvs] at hns
    obtain ⟨j, hj, rfl⟩ := List.mem_map.1 hns
    obtain ⟨r, hr', h1⟩ := hc j (List.mem_range.1 hj)
    obtain ⟨i, hi, rfl⟩ := List.getElem_of_mem hr'
    refine List.ne_nil_of_mem (a := i) (mem_nonzeroIdx.2 ⟨by simpa [colOf] using hi, ?_⟩)
    unfold colOf
    rw [List.getD_eq_getElem _ _ (by simpa using hi), List.getElem_map, h1]
    exact one_ne_zero
  have hcne : ∀ ns ∈ cs, ns ≠ [] := by
    intro ns hns
    rw [hcs] at hns
    obtain ⟨r, hr', rfl⟩ := List.mem_map.1 hns
    obtain ⟨i, hi, h1⟩ := List.getElem_of_mem (hr r hr')
    refine List.ne_nil_of_mem (a := i) (mem_nonzeroIdx.2 ⟨hi, ?_⟩)
    rw [List.getD_eq_getElem _ _ hi, h1]
    exact one_ne_zero
  have hnv : 0 < nv := by
    obtain ⟨r, hr'⟩ := List.exists_mem_of_ne_nil _ hne
    have := hr r hr'
    rw [← hw r hr']
    exact List.length_pos_of_mem this
  -- degrees are lengths
  have hvl : vdeg = vs.map List.length := by
    rw [hvdeg, hvs, List.map_map]
    refine List.map_congr_left fun j _ => ?_
    exact (length_nonzeroIdx (hcolb j)).symm
  have hcl : cdeg = cs.map List.length := by
    rw [hcdeg, hcs, List.map_map]
    refine List.map_congr_left fun r hr' => ?_
    exact (length_nonzeroIdx (hb r hr')).symm
  obtain ⟨mv, hmv⟩ : ∃ mv, mv = vdeg.foldl max 0 := ⟨_, rfl⟩
  obtain ⟨mc, hmc⟩ : ∃ mc, mc = cdeg.foldl max 0 := ⟨_, rfl⟩
  have hmvle : ∀ ns ∈ vs, ns.length ≤ mv := by
    intro ns hns
    rw [hmv, hvl]
    exact foldl_max_le (List.mem_map_of_mem hns) 0
  have hmcle : ∀ ns ∈ cs, ns.length ≤ mc := by
    intro ns hns
    rw [hmc, hcl]
    exact foldl_max_le (List.mem_map_of_mem hns) 0
  have hnpv : npMax vdeg = .ok mv := by
    unfold npMax
    rw [if_neg (by rw [hvdeg]; simp; omega), hmv]
  have hnpc : npMax cdeg = .ok mc := by
    unfold npMax
    rw [if_neg (by rw [hcdeg]; simpa using hne), hmc]
  have hvlines : ((List.range nv).mapM (fun j => nodesLine (nonzeroIdx (colOf rows j))) : Py _) =
      .ok (vs.map (fun ns => nodesText ns ++ ['\n'])) := by
    rw [hvs, List.map_map]
    refine mapM_ok _ fun j hj => ?_
    exact nodesLine_ok (hvne _ (by rw [hvs]; exact List.mem_map_of_mem hj))
  have hclines : (rows.mapM (fun r => nodesLine (nonzeroIdx r)) : Py _) = .ok (cs.map (fun ns => nodesText ns ++ ['\n'])) := by
    rw [hcs, List.map_map]
    refine mapM_ok _ fun r hr' => ?_
    exact nodesLine_ok (hcne _ (by rw [hcs]; exact List.mem_map_of_mem hr'))
  -- the text
  set tail := (vs.map (fun ns => nodesText ns ++ ['\n'])).flatten ++ ((cs.map (fun ns => nodesText ns ++ ['\n'])).flatten ++ ['\n']) with htail
  set txt := (natStr nv ++ [' '] ++ natStr rows.length) ++ '\n' :: ((natStr mv ++ [' '] ++ natStr mc) ++ '\n' ::
    (vdeg.flatMap (fun d => natStr d ++ [' ']) ++ '\n' :: (cdeg.flatMap (fun d => natStr d ++ [' ']) ++ '\n' :: tail))) with htxt
  have hwrite : writeLdpc nv rows = .ok txt := by
    simp only [writeLdpc]
    rw [← hvdeg, ← hcdeg, hnpv, hnpc, hvlines, hclines]
    simp only [bind, Except.bind, pure, Except.pure]
    rw [htxt, htail]
    simp
  -- reading
  have hvsl : vs.length = nv := by rw [hvs]; simp
  have hcsl : cs.length = rows.length := by rw [hcs]; simp
  have hgetdeg : ∀ (nss : List (List Nat)) (k : Nat), k < nss.length →
      (nss.map (fun ns => ((ns.length : Nat) : Int)))[0 + k]? = some (((nss.getD k []).length : Nat) : Int) := by
    intro nss k hk
    rw [Nat.zero_add, List.getElem?_map, List.getElem?_eq_getElem hk, List.getD_eq_getElem _ _ hk]
    rfl
  have hrv : readRows (vs.map (fun ns => ((ns.length : Nat) : Int))) mv vs.length 0
      ((vs.map (fun ns => nodesText ns ++ ['\n'])).flatten ++ ((cs.map (fun ns => nodesText ns ++ ['\n'])).flatten ++ ['\n'])) =
      .ok (vs.map (adjRow mv), (cs.map (fun ns => nodesText ns ++ ['\n'])).flatten ++ ['\n']) := readRows_lines (vs.map (fun ns => ((ns.length : Nat) : Int))) mv vs 0 ((cs.map (fun ns => nodesText ns ++ ['\n'])).flatten ++ ['\n'])
    (fun ns h => ⟨hvne ns h, hmvle ns h⟩) (hgetdeg vs)
  have hrc : readRows (cs.map (fun ns => ((ns.length : Nat) : Int))) mc cs.length 0
      ((cs.map (fun ns => nodesText ns ++ ['\n'])).flatten ++ ['\n']) = .ok (cs.map (adjRow mc), ['\n']) := readRows_lines (cs.map (fun ns => ((ns.length : Nat) : Int))) mc cs 0 ['\n']
    (fun ns h => ⟨hcne ns h, hmcle ns h⟩) (hgetdeg cs)
  have hvmem : ∀ v, v < nv → ∀ c, c ∈ vs.getD v [] ↔ c < rows.length ∧ (rows.getD c []).getD v 0 ≠ 0 := by
    intro v hv c
    rw [List.getD_eq_getElem _ _ (by omega)]
    simp only [hvs, List.getElem_map, List.getElem_range]
    rw [mem_nonzeroIdx]
    unfold colOf
    rw [List.length_map]
    refine and_congr_right fun hc' => ?_
    rw [List.getD_eq_getElem _ _ (by simpa using hc'), List.getElem_map, List.getD_eq_getElem rows _ hc']
  have hcmem : ∀ c, c < rows.length → ∀ v, v ∈ cs.getD c [] ↔ v < nv ∧ (rows.getD c []).getD v 0 ≠ 0 := by
    intro c hc' v
    rw [List.getD_eq_getElem _ _ (by omega), List.getD_eq_getElem rows _ hc']
    simp only [hcs, List.getElem_map]
    rw [mem_nonzeroIdx, hw _ (List.getElem_mem hc')]
  obtain ⟨cv, hcv⟩ := edgeMap_ok (n := rows.length) (maxDeg := mc) (maxO := mv) (nss := cs) (oss := vs) hcsl hmcle (by
      intro os hos
      rw [hvs] at hos
      obtain ⟨j, -, rfl⟩ := List.mem_map.1 hos
      exact nonzeroIdx_nodup _) (by
      intro c hc' v hv
      have := (hcmem c hc' v).1 hv
      exact ⟨by omega, (hvmem v this.1 c).2 ⟨hc', this.2⟩⟩)
  obtain ⟨vc, hvc⟩ := edgeMap_ok (n := nv) (maxDeg := mv) (maxO := mc) (nss := vs) (oss := cs) hvsl hmvle (by
      intro os hos
      rw [hcs] at hos
      obtain ⟨j, -, rfl⟩ := List.mem_map.1 hos
      exact nonzeroIdx_nodup _) (by
      intro v hv c hc'
      have := (hvmem v hv c).1 hc'
      exact ⟨by omega, (hcmem c this.1 v).2 ⟨hv, this.2⟩⟩)
  have hvdI : vdeg.map (fun (d : Nat) => (d : Int)) = vs.map (fun ns => ((ns.length : Nat) : Int)) := by
    rw [hvl, List.map_map]; rfl
  have hcdI : cdeg.map (fun (d : Nat) => (d : Int)) = cs.map (fun ns => ((ns.length : Nat) : Int)) := by
    rw [hcl, List.map_map]; rfl
  refine ⟨txt, ⟨nv, rows.length, mv, mc, vs.map (fun ns => ((ns.length : Nat) : Int)), cs.map (fun ns => ((ns.length : Nat) : Int)),
      vs.map (adjRow mv), cs.map (adjRow mc), vc, cv⟩,
      hwrite, ?_, rfl, rfl, ?_, ?_, ?_⟩
  · simp only [getLdpc]
    rw [htxt, pyReadline_line (pair_noNl _ _)]
    simp only
    rw [readPair_line, pyReadline_line (pair_noNl _ _)]
    simp only [bind, Except.bind]
    rw [readPair_line, pyReadline_line (degs_noNl _)]
    simp only
    rw [readDegs_line, pyReadline_line (degs_noNl _)]
    simp only
    rw [readDegs_line, hvdI, hcdI]
    simp only
    rw [if_neg (by omega)]
    simp only [Int.toNat_natCast]
    rw [hvsl] at hrv
    rw [hcsl] at hrc
    rw [htail, hrv]
    simp only
    rw [hrc]
    simp only
    rw [hcv]
    simp only
    rw [hvc]
    rfl
  · simp only
    rw [← hvdI, hvdeg, List.map_map]
    rfl
  · simp only
    rw [← hcdI, hcdeg, List.map_map]
    rfl
  · simp only [buildParity, Int.toNat_natCast]
    have : rows.map (fun r => r.map (fun (x : Nat) => (x : Int))) =
        (List.range rows.length).map (fun c => (rows.getD c []).map (fun (x : Nat) => (x : Int))) := by
      refine List.ext_getElem (by simp) fun i h1 h2 => ?_
      rw [List.getElem_map, List.getElem_map, List.getElem_range, List.getD_eq_getElem _ _ (by simpa using h1)]
    rw [this]
    refine mapM_ok _ fun c hc' => ?_
    rw [List.mem_range] at hc'
    have h1 : c < (cs.map (adjRow mc)).length := by simp; omega
    have h2 : c < (cs.map (fun ns => ((ns.length : Nat) : Int))).length := by simp; omega
    rw [pyGet_ok h1, pyGet_ok h2]
    simp only [bind, Except.bind, List.getElem_map]
    have hcc : c < cs.length := by omega
    have hg : cs.getD c [] = cs[c] := List.getD_eq_getElem _ _ hcc
    rw [pySlice_adjRow (hmcle _ (List.getElem_mem hcc)), foldlM_pySet _ _ (by
      intro v hv
      rw [← hg] at hv
      simpa using ((hcmem c hc' v).1 hv).1)]
    congr 1
    have hlen : (rows.getD c []).length = nv := by
      rw [List.getD_eq_getElem _ _ hc']; exact hw _ (List.getElem_mem hc')
    refine List.ext_getElem ?_ fun i h1 h2 => ?_
    · rw [(foldl_set_one _ _ 0).1, List.length_map, hlen, List.length_replicate]
    · have hi : i < nv := by rw [List.length_map, hlen] at h2; exact h2
      have := (foldl_set_one cs[c] (List.replicate nv (0 : Int)) i).2 (by simpa using hi)
      rw [List.getD_eq_getElem _ _ h1] at this
      rw [this, List.getElem_map]
      have hx : (rows.getD c [])[i]'(by rw [hlen]; exact hi) = (rows.getD c []).getD i 0 := (List.getD_eq_getElem _ _ _).symm
      rw [hx]
      have hbit : (rows.getD c []).getD i 0 = 0 ∨ (rows.getD c []).getD i 0 = 1 := by
        rw [List.getD_eq_getElem _ _ (by rw [hlen]; exact hi), ]
        refine hb (rows.getD c []) ?_ _ (List.getElem_mem _)
        rw [List.getD_eq_getElem _ _ hc']
        exact List.getElem_mem hc'
      rw [← hg]
      by_cases hm : i ∈ cs.getD c []
      · rw [if_pos hm]
        have := ((hcmem c hc' i).1 hm).2
        rcases hbit with h | h
        · exact absurd h this
        · rw [h]; rfl
      · rw [if_neg hm]
        have : (rows.getD c []).getD i 0 = 0 := by
          by_contra h0
          exact hm ((hcmem c hc' i).2 ⟨hi, h0⟩)
        rw [this, List.getD_eq_getElem _ _ (by simpa using hi)]
        simp

/-- C54: a matrix with an empty column or row (and at least one row and column) cannot be written: IndexError. -/
theorem C54_empty (nv : Nat) (rows : List (List Nat)) (hne : rows ≠ []) (hnv : 0 < nv)
    (h : (∃ j < nv, nonzeroIdx (colOf rows j) = []) ∨ ∃ r ∈ rows, nonzeroIdx r = []) :
    writeLdpc nv rows = .error .indexError := by
  have hm : ∀ {α : Type} (f : α → Py (List Char)) (l : List α), (∀ a ∈ l, (∃ b, f a = .ok b) ∨ f a = .error .indexError) →
      (∃ a ∈ l, f a = .error .indexError) → l.mapM f = .error .indexError := by
    intro α f l
    induction l with
    | nil => rintro - ⟨a, ha, -⟩; simp at ha
    | cons a l ih =>
      intro h1 h2
      rw [List.mapM_cons]
      rcases h1 a (by simp) with ⟨b, hb⟩ | hb
      · rw [hb]
        obtain ⟨x, hx, hxe⟩ := h2
        rcases List.mem_cons.1 hx with rfl | hx
        · rw [hb] at hxe; cases hxe
        · rw [ih (fun a ha => h1 a (List.mem_cons_of_mem _ ha)) ⟨x, hx, hxe⟩]; rfl
      · rw [hb]; rfl
  have hm2 : ∀ {α : Type} (f : α → Py (List Char)) (l : List α), (∀ a ∈ l, ∃ b, f a = .ok b) → ∃ bs, l.mapM f = .ok bs :=
    fun f l h => mapM_exists_ok l h
  have hline : ∀ ns : List Nat, (∃ b, nodesLine ns = .ok b) ∨ nodesLine ns = .error .indexError := by
    intro ns
    by_cases h : ns = []
    · right; rw [h]; rfl
    · left; exact ⟨_, nodesLine_ok h⟩
  have hnil : nodesLine [] = .error .indexError := rfl
  have hnpv : ∃ mv, npMax ((List.range nv).map (fun j => (colOf rows j).sum)) = .ok mv := by
    unfold npMax
    rw [if_neg (by simp; omega)]
    exact ⟨_, rfl⟩
  have hnpc : ∃ mc, npMax (rows.map List.sum) = .ok mc := by
    unfold npMax
    rw [if_neg (by simpa using hne)]
    exact ⟨_, rfl⟩
  obtain ⟨mv, hmv⟩ := hnpv
  obtain ⟨mc, hmc⟩ := hnpc
  simp only [writeLdpc]
  rw [hmv, hmc]
  simp only [bind, Except.bind]
  by_cases hv : ∃ j < nv, nonzeroIdx (colOf rows j) = []
  · obtain ⟨j, hj, hj0⟩ := hv
    rw [hm (fun j => nodesLine (nonzeroIdx (colOf rows j))) (List.range nv) (fun a _ => hline _) ⟨j, List.mem_range.2 hj, by rw [hj0, hnil]⟩]
  · obtain ⟨bs, hbs⟩ := hm2 (fun j => nodesLine (nonzeroIdx (colOf rows j))) (List.range nv) (by
      intro j hj
      refine ⟨_, nodesLine_ok ?_⟩
      exact fun h0 => hv ⟨j, List.mem_range.1 hj, h0⟩)
    rw [hbs]
    simp only
    obtain ⟨r, hr, hr0⟩ := h.resolve_left hv
    rw [hm (fun r => nodesLine (nonzeroIdx r)) rows (fun a _ => hline _) ⟨r, hr, by rw [hr0, hnil]⟩]

/-- A 2 × 3 design. -/
example : writeLdpc 3 [[1, 1, 0], [0, 1, 1]] = .ok "3 2\n2 2\n1 2 1 \n2 2 \n1\n1\t2\n2\n1\t2\n2\t3\n\n".toList := by
  decide +kernel

example : ∃ txt p, writeLdpc 3 [[1, 1, 0], [0, 1, 1]] = .ok txt ∧ getLdpc txt = .ok p ∧
    buildParity p = .ok [[1, 1, 0], [0, 1, 1]] := by
  obtain ⟨txt, p, h1, h2, -, -, -, -, h3⟩ := C54_roundtrip 3 [[1, 1, 0], [0, 1, 1]] (by simp) (by decide) (by decide) (by decide) (by decide)
  exact ⟨txt, p, h1, h2, h3⟩

/-! ### C55 -/

theorem mapM_getElem_ok {α β : Type} {f : α → Py β} : ∀ {l : List α} {bs : List β}, l.mapM f = .ok bs →
    bs.length = l.length ∧ ∀ i (h : i < l.length) (h' : i < bs.length), f l[i] = .ok bs[i]
  | [], bs, h => by
    cases h
    simp
  | a :: l, bs, h => by
    rw [List.mapM_cons] at h
    rcases ha : f a with e | b
    · rw [ha] at h; cases h
    rw [ha] at h
    rcases hl : l.mapM f with e | bs'
    · simp only [bind, Except.bind, hl] at h; cases h
    simp only [bind, Except.bind, hl] at h
    cases h
    obtain ⟨h1, h2⟩ := mapM_getElem_ok hl
    refine ⟨by simp [h1], fun i h h' => ?_⟩
    rcases i with _ | i
    · exact ha
    · exact h2 i (by simpa using h) (by simpa using h')

theorem mapEntry_spec {adj : List (List Int)} {c : Nat} {v p : Int} (h : mapEntry adj c v = .ok p) :
    ∃ row, pyGet adj v = .ok row ∧ 0 ≤ p ∧ p.toNat < row.length ∧ row.getD p.toNat 0 = c ∧
      ∀ j < row.length, row.getD j 0 = (c : Int) → (j : Int) = p := by
  simp only [mapEntry] at h
  rcases hr : pyGet adj v with e | row
  · rw [hr] at h; cases h
  rw [hr] at h
  simp only [bind, Except.bind] at h
  have hmem : ∀ j, j ∈ (List.range row.length).filter (fun j => row.getD j 0 = (c : Int)) ↔ j < row.length ∧ row.getD j 0 = (c : Int) := by
    intro j
    simp [List.mem_filter]
  generalize (List.range row.length).filter (fun j => row.getD j 0 = (c : Int)) = l at h hmem
  match l, h, hmem with
  | [], h, _ => cases h
  | [q], h, hmem =>
    cases h
    have := (hmem q).1 (by simp)
    refine ⟨row, rfl, Int.natCast_nonneg q, by simpa using this.1, by simpa using this.2, fun j hj hjc => ?_⟩
    have := (hmem j).2 ⟨hj, hjc⟩
    rw [List.mem_singleton] at this
    rw [this]
  | _ :: _ :: _, h, _ => cases h

theorem edgeMap_spec {n maxDeg : Nat} {degs : List Int} {adj other m : List (List Int)} (h : edgeMap n degs maxDeg adj other = .ok m)
    (c : Nat) (hc : c < n) : ∃ arow deg mrow, adj[c]? = some arow ∧ degs[c]? = some deg ∧ m[c]? = some mrow ∧
      ∀ (i : Nat) (v : Int), (pySlice arow 0 deg)[i]? = some v → ∃ p, mrow[i]? = some p ∧ mapEntry other c v = .ok p := by
  obtain ⟨h1, h2⟩ := mapM_getElem_ok h
  rw [List.length_range] at h1
  have hh := h2 c (by simpa using hc) (by omega)
  rw [List.getElem_range] at hh
  have get : ∀ {α : Type} (l : List α) (a : α), pyGet l (c : Int) = .ok a → l[c]? = some a := by
    intro α l a hg
    by_cases hl : c < l.length
    · rw [pyGet_ok hl] at hg
      rw [List.getElem?_eq_getElem hl]
      exact congrArg some (Except.ok.inj hg)
    · rw [pyGet_out (by omega)] at hg; cases hg
  rcases ha : pyGet adj (c : Int) with e | arow
  · rw [ha] at hh; cases hh
  rw [ha] at hh
  simp only [bind, Except.bind] at hh
  rcases hd : pyGet degs (c : Int) with e | deg
  · rw [hd] at hh; cases hh
  rw [hd] at hh
  simp only at hh
  rcases he : ((pySlice arow 0 deg).mapM (mapEntry other c) : Py _) with e | es
  · rw [he] at hh; cases hh
  rw [he] at hh
  simp only [pure, Except.pure] at hh
  refine ⟨arow, deg, _, get _ _ ha, get _ _ hd, List.getElem?_eq_getElem (by omega), ?_⟩
  intro i v hv
  obtain ⟨l1, l2⟩ := mapM_getElem_ok he
  have hi : i < (pySlice arow 0 deg).length := by
    by_contra hc
    rw [List.getElem?_eq_none (by omega)] at hv
    cases hv
  rw [List.getElem?_eq_getElem hi] at hv
  have hv' := Option.some.inj hv
  refine ⟨es[i], ?_, ?_⟩
  · have := Except.ok.inj hh
    rw [← this, List.getElem?_append_left (by omega), List.getElem?_eq_getElem (by omega)]
  · rw [← hv']
    exact l2 i hi (by omega)

/-- The edge map of one side: for every check `c` and position `i` of its (used) adjacency list, the map gives the one
position at which the neighbour lists `c`. -/
def MapsBack (n : Int) (degs : List Int) (adj other m : List (List Int)) : Prop :=
  ∀ c : Nat, (c : Int) < n → ∃ arow deg mrow, adj[c]? = some arow ∧ degs[c]? = some deg ∧ m[c]? = some mrow ∧
    ∀ (i : Nat) (v : Int), (pySlice arow 0 deg)[i]? = some v → ∃ p row, mrow[i]? = some p ∧ pyGet other v = .ok row ∧
      0 ≤ p ∧ p.toNat < row.length ∧ row.getD p.toNat 0 = (c : Int) ∧ ∀ j < row.length, row.getD j 0 = (c : Int) → (j : Int) = p

/-- C55: in every set of parameters returned by `get_ldpc_code_params`, whatever the file, both edge maps are inverse to the
adjacency lists. -/
theorem C55_maps (txt : List Char) (p : LdpcParams) (h : getLdpc txt = .ok p) :
    MapsBack p.nc p.cdeg p.cadj p.vadj p.cvmap ∧ MapsBack p.nv p.vdeg p.vadj p.cadj p.vcmap := by
  have key : ∀ {n : Int} {degs : List Int} {maxDeg : Nat} {adj other m : List (List Int)},
      edgeMap n.toNat degs maxDeg adj other = .ok m → MapsBack n degs adj other m := by
    intro n degs maxDeg adj other m hm c hc
    obtain ⟨arow, deg, mrow, h1, h2, h3, h4⟩ := edgeMap_spec hm c (by omega)
    refine ⟨arow, deg, mrow, h1, h2, h3, fun i v hv => ?_⟩
    obtain ⟨q, hq, he⟩ := h4 i v hv
    obtain ⟨row, r1, r2⟩ := mapEntry_spec he
    exact ⟨q, row, hq, r1, r2⟩
  simp only [getLdpc] at h
  rcases h1 : readPair (pyReadline txt).1 with e | ⟨nv, nc⟩
  · rw [h1] at h; cases h
  rw [h1] at h
  simp only [bind, Except.bind] at h
  rcases h2 : readPair (pyReadline (pyReadline txt).2).1 with e | ⟨maxV, maxC⟩
  · rw [h2] at h; cases h
  rw [h2] at h
  simp only at h
  generalize readDegs _ = rd1 at h
  rcases rd1 with e | vdeg
  · cases h
  simp only at h
  generalize readDegs _ = rd2 at h
  rcases rd2 with e | cdeg
  · cases h
  simp only at h
  by_cases hneg : nv < 0 ∨ nc < 0 ∨ maxV < 0 ∨ maxC < 0
  · rw [if_pos hneg] at h; cases h
  rw [if_neg hneg] at h
  generalize readRows vdeg _ _ _ _ = rr1 at h
  rcases rr1 with e | ⟨vadj, t5⟩
  · cases h
  simp only at h
  generalize readRows cdeg _ _ _ _ = rr2 at h
  rcases rr2 with e | ⟨cadj, t6⟩
  · cases h
  simp only at h
  rcases h3 : edgeMap nc.toNat cdeg maxC.toNat cadj vadj with e | cv
  · rw [h3] at h; cases h
  rw [h3] at h
  simp only at h
  rcases h4 : edgeMap nv.toNat vdeg maxV.toNat vadj cadj with e | vc
  · rw [h4] at h; cases h
  rw [h4] at h
  cases h
  exact ⟨key h3, key h4⟩

end Verif
