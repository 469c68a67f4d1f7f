import Verif.Model.TurboFloat
import Verif.Lemmas.Lists
/-
The floating-point model of `turbo_decode` with exact functions is the model of Model/Turbo, whenever that one does not divide by zero.
-/
namespace Verif

/-- Exact functions. -/
noncomputable def exactFloats : MapFloats where
  rnd := Fl.fin
  exp x := .fin (Real.exp x)
  log x := .fin (Real.log x)
  sum l := .fin ((l.map (fun a => match a with | .fin x => x | _ => 0)).sum)

theorem bind_ok_iff {α β : Type} {x : Py α} {f : α → Py β} {r : β} : (x >>= f) = .ok r ↔ ∃ a, x = .ok a ∧ f a = .ok r := by
  cases x with
  | error e => simp [bind, Except.bind]
  | ok a => simp [bind, Except.bind]

theorem pure_ok_iff {α : Type} {a r : α} : (pure a : Py α) = .ok r ↔ a = r := by simp [pure, Except.pure]

theorem pyGet_map_ok {α β : Type} (f : α → β) {l : List α} {i : Int} {a : α} (h : pyGet l i = .ok a) : pyGet (l.map f) i = .ok (f a) := by
  unfold pyGet at h ⊢
  rw [List.length_map]
  cases e : pyIdx l.length i with
  | none => rw [e] at h; simp at h
  | some j =>
    rw [e] at h
    simp only [Option.bind_some, List.getElem?_map] at h ⊢
    cases e2 : l[j]? with
    | none => rw [e2] at h; simp at h
    | some b => rw [e2] at h; cases h; rfl

theorem pySet_map_ok {α β : Type} (f : α → β) {l l' : List α} {i : Int} {a : α} (h : pySet l i a = .ok l') :
    pySet (l.map f) i (f a) = .ok (l'.map f) := by
  unfold pySet at h ⊢
  rw [List.length_map]
  cases e : pyIdx l.length i with
  | none => rw [e] at h; simp at h
  | some j =>
    rw [e] at h
    simp only [Except.ok.injEq] at h ⊢
    rw [← h, List.map_set]

theorem foldlM_sim {α β γ : Type} (φ : β → γ) {f : β → α → Py β} {g : γ → α → Py γ} (h : ∀ b a r, f b a = .ok r → g (φ b) a = .ok (φ r))
    (l : List α) {b r : β} (e : l.foldlM f b = .ok r) : l.foldlM g (φ b) = .ok (φ r) := by
  induction l generalizing b with
  | nil =>
    rw [List.foldlM_nil, pure_ok_iff] at e
    rw [List.foldlM_nil, e]
    rfl
  | cons a l ih =>
    rw [List.foldlM_cons, bind_ok_iff] at e
    obtain ⟨b', e1, e2⟩ := e
    rw [List.foldlM_cons, h _ _ _ e1]
    exact ih e2

theorem mapM_sim {α β γ : Type} (φ : β → γ) {f : α → Py β} {g : α → Py γ} (h : ∀ a r, f a = .ok r → g a = .ok (φ r))
    (l : List α) {r : List β} (e : l.mapM f = .ok r) : l.mapM g = .ok (r.map φ) := by
  induction l generalizing r with
  | nil =>
    rw [List.mapM_nil, pure_ok_iff] at e
    rw [← e]
    rfl
  | cons a l ih =>
    rw [List.mapM_cons, bind_ok_iff] at e
    obtain ⟨b, e1, e2⟩ := e
    rw [bind_ok_iff] at e2
    obtain ⟨bs, e3, e4⟩ := e2
    rw [pure_ok_iff] at e4
    rw [List.mapM_cons, h _ _ e1, ← e4, ih e3]
    rfl

theorem interlv_sim {α β : Type} (f : α → β) {p : List Nat} {x r : List α} (e : interlv p x = .ok r) : interlv p (x.map f) = .ok (r.map f) :=
  mapM_sim f (fun _ _ h => pyGet_map_ok f h) p e

theorem deinterlv_sim {α β : Type} (f : α → β) {z : α} {p : List Nat} {x r : List α} (e : deinterlv z p x = .ok r) :
    deinterlv (f z) p (x.map f) = .ok (r.map f) := by
  unfold deinterlv at e ⊢
  rw [List.length_map, ← List.map_replicate]
  refine foldlM_sim (List.map f) (fun b a r h => ?_) _ e
  rw [bind_ok_iff] at h
  obtain ⟨v, h1, h2⟩ := h
  rw [bind_ok_iff]
  exact ⟨_, pyGet_map_ok f h1, pySet_map_ok f h2⟩

theorem npZip_sim {α β γ α' β' γ' : Type} (a : α → α') (b : β → β') (c : γ → γ') {f : α → β → γ} {g : α' → β' → γ'} (h : ∀ x y, g (a x) (b y) = c (f x y))
    {l : List α} {m : List β} {r : List γ} (e : npZip f l m = .ok r) : npZip g (l.map a) (m.map b) = .ok (r.map c) := by
  unfold npZip at e ⊢
  rw [List.length_map, List.length_map]
  by_cases hl : l.length = m.length
  · rw [if_pos hl] at e ⊢
    simp only [Except.ok.injEq] at e ⊢
    rw [← e, List.zipWith_map, List.map_zipWith]
    simp only [h]
  · rw [if_neg hl] at e ⊢
    match l, m with
    | [x], m =>
      simp only [Except.ok.injEq, List.map_cons, List.map_nil] at e ⊢
      rw [← e, List.map_map, List.map_map]
      simp [Function.comp_def, h]
    | [], [y] =>
      simp only [Except.ok.injEq, List.map_cons, List.map_nil] at e ⊢
      rw [← e]
      rfl
    | x :: x' :: l, [y] =>
      simp only [Except.ok.injEq, List.map_cons, List.map_nil] at e ⊢
      rw [← e]
      simp [h, Function.comp_def]
    | [], [] => simp at e
    | [], y :: y' :: m => simp at e
    | x :: x' :: l, [] => simp at e
    | x :: x' :: l, y :: y' :: m => simp at e

local notation "E" => exactFloats

theorem ex_add (x y : ℝ) : flAdd E (.fin x) (.fin y) = .fin (x + y) := rfl
theorem ex_sub (x y : ℝ) : flSub E (.fin x) (.fin y) = .fin (x - y) := by show Fl.fin _ = _; rw [sub_eq_add_neg]
theorem ex_mul (x y : ℝ) : flMul E (.fin x) (.fin y) = .fin (x * y) := rfl
theorem ex_div {x y : ℝ} (h : y ≠ 0) : flDiv E (.fin x) (.fin y) = .fin (x / y) := if_neg h
theorem ex_exp (x : ℝ) : flExp E (.fin x) = .fin (Real.exp x) := rfl
theorem ex_neg (x : ℝ) : flNeg (.fin x) = .fin (-x) := rfl
theorem ex_log {x : ℝ} (h : 0 < x) : flLog E (.fin x) = .fin (Real.log x) := by
  show (if x = 0 then Fl.ninf else if 0 < x then Fl.fin (Real.log x) else .nan) = _
  rw [if_neg h.ne', if_pos h]
theorem ex_sum (l : List ℝ) : (E).sum (l.map Fl.fin) = .fin l.sum := by
  show Fl.fin _ = Fl.fin _
  rw [List.map_map]
  congr 2
  conv_rhs => rw [← List.map_id l]
  rfl

theorem branchProbF_exact {σ2 : ℝ} (hσ : σ2 ≠ 0) (c0 c1 : Nat) (r0 r1 : ℝ) :
    branchProbF E c0 c1 (.fin r0) (.fin r1) (.fin σ2) = .fin (branchProb c0 c1 r0 r1 σ2) := by
  simp only [branchProbF, branchProb, ex_sub, ex_mul, ex_add, ex_neg]
  rw [ex_div (by simpa using hσ), ex_exp]

section

variable {t : Trellis} {σ2 : ℝ} (hσ : σ2 ≠ 0) {ys yp lint : List ℝ} {priors : List (List ℝ)}

include hσ in
theorem backInputF_exact {bnext : List ℝ} {τ s u : Nat} (st r : ℝ × List ℝ) (e : backInput t σ2 ys yp priors bnext τ s st u = .ok r) :
    backInputF E t (.fin σ2) (ys.map .fin) (yp.map .fin) (priors.map (List.map .fin)) (bnext.map .fin) τ s (.fin st.1, st.2.map .fin) u =
      .ok (.fin r.1, r.2.map .fin) := by
  unfold backInput at e
  simp only [bind_ok_iff, pure_ok_iff] at e
  obtain ⟨ns, h1, o, h2, cw, h3, pb, h4, mb, h5, r0, h6, r1, h7, b, h8, row, h9, p, h10, rfl⟩ := e
  simp only [backInputF, h1, h2, h3, h4, h5, pyGet_map_ok _ h6, pyGet_map_ok _ h7, pyGet_map_ok _ h8, pyGet_map_ok _ h9, pyGet_map_ok _ h10,
    branchProbF_exact hσ, ex_add, ex_mul, List.map_append, List.map_cons, List.map_nil, bind, Except.bind, pure, Except.pure]

include hσ in
theorem backCellF_exact {bnext : List ℝ} {τ s : Nat} (r : ℝ × List ℝ) (e : backCell t σ2 ys yp priors bnext τ s = .ok r) :
    backCellF E t (.fin σ2) (ys.map .fin) (yp.map .fin) (priors.map (List.map .fin)) (bnext.map .fin) τ s = .ok (.fin r.1, r.2.map .fin) :=
  foldlM_sim (fun st : ℝ × List ℝ => (Fl.fin st.1, st.2.map Fl.fin)) (fun b _ r h => backInputF_exact hσ b r h) _ e

theorem normaliseF_exact {col r : List ℝ} (e : normalise col = .ok r) : normaliseF E (col.map .fin) = r.map .fin := by
  unfold normalise at e
  by_cases h : col.sum = 0
  · rw [if_pos h] at e; cases e
  · rw [if_neg h] at e
    cases e
    simp only [normaliseF, ex_sum, List.map_map, Function.comp_def]
    exact List.map_congr_left fun x _ => ex_div h

include hσ in
theorem backStepF_exact {τ : Nat} (st r : List (List ℝ) × List (List (List ℝ))) (e : backStep t σ2 ys yp priors st τ = .ok r) :
    backStepF E t (.fin σ2) (ys.map .fin) (yp.map .fin) (priors.map (List.map .fin)) (st.1.map (List.map .fin), st.2.map (List.map (List.map .fin))) τ =
      .ok (r.1.map (List.map .fin), r.2.map (List.map (List.map .fin))) := by
  unfold backStep at e
  simp only [bind_ok_iff, pure_ok_iff] at e
  obtain ⟨cells, h1, col, h2, rfl⟩ := e
  have hh : (st.1.map (List.map Fl.fin)).headD [] = (st.1.headD []).map Fl.fin := by cases st.1 <;> rfl
  have h3 := mapM_sim (fun c : ℝ × List ℝ => (Fl.fin c.1, c.2.map Fl.fin)) (fun a r h => backCellF_exact hσ r h) _ h1
  have h4 := normaliseF_exact h2
  simp only [backStepF, hh, h3, bind, Except.bind, pure, Except.pure, List.map_map, Function.comp_def, List.map_cons] at h4 ⊢
  rw [h4]

include hσ in
theorem backwardRecF_exact {r : List (List ℝ) × List (List (List ℝ))} (e : backwardRec t σ2 ys yp priors = .ok r) :
    backwardRecF E t (.fin σ2) (ys.map .fin) (yp.map .fin) (priors.map (List.map .fin)) =
      .ok (r.1.map (List.map .fin), r.2.map (List.map (List.map .fin))) := by
  have := foldlM_sim (fun st : List (List ℝ) × List (List (List ℝ)) => (st.1.map (List.map Fl.fin), st.2.map (List.map (List.map Fl.fin))))
    (fun b _ r h => backStepF_exact hσ b r h) _ e
  simp only [List.map_cons, List.map_nil, List.map_replicate] at this
  unfold backwardRecF
  rw [List.length_map]
  exact this

theorem forwardCellF_exact {bnext f : List ℝ} {br : List (List ℝ)} {τ : Nat} (st r : List ℝ × List ℝ) (su : Nat × Nat)
    (e : forwardCell t priors bnext br f τ st su = .ok r) :
    forwardCellF E t (priors.map (List.map .fin)) (bnext.map .fin) (br.map (List.map .fin)) (f.map .fin) τ (st.1.map .fin, st.2.map .fin) su =
      .ok (r.1.map .fin, r.2.map .fin) := by
  unfold forwardCell at e
  simp only [bind_ok_iff, pure_ok_iff] at e
  obtain ⟨ns, h1, brow, h2, g, h3, f0, h4, row, h5, p, h6, old, h7, f1, h8, b, h9, a, h10, app, h11, rfl⟩ := e
  have h8' := pySet_map_ok Fl.fin h8
  have h11' := pySet_map_ok Fl.fin h11
  simp only [forwardCellF, h1, pyGet_map_ok _ h2, pyGet_map_ok _ h3, pyGet_map_ok _ h4, pyGet_map_ok _ h5, pyGet_map_ok _ h6, pyGet_map_ok _ h7,
    pyGet_map_ok _ h9, pyGet_map_ok _ h10, ex_add, ex_mul, h8', h11', bind, Except.bind, pure, Except.pure]

theorem forwardStepF_exact {decode : Bool} {cols : List (List ℝ)} {brs : List (List (List ℝ))} {τ : Nat} (st r : List ℝ × List ℝ × List Nat)
    (e : forwardStep t decode lint priors cols brs st τ = .ok r) :
    forwardStepF E t decode (lint.map .fin) (priors.map (List.map .fin)) (cols.map (List.map .fin)) (brs.map (List.map (List.map .fin)))
      (st.1.map .fin, st.2.1.map .fin, st.2.2) τ = .ok (r.1.map .fin, r.2.1.map .fin, r.2.2) := by
  unfold forwardStep at e
  simp only [bind_ok_iff] at e
  obtain ⟨bnext, h1, br, h2, x, h3, l, h4, a1, h5, a0, h6, h⟩ := e
  by_cases hc : a0 = 0 ∨ a1 / a0 ≤ 0
  · rw [if_pos hc] at h; cases h
  · rw [if_neg hc] at h
    simp only [bind_ok_iff, pure_ok_iff] at h
    obtain ⟨f, h7, rfl⟩ := h
    push Not at hc
    have h3' := foldlM_sim (fun st : List ℝ × List ℝ => (st.1.map Fl.fin, st.2.map Fl.fin)) (fun b a r h => forwardCellF_exact b r a h) _ h3
    simp only [List.map_replicate] at h3'
    have hl : flAdd E (.fin l) (flLog E (flDiv E (.fin a1) (.fin a0))) = .fin (l + Real.log (a1 / a0)) := by rw [ex_div hc.1, ex_log hc.2, ex_add]
    have hpos : (flAdd E (.fin l) (flLog E (flDiv E (.fin a1) (.fin a0)))).Pos ↔ l + Real.log (a1 / a0) > 0 := by rw [hl]; exact Iff.rfl
    simp only [forwardStepF, hpos, hl, pyGet_map_ok _ h1, pyGet_map_ok _ h2, h3', pyGet_map_ok _ h4, pyGet_map_ok _ h5, pyGet_map_ok _ h6,
      normaliseF_exact h7, bind, Except.bind, pure, Except.pure, List.map_append, List.map_cons, List.map_nil]
    congr!

theorem mapPriorsF_exact {L : Nat} {r : List (List ℝ)} (e : mapPriors L lint = .ok r) : mapPriorsF E L (lint.map .fin) = .ok (r.map (List.map .fin)) := by
  have hp : (lint.map Fl.fin).map (fun x => flDiv E (.fin 1) (flAdd E (.fin 1) (flExp E x))) = (lint.map (fun x => 1 / (1 + Real.exp x))).map Fl.fin := by
    rw [List.map_map, List.map_map]
    refine List.map_congr_left fun x _ => ?_
    simp only [Function.comp, ex_exp, ex_add]
    exact ex_div (by positivity)
  simp only [mapPriors] at e
  simp only [mapPriorsF, hp, List.length_map]
  generalize hq : lint.map (fun x => 1 / (1 + Real.exp x)) = q at *
  by_cases h : lint.length = L
  · rw [if_pos h] at e ⊢
    cases e
    simp [Function.comp_def, ex_sub]
  · rw [if_neg h] at e ⊢
    match q with
    | [] => cases e
    | [x] => cases e; simp [ex_sub]
    | x :: y :: q => cases e

include hσ in
theorem mapDecodeF_exact {mode : String} {r : List ℝ × List Nat} (e : mapDecode t σ2 ys yp lint mode = .ok r) :
    mapDecodeF E t (.fin σ2) (ys.map .fin) (yp.map .fin) (lint.map .fin) mode = .ok (r.1.map .fin, r.2) := by
  unfold mapDecode at e
  simp only [bind_ok_iff, pure_ok_iff] at e
  obtain ⟨pr, h1, ⟨cols, brs⟩, h2, x, h3, rfl⟩ := e
  have h2' := backwardRecF_exact hσ h2
  have h3' := foldlM_sim (fun st : List ℝ × List ℝ × List Nat => (st.1.map Fl.fin, st.2.1.map Fl.fin, st.2.2)) (fun b _ r h => forwardStepF_exact b r h) _ h3
  simp only [List.map_set, List.map_replicate, List.map_nil] at h3'
  simp only [mapDecodeF, List.length_map, mapPriorsF_exact h1, h2', h3', bind, Except.bind, pure, Except.pure]

include hσ in
theorem turboIterF_exact {ysi yp1 yp2 : List ℝ} {p : List Nat} {n i : Nat} (st r : List ℝ × Option (List Nat))
    (e : turboIter t σ2 ys ysi yp1 yp2 p n st i = .ok r) :
    turboIterF E t (.fin σ2) (ys.map .fin) (ysi.map .fin) (yp1.map .fin) (yp2.map .fin) p n (st.1.map .fin, st.2) i = .ok (r.1.map .fin, r.2) := by
  unfold turboIter at e
  simp only [bind_ok_iff, pure_ok_iff] at e
  obtain ⟨⟨l1, b1⟩, h1, e1, h2, lint2, h3, ⟨l2, b2⟩, h4, e2, h5, lint1, h6, rfl⟩ := e
  simp only [turboIterF, mapDecodeF_exact hσ h1, npZip_sim _ _ _ ex_sub h2, interlv_sim Fl.fin h3, mapDecodeF_exact hσ h4, npZip_sim _ _ _ ex_sub h5,
    deinterlv_sim Fl.fin h6, bind, Except.bind, pure, Except.pure]

include hσ in
/-- With exact functions, `turboDecodeF` is `turboDecode`. -/
theorem C122_exact {yp1 yp2 : List ℝ} {p : List Nat} {n : Int} {lint : Option (List ℝ)} {bits : List Nat}
    (e : turboDecode t σ2 ys yp1 yp2 n p lint = .ok bits) : turboDecodeF E t σ2 ys yp1 yp2 n p lint = .ok bits := by
  unfold turboDecode at e
  simp only [bind_ok_iff] at e
  obtain ⟨ysi, h1, x, h2, h3⟩ := e
  have h2' := foldlM_sim (fun st : List ℝ × Option (List Nat) => (st.1.map Fl.fin, st.2)) (fun b _ r h => turboIterF_exact hσ b r h) _ h2
  simp only [turboDecodeF, interlv_sim Fl.fin h1, h2', bind, Except.bind]
  exact h3

end

end Verif
