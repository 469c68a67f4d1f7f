import Verif.Py
import Mathlib.Data.List.Basic
import Mathlib.Data.List.Nodup
import Mathlib.Data.List.Range
/- Generic list lemmas. -/
namespace Verif

theorem foldl_set_length {α : Type} (ps : List (Nat × α)) (y : List α) :
    (ps.foldl (fun y p => y.set p.1 p.2) y).length = y.length := by
  induction ps generalizing y with
  | nil => rfl
  | cons p ps ih => simp [ih]

theorem foldl_set_notMem {α : Type} (ps : List (Nat × α)) (y : List α) (i : Nat) (h : i ∉ ps.map Prod.fst) :
    (ps.foldl (fun y p => y.set p.1 p.2) y)[i]? = y[i]? := by
  induction ps generalizing y with
  | nil => rfl
  | cons p ps ih =>
    simp only [List.map_cons, List.mem_cons, not_or] at h
    rw [List.foldl_cons, ih _ h.2, List.getElem?_set_ne (Ne.symm h.1)]

theorem foldl_set_mem {α : Type} (ps : List (Nat × α)) (y : List α) (i : Nat) (v : α)
    (hn : (ps.map Prod.fst).Nodup) (hm : (i, v) ∈ ps) (hi : i < y.length) :
    (ps.foldl (fun y p => y.set p.1 p.2) y)[i]? = some v := by
  induction ps generalizing y with
  | nil => simp at hm
  | cons p ps ih =>
    rw [List.map_cons, List.nodup_cons] at hn
    rw [List.foldl_cons]
    rcases List.mem_cons.1 hm with rfl | hm
    · rw [foldl_set_notMem _ _ _ hn.1]; simp [hi]
    · exact ih _ hn.2 hm (by simpa using hi)

theorem foldlM_ok {α β : Type} {f : β → α → Py β} {g : β → α → β} (l : List α) (b : β)
    (h : ∀ b, ∀ a ∈ l, f b a = .ok (g b a)) : l.foldlM f b = .ok (l.foldl g b) := by
  induction l generalizing b with
  | nil => rfl
  | cons a l ih =>
    rw [List.foldlM_cons, h b a (by simp)]
    exact ih _ (fun b a ha => h b a (by simp [ha]))

theorem mapM_ok {α β : Type} {f : α → Py β} {g : α → β} (l : List α)
    (h : ∀ a ∈ l, f a = .ok (g a)) : l.mapM f = .ok (l.map g) := by
  induction l with
  | nil => rfl
  | cons a l ih =>
    rw [List.mapM_cons, h a (by simp), ih (fun a ha => h a (by simp [ha]))]
    rfl

end Verif
