import Verif.Lemmas.GirthCheck
import Verif.Designs.Wimax960
import Verif.Designs.Wimax1440
import Verif.Designs.Gallager963
import Verif.Designs.Gallager964
/-
C114: the design files shipped with the library (/repo/commpy/channelcoding/designs/ldpc).
-/
namespace Verif

variable (nanSign : NanSigns) (oneLeft : Py (List (List Bool × List (Option ℝ))))

/-- `rowsOf` with natural numbers, as `write_ldpc_params` takes it. -/
def rowsNat (nv : Nat) (H : Checks) : List (List Nat) := H.map fun ns => (List.range nv).map fun v => if v ∈ ns then 1 else 0

/-- The file written for the matrix of `H` is read back. -/
theorem params_of_checks {H : Checks} {nv : Nat} (hs : sortedChecks H nv = true) (hne : H ≠ []) (hr : ∀ ns ∈ H, ns ≠ [])
    (hcol : ∀ v < nv, 1 ≤ (checksOf H v).length) : ∃ txt p, writeLdpc nv (rowsNat nv H) = .ok txt ∧ getLdpc txt = .ok p ∧
      p.nv = nv ∧ p.nc = H.length ∧ buildParity p = .ok (rowsOf nv H) := by
  have hbit : ∀ (ns : List Nat), ∀ x ∈ ((List.range nv).map fun v => if v ∈ ns then 1 else 0), x = 0 ∨ x = 1 := by
    intro ns x hx
    obtain ⟨v, -, rfl⟩ := List.mem_map.1 hx
    split <;> simp
  obtain ⟨txt, p, h1, h2, h3, h4, -, -, h5⟩ := C54_roundtrip nv (rowsNat nv H) (by simpa [rowsNat] using hne) (by
      intro r hr'
      obtain ⟨ns, -, rfl⟩ := List.mem_map.1 hr'
      simp) (by
      intro r hr'
      obtain ⟨ns, -, rfl⟩ := List.mem_map.1 hr'
      exact hbit ns) (by
      intro r hr'
      obtain ⟨ns, hns, rfl⟩ := List.mem_map.1 hr'
      obtain ⟨v, hv⟩ := List.exists_mem_of_ne_nil _ (hr ns hns)
      exact List.mem_map.2 ⟨v, List.mem_range.2 ((sorted_good hs ns hns).2 v hv), by simp [hv]⟩) (by
      intro j hj
      have := hcol j hj
      obtain ⟨c, hc⟩ := List.exists_mem_of_ne_nil (checksOf H j) (by intro h0; rw [h0] at this; simp at this)
      obtain ⟨c1, c2⟩ := mem_checksOf.1 hc
      rw [List.getD_eq_getElem _ _ c1] at c2
      refine ⟨_, List.mem_map_of_mem (List.getElem_mem c1), ?_⟩
      rw [List.getD_eq_getElem _ _ (by simpa using hj), List.getElem_map, List.getElem_range, if_pos c2])
  refine ⟨txt, p, h1, h2, h3, by rw [h4, rowsNat, List.length_map], ?_⟩
  rw [h5]
  congr 1
  unfold rowsNat rowsOf
  rw [List.map_map]
  refine List.map_congr_left fun ns _ => ?_
  simp only [Function.comp, List.map_map]
  refine List.map_congr_left fun v _ => ?_
  simp only [Function.comp]
  split <;> simp

/-! ### WiMAX 1440.720 -/

set_option maxRecDepth 20000

theorem wimax1440_sorted : sortedChecks wimax1440Checks 1440 = true := sorted_of_fast (by decide +kernel)
theorem wimax1440_length : wimax1440Checks.length = 720 := by decide +kernel
theorem wimax1440_deg : ∀ v < 1440, 2 ≤ (checksOf wimax1440Checks v).length := degree_of_masks (d := 1) (by decide +kernel)
theorem wimax1440_rows : ∀ ns ∈ wimax1440Checks, 2 ≤ ns.length := by
  have : (wimax1440Checks.all fun ns => Nat.ble 2 ns.length) = true := by decide +kernel
  intro ns hns
  exact Nat.le_of_ble_eq_true (List.all_eq_true.1 this ns hns)
theorem wimax1440_girth : NoFourCycle wimax1440Checks := noFourCycle_of_masks (by decide +kernel)
theorem wimax1440_det : (tailMatrix (rowsOf 1440 wimax1440Checks) 720 1440).det = 1 ∨ (tailMatrix (rowsOf 1440 wimax1440Checks) 720 1440).det = -1 :=
  det_of_cert0 wimax1440_length (by norm_num) wimax1440_sorted wimax1440Cert (by decide +kernel)

/-! ### WiMAX 960.720.a -/

theorem wimax960_sorted : sortedChecks wimax960Checks 960 = true := sorted_of_fast (by decide +kernel)
theorem wimax960_length : wimax960Checks.length = 240 := by decide +kernel
theorem wimax960_deg : ∀ v < 960, 2 ≤ (checksOf wimax960Checks v).length := degree_of_masks (d := 1) (by decide +kernel)
theorem wimax960_rows : ∀ ns ∈ wimax960Checks, 2 ≤ ns.length := by
  have : (wimax960Checks.all fun ns => Nat.ble 2 ns.length) = true := by decide +kernel
  intro ns hns
  exact Nat.le_of_ble_eq_true (List.all_eq_true.1 this ns hns)
theorem wimax960_single {ρ : ℝ} (h0 : 0 ≤ ρ) (h : ρ < 3 / 2) : SingleOk wimax960Checks 960 ρ :=
  singleOk_of_shared wimax960_deg (by decide +kernel) h0 h
theorem wimax960_det : (tailMatrix (rowsOf 960 wimax960Checks) 240 960).det = 1 ∨ (tailMatrix (rowsOf 960 wimax960Checks) 240 960).det = -1 :=
  det_of_cert0 wimax960_length (by norm_num) wimax960_sorted wimax960Cert (by decide +kernel)

/-! ### Gallager 96.33.964 -/

theorem gallager964_sorted : sortedChecks gallager964Checks 96 = true := sorted_of_fast (by decide +kernel)
theorem gallager964_length : gallager964Checks.length = 48 := by decide +kernel
theorem gallager964_deg : ∀ v < 96, 3 ≤ (checksOf gallager964Checks v).length := degree_of_masks (d := 2) (by decide +kernel)
theorem gallager964_rows : ∀ ns ∈ gallager964Checks, 2 ≤ ns.length := by
  have : (gallager964Checks.all fun ns => Nat.ble 2 ns.length) = true := by decide +kernel
  intro ns hns
  exact Nat.le_of_ble_eq_true (List.all_eq_true.1 this ns hns)
theorem gallager964_girth : NoFourCycle gallager964Checks := noFourCycle_of_masks (by decide +kernel)
theorem gallager964_det : (tailMatrix (rowsOf 96 gallager964Checks) 48 96).det ≠ 0 :=
  det_of_cert2 gallager964_length (by norm_num) gallager964_sorted gallager964Cert (by decide +kernel)

end Verif
