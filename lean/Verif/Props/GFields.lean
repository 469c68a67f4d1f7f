import Verif.Lemmas.GFClasses
/-
Property theorems for the Galois field class (C21 – C28).

Specification vocabulary: `toPoly n` (Lemmas/GFPoly) is the polynomial over GF(2) whose coefficients are the bits
of `n`, and `GFRing p` is GF(2)[x]/(toPoly p).
-/
namespace Verif

open Polynomial

/-- `g` is the object returned by `GF(numpy.array(l), m)`. -/
def IsGF (m : Nat) (l : List Nat) (g : GF) : Prop := GF.init (.arr l) m = .ok g

theorem isGF_iff {m : Nat} (hm : m ≤ 16) {l : List Nat} (hl : l ≠ []) {g : GF} :
    IsGF m l g ↔ g = ⟨m, primpolyArray.getD m 0, some l⟩ := by
  unfold IsGF
  rw [GF.init_arr hm hl]
  constructor
  · intro h; cases h; rfl
  · rintro rfl; rfl

/-- C21. Addition is element-wise polynomial addition over GF(2) and stays in the field. -/
theorem C21_add {m : Nat} (hm : m ≤ 16) {a b : List Nat} (ha : a ≠ []) (hl : a.length = b.length) {g h : GF}
    (hg : IsGF m a g) (hh : IsGF m b h) :
    ∃ s, (∃ k, g.add h = .ok k ∧ IsGF m s k) ∧ s.length = a.length ∧
      (∀ i, i < a.length → toPoly (s.getD i 0) = toPoly (a.getD i 0) + toPoly (b.getD i 0)) ∧
      ((∀ x ∈ a, x < 2 ^ m) → (∀ x ∈ b, x < 2 ^ m) → ∀ x ∈ s, x < 2 ^ m) := by
  have hb : b ≠ [] := by rintro rfl; apply ha; exact List.length_eq_zero_iff.1 (by simpa using hl)
  rw [isGF_iff hm ha] at hg
  rw [isGF_iff hm hb] at hh
  subst hg hh
  have hs : (List.zipWith (· ^^^ ·) a b) ≠ [] := by
    intro h
    have := congrArg List.length h
    simp only [List.length_zipWith, List.length_nil] at this
    have h0 := List.length_pos_iff.2 ha
    omega
  refine ⟨List.zipWith (· ^^^ ·) a b, ⟨_, ?_, (isGF_iff hm hs).2 rfl⟩, by simp [hl], ?_, ?_⟩
  · simp only [GF.add, GF.elems, bind, Except.bind, hl, if_true, GF.init_arr hm hs]
  · intro i hi
    rw [← toPoly_xor]
    congr 1
    have hi2 : i < b.length := hl ▸ hi
    simp [List.getD_eq_getElem?_getD, List.getElem?_zipWith, hi, hi2]
  · intro h1 h2 x hx
    obtain ⟨i, hi, rfl⟩ := List.getElem_of_mem hx
    simp only [List.length_zipWith] at hi
    rw [List.getElem_zipWith]
    exact Nat.xor_lt_two_pow (h1 _ (List.getElem_mem _)) (h2 _ (List.getElem_mem _))

/-- C21. Addition is commutative and associative, every object is its own negative, and a shape mismatch raises
ValueError. -/
theorem C21_add_laws {m : Nat} (hm : m ≤ 16) {a b c : List Nat} (ha : a ≠ []) (hb : b ≠ []) (hc : c ≠ []) {g h k : GF}
    (hg : IsGF m a g) (hh : IsGF m b h) (hk : IsGF m c k) :
    g.add h = h.add g ∧
    (a.length = b.length → b.length = c.length →
      (g.add h).bind (fun s => s.add k) = (h.add k).bind (fun s => g.add s)) ∧
    (∃ z, g.add g = .ok z ∧ IsGF m (List.replicate a.length 0) z) ∧
    (a.length ≠ b.length → g.add h = .error .valueError) := by
  rw [isGF_iff hm ha] at hg
  rw [isGF_iff hm hb] at hh
  rw [isGF_iff hm hc] at hk
  subst hg hh hk
  have key : ∀ {x y : List Nat}, x ≠ [] → x.length = y.length →
      GF.add ⟨m, primpolyArray.getD m 0, some x⟩ ⟨m, primpolyArray.getD m 0, some y⟩ =
        .ok ⟨m, primpolyArray.getD m 0, some (List.zipWith (· ^^^ ·) x y)⟩ := by
    intro x y hx hxy
    have hs : (List.zipWith (· ^^^ ·) x y) ≠ [] := by
      intro h
      have := congrArg List.length h
      simp only [List.length_zipWith, List.length_nil] at this
      have h0 := List.length_pos_iff.2 hx
      omega
    simp only [GF.add, GF.elems, bind, Except.bind, hxy, if_true, GF.init_arr hm hs]
  have hz : ∀ {x y : List Nat}, x ≠ [] → x.length = y.length → List.zipWith (· ^^^ ·) x y ≠ [] := by
    intro x y hx hxy h
    have := congrArg List.length h
    simp only [List.length_zipWith, List.length_nil] at this
    have h0 := List.length_pos_iff.2 hx
    omega
  refine ⟨?_, ?_, ?_, ?_⟩
  · by_cases hl : a.length = b.length
    · rw [key ha hl, key hb hl.symm, List.zipWith_comm]
      simp only [Nat.xor_comm]
    · simp only [GF.add, GF.elems, bind, Except.bind, hl, if_false, Ne.symm hl]
  · intro h1 h2
    rw [key ha h1, key hb h2]
    simp only [Except.bind]
    rw [key (hz ha h1) (by simp [h1, h2]), key ha (by simp [h1, h2])]
    congr 3
    apply List.ext_getElem
    · simp [h1, h2]
    · intro i _ _
      simp [Nat.xor_assoc]
  · refine ⟨_, key ha rfl, ?_⟩
    rw [isGF_iff hm (by simp; exact ha)]
    congr 2
    apply List.ext_getElem
    · simp
    · intro i _ _; simp
  · intro hl
    simp only [GF.add, GF.elems, bind, Except.bind, hl, if_false]

example : ∃ g h, IsGF 4 [3, 9] g ∧ IsGF 4 [5, 9] h ∧ (g.add h).map GF.elements = .ok (some [6, 0]) := by
  refine ⟨_, _, rfl, rfl, ?_⟩; decide +kernel

/-- C22. For 1 ≤ m ≤ 16 the product of field elements is the remainder of the product of their polynomials modulo
the field polynomial (of degree m), and is again a field element. -/
theorem C22_mul {m : Nat} (h1 : 1 ≤ m) (h2 : m ≤ 16) {a b : List Nat} (ha : a ≠ []) (hl : a.length = b.length)
    (hae : ∀ x ∈ a, x < 2 ^ m) (hbe : ∀ x ∈ b, x < 2 ^ m) {g h : GF} (hg : IsGF m a g) (hh : IsGF m b h) :
    (toPoly g.primPoly).natDegree = m ∧
    ∃ s, (∃ k, g.mul h = .ok k ∧ IsGF m s k) ∧ s.length = a.length ∧ (∀ x ∈ s, x < 2 ^ m) ∧
      ∀ i, i < a.length → toPoly (s.getD i 0) = (toPoly (a.getD i 0) * toPoly (b.getD i 0)) %ₘ toPoly g.primPoly := by
  have hb : b ≠ [] := by rintro rfl; apply ha; exact List.length_eq_zero_iff.1 (by simpa using hl)
  rw [isGF_iff h2 ha] at hg
  rw [isGF_iff h2 hb] at hh
  subst hg hh
  have hp := (tableRow h1 h2).isModulus
  refine ⟨by rw [toPoly_natDegree hp.ne_zero, hp.deg], List.zipWith (mulE m (primpolyArray.getD m 0)) a b, ⟨_, gf_mul_ok h1 h2 hae hbe ha hl, ?_⟩,
    by simp [hl], ?_, ?_⟩
  · rw [isGF_iff h2]
    intro h
    have := congrArg List.length h
    simp only [List.length_zipWith, List.length_nil] at this
    have h0 := List.length_pos_iff.2 ha
    omega
  · intro x hx
    obtain ⟨i, hi, rfl⟩ := List.getElem_of_mem hx
    simp only [List.length_zipWith] at hi
    rw [List.getElem_zipWith]
    exact (mulE_spec hp (hae _ (List.getElem_mem _)) (hbe _ (List.getElem_mem _))).2.1
  · intro i hi
    have hi2 : i < b.length := hl ▸ hi
    have h3 := hae _ (List.getElem_mem hi)
    have h4 := hbe _ (List.getElem_mem hi2)
    obtain ⟨r, h5, h6, h7⟩ := polymultiply_spec hp.pos hp.deg h3 h4
    have h8 : r = mulE m (primpolyArray.getD m 0) a[i] b[i] := by
      have := (mulE_spec hp h3 h4).1
      rw [h5] at this; cases this; rfl
    simp only [List.getD_eq_getElem?_getD, List.getElem?_zipWith, List.getElem?_eq_getElem hi, List.getElem?_eq_getElem hi2,
      Option.getD_some]
    rw [← List.getD_eq_getElem?_getD, ← h8, h7]

/-- C22. Multiplication is commutative, associative, distributes over addition and has identity 1. -/
theorem C22_mul_laws {m : Nat} (h1 : 1 ≤ m) (h2 : m ≤ 16) {a b c : List Nat} (ha : a ≠ []) (hl : a.length = b.length)
    (hl2 : b.length = c.length) (hae : ∀ x ∈ a, x < 2 ^ m) (hbe : ∀ x ∈ b, x < 2 ^ m) (hce : ∀ x ∈ c, x < 2 ^ m)
    {g h k one : GF} (hg : IsGF m a g) (hh : IsGF m b h) (hk : IsGF m c k)
    (hone : IsGF m (List.replicate a.length 1) one) :
    g.mul h = h.mul g ∧
    ((g.mul h).bind (fun s => s.mul k) = (h.mul k).bind (fun s => g.mul s)) ∧
    ((h.add k).bind (fun s => g.mul s) = (g.mul h).bind (fun u => (g.mul k).bind (fun v => u.add v))) ∧
    g.mul one = .ok g ∧ one.mul g = .ok g := by
  have hb : b ≠ [] := by rintro rfl; apply ha; exact List.length_eq_zero_iff.1 (by simpa using hl)
  have hc : c ≠ [] := by rintro rfl; apply hb; exact List.length_eq_zero_iff.1 (by simpa using hl2)
  have hl3 : a.length = c.length := hl.trans hl2
  have hr : List.replicate a.length 1 ≠ [] := by simp; exact ha
  rw [isGF_iff h2 ha] at hg
  rw [isGF_iff h2 hb] at hh
  rw [isGF_iff h2 hc] at hk
  rw [isGF_iff h2 hr] at hone
  subst hg hh hk hone
  have hp := (tableRow h1 h2).isModulus
  set p := primpolyArray.getD m 0 with hpdef
  have hadd : ∀ {x y : List Nat}, x ≠ [] → x.length = y.length →
      GF.add ⟨m, p, some x⟩ ⟨m, p, some y⟩ = .ok ⟨m, p, some (List.zipWith (· ^^^ ·) x y)⟩ := by
    intro x y hx hxy
    have hs : (List.zipWith (· ^^^ ·) x y) ≠ [] := by
      intro h
      have := congrArg List.length h
      simp only [List.length_zipWith, List.length_nil] at this
      have h0 := List.length_pos_iff.2 hx
      omega
    simp only [GF.add, GF.elems, bind, Except.bind, hxy, if_true, GF.init_arr h2 hs, ← hpdef]
  have hz : ∀ (f : Nat → Nat → Nat) {x y : List Nat}, x ≠ [] → x.length = y.length → List.zipWith f x y ≠ [] := by
    intro f x y hx hxy h
    have := congrArg List.length h
    simp only [List.length_zipWith, List.length_nil] at this
    have h0 := List.length_pos_iff.2 hx
    omega
  have hcl : ∀ {x y : List Nat}, (∀ z ∈ x, z < 2 ^ m) → (∀ z ∈ y, z < 2 ^ m) → ∀ z ∈ List.zipWith (mulE m p) x y, z < 2 ^ m := by
    intro x y hx hy z hzm
    obtain ⟨i, hi, rfl⟩ := List.getElem_of_mem hzm
    rw [List.getElem_zipWith]
    exact (mulE_spec hp (hx _ (List.getElem_mem _)) (hy _ (List.getElem_mem _))).2.1
  have hcx : ∀ {x y : List Nat}, (∀ z ∈ x, z < 2 ^ m) → (∀ z ∈ y, z < 2 ^ m) → ∀ z ∈ List.zipWith (· ^^^ ·) x y, z < 2 ^ m := by
    intro x y hx hy z hzm
    obtain ⟨i, hi, rfl⟩ := List.getElem_of_mem hzm
    rw [List.getElem_zipWith]
    exact Nat.xor_lt_two_pow (hx _ (List.getElem_mem _)) (hy _ (List.getElem_mem _))
  have hext : ∀ {x y : List Nat}, x.length = y.length → (∀ z ∈ x, z < 2 ^ m) → (∀ z ∈ y, z < 2 ^ m) →
      (∀ i (hx : i < x.length) (hy : i < y.length), gfElem p x[i] = gfElem p y[i]) → x = y := by
    intro x y hxy hx hy h
    apply List.ext_getElem hxy
    intro i hi hi2
    exact gfElem_inj hp (hx _ (List.getElem_mem _)) (hy _ (List.getElem_mem _)) (h i hi hi2)
  have h1lt : 1 < 2 ^ m := gfElem_one_lt hp
  have hre : ∀ x ∈ List.replicate a.length 1, x < 2 ^ m := by
    intro x hx; rw [List.eq_of_mem_replicate hx]; exact h1lt
  have hA : ∀ i (hi : i < a.length), a[i] < 2 ^ m := fun i hi => hae _ (List.getElem_mem hi)
  have hB : ∀ i (hi : i < b.length), b[i] < 2 ^ m := fun i hi => hbe _ (List.getElem_mem hi)
  have hC : ∀ i (hi : i < c.length), c[i] < 2 ^ m := fun i hi => hce _ (List.getElem_mem hi)
  refine ⟨?_, ?_, ?_, ?_, ?_⟩
  · rw [gf_mul_ok h1 h2 hae hbe ha hl, gf_mul_ok h1 h2 hbe hae hb hl.symm]
    congr 3
    apply hext (by simp [hl]) (hcl hae hbe) (hcl hbe hae)
    intro i hx hy
    simp only [List.length_zipWith, lt_min_iff] at hx hy
    rw [List.getElem_zipWith, List.getElem_zipWith, (mulE_spec hp (hA i hx.1) (hB i hx.2)).2.2,
      (mulE_spec hp (hB i hx.2) (hA i hx.1)).2.2, mul_comm]
  · rw [gf_mul_ok h1 h2 hae hbe ha hl, gf_mul_ok h1 h2 hbe hce hb hl2]
    simp only [Except.bind]
    rw [gf_mul_ok h1 h2 (hcl hae hbe) hce (hz _ ha hl) (by simp [hl, hl2]),
      gf_mul_ok h1 h2 hae (hcl hbe hce) ha (by simp [hl, hl2])]
    congr 3
    apply hext (by simp [hl, hl2]) (hcl (hcl hae hbe) hce) (hcl hae (hcl hbe hce))
    intro i hx hy
    simp only [List.length_zipWith, lt_min_iff] at hx hy
    have m1 := mulE_spec hp (hA i hx.1.1) (hB i hx.1.2)
    have m2 := mulE_spec hp (hB i hx.1.2) (hC i hx.2)
    simp only [List.getElem_zipWith]
    rw [(mulE_spec hp m1.2.1 (hC i hx.2)).2.2, (mulE_spec hp (hA i hx.1.1) m2.2.1).2.2, m1.2.2, m2.2.2, mul_assoc]
  · rw [hadd hb hl2, gf_mul_ok h1 h2 hae hbe ha hl, gf_mul_ok h1 h2 hae hce ha hl3]
    simp only [Except.bind]
    rw [gf_mul_ok h1 h2 hae (hcx hbe hce) ha (by simp [hl, hl2]), hadd (hz _ ha hl) (by simp [hl, hl2])]
    congr 3
    apply hext (by simp [hl, hl2]) (hcl hae (hcx hbe hce)) (hcx (hcl hae hbe) (hcl hae hce))
    intro i hx hy
    simp only [List.length_zipWith, lt_min_iff] at hx hy
    have m1 := mulE_spec hp (hA i hy.1.1) (hB i hy.1.2)
    have m2 := mulE_spec hp (hA i hy.1.1) (hC i hy.2.2)
    simp only [List.getElem_zipWith]
    rw [(mulE_spec hp (hA i hx.1) (Nat.xor_lt_two_pow (hB i hx.2.1) (hC i hx.2.2))).2.2, gfElem_xor, gfElem_xor, m1.2.2, m2.2.2, mul_add]
  · rw [gf_mul_ok h1 h2 hae hre ha (by simp)]
    congr 3
    apply hext (by simp) (hcl hae hre) hae
    intro i hx hy
    simp only [List.getElem_zipWith, List.getElem_replicate]
    rw [(mulE_spec hp (hA i hy) h1lt).2.2, gfElem_one, mul_one]
  · rw [gf_mul_ok h1 h2 hre hae hr (by simp)]
    congr 3
    apply hext (by simp) (hcl hre hae) hae
    intro i hx hy
    simp only [List.getElem_zipWith, List.getElem_replicate]
    rw [(mulE_spec hp h1lt (hA i hy)).2.2, gfElem_one, one_mul]

example : ∃ g h, IsGF 3 [6, 7, 1] g ∧ IsGF 3 [5, 7, 1] h ∧ (g.mul h).map GF.elements = .ok (some [3, 3, 1]) := by
  refine ⟨_, _, rfl, rfl, ?_⟩; decide +kernel

/-- C23. For 2 ≤ m ≤ 16 the powers of the element 2 return to 1 exactly at the multiples of 2^m - 1, and every non-zero
element is one of them (`gfPow` is repeated use of `*`). -/
theorem C23_primitive {m : Nat} (h1 : 2 ≤ m) (h2 : m ≤ 16) {one two : GF} (hone : IsGF m [1] one) (htwo : IsGF m [2] two) :
    (∀ k, gfPow one two k = .ok one ↔ (2 ^ m - 1) ∣ k) ∧
    (∀ a, 0 < a → a < 2 ^ m → ∃ k, k < 2 ^ m - 1 ∧ ∃ g, gfPow one two k = .ok g ∧ IsGF m [a] g) := by
  rw [isGF_iff h2 (by simp)] at hone htwo
  subst hone htwo
  have ht := tableRow (m := m) (by omega) h2
  have hp := ht.isModulus
  have h2lt : 2 < 2 ^ m := lt_of_lt_of_le (by norm_num) (Nat.pow_le_pow_right (by norm_num : 0 < 2) h1)
  constructor
  · intro k
    rw [gfPow_eq_iff (by omega) h2 h2lt (by omega), gfElem_two, gfElem_one, ← orderOf_dvd_iff_pow_eq_one, ht.orderOf_root]
  · intro a h0 ha
    obtain ⟨k, hk, hak⟩ := ht.exists_pow ha (by omega)
    refine ⟨k, hk, _, (gfPow_eq_iff (by omega) h2 h2lt ha k).2 ?_, (isGF_iff h2 (by simp)).2 rfl⟩
    rw [gfElem_two, hak]

/-- C23. For 1 ≤ m ≤ 16 every non-zero element has a multiplicative inverse. -/
theorem C23_inverse {m : Nat} (h1 : 1 ≤ m) (h2 : m ≤ 16) {a : Nat} (ha0 : 0 < a) (ha : a < 2 ^ m) {g : GF} (hg : IsGF m [a] g) :
    ∃ b h one, 0 < b ∧ b < 2 ^ m ∧ IsGF m [b] h ∧ IsGF m [1] one ∧ g.mul h = .ok one := by
  rw [isGF_iff h2 (by simp)] at hg
  subst hg
  have ht := tableRow h1 h2
  have hp := ht.isModulus
  obtain ⟨z, hz⟩ := ht.isField.mul_inv_cancel (a := gfElem (primpolyArray.getD m 0) a)
    (by rw [Ne, gfElem_eq_zero hp ha]; omega)
  obtain ⟨b, hb, rfl⟩ := gfElem_surj hp z
  have hb0 : b ≠ 0 := by
    rintro rfl
    rw [gfElem_zero, mul_zero, ← gfElem_zero (primpolyArray.getD m 0), ← gfElem_one (primpolyArray.getD m 0)] at hz
    have := gfElem_inj hp (by positivity) (gfElem_one_lt hp) hz
    omega
  refine ⟨b, _, _, by omega, hb, (isGF_iff h2 (by simp)).2 rfl, (isGF_iff h2 (by simp)).2 rfl, ?_⟩
  rw [gf_mul_ok h1 h2 (by simpa using ha) (by simpa using hb) (by simp) (by simp)]
  obtain ⟨h3, h4, h5⟩ := mulE_spec hp ha hb
  have : mulE m (primpolyArray.getD m 0) a b = 1 := by
    apply gfElem_inj hp h4 (gfElem_one_lt hp)
    rw [h5, hz, gfElem_one]
  simp only [List.zipWith_cons_cons, List.zipWith_nil_left, this]

example : ∃ g h, IsGF 3 [6] g ∧ IsGF 3 [3] h ∧ (g.mul h).map GF.elements = .ok (some [1]) := by
  refine ⟨_, _, rfl, rfl, ?_⟩; decide +kernel

/-- C24. For `y ≥ 2` the loop of `polydivide` stops (with any sufficiently large iteration allowance) and returns the
unique polynomial of smaller degree congruent to `x` modulo `y`. -/
theorem C24_polydivide (x : Nat) {y : Nat} (hy : 2 ≤ y) :
    ∃ N r, (∀ fuel, N ≤ fuel → polydivideFuel fuel x y = .ok r) ∧ (toPoly r).degree < (toPoly y).degree ∧
      (∃ q, toPoly x = q * toPoly y + toPoly r) ∧
      ∀ q' r' : (ZMod 2)[X], toPoly x = q' * toPoly y + r' → r'.degree < (toPoly y).degree → r' = toPoly r := by
  have hy0 : y ≠ 0 := by omega
  have hm := toPoly_monic hy0
  have hdeg : ∀ r, Nat.log2 r < Nat.log2 y → (toPoly r).degree < (toPoly y).degree := by
    intro r hr
    rw [degree_eq_natDegree (p := toPoly y) hm.ne_zero, toPoly_natDegree hy0]
    exact toPoly_degree_lt.2 (log2_lt_iff hr)
  have huniq : ∀ q r q' r' : (ZMod 2)[X], toPoly x = q * toPoly y + r → r.degree < (toPoly y).degree →
      toPoly x = q' * toPoly y + r' → r'.degree < (toPoly y).degree → r' = r := by
    intro q r q' r' h1 h2 h3 h4
    rw [← (div_modByMonic_unique (f := toPoly x) q r hm ⟨by rw [h1]; ring, h2⟩).2,
      ← (div_modByMonic_unique (f := toPoly x) q' r' hm ⟨by rw [h3]; ring, h4⟩).2]
  obtain ⟨r, _, h2, q, h3⟩ := polydivideFuel_spec hy x _ le_rfl
  refine ⟨Nat.log2 x + 4, r, ?_, hdeg r h2, ⟨q, by rw [h3]; ring⟩, ?_⟩
  · intro fuel hf
    obtain ⟨r', h1', h2', q', h3'⟩ := polydivideFuel_spec hy x fuel hf
    rw [h1']
    congr 1
    apply toPoly_inj
    exact huniq q _ q' _ (by rw [h3]; ring) (hdeg r h2) (by rw [h3']; ring) (hdeg r' h2')
  · intro q' r' h4 h5
    exact huniq q _ q' _ (by rw [h3]; ring) (hdeg r h2) h4 h5

/-- C24. For `y ≤ 1` the loop never stops. -/
theorem C24_polydivide_diverges (x : Nat) {y : Nat} (hy : y ≤ 1) (fuel : Nat) :
    polydivideFuel fuel x y = .error .outOfFuel := by
  unfold polydivideFuel
  have hl : Nat.log2 y = 0 := by
    have : y = 0 ∨ y = 1 := by omega
    rcases this with rfl | rfl <;> rfl
  generalize y = r at *
  suffices h : ∀ fuel x r', polydivideLoop fuel x r r' = .error .outOfFuel from h fuel x r
  intro fuel
  induction fuel with
  | zero => intro x r'; rfl
  | succ fuel ih =>
    intro x r'
    rw [polydivideLoop, if_pos (by rw [binLen_ge_iff, hl]; omega)]
    exact ih _ _

example : polydivide 99 19 = .ok 9 := by decide +kernel

/-- C25. For 1 ≤ m ≤ 16 `tuple_to_power` stops on every array of non-zero elements and returns the exponents below
2^m - 1 (powers of the residue class x of the polynomial 2). -/
theorem C25_tuple_to_power {m : Nat} (h1 : 1 ≤ m) (h2 : m ≤ 16) {a : List Nat} (hne : a ≠ []) (ha : ∀ x ∈ a, 0 < x ∧ x < 2 ^ m)
    {g : GF} (hg : IsGF m a g) :
    ∃ e, g.tupleToPower = .ok e ∧ e.length = a.length ∧ ∀ i, i < a.length → e.getD i 0 < 2 ^ m - 1 ∧
      AdjoinRoot.mk (toPoly g.primPoly) (toPoly (a.getD i 0)) = AdjoinRoot.mk (toPoly g.primPoly) (X ^ (e.getD i 0)) := by
  rw [isGF_iff h2 hne] at hg
  subst hg
  refine ⟨_, tupleToPower_ok h1 h2 (fun x hx => (ha x hx).2), by simp, ?_⟩
  intro i hi
  obtain ⟨h3, h4⟩ := ha _ (List.getElem_mem hi)
  obtain ⟨h5, h6, h7⟩ := logE_spec (tableRow h1 h2) h4 (by omega)
  simp only [List.getD_eq_getElem?_getD, List.getElem?_map, List.getElem?_eq_getElem hi, Option.map_some, Option.getD_some]
  refine ⟨by simpa only [List.getD_eq_getElem?_getD] using h6, ?_⟩
  rw [map_pow, AdjoinRoot.mk_X]
  simpa only [List.getD_eq_getElem?_getD, gfElem] using h7

/-- C25 (partial: exponents up to 62). `power_to_tuple` inverts `tuple_to_power` on elements whose exponent is at most
62 — every non-zero element when m ≤ 6 — and conversely.  Missing: exponents ≥ 63, for which it is false, see
`C25_power_to_tuple_refuted`. -/
theorem C25_roundtrip_partial {m : Nat} (h1 : 1 ≤ m) (h2 : m ≤ 16) :
    (∀ (a : List Nat) (g : GF), a ≠ [] → (∀ x ∈ a, 0 < x ∧ x < 2 ^ m) → IsGF m a g →
      ∀ e, g.tupleToPower = .ok e → (∀ i ∈ e, i ≤ 62) → ∀ ge, IsGF m e ge → ge.powerToTuple = .ok (a.map Int.ofNat)) ∧
    (∀ (e : List Nat) (ge : GF), e ≠ [] → (∀ i ∈ e, i < 2 ^ m - 1 ∧ i ≤ 62) → IsGF m e ge →
      ∃ a : List Nat, ge.powerToTuple = .ok (a.map Int.ofNat) ∧ (∀ x ∈ a, 0 < x ∧ x < 2 ^ m) ∧
        ∀ g, IsGF m a g → g.tupleToPower = .ok e) ∧
    (m ≤ 6 → ∀ i, i < 2 ^ m - 1 → i ≤ 62) := by
  have ht := tableRow h1 h2
  have hp := ht.isModulus
  set p := primpolyArray.getD m 0 with hpd
  have key : ∀ i, i < 2 ^ m - 1 → i ≤ 62 → ∃ r : Nat, (if int64Pow2 i < 2 ^ m then (.ok (int64Pow2 i) : Py Int)
      else (polydivide (int64Pow2 i).toNat p).map Int.ofNat) = .ok (r : Int) ∧ 0 < r ∧ r < 2 ^ m ∧ logE m p r = i ∧
      gfElem p r = AdjoinRoot.root (toPoly p) ^ i := by
    intro i hi hi2
    obtain ⟨r, h3, h4, h5⟩ := powerToTuple_elem hp hi2
    have hr0 : r ≠ 0 := by
      rintro rfl
      have h6 : AdjoinRoot.root (toPoly p) ^ (i * (2 ^ m - 1)) = 1 := by
        rw [← ht.orderOf_root, mul_comm, pow_mul, pow_orderOf_eq_one, one_pow]
      have hlt := gfElem_one_lt hp
      rw [pow_mul, ← h5, gfElem_zero, zero_pow (by omega)] at h6
      have h7 : gfElem p 0 = gfElem p 1 := by simpa using h6
      have := gfElem_inj hp (by positivity) hlt h7
      omega
    refine ⟨r, h3, by omega, h4, ?_, h5⟩
    obtain ⟨_, h6, h7⟩ := logE_spec ht h4 hr0
    rw [h5] at h7
    have ho := ht.orderOf_root
    exact (pow_injOn_Iio_orderOf (by simp [ho]; omega) (by simp [ho]; omega) h7).symm
  refine ⟨?_, ?_, ?_⟩
  · intro a g hne ha hg e he hle ge hge
    rw [isGF_iff h2 hne, ← hpd] at hg
    subst hg
    rw [tupleToPower_ok h1 h2 (fun x hx => (ha x hx).2)] at he
    cases he
    rw [isGF_iff h2 (by simpa using hne)] at hge
    subst hge
    simp only [GF.powerToTuple, GF.elems, bind, Except.bind, List.mapM_map]
    apply mapM_ok
    intro x hx
    have hx2 := (ha x hx).2
    obtain ⟨r, h3, h4, h5, h6, h7⟩ := key (logE m p x) (logE_spec ht hx2 (by have := (ha x hx).1; omega)).2.1
      (hle _ (by simp only [List.mem_map]; exact ⟨x, hx, rfl⟩))
    simp only [Function.comp, ← hpd]
    rw [h3]
    congr 2
    apply gfElem_inj hp h5 hx2
    rw [h7, ← (logE_spec ht hx2 (by have := (ha x hx).1; omega)).2.2]
  · intro e ge hne he hge
    rw [isGF_iff h2 hne, ← hpd] at hge
    subst hge
    choose! f hf using key
    refine ⟨e.map f, ?_, ?_, ?_⟩
    · simp only [GF.powerToTuple, GF.elems, bind, Except.bind, List.map_map]
      apply mapM_ok
      intro i hi
      rw [(hf i (he i hi).1 (he i hi).2).1]; rfl
    · intro x hx
      obtain ⟨i, hi, rfl⟩ := List.mem_map.1 hx
      have := hf i (he i hi).1 (he i hi).2
      exact ⟨this.2.1, this.2.2.1⟩
    · intro g hg
      rw [isGF_iff h2 (by simpa using hne)] at hg
      subst hg
      rw [tupleToPower_ok h1 h2]
      · congr 1
        rw [List.map_map]
        conv_rhs => rw [← List.map_id e]
        apply List.map_congr_left
        intro i hi
        exact (hf i (he i hi).1 (he i hi).2).2.2.2.1
      · intro x hx
        obtain ⟨i, hi, rfl⟩ := List.mem_map.1 hx
        exact (hf i (he i hi).1 (he i hi).2).2.2.1
  · intro hm i hi
    have : 2 ^ m ≤ 2 ^ 6 := Nat.pow_le_pow_right (by norm_num) hm
    omega

/-- C25 refuted for 7 ≤ m ≤ 16: `2**i` is computed in int64, so exponents 64 .. 2^m - 2 all come back as the zero element. -/
theorem C25_power_to_tuple_refuted {m : Nat} (h1 : 7 ≤ m) (h2 : m ≤ 16) {i : Nat} (hi : 64 ≤ i) (hi2 : i < 2 ^ m - 1) :
    ∃ a, 0 < a ∧ a < 2 ^ m ∧ ∃ g, IsGF m [a] g ∧ g.tupleToPower = .ok [i] ∧
      ∃ ge, IsGF m [i] ge ∧ ge.powerToTuple = .ok [0] := by
  have ht := tableRow (m := m) (by omega) h2
  have hp := ht.isModulus
  set p := primpolyArray.getD m 0 with hpd
  obtain ⟨a, ha, hae⟩ := gfElem_surj hp (AdjoinRoot.root (toPoly p) ^ i)
  have hlt := gfElem_one_lt hp
  have ha0 : a ≠ 0 := by
    rintro rfl
    have h6 : AdjoinRoot.root (toPoly p) ^ (i * (2 ^ m - 1)) = 1 := by
      rw [← ht.orderOf_root, mul_comm, pow_mul, pow_orderOf_eq_one, one_pow]
    rw [pow_mul, ← hae, gfElem_zero, zero_pow (by omega)] at h6
    have h7 : gfElem p 0 = gfElem p 1 := by simpa using h6
    have := gfElem_inj hp (by positivity) hlt h7
    omega
  have hlog : logE m p a = i := by
    obtain ⟨_, h6, h7⟩ := logE_spec ht ha ha0
    rw [hae] at h7
    have ho := ht.orderOf_root
    exact (pow_injOn_Iio_orderOf (by simp [ho]; omega) (by simp [ho]; omega) h7).symm
  refine ⟨a, by omega, ha, _, (isGF_iff h2 (by simp)).2 rfl, ?_, _, (isGF_iff h2 (by simp)).2 rfl, ?_⟩
  · rw [tupleToPower_ok (by omega) h2 (by simpa using ha)]
    simp only [List.map_cons, List.map_nil, ← hpd, hlog]
  · have : int64Pow2 i = 0 := by unfold int64Pow2; rw [if_neg (by omega), if_neg (by omega)]
    simp [GF.powerToTuple, GF.elems, bind, Except.bind, this, pure, Except.pure]

example : ∃ g, IsGF 6 [1, 3, 60] g ∧ g.tupleToPower = .ok [0, 6, 20] := by
  refine ⟨_, rfl, ?_⟩; decide +kernel

/-- C26. For 1 ≤ m ≤ 16 `order()` of a non-zero element is the least e ≥ 1 with a^e = 1. -/
theorem C26_order {m : Nat} (h1 : 1 ≤ m) (h2 : m ≤ 16) {a : List Nat} (hne : a ≠ []) (ha : ∀ x ∈ a, 0 < x ∧ x < 2 ^ m)
    {g one : GF} (hg : IsGF m a g) (hone : IsGF m [1] one) :
    ∃ o, g.order = .ok o ∧ o.length = a.length ∧ ∀ i, i < a.length → ∀ x, IsGF m [a.getD i 0] x →
      IsLeast {e | 1 ≤ e ∧ gfPow one x e = .ok one} (o.getD i 0) := by
  rw [isGF_iff h2 hne] at hg
  rw [isGF_iff h2 (by simp)] at hone
  subst hg hone
  have ht := tableRow h1 h2
  have hp := ht.isModulus
  have hlt := gfElem_one_lt hp
  set p := primpolyArray.getD m 0 with hpd
  have hgcd : ∀ i, Nat.gcd i (2 ^ m - 1) ≠ 0 := fun i => by
    rw [Ne, Nat.gcd_eq_zero_iff]; omega
  refine ⟨a.map (fun x => (2 ^ m - 1) / Nat.gcd (logE m p x) (2 ^ m - 1)), ?_, by simp, ?_⟩
  · rw [GF.order, tupleToPower_ok h1 h2 (fun x hx => (ha x hx).2)]
    simp only [bind, Except.bind, List.mapM_map]
    apply mapM_ok
    intro x _
    simp only [Function.comp, ← hpd]
    rw [if_neg (hgcd _)]
  · intro i hi x hx
    rw [isGF_iff h2 (by simp), ← hpd] at hx
    subst hx
    obtain ⟨h3, h4⟩ := ha _ (List.getElem_mem hi)
    obtain ⟨_, h6, h7⟩ := logE_spec ht h4 (by omega)
    have hgi : a.getD i 0 = a[i] := List.getD_eq_getElem _ _ hi
    have ho : (a.map (fun x => (2 ^ m - 1) / Nat.gcd (logE m p x) (2 ^ m - 1))).getD i 0 = orderOf (gfElem p a[i]) := by
      rw [List.getD_eq_getElem _ _ (by simpa using hi), List.getElem_map, h7]
      have : orderOf (AdjoinRoot.root (toPoly p) ^ logE m p a[i]) =
          orderOf (AdjoinRoot.root (toPoly p)) / Nat.gcd (orderOf (AdjoinRoot.root (toPoly p))) (logE m p a[i]) := by
        apply IsOfFinOrder.orderOf_pow
        rw [← orderOf_pos_iff, ht.orderOf_root]; omega
      rw [this, ht.orderOf_root, Nat.gcd_comm]
    rw [ho, hgi]
    have hiff : ∀ e, gfPow ⟨m, p, some [1]⟩ ⟨m, p, some [a[i]]⟩ e = .ok ⟨m, p, some [1]⟩ ↔ gfElem p a[i] ^ e = 1 := by
      intro e
      rw [gfPow_eq_iff h1 h2 h4 hlt, gfElem_one]
    have hpos : 0 < orderOf (gfElem p a[i]) := by
      rw [orderOf_pos_iff, isOfFinOrder_iff_pow_eq_one]
      refine ⟨2 ^ m - 1, by omega, ?_⟩
      rw [h7, ← pow_mul, mul_comm, pow_mul, ← ht.orderOf_root, pow_orderOf_eq_one, one_pow]
    constructor
    · exact ⟨hpos, (hiff _).2 (pow_orderOf_eq_one _)⟩
    · rintro e ⟨he1, he2⟩
      exact orderOf_le_of_pow_eq_one he1 ((hiff e).1 he2)

example : ∃ g, IsGF 4 [1, 2, 6, 8] g ∧ g.order = .ok [1, 15, 3, 5] := by
  refine ⟨_, rfl, ?_⟩; decide +kernel

/-- C27. For 1 ≤ m ≤ 16 and an array of distinct field elements `cosets()` terminates, its classes are non-empty sub-arrays
that partition the elements, and two elements share a class exactly when one is the other raised to a power 2^t. -/
theorem C27_cosets {m : Nat} (h1 : 1 ≤ m) (h2 : m ≤ 16) {l : List Nat} (hne : l ≠ []) (hn : l.Nodup) (hl : ∀ x ∈ l, x < 2 ^ m)
    {g one : GF} (hg : IsGF m l g) (hone : IsGF m [1] one) :
    ∃ cs, g.cosets = .ok cs ∧ (∀ c ∈ cs, c ≠ [] ∧ c.Sublist l) ∧
      (∀ a ∈ l, (cs.filter (fun c => a ∈ c)).length = 1) ∧
      ∀ a ∈ l, ∀ b ∈ l, ∀ ga gb, IsGF m [a] ga → IsGF m [b] gb →
        ((∃ c ∈ cs, a ∈ c ∧ b ∈ c) ↔ ∃ t, gfPow one ga (2 ^ t) = .ok gb) := by
  rw [isGF_iff h2 hne] at hg
  rw [isGF_iff h2 (by simp)] at hone
  subst hg hone
  obtain ⟨cs, h3, h4, h5, h6⟩ := cosets_classes h1 h2 hn hl
  refine ⟨cs, h3, h4, ?_, ?_⟩
  · intro a ha
    obtain ⟨c, _, _, hf⟩ := h5 a ha
    rw [hf]; rfl
  · intro a ha b hb ga gb hga hgb
    rw [isGF_iff h2 (by simp)] at hga hgb
    subst hga hgb
    simp only [gfPow_eq_iff h1 h2 (hl a ha) (hl b hb)]
    constructor
    · rintro ⟨c, hc, hac, hbc⟩
      exact (h6 c hc a hac b hb).1 hbc
    · intro ht
      obtain ⟨c, hc, hac, _⟩ := h5 a ha
      exact ⟨c, hc, hac, (h6 c hc a hac b hb).2 ht⟩

example : ∃ g, IsGF 3 [0, 1, 2, 3, 4, 5, 6, 7] g ∧ g.cosets = .ok [[0], [1], [2, 4, 6], [3, 5, 7]] := by
  refine ⟨_, rfl, ?_⟩; decide +kernel

/-- C28. For 1 ≤ m ≤ 16 `minpolys()` returns, for every field element of the array, its minimal polynomial over GF(2):
a non-zero binary polynomial that vanishes at the element and divides every binary polynomial that does. -/
theorem C28_minpolys {m : Nat} (h1 : 1 ≤ m) (h2 : m ≤ 16) {l : List Nat} (hne : l ≠ []) (hl : ∀ x ∈ l, x < 2 ^ m)
    {g : GF} (hg : IsGF m l g) :
    ∃ r : List Nat, g.minpolys = .ok r ∧ r.length = l.length ∧
      ∀ i (hi : i < l.length) (hr : i < r.length), toPoly r[i] ≠ 0 ∧
        aeval (AdjoinRoot.mk (toPoly g.primPoly) (toPoly l[i])) (toPoly r[i]) = 0 ∧
        ∀ f : (ZMod 2)[X], aeval (AdjoinRoot.mk (toPoly g.primPoly) (toPoly l[i])) f = 0 → toPoly r[i] ∣ f := by
  rw [isGF_iff h2 hne] at hg
  subst hg
  obtain ⟨r, h3, h4, h5⟩ := minpolys_ok h1 h2 hl
  refine ⟨r, h3, h4, ?_⟩
  intro i hi hr
  obtain ⟨h6, h7, h8⟩ := h5 i hi hr
  exact ⟨by rw [Ne, toPoly_eq_zero]; exact h6, h7, h8⟩

example : ∃ g, IsGF 4 [0, 1, 2, 3, 6, 9] g ∧ g.minpolys = .ok [2, 3, 19, 19, 7, 25] := by
  refine ⟨_, rfl, ?_⟩; decide +kernel

end Verif
