import Mathlib.Data.List.GetD
import Verif.Model.Distance
import Verif.Lemmas.Sphere

/-
Properties C70 and C80: distance transforms and growing and shrinking masks.
-/
namespace Pixell

variable {α : Type} [LinearOrder α]

/-! ### Great-circle distances -/

/-- distances_core.c dist_vincenty_helper, lines 134-144 (and the same formula in lines 70-77), with the C library's
`atan2(y,x)` as the argument of the complex number `x + iy`. -/
noncomputable def vincenty (ra1 dec1 ra2 dec2 : ℝ) : ℝ :=
  let dra := ra2 - ra1
  let y1 := Real.cos dec1 * Real.sin dra
  let y2 := Real.cos dec2 * Real.sin dec1 - Real.sin dec2 * Real.cos dec1 * Real.cos dra
  let y := Real.sqrt (y1 * y1 + y2 * y2)
  let x := Real.sin dec2 * Real.sin dec1 + Real.cos dec2 * Real.cos dec1 * Real.cos dra
  Complex.arg ⟨x, y⟩

/-- C80: the distances are the angles between the unit vectors, for all pairs of positions. -/
theorem C80_vincenty (ra1 dec1 ra2 dec2 : ℝ) : vincenty ra1 dec1 ra2 dec2 = sphAngle dec1 ra1 dec2 ra2 := by
  unfold vincenty
  simp only
  have hx : Real.sin dec2 * Real.sin dec1 + Real.cos dec2 * Real.cos dec1 * Real.cos (ra2 - ra1) = sphDot dec1 ra1 dec2 ra2 := by
    rw [sphDot_eq, show ra1 - ra2 = -(ra2 - ra1) by ring, Real.cos_neg]; ring
  have hsq := sphDot_sq dec1 ra1 dec2 ra2
  rw [hx]
  set x := sphDot dec1 ra1 dec2 ra2 with hxd
  have hb := sphDot_bounds dec1 ra1 dec2 ra2
  rw [← hxd] at hb
  have hy : Real.sqrt (Real.cos dec1 * Real.sin (ra2 - ra1) * (Real.cos dec1 * Real.sin (ra2 - ra1)) +
      (Real.cos dec2 * Real.sin dec1 - Real.sin dec2 * Real.cos dec1 * Real.cos (ra2 - ra1)) *
      (Real.cos dec2 * Real.sin dec1 - Real.sin dec2 * Real.cos dec1 * Real.cos (ra2 - ra1))) = Real.sin (Real.arccos x) := by
    rw [Real.sin_arccos]
    congr 1
    linarith [hsq]
  rw [hy]
  have e : (⟨x, Real.sin (Real.arccos x)⟩ : ℂ) = Complex.cos (Real.arccos x) + Complex.sin (Real.arccos x) * Complex.I := by
    apply Complex.ext
    · simp [← Complex.ofReal_cos, ← Complex.ofReal_sin, Real.cos_arccos hb.1 hb.2]
    · simp [← Complex.ofReal_cos, ← Complex.ofReal_sin]
  rw [e, Complex.arg_cos_add_sin_mul_I ⟨by linarith [Real.arccos_nonneg x, Real.pi_pos], Real.arccos_le_pi x⟩]
  rfl

/-! ### The edge of a mask -/

/-- A mask whose values fill its shape, not empty. -/
structure Mask.Ok (m : Mask) : Prop where
  len : m.val.length = m.ny * m.nx
  ny_pos : 0 < m.ny
  nx_pos : 0 < m.nx

/-- Value at row `y`, column `x`. -/
def Mask.at (m : Mask) (y x : Nat) : Bool := m.get (y * m.nx + x)

theorem flat_inj {nx y x y' x' : Nat} (hx : x < nx) (hx' : x' < nx) (h : y * nx + x = y' * nx + x') : y = y' ∧ x = x' := by
  have h1 : (y * nx + x) / nx = y := by
    rw [Nat.mul_comm, Nat.mul_add_div (by omega), Nat.div_eq_of_lt hx]; omega
  have h2 : (y' * nx + x') / nx = y' := by
    rw [Nat.mul_comm, Nat.mul_add_div (by omega), Nat.div_eq_of_lt hx']; omega
  have : y = y' := by rw [← h1, ← h2, h]
  subst this
  exact ⟨rfl, by omega⟩

theorem flat_div {nx y x : Nat} (hx : x < nx) : (y * nx + x) / nx = y ∧ (y * nx + x) % nx = x := by
  constructor
  · rw [Nat.mul_comm, Nat.mul_add_div (by omega), Nat.div_eq_of_lt hx]; omega
  · rw [Nat.mul_comm, Nat.mul_add_mod, Nat.mod_eq_of_lt hx]

theorem flat_lt {ny nx y x : Nat} (hy : y < ny) (hx : x < nx) : y * nx + x < ny * nx := by
  have h : (y + 1) * nx ≤ ny * nx := Nat.mul_le_mul_right nx hy
  have : (y + 1) * nx = y * nx + nx := by ring
  omega

/-- C80: the edge pixels are exactly the False pixels on the border of the map or next to a True pixel. -/
theorem C80_edges (m : Mask) (hm : m.Ok) (y x : Nat) (hy : y < m.ny) (hx : x < m.nx) :
    y * m.nx + x ∈ findEdges m ↔ m.at y x = false ∧ (y = 0 ∨ y + 1 = m.ny ∨ x = 0 ∨ x + 1 = m.nx ∨
      m.at y (x - 1) = true ∨ m.at y (x + 1) = true ∨ m.at (y - 1) x = true ∨ m.at (y + 1) x = true) := by
  have hnx := hm.nx_pos
  have hny := hm.ny_pos
  unfold findEdges Mask.at
  simp only [List.mem_append, List.mem_filter, List.mem_range, List.mem_map, List.mem_flatMap, Bool.not_eq_eq_eq_not,
    Bool.not_true, Bool.and_eq_true, Bool.or_eq_true]
  constructor
  · rintro ((((⟨h, hv⟩ | ⟨⟨x', hx', h⟩, hv⟩) | ⟨⟨y', hy', h⟩, hv⟩) | ⟨⟨y', hy', h⟩, hv⟩) | ⟨y', hy', ⟨x', hx', h⟩, hv, hn⟩)
    · refine ⟨hv, Or.inl ?_⟩
      rcases Nat.eq_zero_or_pos y with h0 | h0
      · exact h0
      · exfalso
        have := Nat.mul_le_mul_right m.nx h0
        omega
    · obtain ⟨e1, e2⟩ := flat_inj hx' hx h
      exact ⟨hv, Or.inr (Or.inl (by omega))⟩
    · obtain ⟨e1, e2⟩ := flat_inj (x := 0) hnx hx (by simpa using h)
      exact ⟨hv, Or.inr (Or.inr (Or.inl e2.symm))⟩
    · obtain ⟨e1, e2⟩ := flat_inj (by omega) hx h
      exact ⟨hv, Or.inr (Or.inr (Or.inr (Or.inl (by omega))))⟩
    · obtain ⟨e1, e2⟩ := flat_inj (by omega) hx h
      subst e1 e2
      refine ⟨hv, Or.inr (Or.inr (Or.inr (Or.inr ?_)))⟩
      have i1 : (y' + 1) * m.nx + (x' + 1) - 1 = (y' + 1) * m.nx + (x' + 1 - 1) := by omega
      have i2 : (y' + 1) * m.nx + (x' + 1) - m.nx = (y' + 1 - 1) * m.nx + (x' + 1) := by
        have : (y' + 1) * m.nx = y' * m.nx + m.nx := by ring
        rw [Nat.add_sub_cancel]; omega
      have i3 : (y' + 1) * m.nx + (x' + 1) + m.nx = (y' + 1 + 1) * m.nx + (x' + 1) := by ring
      rw [i1, i2, i3] at hn
      rcases hn with ((h1 | h1) | h1) | h1
      · exact Or.inl h1
      · exact Or.inr (Or.inl h1)
      · exact Or.inr (Or.inr (Or.inl h1))
      · exact Or.inr (Or.inr (Or.inr h1))
  · rintro ⟨hv, h⟩
    by_cases b1 : y = 0
    · left; left; left; left
      exact ⟨by subst b1; omega, hv⟩
    by_cases b2 : y + 1 = m.ny
    · left; left; left; right
      exact ⟨⟨x, hx, by rw [show m.ny - 1 = y by omega]⟩, hv⟩
    by_cases b3 : x = 0
    · left; left; right
      refine ⟨⟨y - 1, by omega, ?_⟩, hv⟩
      rw [show y - 1 + 1 = y by omega, b3]; rfl
    by_cases b4 : x + 1 = m.nx
    · left; right
      exact ⟨⟨y, hy, by rw [show m.nx - 1 = x by omega]⟩, hv⟩
    right
    refine ⟨y - 1, by omega, ⟨x - 1, by omega, ?_⟩, hv, ?_⟩
    · rw [show y - 1 + 1 = y by omega, show x - 1 + 1 = x by omega]
    have i1 : y * m.nx + x - 1 = y * m.nx + (x - 1) := by omega
    have i2 : y * m.nx + x - m.nx = (y - 1) * m.nx + x := by
      obtain ⟨z, rfl⟩ : ∃ z, y = z + 1 := ⟨y - 1, by omega⟩
      have : (z + 1) * m.nx = z * m.nx + m.nx := by ring
      rw [Nat.add_sub_cancel]; omega
    have i3 : y * m.nx + x + m.nx = (y + 1) * m.nx + x := by ring
    rw [i1, i2, i3]
    rcases h with h | h | h | h | h | h | h | h
    · exact absurd h b1
    · exact absurd h b2
    · exact absurd h b3
    · exact absurd h b4
    · exact Or.inl (Or.inl (Or.inl h))
    · exact Or.inl (Or.inl (Or.inr h))
    · exact Or.inl (Or.inr h)
    · exact Or.inr h

theorem findEdges_lt (m : Mask) (hm : m.Ok) (q : Nat) (hq : q ∈ findEdges m) : q < m.ny * m.nx := by
  have hnx := hm.nx_pos
  have hny := hm.ny_pos
  unfold findEdges at hq
  simp only [List.mem_append, List.mem_filter, List.mem_range, List.mem_map, List.mem_flatMap] at hq
  rcases hq with (((⟨h, -⟩ | ⟨⟨x', hx', h⟩, -⟩) | ⟨⟨y', hy', h⟩, -⟩) | ⟨⟨y', hy', h⟩, -⟩) | ⟨y', hy', ⟨x', hx', h⟩, -⟩
  · have := flat_lt (nx := m.nx) hny (show q < m.nx from h)
    omega
  · rw [← h]; exact flat_lt (by omega) hx'
  · rw [← h]
    have := flat_lt (ny := m.ny) (nx := m.nx) (y := y' + 1) (x := 0) (by omega) hnx
    simpa using this
  · rw [← h]; exact flat_lt hy' (by omega)
  · rw [← h]; exact flat_lt (by omega) (by omega)

theorem findEdges_false (m : Mask) (hm : m.Ok) (q : Nat) (hq : q ∈ findEdges m) : m.get q = false := by
  have hlt := findEdges_lt m hm q hq
  have hx := Nat.mod_lt q hm.nx_pos
  have hy : q / m.nx < m.ny := Nat.div_lt_of_lt_mul (by rw [Nat.mul_comm]; exact hlt)
  have e : q / m.nx * m.nx + q % m.nx = q := Nat.div_add_mod' q m.nx
  have := (C80_edges m hm _ _ hy hx).mp (by rw [e]; exact hq)
  have h1 := this.1
  unfold Mask.at at h1
  rwa [e] at h1

/-! ### The simple method -/

/-- `v` is the smallest value of `f` on `S`. -/
def IsLeastOn (S : Nat → Prop) (f : Nat → α) (v : α) : Prop := (∃ q, S q ∧ f q = v) ∧ ∀ q, S q → v ≤ f q

theorem simpleLoop_some (dist : Nat → α) (js : List Nat) (b : α) (j : Nat) :
    ∃ b' j', simpleLoop dist js (some (b, j)) = some (b', j') ∧ b' ≤ b ∧ (∀ k ∈ js, b' ≤ dist k) ∧
      ((b', j') = (b, j) ∨ (j' ∈ js ∧ dist j' = b' ∧ b' < b)) := by
  induction js generalizing b j with
  | nil => exact ⟨b, j, rfl, le_refl _, by simp, Or.inl rfl⟩
  | cons k js ih =>
    rw [simpleLoop]
    simp only [decide_eq_true_eq]
    split_ifs with h
    · obtain ⟨b', j', e, h1, h2, h3⟩ := ih (dist k) k
      refine ⟨b', j', e, h1.trans h.le, ?_, Or.inr ?_⟩
      · intro x hx
        rcases List.mem_cons.mp hx with rfl | hx
        · exact h1
        · exact h2 x hx
      · rcases h3 with h3 | ⟨h3, h4, h5⟩
        · simp only [Prod.mk.injEq] at h3
          exact ⟨by rw [h3.2]; simp, by rw [h3.2, h3.1], by rw [h3.1]; exact h⟩
        · exact ⟨List.mem_cons_of_mem _ h3, h4, h5.trans h⟩
    · obtain ⟨b', j', e, h1, h2, h3⟩ := ih b j
      refine ⟨b', j', e, h1, ?_, ?_⟩
      · intro x hx
        rcases List.mem_cons.mp hx with rfl | hx
        · exact h1.trans (not_lt.mp h)
        · exact h2 x hx
      · rcases h3 with h3 | ⟨h3, h4, h5⟩
        · exact Or.inl h3
        · exact Or.inr ⟨List.mem_cons_of_mem _ h3, h4, h5⟩

/-- C80: method "simple" gives every pixel the smallest distance to any of the points, and a point at that distance. -/
theorem C80_simple (top : α) (n : Nat) (hn : 0 < n) (dist : Nat → α) :
    IsLeastOn (· < n) dist (distSimple top n dist).1 ∧
    ∃ j < n, (distSimple top n dist).2 = some j ∧ dist j = (distSimple top n dist).1 := by
  obtain ⟨n, rfl⟩ : ∃ k, n = k + 1 := ⟨n - 1, by omega⟩
  unfold distSimple
  rw [List.range_succ_eq_map, simpleLoop]
  simp only [if_true]
  obtain ⟨b, j, e, h1, h2, h3⟩ := simpleLoop_some dist ((List.range n).map Nat.succ) (dist 0) 0
  rw [e]
  simp only
  have hj : j < n + 1 ∧ dist j = b := by
    rcases h3 with h3 | ⟨h3, h4, h5⟩
    · simp only [Prod.mk.injEq] at h3
      rw [h3.2, h3.1]; exact ⟨by omega, rfl⟩
    · simp at h3
      exact ⟨by omega, h4⟩
  refine ⟨⟨⟨j, hj⟩, ?_⟩, j, hj.1, rfl, hj.2⟩
  intro q hq
  cases q with
  | zero => exact h1
  | succ q => exact h2 _ (by simp; omega)

/-! ### Exactness of the transform -/

/-- Distances for which from any pixel inside the map one of the four neighbours is strictly closer to any given other
pixel. `d q y x` is the distance from pixel `q` (flat) to `(y,x)`. -/
def Descent (ny nx : Nat) (d : Nat → Nat → Nat → α) : Prop :=
  ∀ y x z w, y < ny → x < nx → 0 < z → z + 1 < ny → 0 < w → w + 1 < nx → (z, w) ≠ (y, x) →
    ∃ z' w', ((z' = z ∧ (w' + 1 = w ∨ w' = w + 1)) ∨ (w' = w ∧ (z' + 1 = z ∨ z' = z + 1))) ∧
      d (z' * nx + w') y x < d (z * nx + w) y x

/-- The distances between the pixels of a cylindrical grid, by flat index of the first; zero outside the map, where nothing
is read. -/
noncomputable def CylGrid.flat (g : CylGrid) (q y x : Nat) : ℝ :=
  if q < g.ny * g.nx ∧ y < g.ny ∧ x < g.nx then g.dist (q / g.nx) (q % g.nx) y x else 0

theorem CylGrid.flat_descent (g : CylGrid) : Descent g.ny g.nx g.flat := by
  intro y x z w hy hx hz1 hz2 hw1 hw2 hne
  obtain ⟨z', w', hn, hlt⟩ := g.descent y x z w hy hx hz1 hz2 hw1 hw2 hne
  refine ⟨z', w', hn, ?_⟩
  have h1 := flat_div (nx := g.nx) (y := z) (x := w) (by omega)
  have h2 := flat_div (nx := g.nx) (y := z') (x := w') (by omega)
  unfold CylGrid.flat
  rw [if_pos ⟨flat_lt (by omega) (by omega), hy, hx⟩, if_pos ⟨flat_lt (by omega) (by omega), hy, hx⟩, h1.1, h1.2, h2.1, h2.2]
  exact hlt

/-- A closest False pixel to a True pixel is an edge pixel. -/
theorem nearest_is_edge (m : Mask) (hm : m.Ok) (d : Nat → Nat → Nat → α) (hd : Descent m.ny m.nx d) (y x : Nat)
    (hy : y < m.ny) (hx : x < m.nx) (ht : m.at y x = true) (q : Nat) (hq : q < m.ny * m.nx) (hqf : m.get q = false)
    (hmin : ∀ p < m.ny * m.nx, m.get p = false → d q y x ≤ d p y x) : q ∈ findEdges m := by
  have hw := Nat.mod_lt q hm.nx_pos
  have hz : q / m.nx < m.ny := Nat.div_lt_of_lt_mul (by rw [Nat.mul_comm]; exact hq)
  have e : q / m.nx * m.nx + q % m.nx = q := Nat.div_add_mod' q m.nx
  set z := q / m.nx
  set w := q % m.nx
  clear_value z w
  rw [← e, C80_edges m hm z w hz hw]
  refine ⟨by unfold Mask.at; rw [e]; exact hqf, ?_⟩
  by_contra hcon
  push Not at hcon
  obtain ⟨b1, b2, b3, b4, n1, n2, n3, n4⟩ := hcon
  have hne : (z, w) ≠ (y, x) := by
    intro h
    simp only [Prod.mk.injEq] at h
    unfold Mask.at at ht
    rw [← h.1, ← h.2, e, hqf] at ht
    cases ht
  obtain ⟨z', w', hn, hlt⟩ := hd y x z w hy hx (by omega) (by omega) (by omega) (by omega) hne
  rw [e] at hlt
  have hf : m.at z' w' = false ∧ z' < m.ny ∧ w' < m.nx := by
    rcases hn with ⟨rfl, h | h⟩ | ⟨rfl, h | h⟩
    · refine ⟨?_, hz, by omega⟩
      have : w' = w - 1 := by omega
      rw [this]; simpa using n1
    · exact ⟨by rw [h]; simpa using n2, hz, by omega⟩
    · refine ⟨?_, by omega, hw⟩
      have : z' = z - 1 := by omega
      rw [this]; simpa using n3
    · exact ⟨by rw [h]; simpa using n4, by omega, hw⟩
  exact absurd (hmin _ (flat_lt hf.2.1 hf.2.2) hf.1) (not_le.mpr hlt)

/-- There is an edge as soon as there is a False pixel. -/
theorem findEdges_ne_nil (m : Mask) (hm : m.Ok) (q : Nat) (hq : q < m.ny * m.nx) (hqf : m.get q = false) :
    findEdges m ≠ [] := by
  have hw := Nat.mod_lt q hm.nx_pos
  have hz : q / m.nx < m.ny := Nat.div_lt_of_lt_mul (by rw [Nat.mul_comm]; exact hq)
  have e : q / m.nx * m.nx + q % m.nx = q := Nat.div_add_mod' q m.nx
  -- walk left from `q`
  have walk : ∀ w z, z < m.ny → w < m.nx → m.at z w = false → findEdges m ≠ [] := by
    intro w
    induction w with
    | zero =>
      intro z hz hw hf
      exact List.ne_nil_of_mem ((C80_edges m hm z 0 hz hw).mpr ⟨hf, by simp⟩)
    | succ w ih =>
      intro z hz hw hf
      cases hl : m.at z w with
      | true => exact List.ne_nil_of_mem ((C80_edges m hm z (w + 1) hz hw).mpr ⟨hf, by simp [hl]⟩)
      | false => exact ih z hz (by omega) hl
  exact walk _ _ hz hw (by unfold Mask.at; rw [e]; exact hqf)

/-- The smallest of finitely many values. -/
theorem exists_least (n : Nat) (S : Nat → Prop) [DecidablePred S] (f : Nat → α) (h : ∃ q < n, S q) :
    ∃ q < n, S q ∧ ∀ p < n, S p → f q ≤ f p := by
  induction n with
  | zero => obtain ⟨q, hq, _⟩ := h; omega
  | succ n ih =>
    by_cases h1 : ∃ q < n, S q
    · obtain ⟨q, hq, hs, hmin⟩ := ih h1
      by_cases hn : S n
      · rcases le_total (f q) (f n) with hle | hle
        · refine ⟨q, by omega, hs, fun p hp hps => ?_⟩
          rcases Nat.lt_succ_iff_lt_or_eq.mp hp with h | h
          · exact hmin p h hps
          · rw [h]; exact hle
        · refine ⟨n, by omega, hn, fun p hp hps => ?_⟩
          rcases Nat.lt_succ_iff_lt_or_eq.mp hp with h | h
          · exact hle.trans (hmin p h hps)
          · rw [h]
      · refine ⟨q, by omega, hs, fun p hp hps => ?_⟩
        rcases Nat.lt_succ_iff_lt_or_eq.mp hp with h | h
        · exact hmin p h hps
        · rw [h] at hps; exact absurd hps hn
    · obtain ⟨q, hq, hs⟩ := h
      have : q = n := by
        by_contra hne
        exact h1 ⟨q, by omega, hs⟩
      subst this
      refine ⟨q, hq, hs, fun p hp hps => ?_⟩
      rcases Nat.lt_succ_iff_lt_or_eq.mp hp with h | h
      · exact absurd ⟨p, h, hps⟩ h1
      · rw [h]

theorem distanceTransform_length (zero : α) (d : Nat → Nat → Nat → α) (rmax : α) (m : Mask) (hm : m.Ok) :
    ∃ t, distanceTransform simpleMethod zero d rmax m = some t ∧ t.length = m.ny * m.nx := by
  unfold distanceTransform simpleMethod
  simp only
  split_ifs with h
  · exact ⟨_, rfl, by simp [hm.len]⟩
  · exact ⟨_, rfl, by simp [hm.len]⟩

/-- C80: with exact distances to the edge (method "simple"), the transform is, in every True pixel, the distance to the
closest False pixel, and zero in every False pixel; with no False pixel it is `rmax` everywhere. -/
theorem C80_exact (zero : α) (d : Nat → Nat → Nat → α) (rmax : α) (m : Mask) (hm : m.Ok) (hd : Descent m.ny m.nx d) :
    ∃ t, distanceTransform simpleMethod zero d rmax m = some t ∧ t.length = m.ny * m.nx ∧
      ∀ y x, y < m.ny → x < m.nx → ∃ v, t[y * m.nx + x]? = some v ∧
        (m.at y x = false → v = zero) ∧
        (m.at y x = true → (∃ q < m.ny * m.nx, m.get q = false) →
          IsLeastOn (fun q => q < m.ny * m.nx ∧ m.get q = false) (fun q => d q y x) v) ∧
        (m.at y x = true → (∀ q < m.ny * m.nx, m.get q = true) → v = rmax) := by
  obtain ⟨t, ht, htl⟩ := distanceTransform_length zero d rmax m hm
  refine ⟨t, ht, htl, ?_⟩
  intro y x hy hx
  have hp := flat_lt hy hx
  have hget : m.val[y * m.nx + x]? = some (m.at y x) := by
    unfold Mask.at Mask.get
    rw [List.getD_eq_getElem?_getD, List.getElem?_eq_getElem (by rw [hm.len]; exact hp)]
    rfl
  unfold distanceTransform simpleMethod at ht
  by_cases hE : findEdges m = []
  · rw [if_pos hE] at ht
    simp only [Option.bind_eq_bind, Option.bind_some, Option.pure_def, Option.some.injEq] at ht
    subst ht
    refine ⟨if m.at y x then rmax else zero, ?_, ?_, ?_, ?_⟩
    · rw [List.getElem?_zipWith, hget]
      simp [List.getElem?_replicate, hp]
    · intro h; rw [h]; rfl
    · rintro - ⟨q, hq, hqf⟩
      exact absurd hE (findEdges_ne_nil m hm q hq hqf)
    · intro h _; rw [h]; rfl
  · rw [if_neg hE] at ht
    simp only [Option.bind_eq_bind, Option.bind_some, Option.pure_def, Option.some.injEq] at ht
    subst ht
    set es := findEdges m with hes
    have hlen : 0 < es.length := List.length_pos_of_ne_nil hE
    have hs := C80_simple rmax es.length hlen (fun j => d (es.getD j 0) y x)
    refine ⟨if m.at y x then (distSimple rmax es.length fun j => d (es.getD j 0) y x).1 else zero, ?_, ?_, ?_, ?_⟩
    · rw [List.getElem?_zipWith, hget]
      have := flat_div (nx := m.nx) (y := y) (x := x) hx
      simp [hp, this.1, this.2]
    · intro h; rw [h]; rfl
    · intro h hex
      rw [h]
      simp only [if_true]
      obtain ⟨⟨j, hj, hjv⟩, hmin⟩ := hs.1
      have hmem : ∀ j < es.length, es.getD j 0 ∈ es := by
        intro j hj
        rw [List.getD_eq_getElem _ _ hj]; exact List.getElem_mem hj
      refine ⟨⟨es.getD j 0, ⟨findEdges_lt m hm _ (hmem j hj), findEdges_false m hm _ (hmem j hj)⟩, hjv⟩, ?_⟩
      rintro q ⟨hq, hqf⟩
      obtain ⟨q0, hq0, hq0f, hq0min⟩ := exists_least (m.ny * m.nx) (fun q => m.get q = false) (fun q => d q y x) hex
      have hq0e := nearest_is_edge m hm d hd y x hy hx h q0 hq0 hq0f hq0min
      obtain ⟨k, hk, hkq⟩ := List.getElem_of_mem hq0e
      have h1 := hmin k hk
      simp only at h1
      rw [List.getD_eq_getElem es 0 hk, hkq] at h1
      exact h1.trans (hq0min q hq hqf)
    · intro h hall
      obtain ⟨k, hk⟩ := List.exists_mem_of_ne_nil _ hE
      have := findEdges_false m hm k hk
      rw [hall k (findEdges_lt m hm k hk)] at this
      cases this

/-- C80 on the sphere: for every cylindrical map (any monotone declinations, right ascensions spanning at most one turn),
the transform in a True pixel is the great-circle distance to the closest False pixel of the map. -/
theorem C80_cylindrical (g : CylGrid) (rmax : ℝ) (m : Mask) (hm : m.Ok) (hy : m.ny = g.ny) (hx : m.nx = g.nx)
    (hex : ∃ q < m.ny * m.nx, m.get q = false) :
    ∃ t, distanceTransform simpleMethod 0 g.flat rmax m = some t ∧
      ∀ y x, y < m.ny → x < m.nx → ∃ v, t[y * m.nx + x]? = some v ∧ (m.at y x = false → v = 0) ∧
        (m.at y x = true → (∃ z w, z < m.ny ∧ w < m.nx ∧ m.at z w = false ∧ v = g.dist z w y x) ∧
          ∀ z w, z < m.ny → w < m.nx → m.at z w = false → v ≤ g.dist z w y x) := by
  obtain ⟨t, ht, -, h⟩ := C80_exact 0 g.flat rmax m hm (by rw [hy, hx]; exact g.flat_descent)
  refine ⟨t, ht, fun y x hy' hx' => ?_⟩
  obtain ⟨v, hv, h0, h1, -⟩ := h y x hy' hx'
  refine ⟨v, hv, h0, fun htrue => ?_⟩
  obtain ⟨⟨q, ⟨hq, hqf⟩, hqv⟩, hmin⟩ := h1 htrue hex
  refine ⟨⟨q / m.nx, q % m.nx, Nat.div_lt_of_lt_mul (by rw [Nat.mul_comm]; exact hq), Nat.mod_lt _ hm.nx_pos, ?_, ?_⟩, ?_⟩
  · unfold Mask.at; rw [Nat.div_add_mod']; exact hqf
  · rw [← hqv]; simp only [CylGrid.flat, ← hx, ← hy]
    rw [if_pos ⟨hq, hy', hx'⟩]
  · intro z w hz hw hf
    have := hmin (z * m.nx + w) ⟨flat_lt hz hw, hf⟩
    simp only [CylGrid.flat, ← hx, ← hy] at this
    rw [if_pos ⟨flat_lt hz hw, hy', hx'⟩, (flat_div hw).1, (flat_div hw).2] at this
    exact this

end Pixell
