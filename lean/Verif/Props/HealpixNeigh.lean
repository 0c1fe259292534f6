import Verif.Props.Healpix

/-
C121, continued: the neighbours of a healpix pixel are the four pixels that share an edge with it.
-/
namespace Pixell

/-- The width of a quarter of a row. -/
def hpQuarter (nside y : Nat) : Nat := hpNx nside y / 4

/-- Whether a row lies in one of the polar caps. -/
def HpCap (nside y : Nat) : Prop := y < nside ∨ 3 * nside - 1 ≤ y

instance (nside y : Nat) : Decidable (HpCap nside y) := by unfold HpCap; infer_instance

/-- The place of a pixel centre in the flat picture of the sphere, in units of half a pixel at the equator, of which there are
8·nside. In a polar cap each quarter of a row is centred on the middle of its quarter of the equator, so that the caps are
cut into four triangles. -/
def hpCol (nside : Nat) (p : Nat × Nat) : ℤ :=
  if HpCap nside p.1 then
    (2 * (p.2 / hpQuarter nside p.1 : Nat) + 1) * nside + 2 * (p.2 % hpQuarter nside p.1 : Nat) + 1 - hpQuarter nside p.1
  else 2 * p.2 + (hpShift nside p.1).toNat

/-- Columns one half pixel apart, round the circle. -/
def HpBeside (nside : Nat) (a b : ℤ) : Prop :=
  b - a = 1 ∨ a - b = 1 ∨ b - a = 8 * nside - 1 ∨ a - b = 8 * nside - 1

/-- `q` starts the triangle to the right of the one that `p` ends, in the same row. -/
def HpAcross (nside : Nat) (p q : Nat × Nat) : Prop :=
  p.1 = q.1 ∧ HpCap nside p.1 ∧ q.2 % hpQuarter nside q.1 = 0 ∧ q.2 = if p.2 + 1 = hpNx nside p.1 then 0 else p.2 + 1

/-- Two pixels share an edge: they lie diagonally next to each other in the flat picture, or on the two sides of the cut
between two triangles. -/
def HpTouch (nside : Nat) (p q : Nat × Nat) : Prop :=
  ((p.1 + 1 = q.1 ∨ q.1 + 1 = p.1) ∧ HpBeside nside (hpCol nside p) (hpCol nside q)) ∨ HpAcross nside p q ∨ HpAcross nside q p

/-- The wrapping of the columns. -/
def HpWrap (w : Nat) (v : ℤ) (x : Nat) : Prop :=
  (v < 0 ∧ x = (v + w).toNat) ∨ (0 ≤ v ∧ v ≥ w ∧ x = (v - w).toNat) ∨ (0 ≤ v ∧ v < w ∧ x = v.toNat)

theorem mem_hpNeighs (nside : Nat) (p q : Nat × Nat) :
    q ∈ hpNeighs nside p ↔ ∃ r ∈ hpNeighsRaw nside p.1 p.2, q.1 = r.1 ∧ HpWrap (hpNx nside q.1) r.2 q.2 := by
  unfold hpNeighs HpWrap
  rw [List.mem_map]
  constructor
  · rintro ⟨r, hr, rfl⟩
    refine ⟨r, hr, rfl, ?_⟩
    simp only
    split_ifs <;> omega
  · rintro ⟨r, hr, h1, h2⟩
    refine ⟨r, hr, ?_⟩
    simp only
    ext
    · exact h1.symm
    · rw [h1] at h2
      simp only
      split_ifs <;> omega

/-- The three kinds of rows, with the column in linear form. -/
theorem hp_north {n y x : Nat} (hy : y < n) (hx : x < hpNx n y) : ∃ s k, s < 4 ∧ k < y + 1 ∧ x = s * (y + 1) + k ∧
    hpNx n y = 4 * (y + 1) ∧ hpQuarter n y = y + 1 ∧ x / (y + 1) = s ∧ x % (y + 1) = k ∧
    hpCol n (y, x) = (2 * s + 1) * n + 2 * k + 1 - (y + 1) := by
  have hnx : hpNx n y = 4 * (y + 1) := by unfold hpNx; rw [if_pos hy]
  have hq : hpQuarter n y = y + 1 := by unfold hpQuarter; omega
  have hd := Nat.div_add_mod x (y + 1)
  have hm := Nat.mod_lt x (show y + 1 > 0 by omega)
  refine ⟨x / (y + 1), x % (y + 1), ?_, hm, ?_, hnx, hq, rfl, rfl, ?_⟩
  · rw [Nat.div_lt_iff_lt_mul (by omega)]; omega
  · rw [Nat.mul_comm]; omega
  · unfold hpCol
    rw [if_pos (show HpCap n y from Or.inl hy)]
    simp only [hq]
    push_cast; ring

theorem hp_south {n y x : Nat} (hy : 3 * n - 1 ≤ y) (hn : n ≤ y) (hy2 : y < 4 * n - 1) (hx : x < hpNx n y) :
    ∃ s k c, c + y = 4 * n - 2 ∧ c < n ∧ s < 4 ∧ k < c + 1 ∧ x = s * (c + 1) + k ∧
    hpNx n y = 4 * (c + 1) ∧ hpQuarter n y = c + 1 ∧ x / (c + 1) = s ∧ x % (c + 1) = k ∧
    hpCol n (y, x) = (2 * s + 1) * n + 2 * k + 1 - (c + 1) := by
  obtain ⟨c, hc⟩ : ∃ c, c + y = 4 * n - 2 := ⟨4 * n - 2 - y, by omega⟩
  have hnx : hpNx n y = 4 * (c + 1) := by unfold hpNx; rw [if_neg (by omega), if_neg (by omega)]; omega
  have hq : hpQuarter n y = c + 1 := by unfold hpQuarter; omega
  have hd := Nat.div_add_mod x (c + 1)
  have hm := Nat.mod_lt x (show c + 1 > 0 by omega)
  refine ⟨x / (c + 1), x % (c + 1), c, hc, by omega, ?_, hm, ?_, hnx, hq, rfl, rfl, ?_⟩
  · rw [Nat.div_lt_iff_lt_mul (by omega)]; omega
  · rw [Nat.mul_comm]; omega
  · unfold hpCol
    rw [if_pos (show HpCap n y from Or.inr hy)]
    simp only [hq]
    push_cast; ring

theorem hp_mid {n y : Nat} (hy : n ≤ y) (hy2 : y < 3 * n - 1) : hpNx n y = 4 * n ∧
    (∀ x, hpCol n (y, x) = 2 * x + ((y - n) % 2 : Nat)) ∧ (hpShift n y = false ↔ (y - n) % 2 = 0) := by
  refine ⟨by unfold hpNx; rw [if_neg (by omega), if_pos hy2], fun x => ?_, ?_⟩
  · unfold hpCol hpShift
    rw [if_neg (show ¬ HpCap n y by unfold HpCap; omega)]
    simp only
    rw [if_neg (by omega), if_pos hy2]
    rcases Nat.mod_two_eq_zero_or_one (y - n) with h | h <;> simp [h]
  · unfold hpShift
    rw [if_neg (by omega), if_pos hy2]
    rcases Nat.mod_two_eq_zero_or_one (y - n) with h | h <;> simp [h]

theorem hp_right {w x s k : Nat} (hk : k < w) (hx : x = s * w + k) : (x + 1) % w = 0 ↔ k + 1 = w := by
  subst hx
  rw [show s * w + k + 1 = k + 1 + s * w by omega, Nat.add_mul_mod_self_right]
  constructor
  · intro h
    by_contra hne
    rw [Nat.mod_eq_of_lt (by omega)] at h
    omega
  · intro h; rw [h, Nat.mod_self]

/-- The neighbours of a pixel in the middle. -/
theorem mem_mid {n y x : Nat} (hy : n ≤ y) (hy2 : y < 3 * n - 1) (q : Nat × Nat) : q ∈ hpNeighs n (y, x) ↔
    (q.1 = y - 1 ∨ q.1 = y + 1) ∧ ∃ v : ℤ, (v = (x : ℤ) + ((y - n) % 2 : Nat) - 1 ∨ v = (x : ℤ) + ((y - n) % 2 : Nat)) ∧
      HpWrap (hpNx n q.1) v q.2 := by
  rw [mem_hpNeighs]
  unfold hpNeighsRaw
  simp only
  rw [if_pos ⟨hy, hy2⟩]
  have hs := (hp_mid hy hy2).2.2
  rcases Nat.mod_two_eq_zero_or_one (y - n) with h | h
  · rw [if_pos (hs.mpr h), h]
    simp only [List.mem_cons, List.not_mem_nil, or_false, exists_eq_or_imp, exists_eq_left, Nat.cast_zero, add_zero]
    tauto
  · rw [if_neg (fun e => by have := hs.mp e; omega), h]
    simp only [List.mem_cons, List.not_mem_nil, or_false, exists_eq_or_imp, exists_eq_left, Nat.cast_one, add_sub_cancel_right]
    tauto

theorem mem_north {n y x s k : Nat} (hn : 1 ≤ n) (hy : y < n) (hx : x < hpNx n y) (hk : k < y + 1) (hxe : x = s * (y + 1) + k)
    (q : Nat × Nat) : q ∈ hpNeighs n (y, x) ↔
    (if k = 0 then q.1 = y ∧ HpWrap (hpNx n q.1) ((x : ℤ) - 1) q.2 else q.1 = y - 1 ∧ HpWrap (hpNx n q.1) ((x : ℤ) - 1 - s) q.2) ∨
    (if k = y then q.1 = y ∧ HpWrap (hpNx n q.1) ((x : ℤ) + 1) q.2 else q.1 = y - 1 ∧ HpWrap (hpNx n q.1) ((x : ℤ) - s) q.2) ∨
    (q.1 = y + 1 ∧ HpWrap (hpNx n q.1) (if y + 1 = n then (x : ℤ) else x + s) q.2) ∨
    (q.1 = y + 1 ∧ HpWrap (hpNx n q.1) ((if y + 1 = n then (x : ℤ) else x + s) + 1) q.2) := by
  have hnx : hpNx n y / 4 = y + 1 := by unfold hpNx; rw [if_pos hy]; omega
  have hdiv : x / (y + 1) = s := by
    rw [hxe, Nat.mul_comm, Nat.mul_add_div (by omega), Nat.div_eq_of_lt hk, Nat.add_zero]
  have hmod : x % (y + 1) = k := by rw [hxe, Nat.mul_comm, Nat.mul_add_mod, Nat.mod_eq_of_lt hk]
  have hr := hp_right hk hxe
  rw [mem_hpNeighs]
  unfold hpNeighsRaw
  simp only
  rw [if_neg (by omega), hnx, hdiv, hmod, if_pos hy]
  simp only [hy, if_true]
  have hr' : ((x + 1) % (y + 1) = 0) ↔ k = y := by rw [hr]; omega
  simp only [hr']
  by_cases h1 : k = 0 <;> by_cases h2 : k = y
  · simp only [if_pos h1, if_pos h2, List.mem_cons, List.not_mem_nil, or_false, exists_eq_or_imp, exists_eq_left]
  · simp only [if_pos h1, if_neg h2, List.mem_cons, List.not_mem_nil, or_false, exists_eq_or_imp, exists_eq_left]
  · simp only [if_neg h1, if_pos h2, List.mem_cons, List.not_mem_nil, or_false, exists_eq_or_imp, exists_eq_left]
  · simp only [if_neg h1, if_neg h2, List.mem_cons, List.not_mem_nil, or_false, exists_eq_or_imp, exists_eq_left]

theorem or_rot4 {a b c d : Prop} : a ∨ b ∨ c ∨ d ↔ c ∨ d ∨ a ∨ b := by
  constructor
  · rintro (h | h | h | h) <;> simp [h]
  · rintro (h | h | h | h) <;> simp [h]

theorem mem_south {n y x s k c : Nat} (hn : n ≤ y) (hy : 3 * n - 1 ≤ y) (hc : c + y = 4 * n - 2) (hcn : c < n) (hk : k < c + 1)
    (hxe : x = s * (c + 1) + k)
    (q : Nat × Nat) : q ∈ hpNeighs n (y, x) ↔
    (if k = 0 then q.1 = y ∧ HpWrap (hpNx n q.1) ((x : ℤ) - 1) q.2 else q.1 = y + 1 ∧ HpWrap (hpNx n q.1) ((x : ℤ) - 1 - s) q.2) ∨
    (if k = c then q.1 = y ∧ HpWrap (hpNx n q.1) ((x : ℤ) + 1) q.2 else q.1 = y + 1 ∧ HpWrap (hpNx n q.1) ((x : ℤ) - s) q.2) ∨
    (q.1 = y - 1 ∧ HpWrap (hpNx n q.1) (if c + 1 = n then (x : ℤ) else x + s) q.2) ∨
    (q.1 = y - 1 ∧ HpWrap (hpNx n q.1) ((if c + 1 = n then (x : ℤ) else x + s) + 1) q.2) := by
  have hnx : hpNx n y / 4 = c + 1 := by unfold hpNx; rw [if_neg (by omega), if_neg (by omega)]; omega
  have hdiv : x / (c + 1) = s := by
    rw [hxe, Nat.mul_comm, Nat.mul_add_div (by omega), Nat.div_eq_of_lt hk, Nat.add_zero]
  have hmod : x % (c + 1) = k := by rw [hxe, Nat.mul_comm, Nat.mul_add_mod, Nat.mod_eq_of_lt hk]
  have hr := hp_right hk hxe
  rw [mem_hpNeighs]
  unfold hpNeighsRaw
  simp only
  rw [if_neg (by omega), hnx, hdiv, hmod, if_neg (show ¬ y < n by omega)]
  have hlast : (y + 1 = 3 * n) ↔ c + 1 = n := by omega
  have hyn : ¬ y < n := by omega
  simp only [hyn, if_false, hlast]
  have hr' : ((x + 1) % (c + 1) = 0) ↔ k = c := by rw [hr]; omega
  simp only [hr']
  by_cases h1 : k = 0 <;> by_cases h2 : k = c
  · simp only [if_pos h1, if_pos h2, List.mem_cons, List.not_mem_nil, or_false, exists_eq_or_imp, exists_eq_left]
    exact or_rot4
  · simp only [if_pos h1, if_neg h2, List.mem_cons, List.not_mem_nil, or_false, exists_eq_or_imp, exists_eq_left]
    exact or_rot4
  · simp only [if_neg h1, if_pos h2, List.mem_cons, List.not_mem_nil, or_false, exists_eq_or_imp, exists_eq_left]
    exact or_rot4
  · simp only [if_neg h1, if_neg h2, List.mem_cons, List.not_mem_nil, or_false, exists_eq_or_imp, exists_eq_left]
    exact or_rot4

theorem hp_quarter_mid {n y : Nat} (hy : n ≤ y) (hy2 : y < 3 * n - 1) : ¬ HpCap n y := by unfold HpCap; omega

theorem hpWrap_iff {w : Nat} {v : ℤ} {x : Nat} (h1 : -(w : ℤ) ≤ v) (h2 : v < 2 * w) (hx : x < w) :
    HpWrap w v x ↔ ((x : ℤ) = v ∨ (x : ℤ) = v + w ∨ (x : ℤ) = v - w) := by
  unfold HpWrap
  constructor
  · rintro (h | h | h) <;> omega
  · rintro (h | h | h) <;> omega

/-- One row to the next in the middle. -/
theorem hp_mid_mid {n x x' σ σ' : Nat} (hx : x < 4 * n) (hx' : x' < 4 * n) (hσ : σ + σ' = 1) :
    (∃ v : ℤ, (v = (x : ℤ) + σ - 1 ∨ v = (x : ℤ) + σ) ∧ HpWrap (4 * n) v x') ↔
    HpBeside n (2 * x + σ) (2 * x' + σ') := by
  unfold HpBeside
  simp only [or_and_right, exists_or, exists_eq_left]
  rw [hpWrap_iff (by push_cast; omega) (by push_cast; omega) hx', hpWrap_iff (by push_cast; omega) (by push_cast; omega) hx']
  push_cast
  constructor
  · rintro ((h | h | h) | (h | h | h)) <;> omega
  · rintro (h | h | h | h) <;> omega

/-- The first row of the middle and the last of a cap. -/
theorem hp_mid_cap {n x x' s k : Nat} (hs : s < 4) (hk : k < n) (hx : x < 4 * n) (hx' : x' = s * n + k) :
    (∃ v : ℤ, (v = (x : ℤ) - 1 ∨ v = (x : ℤ)) ∧ HpWrap (4 * n) v x') ↔
    HpBeside n (2 * x) ((2 * s + 1) * n + 2 * k + 1 - n) := by
  unfold HpBeside
  simp only [or_and_right, exists_or, exists_eq_left]
  have hlt : x' < 4 * n := by
    obtain rfl | rfl | rfl | rfl : s = 0 ∨ s = 1 ∨ s = 2 ∨ s = 3 := by omega
    all_goals omega
  rw [hpWrap_iff (by push_cast; omega) (by push_cast; omega) hlt, hpWrap_iff (by push_cast; omega) (by push_cast; omega) hlt]
  have e : ((2 * (s : ℤ) + 1) * n + 2 * k + 1 - n) = 2 * x' + 1 := by rw [hx']; push_cast; ring
  rw [e]
  push_cast
  constructor
  · rintro ((h | h | h) | (h | h | h)) <;> omega
  · rintro (h | h | h | h) <;> omega

theorem neighs_mid {n y x : Nat} (hy : n ≤ y) (hy2 : y < 3 * n - 1) (hx : x < hpNx n y) {y' x' : Nat}
    (hq' : y' < 4 * n - 1) (hx' : x' < hpNx n y') : (y', x') ∈ hpNeighs n (y, x) ↔ HpTouch n (y, x) (y', x') := by
  rw [mem_mid hy hy2]
  obtain ⟨hnx, hcol, _⟩ := hp_mid hy hy2
  have hno : ¬ HpAcross n (y, x) (y', x') := fun h => hp_quarter_mid hy hy2 h.2.1
  have hno' : ¬ HpAcross n (y', x') (y, x) := fun h => hp_quarter_mid hy hy2 (by have := h.2.1; rw [h.1] at this; exact this)
  unfold HpTouch
  rw [or_iff_left hno', or_iff_left hno, hcol x]
  simp only
  rw [hnx] at hx
  rw [show (y' = y - 1 ∨ y' = y + 1) ↔ (y + 1 = y' ∨ y' + 1 = y) by omega]
  refine and_congr_right fun hrow => ?_
  by_cases hN : y' < n
  · obtain ⟨s, k, hs, hk, hxe, hnx', -, -, -, hc⟩ := hp_north hN hx'
    have e : y = n := by omega
    have e' : n = y' + 1 := by omega
    rw [hc, hnx', show (y - n) % 2 = 0 by omega, ← Nat.cast_succ y', Nat.succ_eq_add_one, ← e']
    rw [← e'] at hk hxe
    have := hp_mid_cap hs hk hx hxe
    simpa using this
  · by_cases hS : 3 * n - 1 ≤ y'
    · obtain ⟨s, k, c, hcy, hcn, hs, hk, hxe, hnx', -, -, -, hc⟩ := hp_south hS (by omega) hq' hx'
      have e' : n = c + 1 := by omega
      rw [hc, hnx', show (y - n) % 2 = 0 by omega, ← Nat.cast_succ c, Nat.succ_eq_add_one, ← e']
      rw [← e'] at hk hxe
      have := hp_mid_cap hs hk hx hxe
      simpa using this
    · obtain ⟨hnx', hcol', _⟩ := hp_mid (show n ≤ y' by omega) (by omega)
      rw [hcol', hnx']
      rw [hnx'] at hx'
      exact hp_mid_mid hx hx' (by omega)

/-- From a row of a cap to the next one towards the equator, inside the cap. -/
theorem hp_cap_out {n c x x' s k s' k' : Nat} (hc : c + 1 < n) (hs : s < 4) (hs' : s' < 4) (hk : k < c + 1) (hk' : k' < c + 2)
    (hx : x = s * (c + 1) + k) (hx' : x' = s' * (c + 2) + k') :
    (HpWrap (4 * (c + 2)) ((x : ℤ) + s) x' ∨ HpWrap (4 * (c + 2)) ((x : ℤ) + s + 1) x') ↔
    HpBeside n ((2 * s + 1) * n + 2 * k + 1 - (c + 1)) ((2 * s' + 1) * n + 2 * k' + 1 - (c + 1 + 1)) := by
  unfold HpBeside
  have hlt : x' < 4 * (c + 2) := by
    obtain rfl | rfl | rfl | rfl : s' = 0 ∨ s' = 1 ∨ s' = 2 ∨ s' = 3 := by omega
    all_goals omega
  have hlt1 : x < 4 * (c + 1) := by
    obtain rfl | rfl | rfl | rfl : s = 0 ∨ s = 1 ∨ s = 2 ∨ s = 3 := by omega
    all_goals omega
  rw [hpWrap_iff (by push_cast; omega) (by push_cast; omega) hlt, hpWrap_iff (by push_cast; omega) (by push_cast; omega) hlt]
  obtain rfl | rfl | rfl | rfl : s = 0 ∨ s = 1 ∨ s = 2 ∨ s = 3 := by omega
  all_goals
    obtain rfl | rfl | rfl | rfl : s' = 0 ∨ s' = 1 ∨ s' = 2 ∨ s' = 3 := by omega
    all_goals
      push_cast
      constructor
      · rintro ((h | h | h) | (h | h | h)) <;> omega
      · rintro (h | h | h | h) <;> omega

/-- From a row of a cap to the next one towards the pole. -/
theorem hp_cap_in {n c x x' s k s' k' : Nat} (hc : c + 1 < n) (hs : s < 4) (hs' : s' < 4) (hk : k < c + 2) (hk' : k' < c + 1)
    (hx : x = s * (c + 2) + k) (hx' : x' = s' * (c + 1) + k') :
    ((k ≠ 0 ∧ HpWrap (4 * (c + 1)) ((x : ℤ) - 1 - s) x') ∨ (k ≠ c + 1 ∧ HpWrap (4 * (c + 1)) ((x : ℤ) - s) x')) ↔
    HpBeside n ((2 * s + 1) * n + 2 * k + 1 - (c + 1 + 1)) ((2 * s' + 1) * n + 2 * k' + 1 - (c + 1)) := by
  unfold HpBeside
  have hlt : x' < 4 * (c + 1) := by
    obtain rfl | rfl | rfl | rfl : s' = 0 ∨ s' = 1 ∨ s' = 2 ∨ s' = 3 := by omega
    all_goals omega
  have hlt1 : x < 4 * (c + 2) := by
    obtain rfl | rfl | rfl | rfl : s = 0 ∨ s = 1 ∨ s = 2 ∨ s = 3 := by omega
    all_goals omega
  rw [hpWrap_iff (by push_cast; omega) (by push_cast; omega) hlt, hpWrap_iff (by push_cast; omega) (by push_cast; omega) hlt]
  obtain rfl | rfl | rfl | rfl : s = 0 ∨ s = 1 ∨ s = 2 ∨ s = 3 := by omega
  all_goals
    obtain rfl | rfl | rfl | rfl : s' = 0 ∨ s' = 1 ∨ s' = 2 ∨ s' = 3 := by omega
    all_goals
      push_cast
      constructor
      · rintro (⟨h0, h | h | h⟩ | ⟨h0, h | h | h⟩) <;> omega
      · rintro (h | h | h | h) <;> omega

/-- From the last row of a cap to the first of the middle. -/
theorem hp_cap_mid {n x x' s k : Nat} (hs : s < 4) (hk : k < n) (hx' : x' < 4 * n) (hx : x = s * n + k) :
    (HpWrap (4 * n) (x : ℤ) x' ∨ HpWrap (4 * n) ((x : ℤ) + 1) x') ↔
    HpBeside n ((2 * s + 1) * n + 2 * k + 1 - n) (2 * x') := by
  unfold HpBeside
  have hlt : x < 4 * n := by
    obtain rfl | rfl | rfl | rfl : s = 0 ∨ s = 1 ∨ s = 2 ∨ s = 3 := by omega
    all_goals omega
  rw [hpWrap_iff (by push_cast; omega) (by push_cast; omega) hx', hpWrap_iff (by push_cast; omega) (by push_cast; omega) hx']
  have e : ((2 * (s : ℤ) + 1) * n + 2 * k + 1 - n) = 2 * x + 1 := by rw [hx]; push_cast; ring
  rw [e]
  push_cast
  constructor
  · rintro ((h | h | h) | (h | h | h)) <;> omega
  · rintro (h | h | h | h) <;> omega

/-- Along a row of a cap. -/
theorem hp_cap_row {n y x x' c s k : Nat} (hcap : HpCap n y) (hnx : hpNx n y = 4 * (c + 1)) (hs : s < 4) (hk : k < c + 1)
    (hx : x = s * (c + 1) + k) (hx' : x' < 4 * (c + 1)) :
    ((k = 0 ∧ HpWrap (4 * (c + 1)) ((x : ℤ) - 1) x') ∨ (k = c ∧ HpWrap (4 * (c + 1)) ((x : ℤ) + 1) x')) ↔
    HpAcross n (y, x) (y, x') ∨ HpAcross n (y, x') (y, x) := by
  have hq : hpQuarter n y = c + 1 := by unfold hpQuarter; omega
  have hlt : x < 4 * (c + 1) := by
    obtain rfl | rfl | rfl | rfl : s = 0 ∨ s = 1 ∨ s = 2 ∨ s = 3 := by omega
    all_goals omega
  have hmod : x % (c + 1) = k := by rw [hx, Nat.mul_comm, Nat.mul_add_mod, Nat.mod_eq_of_lt hk]
  have hr := hp_right hk hx
  unfold HpAcross
  simp only [hq, hnx, hcap, true_and, hmod]
  rw [hpWrap_iff (by push_cast; omega) (by push_cast; omega) hx', hpWrap_iff (by push_cast; omega) (by push_cast; omega) hx']
  rw [or_comm]
  refine or_congr ?_ ?_
  · by_cases hl : x + 1 = 4 * (c + 1)
    · rw [if_pos hl]
      have hkc : k = c := by
        have : (x + 1) % (c + 1) = 0 := by rw [hl, Nat.mul_mod_left]
        omega
      constructor
      · rintro ⟨_, h | h | h⟩
        · omega
        · omega
        · have : x' = 0 := by omega
          exact ⟨by rw [this, Nat.zero_mod], this⟩
      · rintro ⟨_, h⟩; refine ⟨hkc, ?_⟩; right; right; omega
    · rw [if_neg hl]
      constructor
      · rintro ⟨h0, h | h | h⟩
        · have : x' = x + 1 := by omega
          exact ⟨by rw [this]; exact hr.mpr (by omega), this⟩
        · omega
        · omega
      · rintro ⟨h0, h⟩
        rw [h] at h0
        refine ⟨by have := hr.mp h0; omega, ?_⟩
        left; omega
  · refine and_congr_right fun _ => ?_
    by_cases hl : x' + 1 = 4 * (c + 1)
    · rw [if_pos hl]; omega
    · rw [if_neg hl]; omega

theorem hpAcross_row {n : Nat} {p q : Nat × Nat} (h : p.1 ≠ q.1) : ¬ (HpAcross n p q ∨ HpAcross n q p) := by
  rintro (⟨h1, -⟩ | ⟨h1, -⟩)
  · exact h h1
  · exact h h1.symm

theorem neighs_north {n y x : Nat} (hn : 1 ≤ n) (hy : y < n) (hx : x < hpNx n y) {y' x' : Nat}
    (hq' : y' < 4 * n - 1) (hx' : x' < hpNx n y') : (y', x') ∈ hpNeighs n (y, x) ↔ HpTouch n (y, x) (y', x') := by
  obtain ⟨s, k, hs, hk, hxe, hnx, -, -, -, hcol⟩ := hp_north hy hx
  rw [mem_north hn hy hx hk hxe]
  unfold HpTouch
  rw [hcol]
  simp only
  obtain h | h | h | h : y' = y ∨ y' = y + 1 ∨ y' + 1 = y ∨ (y' ≠ y ∧ y' ≠ y + 1 ∧ y' + 1 ≠ y) := by omega
  · subst h
    rw [hnx] at hx' ⊢
    have := hp_cap_row (Or.inl hy : HpCap n y') hnx hs hk hxe hx'
    rw [← this]
    by_cases h1 : k = 0 <;> by_cases h2 : k = y'
    · rw [if_pos h1, if_pos h2]
      constructor
      · rintro (h | h | h | h)
        · exact Or.inr (Or.inl ⟨h1, h.2⟩)
        · exact Or.inr (Or.inr ⟨h2, h.2⟩)
        · omega
        · omega
      · rintro (h | h | h)
        · omega
        · exact Or.inl ⟨rfl, h.2⟩
        · exact Or.inr (Or.inl ⟨rfl, h.2⟩)
    · rw [if_pos h1, if_neg h2]
      constructor
      · rintro (h | h | h | h)
        · exact Or.inr (Or.inl ⟨h1, h.2⟩)
        · omega
        · omega
        · omega
      · rintro (h | h | h)
        · omega
        · exact Or.inl ⟨rfl, h.2⟩
        · exact absurd h.1 h2
    · rw [if_neg h1, if_pos h2]
      constructor
      · rintro (h | h | h | h)
        · omega
        · exact Or.inr (Or.inr ⟨h2, h.2⟩)
        · omega
        · omega
      · rintro (h | h | h)
        · omega
        · exact absurd h.1 h1
        · exact Or.inr (Or.inl ⟨rfl, h.2⟩)
    · rw [if_neg h1, if_neg h2]
      constructor
      · rintro (h | h | h | h) <;> omega
      · rintro (h | h | h)
        · omega
        · exact absurd h.1 h1
        · exact absurd h.1 h2
  · subst h
    have hno := hpAcross_row (n := n) (p := (y, x)) (q := (y + 1, x')) (by simp)
    rw [or_iff_left hno]
    have key : (HpWrap (hpNx n (y + 1)) (if y + 1 = n then (x : ℤ) else x + s) x' ∨
        HpWrap (hpNx n (y + 1)) ((if y + 1 = n then (x : ℤ) else x + s) + 1) x') ↔
        HpBeside n ((2 * s + 1) * n + 2 * k + 1 - (y + 1)) (hpCol n (y + 1, x')) := by
      by_cases hl : y + 1 = n
      · obtain ⟨hnx', hcol', _⟩ := hp_mid (show n ≤ y + 1 by omega) (by omega)
        rw [if_pos hl, hnx', hcol', show (y + 1 - n) % 2 = 0 by omega, ← Nat.cast_succ y, Nat.succ_eq_add_one, hl]
        rw [hnx'] at hx'
        have hxe2 : x = s * n + k := by rw [← hl]; exact hxe
        have := hp_cap_mid hs (show k < n by omega) hx' hxe2
        simpa using this
      · obtain ⟨s', k', hs', hk', hxe', hnx', -, -, -, hcol'⟩ := hp_north (show y + 1 < n by omega) hx'
        rw [if_neg hl, hnx', hcol']
        have := hp_cap_out (show y + 1 < n by omega) hs hs' hk hk' hxe hxe'
        push_cast
        exact this
    rw [← key]
    constructor
    · rintro (h | h | h | h)
      · split_ifs at h <;> omega
      · split_ifs at h <;> omega
      · exact ⟨Or.inl rfl, Or.inl h.2⟩
      · exact ⟨Or.inl rfl, Or.inr h.2⟩
    · rintro ⟨-, h | h⟩
      · exact Or.inr (Or.inr (Or.inl ⟨rfl, h⟩))
      · exact Or.inr (Or.inr (Or.inr ⟨rfl, h⟩))
  · subst h
    have hno := hpAcross_row (n := n) (p := (y' + 1, x)) (q := (y', x')) (by simp)
    rw [or_iff_left hno]
    obtain ⟨s', k', hs', hk', hxe', hnx', -, -, -, hcol'⟩ := hp_north (show y' < n by omega) hx'
    have key := hp_cap_in (show y' + 1 < n by omega) hs hs' hk hk' hxe hxe'
    rw [hcol', hnx']
    push_cast
    rw [← key]
    by_cases h1 : k = 0 <;> by_cases h2 : k = y' + 1
    · omega
    · rw [if_pos h1, if_neg h2]
      constructor
      · rintro (h | h | h | h)
        · omega
        · exact ⟨Or.inr rfl, Or.inr ⟨h2, h.2⟩⟩
        · omega
        · omega
      · rintro ⟨-, h | h⟩
        · exact absurd h1 h.1
        · exact Or.inr (Or.inl ⟨rfl, h.2⟩)
    · rw [if_neg h1, if_pos h2]
      constructor
      · rintro (h | h | h | h)
        · exact ⟨Or.inr rfl, Or.inl ⟨h1, h.2⟩⟩
        · omega
        · omega
        · omega
      · rintro ⟨-, h | h⟩
        · exact Or.inl ⟨rfl, h.2⟩
        · exact absurd h2 h.1
    · rw [if_neg h1, if_neg h2]
      constructor
      · rintro (h | h | h | h)
        · exact ⟨Or.inr rfl, Or.inl ⟨h1, h.2⟩⟩
        · exact ⟨Or.inr rfl, Or.inr ⟨h2, h.2⟩⟩
        · omega
        · omega
      · rintro ⟨-, h | h⟩
        · exact Or.inl ⟨rfl, h.2⟩
        · exact Or.inr (Or.inl ⟨rfl, h.2⟩)
  · have hno := hpAcross_row (n := n) (p := (y, x)) (q := (y', x')) (by simp; omega)
    rw [or_iff_left hno]
    constructor
    · rintro (h | h | h | h)
      · split_ifs at h <;> omega
      · split_ifs at h <;> omega
      · omega
      · omega
    · rintro ⟨h, -⟩; omega

theorem neighs_south {n y x : Nat} (hyn : n ≤ y) (hy : 3 * n - 1 ≤ y) (hy2 : y < 4 * n - 1) (hx : x < hpNx n y) {y' x' : Nat}
    (hq' : y' < 4 * n - 1) (hx' : x' < hpNx n y') : (y', x') ∈ hpNeighs n (y, x) ↔ HpTouch n (y, x) (y', x') := by
  obtain ⟨s, k, c, hc, hcn, hs, hk, hxe, hnx, -, -, -, hcol⟩ := hp_south hy hyn hy2 hx
  rw [mem_south hyn hy hc hcn hk hxe]
  unfold HpTouch
  rw [hcol]
  simp only
  obtain h | h | h | h : y' = y ∨ y' + 1 = y ∨ y' = y + 1 ∨ (y' ≠ y ∧ y' ≠ y + 1 ∧ y' + 1 ≠ y) := by omega
  · subst h
    rw [hnx] at hx' ⊢
    have := hp_cap_row (Or.inr hy : HpCap n y') hnx hs hk hxe hx'
    rw [← this]
    by_cases h1 : k = 0 <;> by_cases h2 : k = c
    · rw [if_pos h1, if_pos h2]
      constructor
      · rintro (h | h | h | h)
        · exact Or.inr (Or.inl ⟨h1, h.2⟩)
        · exact Or.inr (Or.inr ⟨h2, h.2⟩)
        · omega
        · omega
      · rintro (h | h | h)
        · omega
        · exact Or.inl ⟨rfl, h.2⟩
        · exact Or.inr (Or.inl ⟨rfl, h.2⟩)
    · rw [if_pos h1, if_neg h2]
      constructor
      · rintro (h | h | h | h)
        · exact Or.inr (Or.inl ⟨h1, h.2⟩)
        · omega
        · omega
        · omega
      · rintro (h | h | h)
        · omega
        · exact Or.inl ⟨rfl, h.2⟩
        · exact absurd h.1 h2
    · rw [if_neg h1, if_pos h2]
      constructor
      · rintro (h | h | h | h)
        · omega
        · exact Or.inr (Or.inr ⟨h2, h.2⟩)
        · omega
        · omega
      · rintro (h | h | h)
        · omega
        · exact absurd h.1 h1
        · exact Or.inr (Or.inl ⟨rfl, h.2⟩)
    · rw [if_neg h1, if_neg h2]
      constructor
      · rintro (h | h | h | h) <;> omega
      · rintro (h | h | h)
        · omega
        · exact absurd h.1 h1
        · exact absurd h.1 h2
  · have hno := hpAcross_row (n := n) (p := (y, x)) (q := (y', x')) (by simp; omega)
    rw [or_iff_left hno]
    have key : (HpWrap (hpNx n y') (if c + 1 = n then (x : ℤ) else x + s) x' ∨
        HpWrap (hpNx n y') ((if c + 1 = n then (x : ℤ) else x + s) + 1) x') ↔
        HpBeside n ((2 * s + 1) * n + 2 * k + 1 - (c + 1)) (hpCol n (y', x')) := by
      by_cases hl : c + 1 = n
      · obtain ⟨hnx', hcol', _⟩ := hp_mid (show n ≤ y' by omega) (by omega)
        rw [if_pos hl, hnx', hcol', show (y' - n) % 2 = 0 by omega, ← Nat.cast_succ c, Nat.succ_eq_add_one, hl]
        rw [hnx'] at hx'
        have hxe2 : x = s * n + k := by rw [← hl]; exact hxe
        have := hp_cap_mid hs (show k < n by omega) hx' hxe2
        simpa using this
      · obtain ⟨s', k', c', hc', hcn', hs', hk', hxe', hnx', -, -, -, hcol'⟩ := hp_south (show 3 * n - 1 ≤ y' by omega) (by omega) hq' hx'
        obtain rfl : c' = c + 1 := by omega
        rw [if_neg hl, hnx', hcol']
        have := hp_cap_out (show c + 1 < n by omega) hs hs' hk hk' hxe hxe'
        push_cast
        exact this
    rw [← key]
    constructor
    · rintro (h | h | h | h)
      · split_ifs at h <;> omega
      · split_ifs at h <;> omega
      · exact ⟨by omega, Or.inl h.2⟩
      · exact ⟨by omega, Or.inr h.2⟩
    · rintro ⟨-, h | h⟩
      · exact Or.inr (Or.inr (Or.inl ⟨by omega, h⟩))
      · exact Or.inr (Or.inr (Or.inr ⟨by omega, h⟩))
  · subst h
    have hno := hpAcross_row (n := n) (p := (y, x)) (q := (y + 1, x')) (by simp)
    rw [or_iff_left hno]
    obtain ⟨s', k', c', hc', hcn', hs', hk', hxe', hnx', -, -, -, hcol'⟩ := hp_south (show 3 * n - 1 ≤ y + 1 by omega) (by omega) hq' hx'
    obtain rfl : c = c' + 1 := by omega
    have key := hp_cap_in (show c' + 1 < n by omega) hs hs' hk hk' hxe hxe'
    rw [hcol', hnx']
    push_cast
    rw [← key]
    by_cases h1 : k = 0 <;> by_cases h2 : k = c' + 1
    · omega
    · rw [if_pos h1, if_neg h2]
      constructor
      · rintro (h | h | h | h)
        · omega
        · exact ⟨Or.inl rfl, Or.inr ⟨h2, h.2⟩⟩
        · omega
        · omega
      · rintro ⟨-, h | h⟩
        · exact absurd h1 h.1
        · exact Or.inr (Or.inl ⟨rfl, h.2⟩)
    · rw [if_neg h1, if_pos h2]
      constructor
      · rintro (h | h | h | h)
        · exact ⟨Or.inl rfl, Or.inl ⟨h1, h.2⟩⟩
        · omega
        · omega
        · omega
      · rintro ⟨-, h | h⟩
        · exact Or.inl ⟨rfl, h.2⟩
        · exact absurd h2 h.1
    · rw [if_neg h1, if_neg h2]
      constructor
      · rintro (h | h | h | h)
        · exact ⟨Or.inl rfl, Or.inl ⟨h1, h.2⟩⟩
        · exact ⟨Or.inl rfl, Or.inr ⟨h2, h.2⟩⟩
        · omega
        · omega
      · rintro ⟨-, h | h⟩
        · exact Or.inl ⟨rfl, h.2⟩
        · exact Or.inr (Or.inl ⟨rfl, h.2⟩)
  · have hno := hpAcross_row (n := n) (p := (y, x)) (q := (y', x')) (by simp; omega)
    rw [or_iff_left hno]
    constructor
    · rintro (h | h | h | h)
      · split_ifs at h <;> omega
      · split_ifs at h <;> omega
      · omega
      · omega
    · rintro ⟨h, -⟩; omega

/-- C121: the pixels that the code takes for the neighbours of a pixel are those that share an edge with it. -/
theorem C121_neighs {nside : Nat} (hn : 1 ≤ nside) {p q : Nat × Nat} (hp : HpValid nside p) (hq : HpValid nside q) :
    q ∈ hpNeighs nside p ↔ HpTouch nside p q := by
  obtain ⟨y, x⟩ := p
  obtain ⟨y', x'⟩ := q
  obtain ⟨hy, hx⟩ := hp
  obtain ⟨hy', hx'⟩ := hq
  simp only [hpNy] at hy hy' hx hx'
  by_cases hN : y < nside
  · exact neighs_north hn hN hx hy' hx'
  · by_cases hS : 3 * nside - 1 ≤ y
    · exact neighs_south (by omega) hS hy hx hy' hx'
    · exact neighs_mid (by omega) (by omega) hx hy' hx'

/-- C121: sharing an edge is mutual, so that a pixel is a neighbour of its neighbours. -/
theorem C121_symm {nside : Nat} (hn : 1 ≤ nside) {p q : Nat × Nat} (hp : HpValid nside p) (hq : HpValid nside q) :
    q ∈ hpNeighs nside p ↔ p ∈ hpNeighs nside q := by
  rw [C121_neighs hn hp hq, C121_neighs hn hq hp]
  unfold HpTouch HpBeside
  constructor
  · rintro (⟨h1, h2⟩ | h | h)
    · exact Or.inl ⟨by omega, by omega⟩
    · exact Or.inr (Or.inr h)
    · exact Or.inr (Or.inl h)
  · rintro (⟨h1, h2⟩ | h | h)
    · exact Or.inl ⟨by omega, by omega⟩
    · exact Or.inr (Or.inr h)
    · exact Or.inr (Or.inl h)

theorem hpWrap_lt {w : Nat} {v : ℤ} {x : Nat} (h1 : -(w : ℤ) ≤ v) (h2 : v < 2 * w) (h : HpWrap w v x) : x < w := by
  unfold HpWrap at h
  rcases h with h | h | h <;> omega

/-- Widths of the rows. -/
theorem hpNx_cases {n y : Nat} : (y < n ∧ hpNx n y = 4 * (y + 1)) ∨ (n ≤ y ∧ y < 3 * n - 1 ∧ hpNx n y = 4 * n) ∨
    (n ≤ y ∧ 3 * n - 1 ≤ y ∧ hpNx n y = 4 * (4 * n - 2 - y + 1)) := by
  unfold hpNx
  split_ifs <;> omega

/-- C121: the neighbours of a pixel are pixels of the map. -/
theorem C121_valid {nside : Nat} (hn : 1 ≤ nside) {p q : Nat × Nat} (hp : HpValid nside p) (h : q ∈ hpNeighs nside p) :
    HpValid nside q := by
  obtain ⟨y, x⟩ := p
  obtain ⟨hy, hx⟩ := hp
  simp only [hpNy] at hy hx
  unfold HpValid hpNy
  have hw := @hpNx_cases nside q.1
  by_cases hN : y < nside
  · obtain ⟨s, k, hs, hk, hxe, hnx, -⟩ := hp_north hN hx
    rw [mem_north hn hN hx hk hxe] at h
    have hb : x < 4 * (y + 1) := by omega
    have hsx : s * y ≤ x := by rw [hxe, Nat.mul_succ]; omega
    have hsk : x - s = s * y + k := by rw [hxe, Nat.mul_succ]; omega
    rcases h with h | h | h | h
    · split_ifs at h with h0
      · exact ⟨by omega, hpWrap_lt (by omega) (by omega) h.2⟩
      · exact ⟨by omega, hpWrap_lt (by omega) (by omega) h.2⟩
    · split_ifs at h with h0
      · exact ⟨by omega, hpWrap_lt (by omega) (by omega) h.2⟩
      · exact ⟨by omega, hpWrap_lt (by omega) (by omega) h.2⟩
    · split_ifs at h with h0
      · exact ⟨by omega, hpWrap_lt (by omega) (by omega) h.2⟩
      · exact ⟨by omega, hpWrap_lt (by omega) (by omega) h.2⟩
    · split_ifs at h with h0
      · exact ⟨by omega, hpWrap_lt (by omega) (by omega) h.2⟩
      · exact ⟨by omega, hpWrap_lt (by omega) (by omega) h.2⟩
  · by_cases hS : 3 * nside - 1 ≤ y
    · obtain ⟨s, k, c, hc, hcn, hs, hk, hxe, hnx, -⟩ := hp_south hS (by omega) hy hx
      rw [mem_south (by omega) hS hc hcn hk hxe] at h
      have hb : x < 4 * (c + 1) := by omega
      have hsk : x - s = s * c + k := by rw [hxe, Nat.mul_succ]; omega
      rcases h with h | h | h | h
      · split_ifs at h with h0
        · exact ⟨by omega, hpWrap_lt (by omega) (by omega) h.2⟩
        · exact ⟨by omega, hpWrap_lt (by omega) (by omega) h.2⟩
      · split_ifs at h with h0
        · exact ⟨by omega, hpWrap_lt (by omega) (by omega) h.2⟩
        · exact ⟨by omega, hpWrap_lt (by omega) (by omega) h.2⟩
      · split_ifs at h with h0
        · exact ⟨by omega, hpWrap_lt (by omega) (by omega) h.2⟩
        · exact ⟨by omega, hpWrap_lt (by omega) (by omega) h.2⟩
      · split_ifs at h with h0
        · exact ⟨by omega, hpWrap_lt (by omega) (by omega) h.2⟩
        · exact ⟨by omega, hpWrap_lt (by omega) (by omega) h.2⟩
    · rw [mem_mid (by omega) (by omega)] at h
      obtain ⟨hrow, v, hv, h⟩ := h
      have hnx := (hp_mid (show nside ≤ y by omega) (by omega)).1
      exact ⟨by omega, hpWrap_lt (by omega) (by omega) h⟩

theorem mem_hpPixels {nside : Nat} {p : Nat × Nat} : p ∈ hpPixels nside ↔ HpValid nside p := by
  unfold hpPixels HpValid
  simp only [List.mem_flatMap, List.mem_range, List.mem_map]
  constructor
  · rintro ⟨y, hy, x, hx, rfl⟩; exact ⟨hy, hx⟩
  · rintro ⟨h1, h2⟩; exact ⟨p.1, h1, p.2, h2, rfl⟩

/-- C121: the set of edge pixels. A pixel is listed exactly if the mask is false in it and true in a pixel it touches. -/
theorem C121_edges {nside : Nat} (hn : 1 ≤ nside) (mask : Nat → Bool) (p : Nat × Nat) :
    p ∈ hpFindEdges nside mask ↔ HpValid nside p ∧ mask (hpRavel nside p) = false ∧
      ∃ q, HpValid nside q ∧ HpTouch nside p q ∧ mask (hpRavel nside q) = true := by
  unfold hpFindEdges
  rw [List.mem_filter, mem_hpPixels]
  refine and_congr_right fun hp => ?_
  rw [Bool.and_eq_true, List.any_eq_true, Bool.not_eq_true']
  refine and_congr_right fun _ => ?_
  constructor
  · rintro ⟨q, hq, hm⟩
    have hv := C121_valid hn hp hq
    exact ⟨q, hv, (C121_neighs hn hp hv).mp hq, hm⟩
  · rintro ⟨q, hv, ht, hm⟩
    exact ⟨q, (C121_neighs hn hp hv).mpr ht, hm⟩

/-- C121: the labelled form. A pixel is listed exactly if it has a label and touches a pixel with another one, or none. -/
theorem C121_edges_labeled {nside : Nat} (hn : 1 ≤ nside) (labels : Nat → ℤ) (p : Nat × Nat) :
    p ∈ hpFindEdgesLabeled nside labels ↔ HpValid nside p ∧ labels (hpRavel nside p) ≠ 0 ∧
      ∃ q, HpValid nside q ∧ HpTouch nside p q ∧ labels (hpRavel nside q) ≠ labels (hpRavel nside p) := by
  unfold hpFindEdgesLabeled
  rw [List.mem_filter, mem_hpPixels]
  refine and_congr_right fun hp => ?_
  rw [Bool.and_eq_true, List.any_eq_true, decide_eq_true_eq]
  refine and_congr_right fun _ => ?_
  constructor
  · rintro ⟨q, hq, hm⟩
    have hv := C121_valid hn hp hq
    exact ⟨q, hv, (C121_neighs hn hp hv).mp hq, by simpa using hm⟩
  · rintro ⟨q, hv, ht, hm⟩
    exact ⟨q, (C121_neighs hn hp hv).mpr ht, by simpa using hm⟩

-- The corner of a cap, a pixel inside it and one on the border of the middle.
example : HpValid 4 (0, 3) ∧ hpNeighs 4 (0, 3) = [(0, 2), (0, 0), (1, 6), (1, 7)] := by unfold HpValid; decide
example : HpValid 4 (3, 5) ∧ hpNeighs 4 (3, 5) = [(2, 3), (2, 4), (4, 5), (4, 6)] := by unfold HpValid; decide
example : HpValid 4 (4, 0) ∧ hpNeighs 4 (4, 0) = [(3, 15), (3, 0), (5, 15), (5, 0)] := by unfold HpValid; decide
example : hpFindEdges 1 (fun i => i = 4) = [(0, 0), (0, 3), (2, 0), (2, 3)] := by decide
example : hpFindEdgesLabeled 1 (fun i => if i < 5 then 1 else 0) = [(0, 0), (0, 1), (0, 2), (0, 3), (1, 0)] := by decide

end Pixell
