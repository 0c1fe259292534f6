import Verif.Model.Geometry2
import Verif.Props.Submap
import Verif.Props.GeoBuild
import Verif.Props.Pixelize

/-
Property C179: geometry2 from its arguments to the positions of its pixels.
-/
namespace Pixell

/-! ### One axis -/

theorem intTrunc_nat_eps (m : ℕ) : intTrunc ((m : ℚ) + 1 / 10 ^ 6) = m := by
  have h0 : (0:ℚ) ≤ m := by positivity
  rw [intTrunc, if_pos (by positivity), Int.floor_eq_iff]
  constructor
  · push_cast; linarith [show (0:ℚ) ≤ 1 / 10 ^ 6 by norm_num]
  · push_cast; norm_num

/-- A whole number of pixels along an axis that is not periodic, or that does not end in a duplicate. -/
theorem fullAxis2_exact (w r s a b : ℚ) (hr : 0 < r) (hs : s = 1 ∨ s = -1) (m : ℕ) (hm1 : m ≠ 1) (hm : w / r + 1 - (a - b) = m)
    (periodic : Bool) (hp : periodic = true → allclose (((m : ℚ) - 1) * r) w = false) :
    fullAxis2 w (.res (s * r)) (some a, some b) periodic = some ((m : ℤ), ⟨0, s * r, 1 + ((m : ℚ) - 1 - b - a) / 2⟩) := by
  have hneg : (if s * r < 0 then -(s * r) else s * r) = r := by
    rcases hs with rfl | rfl
    · rw [if_neg (by linarith)]; ring
    · rw [if_pos (by linarith)]; ring
  have hsign : (if s * r < 0 then -(1 : ℚ) else 1) = s := by
    rcases hs with rfl | rfl
    · rw [if_neg (by linarith)]
    · rw [if_pos (by linarith)]
  have e1 : ∀ q : ℚ, q + (m - 1) * r - q = ((m : ℚ) - 1) * r := fun q => by ring
  have hpx : pixelize1d w (.res (s * r)) (some a) (some b) periodic =
      some ⟨(-w / 2 + a * r) * s, (-w / 2 + a * r + (m - 1) * r) * s, m, some a, some b⟩ := by
    unfold pixelize1d
    simp only [hneg, hsign, Option.isNone_some, Bool.and_self, Bool.false_eq_true, if_false]
    unfold pixRes
    simp only [hm, intTrunc_nat_eps]
    simp only [Int.cast_natCast, sub_self, abs_zero]
    rw [if_neg Bool.false_ne_true, if_pos (by norm_num)]
    unfold pixFinish
    simp only [Int.cast_natCast, e1]
    rw [if_neg]
    intro hc
    rw [Bool.and_eq_true] at hc
    rw [hp hc.1] at hc
    simp at hc
  unfold fullAxis2
  simp only [hpx, Option.bind_eq_bind, Option.bind_some]
  rw [if_neg (by exact_mod_cast hm1)]
  have hne : (m : ℚ) - 1 ≠ 0 := by
    intro h
    apply hm1
    have : (m : ℚ) = 1 := by linarith
    exact_mod_cast this
  unfold pixelizationAxis
  simp only [Int.cast_natCast, Option.some.injEq, Prod.mk.injEq, Axis.mk.injEq, true_and, and_true]
  have : (-w / 2 + a * r + (m - 1) * r) * s - (-w / 2 + a * r) * s = ((m : ℚ) - 1) * (s * r) := by ring
  rw [this]
  field_simp

/-- A periodic axis with pixel centres at both ends: the last column is dropped. -/
theorem fullAxis2_dup (w r s : ℚ) (hr : 0 < r) (hs : s = 1 ∨ s = -1) (m : ℕ) (hm1 : m ≠ 1) (hm : w / r = m) :
    fullAxis2 w (.res (s * r)) (some 0, some 0) true = some ((m : ℤ), ⟨0, s * r, 1 + ((m : ℚ) - 1) / 2⟩) := by
  have hneg : (if s * r < 0 then -(s * r) else s * r) = r := by
    rcases hs with rfl | rfl
    · rw [if_neg (by linarith)]; ring
    · rw [if_pos (by linarith)]; ring
  have hsign : (if s * r < 0 then -(1 : ℚ) else 1) = s := by
    rcases hs with rfl | rfl
    · rw [if_neg (by linarith)]
    · rw [if_pos (by linarith)]
  have hw : w = m * r := by rw [← hm]; field_simp
  have hpx : pixelize1d w (.res (s * r)) (some 0) (some 0) true =
      some ⟨(-w / 2 + 0 * r) * s, (-w / 2 + 0 * r + m * r - r) * s, m, some 0, some 0⟩ := by
    unfold pixelize1d
    simp only [hneg, hsign, Option.isNone_some, Bool.and_self, Bool.false_eq_true, if_false]
    unfold pixRes
    have e : w / r + 1 - (0 - 0) = ((m + 1 : ℕ) : ℚ) := by rw [hm]; push_cast; ring
    simp only [e, intTrunc_nat_eps]
    simp only [Int.cast_natCast, sub_self, abs_zero]
    rw [if_neg Bool.false_ne_true, if_pos (by norm_num)]
    unfold pixFinish
    have e2 : (((m + 1 : ℕ) : ℤ) : ℚ) - 1 = m := by push_cast; ring
    simp only [e2]
    rw [if_pos]
    · simp
    · have : -w / 2 + 0 * r + m * r - (-w / 2 + 0 * r) = w := by rw [hw]; ring
      simp only [Bool.true_and, this]
      unfold allclose
      simp only [sub_self, abs_zero, decide_eq_true_eq]
      positivity
  unfold fullAxis2
  simp only [hpx, Option.bind_eq_bind, Option.bind_some]
  rw [if_neg (by exact_mod_cast hm1)]
  have hne : (m : ℚ) - 1 ≠ 0 := by
    intro h
    apply hm1
    have : (m : ℚ) = 1 := by linarith
    exact_mod_cast this
  unfold pixelizationAxis
  simp only [Int.cast_natCast, Option.some.injEq, Prod.mk.injEq, Axis.mk.injEq, true_and]
  refine ⟨?_, by ring⟩
  have : (-w / 2 + 0 * r + m * r - r) * s - (-w / 2 + 0 * r) * s = ((m : ℚ) - 1) * (s * r) := by ring
  rw [this]
  field_simp

theorem safe_columns (r : ℚ) (k : ℕ) (hk : 1 ≤ k) (hk2 : k < 50000) (hr : r = 180 / k) :
    allclose ((((2 * k : ℕ) : ℚ) - 1) * r) 360 = false := by
  have h0 : (0:ℚ) < k := by exact_mod_cast hk
  have e : (((2 * k : ℕ) : ℚ) - 1) * r - 360 = -(180 / k) := by rw [hr]; push_cast; field_simp; ring
  unfold allclose
  rw [decide_eq_false_iff_not, e, abs_neg, abs_of_pos (by positivity), not_le]
  have h1 : (k : ℚ) ≤ 49999 := by
    have : k ≤ 49999 := by omega
    exact_mod_cast this
  rw [lt_div_iff₀ h0, abs_of_pos (by norm_num)]
  norm_num
  linarith

/-! ### The full sky -/

/-- The geometry has `k` rows with edges at both poles and `2k` columns with an edge at ra = 180, going to the left. -/
def IsEdgeSky (k : ℕ) (g : Geo2) : Prop :=
  g.ny = k ∧ g.nx = 2 * k ∧ (∀ i : ℚ, g.y.pix2sky i = -90 + (i + 1 / 2) * (180 / k)) ∧
    ∀ j : ℚ, g.x.pix2sky j = 180 - (j + 1 / 2) * (180 / k)

/-- C179: "safe", at every resolution that divides the sky and is not too fine: rows and columns are whole, with edges at the poles and at
the ends of the sky. -/
theorem C179_safe (k : ℕ) (hk : 2 ≤ k) (hk2 : k < 50000) :
    ∃ g, geometry2Full (.inl (180 / k)) (some "safe") = some g ∧ IsEdgeSky k g := by
  have hk0 : (0:ℚ) < k := by exact_mod_cast (by omega : 0 < k)
  have hv : parseVariant "safe" = some ((some (1/2), some (-1/2)), (some (1/2), some (-1/2))) := by decide +kernel
  have hx := fullAxis2_exact 360 (180 / k) (-1) (1/2) (-1/2) (by positivity) (Or.inr rfl) (2 * k) (by omega)
    (by push_cast; field_simp; ring) true (fun _ => safe_columns _ k (by omega) hk2 rfl)
  have hy := fullAxis2_exact 180 (180 / k) 1 (1/2) (-1/2) (by positivity) (Or.inl rfl) k (by omega)
    (by field_simp; ring) false (by simp)
  refine ⟨_, by
    unfold geometry2Full pixelizationRes expandRes
    simp only [Option.getD_some, hv, Option.bind_eq_bind, Option.bind_some, hx, hy, Option.map_some]
    rfl, rfl, by simp [Geo2.recentre], ?_, ?_⟩
  · intro i
    simp only [Geo2.recentre, Axis.pix2sky]
    field_simp
    ring
  · intro j
    simp only [Geo2.recentre]
    rw [C124_recentre]
    simp only [Axis.pix2sky]
    push_cast
    field_simp
    ring

/-- C179: "fejer1", the default, gives exactly the geometry of "safe". -/
theorem C179_fejer1_partial (k : ℕ) (hk : 2 ≤ k) (hk2 : k < 50000) :
    geometry2Full (.inl (180 / k)) none = geometry2Full (.inl (180 / k)) (some "safe") := by
  have hk0 : (0:ℚ) < k := by exact_mod_cast (by omega : 0 < k)
  have hv : parseVariant "safe" = some ((some (1/2), some (-1/2)), (some (1/2), some (-1/2))) := by decide +kernel
  have hv2 : parseVariant "fejer1" = some ((some 0, some 0), (some (1/2), some (-1/2))) := by decide +kernel
  have hx := fullAxis2_exact 360 (180 / k) (-1) (1/2) (-1/2) (by positivity) (Or.inr rfl) (2 * k) (by omega)
    (by push_cast; field_simp; ring) true (fun _ => safe_columns _ k (by omega) hk2 rfl)
  have hx2 := fullAxis2_dup 360 (180 / k) (-1) (by positivity) (Or.inr rfl) (2 * k) (by omega) (by push_cast; field_simp; norm_num)
  have e : (((2 * k : ℕ) : ℚ) - 1 - (-1/2) - 1/2) = ((2 * k : ℕ) : ℚ) - 1 := by ring
  rw [e] at hx
  unfold geometry2Full pixelizationRes expandRes
  simp only [Option.getD_some, Option.getD_none, hv, hv2, Option.bind_eq_bind, Option.bind_some, hx, hx2]

/-- C179: so the default does not have a pixel centre at the ends of the sky in ra, as it should, at any resolution; fullsky_geometry
does. -/
theorem C179_fejer1_refuted (k : ℕ) (hk : 2 ≤ k) (hk2 : k < 50000) :
    (∃ g, geometry2Full (.inl (180 / k)) none = some g ∧ ∀ j t : ℤ, g.x.pix2sky j ≠ 180 + 360 * t) ∧
    ∃ j : ℤ, (fullskyGeometry k (2 * k) 0).2.pix2sky j = 180 := by
  have hk0 : (0:ℚ) < k := by exact_mod_cast (by omega : 0 < k)
  obtain ⟨g, hg, -, -, -, hx⟩ := C179_safe k hk hk2
  refine ⟨⟨g, by rw [C179_fejer1_partial k hk hk2, hg], fun j t h => ?_⟩, 0, ?_⟩
  · rw [hx] at h
    have h1 : ((j : ℚ) + 1 / 2) = -(2 * k * t) := by
      have : ((j : ℚ) + 1 / 2) * (180 / k) = -(360 * t) := by linarith
      field_simp at this
      linarith
    have h2 : (2 * j + 1 : ℚ) = 2 * (-(2 * k * t)) := by linarith
    have h3 : 2 * j + 1 = 2 * (-(2 * (k : ℤ) * t)) := by exact_mod_cast h2
    omega
  · unfold fullskyGeometry Axis.pix2sky
    have e : ((2 * k / 2 : ℕ) : ℚ) = k := by rw [Nat.mul_div_cancel_left _ (by omega)]
    simp only [e]
    push_cast
    field_simp
    ring

/-- C179: "cc" has its first and last rows at the poles, but the columns of "safe". -/
theorem C179_cc_partial (k : ℕ) (hk : 2 ≤ k) :
    ∃ g, geometry2Full (.inl (180 / k)) (some "cc") = some g ∧ g.ny = k + 1 ∧ g.nx = 2 * k ∧
      (∀ i : ℚ, g.y.pix2sky i = -90 + i * (180 / k)) ∧ ∀ j : ℚ, g.x.pix2sky j = 180 - (j + 1 / 2) * (180 / k) := by
  have hk0 : (0:ℚ) < k := by exact_mod_cast (by omega : 0 < k)
  have hv : parseVariant "cc" = some ((some 0, some 0), (some 0, some 0)) := by decide +kernel
  have hx := fullAxis2_dup 360 (180 / k) (-1) (by positivity) (Or.inr rfl) (2 * k) (by omega) (by push_cast; field_simp; norm_num)
  have hy := fullAxis2_exact 180 (180 / k) 1 0 0 (by positivity) (Or.inl rfl) (k + 1) (by omega)
    (by push_cast; field_simp; ring) false (by simp)
  refine ⟨_, by
    unfold geometry2Full pixelizationRes expandRes
    simp only [Option.getD_some, hv, Option.bind_eq_bind, Option.bind_some, hx, hy, Option.map_some]
    rfl, by simp [Geo2.recentre], by simp [Geo2.recentre], ?_, ?_⟩
  · intro i
    simp only [Geo2.recentre, Axis.pix2sky]
    push_cast
    field_simp
    ring
  · intro j
    simp only [Geo2.recentre]
    rw [C124_recentre]
    simp only [Axis.pix2sky]
    push_cast
    field_simp
    ring

/-- C179: "safe" is safe to downgrade, by any factor at any resolution: averaging f by f pixels gives the pixels of the geometry with the
lower resolution. -/
theorem C179_downgrade (k f : ℕ) (hk : 2 ≤ k) (hf : 1 ≤ f) (hk2 : f * k < 50000) :
    ∃ g h, geometry2Full (.inl (180 / (f * k : ℕ))) (some "safe") = some g ∧ geometry2Full (.inl (180 / k)) (some "safe") = some h ∧
      ((downgradeGeometry g.ny.toNat g.y f).1 : ℤ) = h.ny ∧ ((downgradeGeometry g.nx.toNat g.x f).1 : ℤ) = h.nx ∧
      (∀ i, (downgradeGeometry g.ny.toNat g.y f).2.pix2sky i = h.y.pix2sky i) ∧
      ∀ i, (downgradeGeometry g.nx.toNat g.x f).2.pix2sky i = h.x.pix2sky i := by
  have hfk : k ≤ f * k := Nat.le_mul_of_pos_left k hf
  have hk0 : (0:ℚ) < k := by exact_mod_cast (by omega : 0 < k)
  have hf0 : (0:ℚ) < f := by exact_mod_cast hf
  obtain ⟨g, hg, g1, g2, g3, g4⟩ := C179_safe (f * k) (by omega) hk2
  obtain ⟨h, hh, h1, h2, h3, h4⟩ := C179_safe k hk (by omega)
  have key : ∀ (n : ℕ) (w : Axis) (i : ℚ), (downgradeGeometry n w f).2.pix2sky i = w.pix2sky (i * f + (f - 1) / 2) := by
    intro n w i
    simp only [downgradeGeometry, scaleWcs, Axis.pix2sky, if_true]
    field_simp
    ring
  refine ⟨g, h, hg, hh, ?_, ?_, ?_, ?_⟩
  · rw [g1, h1]
    simp only [downgradeGeometry, Int.toNat_natCast]
    rw [Nat.mul_div_cancel_left _ (by omega)]
  · rw [g2, h2]
    have : (2 * ((f * k : ℕ) : ℤ)).toNat = f * (2 * k) := by rw [mul_left_comm f 2 k]; omega
    simp only [downgradeGeometry, this]
    rw [Nat.mul_div_cancel_left _ (by omega)]
    push_cast; ring
  · intro i
    rw [key, g3, h3]
    push_cast
    field_simp
    ring
  · intro i
    rw [key, g4, h4]
    push_cast
    field_simp
    ring

/-- C179: with the default or "cc", one cannot ask for a shape: whatever is asked for, there are as many columns as rows, but for one, and
"cc" also loses a row. -/
theorem C179_shape_refuted (ny : ℕ) (hny : 3 ≤ ny) (nx : ℤ) :
    (∃ g, geometry2Shape ny nx none = some g ∧ g.nx = ny - 1) ∧
    ∃ g, geometry2Shape ny nx (some "cc") = some g ∧ g.nx = ny - 1 ∧ g.ny = ny - 1 := by
  have h0 : (0:ℚ) < (ny : ℚ) - 1 := by
    have : (3:ℚ) ≤ ny := by exact_mod_cast hny
    linarith
  have hdup : ∀ w : ℚ, 0 ≤ w → ∃ ax, fullAxis2 w (.count ny) (some 0, some 0) true = some ((ny : ℤ) - 1, ax) := by
    intro w hw
    have hc : allclose (-w / 2 + 0 * (w / (((ny : ℤ) : ℚ) - 1 + 0 - 0)) + (((ny : ℤ) : ℚ) - 1) * (w / (((ny : ℤ) : ℚ) - 1 + 0 - 0)) -
        (-w / 2 + 0 * (w / (((ny : ℤ) : ℚ) - 1 + 0 - 0)))) w = true := by
      have : -w / 2 + 0 * (w / (((ny : ℤ) : ℚ) - 1 + 0 - 0)) + (((ny : ℤ) : ℚ) - 1) * (w / (((ny : ℤ) : ℚ) - 1 + 0 - 0)) -
        (-w / 2 + 0 * (w / (((ny : ℤ) : ℚ) - 1 + 0 - 0))) = w := by
        push_cast
        rw [add_zero, sub_zero]
        field_simp
        ring
      rw [this]
      unfold allclose
      rw [sub_self, abs_zero, decide_eq_true_eq]
      positivity
    unfold fullAxis2 pixelize1d pixFinish
    simp only [Option.getD_some, Bool.true_and, hc, if_true, Option.bind_eq_bind, Option.bind_some]
    rw [if_neg (by omega)]
    exact ⟨_, rfl⟩
  have hhalf : ∃ n ax, fullAxis2 180 (.count ny) (some (1/2), some (-1/2)) true = some (n, ax) := by
    unfold fullAxis2 pixelize1d pixFinish
    simp only [Option.getD_some, Bool.true_and, Option.bind_eq_bind, Option.bind_some]
    split
    · simp only [Option.bind_some]
      rw [if_neg (by omega)]
      exact ⟨_, _, rfl⟩
    · simp only [Option.bind_some]
      rw [if_neg (by omega)]
      exact ⟨_, _, rfl⟩
  obtain ⟨ax, hx⟩ := hdup 360 (by norm_num)
  obtain ⟨ay, hy⟩ := hdup 180 (by norm_num)
  obtain ⟨n, ah, hh⟩ := hhalf
  have hv : parseVariant "cc" = some ((some 0, some 0), (some 0, some 0)) := by decide +kernel
  have hv2 : parseVariant "fejer1" = some ((some 0, some 0), (some (1/2), some (-1/2))) := by decide +kernel
  constructor
  · refine ⟨_, by
      unfold geometry2Shape pixelizationShape
      simp only [Option.getD_none, hv2, Option.bind_eq_bind, Option.bind_some, hx, hh, Option.map_some]
      rfl, rfl⟩
  · refine ⟨_, by
      unfold geometry2Shape pixelizationShape
      simp only [Option.getD_some, hv, Option.bind_eq_bind, Option.bind_some, hx, hy, Option.map_some]
      rfl, rfl, rfl⟩

theorem pixFinish_offs (w : ℚ) (n : ℤ) (r : ℚ) (o1 o2 : Option ℚ) (periodic : Bool) (s : ℚ) :
    (pixFinish w n r o1 o2 periodic s).o1 = o1 ∧ (pixFinish w n r o1 o2 periodic s).o2 = o2 := by
  unfold pixFinish
  simp only
  constructor
  all_goals split <;> split <;> rfl

/-- C179: a rule with one free end always raises, for every resolution, along each axis. -/
theorem C179_wildcard_refuted (w r a : ℚ) (periodic : Bool) :
    fullAxis2 w (.res r) (some a, none) periodic = none ∧ fullAxis2 w (.res r) (none, some a) periodic = none := by
  constructor
  all_goals
    unfold fullAxis2 pixelize1d pixRes
    simp only [Option.isNone_some, Option.isNone_none, Bool.false_and, Bool.and_false, Bool.false_eq_true, if_false,
      Option.bind_eq_bind, Option.bind_some, (pixFinish_offs _ _ _ _ _ _ _).1, (pixFinish_offs _ _ _ _ _ _ _).2,
      Option.bind_none]

/-- C179: "any" along ra, for every resolution: the columns are as many as fit, without the one that is taken for a duplicate. -/
theorem C179_any (r : ℚ) (hr : 0 < r) (hn : 2 ≤ ⌊360 / r + 1 / 10 ^ 6⌋) :
    ∃ ax, fullAxis2 360 (.res (-r)) (none, none) true = some (⌊360 / r + 1 / 10 ^ 6⌋, ax) ∧ ax.cdelt = -r ∧
      ∀ j : ℚ, ax.pix2sky j = ((⌊360 / r + 1 / 10 ^ 6⌋ : ℚ) - 1) / 2 * r - j * r := by
  set n := ⌊360 / r + 1 / 10 ^ 6⌋ with hnn
  have h0 : (0:ℚ) ≤ 360 / r := by positivity
  have ht : intTrunc (360 / r + 1 - (0 - 0) + 1 / 10 ^ 6) = n + 1 := by
    rw [intTrunc, if_pos (by norm_num; linarith)]
    have : 360 / r + 1 - (0 - 0) + 1 / 10 ^ 6 = 360 / r + 1 / 10 ^ 6 + 1 := by ring
    rw [this, Int.floor_add_one]
  have hpx : pixelize1d 360 (.res (-r)) none none true =
      some ⟨(-(n * r) / 2) * -1, (-(n * r) / 2 + n * r - r) * -1, n, some 0, some 0⟩ := by
    unfold pixelize1d
    simp only [show -r < 0 by linarith, if_true, neg_neg, Option.isNone_none, Bool.and_self]
    unfold pixRes
    simp only [ht, if_true]
    unfold pixFinish
    have e1 : ((n + 1 : ℤ) : ℚ) + (0 + 0) - 1 = n := by push_cast; ring
    have e2 : ((n + 1 : ℤ) : ℚ) - 1 = n := by push_cast; ring
    simp only [e1, e2]
    rw [if_pos]
    · simp
    · have : -(n * r) / 2 + 0 * r + n * r - (-(n * r) / 2 + 0 * r) = n * r := by ring
      rw [this]
      unfold allclose
      rw [sub_self, abs_zero, Bool.true_and, decide_eq_true_eq]
      positivity
  have hne : (n : ℚ) - 1 ≠ 0 := by
    intro h
    have : (n : ℚ) = 1 := by linarith
    have : n = 1 := by exact_mod_cast this
    omega
  have hcd : ((-(n * r) / 2 + n * r - r) * -1 - (-(n * r) / 2) * -1) / ((n : ℚ) - 1) = -r := by field_simp; ring
  refine ⟨_, by
    unfold fullAxis2
    simp only [hpx, Option.bind_eq_bind, Option.bind_some]
    rw [if_neg (by omega)], ?_, ?_⟩
  · unfold pixelizationAxis
    exact hcd
  · intro j
    unfold pixelizationAxis Axis.pix2sky
    simp only [hcd]
    ring

/-- C179: so, unless the resolution divides the circle, "any" leaves out a part of the sky: at 7 degrees, ra = 179 is in no column. -/
theorem C179_any_refuted : ∃ ax, fullAxis2 360 (.res (-7)) (none, none) true = some (51, ax) ∧
    ∀ j t : ℤ, 0 ≤ j → j < 51 → 7 / 2 < |ax.pix2sky j - (179 + 360 * t)| := by
  have hfl : ⌊(360 : ℚ) / 7 + 1 / 10 ^ 6⌋ = 51 := by
    rw [Int.floor_eq_iff]; norm_num
  obtain ⟨ax, h1, -, h2⟩ := C179_any 7 (by norm_num) (by rw [hfl]; norm_num)
  rw [hfl] at h1 h2
  refine ⟨ax, h1, fun j t hj0 hj1 => ?_⟩
  rw [h2, lt_abs]
  have hj0' : (0:ℚ) ≤ j := by exact_mod_cast hj0
  have hj1' : (j:ℚ) ≤ 50 := by exact_mod_cast (by omega : j ≤ 50)
  push_cast
  rcases le_or_gt 0 t with ht | ht
  · right
    have : (0:ℚ) ≤ t := by exact_mod_cast ht
    linarith
  · left
    have : (t:ℚ) ≤ -1 := by exact_mod_cast (by omega : t ≤ -1)
    linarith

/-! ### Boxes and points -/

theorem crop_sky2pix (w : Axis) (b0 b1 : ℤ) (p : ℚ) : (cropGeometry w b0 b1).2.sky2pix p = w.sky2pix p - b0 := by
  unfold cropGeometry Axis.sky2pix
  simp only
  ring

theorem crop_pix2sky (w : Axis) (b0 b1 : ℤ) (i : ℚ) : (cropGeometry w b0 b1).2.pix2sky i = w.pix2sky (b0 + i) := by
  unfold cropGeometry Axis.pix2sky
  simp only
  ring

/-- C179: a part of the sky selected by a box inside the full sky, in the direction of the pixels: its pixels are pixels of the full sky,
the start of the box is in its first pixel, and its end is less than a pixel beyond its last pixel, up to 1/10000 of a pixel. -/
theorem C179_box (n : ℕ) (w : Axis) (a b : ℚ) (h1 : -1 / 2 ≤ w.sky2pix a) (h2 : w.sky2pix a < w.sky2pix b)
    (h3 : w.sky2pix b ≤ n - 1 / 2) :
    ∃ k : ℤ, (∀ i, (cropBox n w a b).2.pix2sky i = w.pix2sky (k + i)) ∧
      -1 / 2 - 1 / 10000 ≤ (cropBox n w a b).2.sky2pix a ∧ (cropBox n w a b).2.sky2pix a ≤ 1 / 2 ∧
      ((cropBox n w a b).1 : ℚ) - 1 / 2 - 1 / 10000 ≤ (cropBox n w a b).2.sky2pix b ∧
      (cropBox n w a b).2.sky2pix b ≤ (cropBox n w a b).1 + 1 / 2 := by
  obtain ⟨d, hle, ha, hb⟩ := C84_round n w a b (1/10000) h2
  rw [abs_le] at ha hb
  set s := subinds n w a b .round false false (1/10000) with hs
  have e : subinds n w a b .round true false = s := by
    have e1 : subinds n w a b .round true false = (max s.1 0, min s.2.1 n, s.2.2) := by
      have h : 0 < (skyboxPix w a b).2.2 := by
        have : s.2.2 = (skyboxPix w a b).2.2 := by rw [hs]; simp [subinds]
        rw [← this, d]; norm_num
      rw [hs]
      simp only [subinds, Bool.false_eq_true, false_and, if_false, if_true]
      rw [if_pos h]
    have c1 : 0 ≤ s.1 := by
      have : (-1 : ℚ) < s.1 := by linarith [ha.2]
      have : (-1 : ℤ) < s.1 := by exact_mod_cast this
      omega
    have c2 : s.2.1 ≤ n := by
      have : (s.2.1 : ℚ) < n + 1 := by linarith [hb.1]
      have : s.2.1 < n + 1 := by exact_mod_cast this
      omega
    rw [e1, max_eq_left c1, min_eq_left c2]
  have hcb : cropBox n w a b = cropGeometry w s.1 s.2.1 := by
    unfold cropBox
    simp only [Int.toNat_natCast, e]
  rw [hcb]
  have hlen : ((cropGeometry w s.1 s.2.1).1 : ℚ) = s.2.1 - s.1 := by
    have : ((cropGeometry w s.1 s.2.1).1 : ℤ) = s.2.1 - s.1 := by
      unfold cropGeometry
      simp only
      omega
    exact_mod_cast this
  refine ⟨s.1, fun i => crop_pix2sky w _ _ i, ?_, ?_, ?_, ?_⟩
  · rw [crop_sky2pix]; linarith [ha.1]
  · rw [crop_sky2pix]; linarith [ha.2]
  · rw [crop_sky2pix, hlen]; linarith [hb.1]
  · rw [crop_sky2pix, hlen]; linarith [hb.2]

/-- C179: a part of the sky around a point has the shape asked for, its pixels are pixels of the full sky, and the point is in the pixel
with the index m//2. -/
theorem C179_point (w : Axis) (p : ℚ) (m : ℕ) :
    (cropPoint w p m).1 = m ∧ (∃ k : ℤ, ∀ i, (cropPoint w p m).2.pix2sky i = w.pix2sky (k + i)) ∧
      |(cropPoint w p m).2.sky2pix p - (m / 2 : ℕ)| ≤ 1 / 2 := by
  unfold cropPoint
  simp only
  refine ⟨?_, ⟨_, fun i => crop_pix2sky w _ _ i⟩, ?_⟩
  · unfold cropGeometry
    simp only
    omega
  · rw [crop_sky2pix]
    have := rint_dist (w.sky2pix p)
    generalize m / 2 = h
    have e : w.sky2pix p - ((rint (w.sky2pix p) - (h : ℤ) : ℤ) : ℚ) - (h : ℚ) = w.sky2pix p - rint (w.sky2pix p) := by
      push_cast
      ring
    rw [e]; exact this

/-- C179: whatever the box, the resolution and the variant, all pixels of geometry2 are pixels of the full sky, going in the direction of
the box; so geometries with the same resolution and variant and boxes in the same directions share their pixels. -/
theorem C179_window (lo hi : ℚ × ℚ) (res : ℚ ⊕ (ℚ × ℚ)) (variant : Option String) (g : Geo2)
    (h : geometry2Box lo hi res variant = some g) :
    ∃ full, pixelizationRes (expandRes res (boxSign (hi.1 - lo.1), boxSign (hi.2 - lo.2))) variant = some full ∧
      (∃ k : ℤ, ∀ i, g.y.pix2sky i = full.y.pix2sky (k + i)) ∧ ∃ k : ℤ, ∀ i, g.x.pix2sky i = full.x.pix2sky (k + i) := by
  unfold geometry2Box at h
  simp only [Option.bind_eq_bind] at h
  obtain ⟨full, h1, h2⟩ := Option.bind_eq_some_iff.1 h
  obtain rfl := Option.some.inj h2
  have key : ∀ (n : ℤ) (w : Axis) (a b : ℚ), ∃ k : ℤ, ∀ i, (cropBox n w a b).2.pix2sky i = w.pix2sky (k + i) :=
    fun n w a b => ⟨(subinds n.toNat w a b .round true false).1, fun i => crop_pix2sky w _ _ i⟩
  obtain ⟨k, hk⟩ := key full.nx full.x lo.2 hi.2
  refine ⟨full, h1, key _ _ _ _, k, fun i => ?_⟩
  simp only [Geo2.recentre]
  rw [C124_recentre]
  exact hk i

/-- C179: a box across the end of the full sky in ra loses the part beyond it: of the 20 columns from ra = 190 to 170 there are 10, on
one side or the other, depending on the turn. -/
theorem C179_wrap_refuted : ∃ g, geometry2Full (.inl 1) none = some g ∧ (cropBox g.nx g.x 190 170).1 = 10 ∧
    (cropBox g.nx g.x (190 - 360) (170 - 360)).1 = 10 := by
  refine ⟨⟨180, 360, ⟨0, 1, 181 / 2⟩, ⟨1 / 2 - 1 / 2, -1, 361 / 2⟩⟩, by decide +kernel, by decide +kernel, by decide +kernel⟩

-- A tenth of a degree, and a part of it.
example : ∃ g, geometry2Full (.inl (180 / (1800 : ℕ))) none = some g ∧ g.ny = 1800 ∧ g.nx = 3600 ∧ g.y.pix2sky 0 = -90 + 1 / 20 := by
  obtain ⟨g, h1, h2, h3, h4, -⟩ := C179_safe 1800 (by norm_num) (by norm_num)
  exact ⟨g, by rw [C179_fejer1_partial 1800 (by norm_num) (by norm_num), h1], h2, by rw [h3]; norm_num, by rw [h4]; norm_num⟩

example : (geometry2Box (-10, 20) (10, -20) (.inl (1/2)) none).map (fun g => (g.ny, g.nx)) = some (40, 80) := by decide +kernel
example : (geometry2Point (5, 7) (.inl (1/2)) (11, 12) (some "CC")).map (fun g => (g.ny, g.nx)) = some (11, 12) := by decide +kernel
example : parseVariant "0h,*0" = some ((some 0, some (-1/2)), (none, some 0)) := by decide +kernel
example : geometry2Full (.inl 7) (some "safe") = none := by decide +kernel

end Pixell
