import Verif.Model.GeoBuild
import Verif.Lemmas.Num
import Mathlib.Tactic.FieldSimp
import Mathlib.Tactic.Linarith

/-
Property C124: geometries built around a box or a point cover it, to within the documented fraction of a pixel; geometries with
the same resolution and reference share their pixels; thumbnails are centred.
-/
namespace Pixell

/-! ### Boxes and points -/

theorem snapRef_none (w : Axis) : snapRef w none = w := rfl

/-- Where pixels go when the reference is made the centre of a pixel. -/
theorem snapRef_shift (w : Axis) (r : ℚ) : ∃ o : ℚ, -1 / 2 ≤ o ∧ o < 1 / 2 ∧ (snapRef w (some r)).cdelt = w.cdelt ∧
    (∀ s, (snapRef w (some r)).sky2pix s = w.sky2pix s - o) ∧ ∃ k : ℤ, (snapRef w (some r)).sky2pix r = k := by
  have e : pmod (w.sky2pix r + 1 + 1 / 2) 1 = w.sky2pix r + 1 + 1 / 2 - ⌊w.sky2pix r + 1 + 1 / 2⌋ := by
    unfold pmod; rw [div_one, one_mul]
  have h0 := Int.floor_le (w.sky2pix r + 1 + 1 / 2)
  have h1 := Int.lt_floor_add_one (w.sky2pix r + 1 + 1 / 2)
  have hs : ∀ s, (snapRef w (some r)).sky2pix s = w.sky2pix s - (pmod (w.sky2pix r + 1 + 1 / 2) 1 - 1 / 2) := by
    intro s; unfold snapRef Axis.sky2pix; ring
  refine ⟨pmod (w.sky2pix r + 1 + 1 / 2) 1 - 1 / 2, ?_, ?_, rfl, hs, ⌊w.sky2pix r + 1 + 1 / 2⌋ - 1, ?_⟩
  · rw [e]; linarith
  · rw [e]; linarith
  · rw [hs, e]; push_cast; ring

/-- C124: a box and a shape. The first corner is the outer edge of the first pixel and the second that of the last. -/
theorem C124_box_shape (crval a b : ℚ) (n : Nat) (hab : a ≠ b) (hn : 1 ≤ n) :
    ∃ w, geometryAxis crval (.box a b) none (some n) none = some ((n : ℤ), w) ∧
      w.sky2pix a = -1 / 2 ∧ w.sky2pix b = n - 1 / 2 := by
  have hn' : (n : ℚ) ≠ 0 := by positivity
  have hd : (b - a) / n ≠ 0 := div_ne_zero (sub_ne_zero.mpr hab.symm) hn'
  refine ⟨_, rfl, ?_, ?_⟩
  · unfold snapRef Axis.sky2pix; simp only; ring
  · unfold snapRef Axis.sky2pix
    simp only
    have hba := sub_ne_zero.mpr hab.symm
    have e : ((b - crval) / 1 + (1 - 1) - ((a - crval) / 1 + (1 - 1))) = b - a := by ring
    rw [e]
    have e2 : (b - crval) / ((b - a) / n) - (a - crval) / ((b - a) / n) = n := by
      rw [← sub_div]; rw [show b - crval - (a - crval) = b - a by ring]; field_simp
    linarith

/-- C124: a box and a resolution. The map starts at the first corner, runs towards the second with the given resolution, and
ends within half a pixel of it. -/
theorem C124_box_res (crval a b r : ℚ) (hr : 0 < r) :
    ∃ n w, geometryAxis crval (.box a b) (some r) none none = some (n, w) ∧ |w.cdelt| = r ∧ (a < b → 0 < w.cdelt) ∧
      (b < a → w.cdelt < 0) ∧ w.sky2pix a = -1 / 2 ∧ |w.sky2pix b - (n - 1 / 2)| ≤ 1 / 2 := by
  set d : ℚ := if b < a then -r else r with hd
  have hd0 : d ≠ 0 := by rw [hd]; split_ifs <;> linarith
  have hdist : 0 ≤ (b - a) / d := by
    rw [hd]; split_ifs with h
    · rw [div_neg, ← neg_div]; exact div_nonneg (by linarith) hr.le
    · exact div_nonneg (by linarith) hr.le
  refine ⟨_, _, rfl, ?_, ?_, ?_, ?_, ?_⟩
  · simp only [snapRef]; split_ifs <;> simp [abs_of_pos hr]
  · intro h; simp only [snapRef]; rw [if_neg (by linarith)]; exact hr
  · intro h; simp only [snapRef]; rw [if_pos h]; linarith
  · unfold snapRef Axis.sky2pix; simp only; ring
  · simp only [snapRef, Axis.sky2pix]
    rw [← hd]
    have e : (b - crval) / d + (1 - ((a - crval) / d + (1 - 1) + 1 / 2) - 1) -
        ((a - crval) / d + (1 - ((a - crval) / d + (1 - 1) + 1 / 2) - 1)) = (b - a) / d := by field_simp; ring
    rw [e, abs_of_nonneg hdist]
    have e2 : (b - crval) / d + (1 - ((a - crval) / d + (1 - 1) + 1 / 2) - 1) = (b - a) / d - 1 / 2 := by field_simp; ring
    rw [e2]
    have := rint_dist ((b - a) / d)
    rw [show (b - a) / d - 1 / 2 - (rint ((b - a) / d) - 1 / 2) = (b - a) / d - rint ((b - a) / d) by ring]
    exact this

/-- C124: with a reference point this is the centre of a pixel, and the corners are met to within half a pixel at the start and
one pixel at the end. -/
theorem C124_ref (crval a b r ref : ℚ) (hr : 0 < r) :
    ∃ n w, geometryAxis crval (.box a b) (some r) none (some ref) = some (n, w) ∧ (∃ k : ℤ, w.sky2pix ref = k) ∧
      |w.sky2pix a + 1 / 2| ≤ 1 / 2 ∧ |w.sky2pix b - (n - 1 / 2)| ≤ 1 := by
  obtain ⟨n, w, h, -, -, -, ha, hb⟩ := C124_box_res crval a b r hr
  simp only [geometryAxis, buildAxis, Option.bind_eq_bind, Option.bind_some, Option.some.injEq, Prod.mk.injEq] at h
  obtain ⟨hn, hw⟩ := h
  rw [snapRef_none] at hn hw
  obtain ⟨o, h1, h2, -, h4, h5⟩ := snapRef_shift w ref
  refine ⟨n, snapRef w (some ref), ?_, h5, ?_, ?_⟩
  · simp only [geometryAxis, buildAxis, Option.bind_eq_bind, Option.bind_some, Option.some.injEq, Prod.mk.injEq]
    rw [hw, h4, h4]
    refine ⟨?_, rfl⟩
    rw [← hn, hw]
    congr 2; ring
  · rw [h4, ha, abs_le]; constructor <;> linarith
  · rw [h4]
    rw [abs_le] at hb ⊢
    constructor <;> linarith [hb.1, hb.2]

/-- C124: a centre, a resolution and a shape. The centre is the middle of the map, or within half a pixel of it if a reference
is given. -/
theorem C124_point (crval p r : ℚ) (n : Nat) (ref : Option ℚ) :
    ∃ w, geometryAxis crval (.point p) (some r) (some n) ref = some ((n : ℤ), w) ∧ w.cdelt = r ∧
      (ref = none → w.sky2pix p = ((n : ℚ) - 1) / 2) ∧ |w.sky2pix p - ((n : ℚ) - 1) / 2| ≤ 1 / 2 ∧
      ∀ s, ref = some s → ∃ k : ℤ, w.sky2pix s = k := by
  set w0 : Axis := ⟨crval, r, (n : ℚ) / 2 + 1 / 2 - (⟨crval, r, 1⟩ : Axis).sky2pix p⟩ with hw0
  have h0 : w0.sky2pix p = ((n : ℚ) - 1) / 2 := by rw [hw0]; unfold Axis.sky2pix; simp only; ring
  refine ⟨snapRef w0 ref, rfl, ?_, ?_, ?_, ?_⟩
  · cases ref with
    | none => rfl
    | some s => rfl
  · intro h; subst h; exact h0
  · cases ref with
    | none => rw [snapRef_none, h0, sub_self, abs_zero]; norm_num
    | some s =>
      obtain ⟨o, h1, h2, -, h4, -⟩ := snapRef_shift w0 s
      rw [h4, h0, abs_le]; constructor <;> linarith
  · intro s h
    subst h
    obtain ⟨o, -, -, -, -, h5⟩ := snapRef_shift w0 s
    exact h5

/-- C124: two axes with the same step and the same reference at pixel centres, wherever their crval, share their pixels: their
pixel coordinates differ by a whole number. -/
theorem C124_compatible (w1 w2 : Axis) (ref : ℚ) (hd : w1.cdelt = w2.cdelt) (h1 : ∃ k : ℤ, w1.sky2pix ref = k)
    (h2 : ∃ k : ℤ, w2.sky2pix ref = k) : ∃ k : ℤ, ∀ s, w1.sky2pix s = w2.sky2pix s + k := by
  obtain ⟨k1, h1⟩ := h1
  obtain ⟨k2, h2⟩ := h2
  refine ⟨k1 - k2, fun s => ?_⟩
  push_cast
  rw [← h1, ← h2]
  unfold Axis.sky2pix
  rw [hd]
  ring

/-- C124 refuted for signed resolutions: with a descending box and a negative resolution the map runs upwards from the first
corner, away from the second. -/
theorem C124_signed_refuted :
    ∃ n w, geometryAxis 0 (.box 5 (-5)) (some (-1)) none none = some (n, w) ∧ 0 < w.cdelt ∧ n = 10 ∧
      w.pix2sky (-1 / 2) = 5 ∧ w.pix2sky (n - 1 / 2) = 15 :=
  ⟨10, ⟨0, 1, -9/2⟩, by decide +kernel, by decide +kernel, rfl, by decide +kernel, by decide +kernel⟩

/-! ### Bands -/

/-- C124: a band begins at most one row before the lower declination and ends at most one row before the upper one. -/
theorem C124_band_partial (ny yo : Nat) (hny : yo < ny) (hyo : yo ≤ 1) (dmin dmax : ℚ) (s e : ℤ) (h1 : -90 ≤ dmin)
    (h : bandRows ny yo dmin dmax = some (s, e)) :
    let w := (fullskyGeometry ny 2 yo).1
    (dmin - w.cdelt ≤ w.pix2sky (s - 1 / 2) ∧ w.pix2sky (s - 1 / 2) ≤ dmin) ∧
    (dmax - w.cdelt ≤ w.pix2sky (e - 1 / 2) ∧ w.pix2sky (e - 1 / 2) ≤ dmax) := by
  intro w
  have hq : (0 : ℚ) < (ny : ℚ) - yo := by
    have : (yo : ℚ) < ny := by exact_mod_cast hny
    linarith
  have hc : 0 < w.cdelt := by show (0 : ℚ) < 180 / ((ny : ℚ) - yo); positivity
  have hpos : ∀ k d : ℚ, w.pix2sky k = d + (k - w.sky2pix d) * w.cdelt := by
    intro k d
    unfold Axis.pix2sky Axis.sky2pix
    have := hc.ne'
    field_simp
    ring
  unfold bandRows at h
  simp only at h
  split_ifs at h with hif
  simp only [Option.some.injEq, Prod.mk.injEq] at h
  obtain ⟨hs, he⟩ := h
  have key : ∀ (k : ℤ) (d : ℚ), k = rint (w.sky2pix d) →
      d - w.cdelt ≤ w.pix2sky (k - 1 / 2) ∧ w.pix2sky (k - 1 / 2) ≤ d := by
    intro k d hk
    have hr := rint_dist (w.sky2pix d)
    rw [← hk, abs_le] at hr
    rw [hpos _ d]
    constructor
    · nlinarith [hr.1, hr.2]
    · nlinarith [hr.1, hr.2]
  have hlow : 0 ≤ rint (w.sky2pix dmin) := by
    by_contra hneg
    have hr := rint_dist (w.sky2pix dmin)
    rw [abs_le] at hr
    have hle : (rint (w.sky2pix dmin) : ℚ) ≤ -1 := by
      have : rint (w.sky2pix dmin) ≤ -1 := by omega
      exact_mod_cast this
    have hge : -1 / 2 ≤ w.sky2pix dmin := by
      show -1 / 2 ≤ (dmin - 0) / (180 / ((ny : ℚ) - yo)) + (((ny : ℚ) + 1) / 2 - 1)
      have hyo' : (yo : ℚ) ≤ 1 := by exact_mod_cast hyo
      have hy0 : (0 : ℚ) ≤ yo := by positivity
      have e : (dmin - 0) / (180 / ((ny : ℚ) - yo)) = dmin * ((ny : ℚ) - yo) / 180 := by field_simp; ring
      rw [e]
      have : -(((ny : ℚ) - yo) / 2) ≤ dmin * ((ny : ℚ) - yo) / 180 := by
        rw [le_div_iff₀ (by norm_num)]
        nlinarith
      linarith
    have : w.sky2pix dmin = -1 / 2 := by linarith
    rw [this] at hneg
    exact hneg (by decide +kernel)
  have hup : rint (w.sky2pix dmax) < ny := by
    have := hif.2.2.2.2
    rcases lt_or_ge (rint (w.sky2pix dmax)) (ny : ℤ) with h | h
    · exact h
    · exfalso
      have e : min (rint (w.sky2pix dmax)) (ny : ℤ) = ny := min_eq_right h
      have h' : min (rint (w.sky2pix dmax)) (ny : ℤ) < ny := this
      omega
  constructor
  · apply key
    rw [← hs]
    exact max_eq_left hlow
  · apply key
    rw [← he]
    exact min_eq_left hup.le

/-- C124 refuted: a band is not the declination range (-cut, cut). With pixel edges at the whole degrees a cut of 9 degrees gives
the rows from -10 to 8; with pixel centres there a cut of 10 gives the rows from -10 to 9; the whole sky fails an assertion, or
lacks the row at the pole. -/
theorem C124_band_refuted :
    (bandRows 180 0 (-9) 9 = some (80, 98) ∧ (fullskyGeometry 180 2 0).1.pix2sky (80 - 1 / 2) = -10 ∧
      (fullskyGeometry 180 2 0).1.pix2sky (98 - 1 / 2) = 8) ∧
    (bandRows 181 1 (-10) 10 = some (80, 100) ∧ (fullskyGeometry 181 2 1).1.pix2sky 80 = -10 ∧
      (fullskyGeometry 181 2 1).1.pix2sky 99 = 9) ∧
    bandRows 180 0 (-90) 90 = none ∧ bandRows 181 1 (-90) 90 = some (0, 180) := by decide +kernel

/-- C124: band_geometry2 with the variant "cc" covers its range. -/
theorem C124_band2 (lo hi r : ℚ) (hr : 0 < r) :
    ∃ n w, bandGeometry2 lo hi (some r) none (some "cc") = some (n, w) ∧ (∃ k : ℤ, w.sky2pix 0 = k) ∧
      |w.sky2pix lo + 1 / 2| ≤ 1 / 2 ∧ |w.sky2pix hi - (n - 1 / 2)| ≤ 1 := by
  obtain ⟨n, w, h, h'⟩ := C124_ref 0 lo hi r 0 hr
  exact ⟨n, w, by unfold bandGeometry2; rw [if_pos rfl]; exact h, h'⟩

/-- C124 refuted for band_geometry2: with its default variant it fails for all arguments; and a single number, which the error
message allows, gives no rows. -/
theorem C124_band2_refuted : (∀ lo hi res n, bandGeometry2 lo hi res n none = none) ∧
    ∃ w, bandGeometry2 10 10 (some 1) none (some "cc") = some (0, w) :=
  ⟨fun _ _ _ _ => rfl, ⟨0, 1, -9⟩, by decide +kernel⟩

/-! ### Thumbnails -/

theorem oddShape_odd (n : Nat) : oddShape n % 2 = 1 ∧ n ≤ oddShape n ∧ oddShape n ≤ n + 1 := by unfold oddShape; omega

/-- C124: whichever two arguments are given, a thumbnail has odd sides with the point (0,0) at the centre of the middle pixel. -/
theorem C124_thumb_center (r res dir : ℚ) (n : Nat) :
    ((thumbResShape res n).1 % 2 = 1 ∧ (thumbResShape res n).2.sky2pix 0 = (thumbResShape res n).1 / 2 - 1 / 2) ∧
    ((thumbRRes r res).1 % 2 = 1 ∧ (thumbRRes r res).2.sky2pix 0 = (thumbRRes r res).1 / 2 - 1 / 2) ∧
    ∀ t, thumbRShape r dir n = some t → t.1 % 2 = 1 ∧ t.2.sky2pix 0 = t.1 / 2 - 1 / 2 := by
  have hodd : ∀ m : Nat, m % 2 = 1 → ((m / 2 + 1 : Nat) : ℚ) - 1 = (m : ℚ) / 2 - 1 / 2 := by
    intro m hm
    obtain ⟨k, rfl⟩ : ∃ k, m = 2 * k + 1 := ⟨m / 2, by omega⟩
    rw [show (2 * k + 1) / 2 = k by omega]; push_cast; ring
  refine ⟨⟨(oddShape_odd n).1, ?_⟩, ⟨?_, ?_⟩, ?_⟩
  · unfold thumbResShape Axis.sky2pix
    simp only
    rw [← hodd _ (oddShape_odd n).1]; ring
  · unfold thumbRRes; simp only; omega
  · unfold thumbRRes Axis.sky2pix
    simp only
    rw [show ∀ z : ℤ, (2 * z + 1) / 2 = z by intro z; omega]
    push_cast; ring
  · intro t ht
    unfold thumbRShape at ht
    simp only at ht
    split_ifs at ht with h
    rw [← Option.some.inj ht]
    refine ⟨(oddShape_odd n).1, ?_⟩
    unfold Axis.sky2pix
    simp only
    rw [← hodd _ (oddShape_odd n).1]; ring

/-- C124: the extent of thumbnails. With a shape of at least two the outermost pixel centres are at the radius; with a resolution
they are within half a pixel of it. -/
theorem C124_thumb_extent (r res dir : ℚ) (n : Nat) (hr : 0 < r) (hn : 2 ≤ n) (hdir : dir = 1 ∨ dir = -1) (hres : res ≠ 0) :
    (∃ t, thumbRShape r dir n = some t ∧ t.2.pix2sky (t.1 - 1) = dir * r ∧ t.2.pix2sky 0 = -(dir * r)) ∧
    |(thumbRRes r res).2.pix2sky ((thumbRRes r res).1 - 1) - |res| / res * r| ≤ |res| / 2 := by
  constructor
  · have hm := oddShape_odd n
    obtain ⟨k, hk⟩ : ∃ k, oddShape n = 2 * k + 1 := ⟨oddShape n / 2, by omega⟩
    have hk1 : 1 ≤ k := by omega
    have hkq : (0 : ℚ) < k := by exact_mod_cast hk1
    have hrp : |(⟨0, 1, 1⟩ : Axis).sky2pix r| = r := by
      unfold Axis.sky2pix; simp only; rw [sub_zero, div_one, sub_self, add_zero, abs_of_pos hr]
    have hratio : ((oddShape n : ℚ) - 1) / (2 * r) * dir = k / r * dir := by
      rw [hk]; push_cast; field_simp; ring
    have hne : (k : ℚ) / r * dir ≠ 0 := by
      have : dir ≠ 0 := by rcases hdir with h | h <;> rw [h] <;> norm_num
      exact mul_ne_zero (div_ne_zero hkq.ne' hr.ne') this
    refine ⟨_, by unfold thumbRShape; simp only; rw [hrp, hratio, if_neg hne], ?_, ?_⟩
    · unfold Axis.pix2sky
      simp only
      rw [hk, show (2 * k + 1) / 2 + 1 = k + 1 by omega]
      push_cast
      rcases hdir with h | h <;> rw [h] <;> field_simp <;> ring
    · unfold Axis.pix2sky
      simp only
      rw [hk, show (2 * k + 1) / 2 + 1 = k + 1 by omega]
      push_cast
      rcases hdir with h | h <;> rw [h] <;> field_simp <;> ring
  · have hsky : |(⟨0, res, 1⟩ : Axis).sky2pix r| = r / |res| := by
      unfold Axis.sky2pix; simp only
      rw [sub_zero, sub_self, add_zero, abs_div, abs_of_pos hr]
    unfold thumbRRes Axis.pix2sky
    simp only
    rw [hsky, show ∀ z : ℤ, (2 * z + 1) / 2 = z by intro z; omega]
    have hd := rint_dist (r / |res|)
    set z := rint (r / |res|)
    have ha : 0 < |res| := abs_pos.mpr hres
    have e : (((2 * z + 1 : ℤ) : ℚ) - 1 - (((z + 1 : ℤ) : ℚ) - 1)) * res + 0 - |res| / res * r = -res * (r / |res| - z) := by
      have h2 : |res| * |res| = res * res := abs_mul_abs_self res
      have h3 : |res| / res * r = res * (r / |res|) := by
        field_simp
        rw [sq, sq, h2]
      rw [h3]; push_cast; ring
    rw [e, abs_mul, abs_neg]
    calc |res| * |r / |res| - (z : ℚ)| ≤ |res| * (1 / 2) := mul_le_mul_of_nonneg_left hd ha.le
      _ = |res| / 2 := by ring

/-- C124 refuted for thumbnails of one pixel with a radius: the step is infinite. -/
theorem C124_thumb_refuted : thumbRShape 1 1 1 = none := by decide +kernel

/-- C124: moving the reference to the middle of the map along the equator does not move any pixel. -/
theorem C124_recentre (n : Nat) (w : Axis) (p : ℚ) : (recentreMid n w).pix2sky p = w.pix2sky p := by
  unfold recentreMid Axis.pix2sky; simp only; ring

-- A box of ten by the half degree with the reference at the pixel centre next to it.
example : geometryAxis 0 (.box (-1/3) 10) (some (1/2)) none (some 0) = some (21, ⟨0, 1/2, 1⟩) := by decide +kernel
example : geometryAxis 5 (.box 10 0) none (some 20) none = some (20, ⟨5, -1/2, 21/2⟩) := by decide +kernel
example : thumbRRes 3 (-1/2) = (13, ⟨0, -1/2, 7⟩) := by decide +kernel

/-- C124: a builder that puts the reference at the middle of the box has every position in the box within half the size of the box of its
reference, whatever else is given. -/
theorem C124_middle (a b : ℚ) (res : Option ℚ) (n : Option Nat) (ref : Option ℚ) (w : Axis)
    (h : buildAxis (BuildPos.box a b).mid (.box a b) res n ref = some w) (s : ℚ) (hs : min a b ≤ s) (hs' : s ≤ max a b) :
    |s - w.crval| ≤ |b - a| / 2 := by
  have hsnap : ∀ v : Axis, (snapRef v ref).crval = v.crval := by intro v; cases ref <;> rfl
  have hc : w.crval = (a + b) / 2 := by
    unfold buildAxis at h
    cases res with
    | none =>
      cases n with
      | none => simp at h
      | some m =>
        simp only [Option.some.injEq] at h
        rw [← h, hsnap]
        rfl
    | some r =>
      simp only [Option.some.injEq] at h
      rw [← h, hsnap]
      rfl
  rw [hc]
  rcases le_total a b with hab | hab
  · rw [min_eq_left hab] at hs
    rw [max_eq_right hab] at hs'
    rw [abs_of_nonneg (sub_nonneg.2 hab), abs_le]
    constructor <;> linarith
  · rw [min_eq_right hab] at hs
    rw [max_eq_left hab] at hs'
    rw [abs_of_nonpos (sub_nonpos.2 hab), abs_le]
    constructor <;> linarith

example : buildAxis (BuildPos.box 10 0).mid (.box 10 0) none (some 20) none = some ⟨5, -1/2, 21/2⟩ := by decide +kernel

end Pixell
