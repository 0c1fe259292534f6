import Verif.Lemmas.Num
import Verif.Model.MapOps
/-
C16: one-dimensional pixelisation.
-/
namespace Pixell

/-- Specification: `n` pixels with spacing `res` whose first centre is `a` pixels after the lower
end of `[-w/2, w/2]` and whose last centre is `b` pixels after the upper end (`b` is negative for
pixels inside). -/
def Covers (w res : ℚ) (n : ℤ) (a b ra1 ra2 : ℚ) : Prop :=
  ra1 = -w/2 + a * res ∧ ra2 = w/2 + b * res ∧ ra2 - ra1 = (n - 1) * res

/-- Asking for `n` pixels (non-periodic axis) gives exactly `n` pixels covering the interval, with
the requested offsets (half a pixel inside by default). -/
theorem C16_count (w : ℚ) (n : ℤ) (o1 o2 : Option ℚ) (adjust : Bool) (sign tol eps : ℚ)
    (hD : (n : ℚ) - 1 + o1.getD (1/2) - o2.getD (-1/2) ≠ 0) :
    ∃ p, pixelize1d w (.count n) o1 o2 false adjust sign tol eps = some p ∧ p.n = n ∧
      ∃ x1 x2, p.ra1 = x1 * sign ∧ p.ra2 = x2 * sign ∧
        Covers w (w / (n - 1 + o1.getD (1/2) - o2.getD (-1/2))) n (o1.getD (1/2)) (o2.getD (-1/2)) x1 x2 := by
  simp only [pixelize1d, pixFinish, Bool.false_and, Bool.false_eq_true, if_false]
  refine ⟨_, rfl, rfl, _, _, rfl, rfl, rfl, ?_, by ring⟩
  generalize o1.getD (1/2) = a at *
  generalize o2.getD (-1/2) = b at *
  field_simp
  ring

/-- Asking for a resolution with both offsets fixed either fails, exactly when the interval is not a
whole number of pixels (to within `tol`), or places the first centre exactly and the last one to
within `tol` pixels. -/
theorem C16_res_exact (w res a b tol eps : ℚ) (hr : 0 < res) :
    let nf := w/res + 1 - (a - b)
    let n := intTrunc (nf + eps)
    (pixelize1d w (.res res) (some a) (some b) false false 1 tol eps = none ↔ tol ≤ |(n : ℚ) - nf|) ∧
    ∀ p, pixelize1d w (.res res) (some a) (some b) false false 1 tol eps = some p →
      p.n = n ∧ p.ra1 = -w/2 + a * res ∧ p.ra2 - p.ra1 = (p.n - 1) * res ∧
      |p.ra2 - (w/2 + b * res)| < tol * res := by
  intro nf n
  have hneg : ¬ res < 0 := by linarith
  simp only [pixelize1d, hneg, if_false, Option.isNone_some, Bool.false_and, Bool.false_eq_true, pixRes]
  constructor
  · constructor
    · intro h
      by_contra hc
      rw [if_pos (not_le.1 hc)] at h
      exact absurd h (by simp)
    · intro h
      rw [if_neg (not_lt.2 h)]
  · intro p hp
    split at hp
    · rename_i hlt
      simp only [Option.some.injEq, pixFinish, Bool.false_and, Bool.false_eq_true, if_false] at hp
      subst hp
      refine ⟨rfl, by simp, by simp only; ring, ?_⟩
      simp only [mul_one]
      have e : -w/2 + a*res + ((n:ℚ)-1)*res - (w/2 + b*res) = ((n:ℚ) - nf) * res := by
        simp only [nf]; field_simp; ring
      have e' := e
      simp only [n, nf] at e' hlt ⊢
      rw [e', abs_mul, abs_of_pos hr]
      exact mul_lt_mul_of_pos_right hlt hr
    · simp at hp

/-- If the interval is a whole number of pixels, the request succeeds and covers it exactly. -/
theorem C16_res_divides (w res a b tol eps : ℚ) (hr : 0 < res) (m : ℕ)
    (hm : w/res + 1 - (a - b) = m) (ht : 0 < tol) (he0 : 0 ≤ eps) (he1 : eps < 1) :
    ∃ p, pixelize1d w (.res res) (some a) (some b) false false 1 tol eps = some p ∧ p.n = m ∧
      Covers w res m a b p.ra1 p.ra2 := by
  have htr : intTrunc ((m : ℚ) + eps) = m := by
    have h0 : (0:ℚ) ≤ m := by positivity
    rw [intTrunc, if_pos (by linarith), Int.floor_eq_iff]
    constructor
    · push_cast; linarith
    · push_cast; linarith
  obtain ⟨h1, h2⟩ := C16_res_exact w res a b tol eps hr
  simp only [hm, htr] at h1 h2
  cases hp : pixelize1d w (.res res) (some a) (some b) false false 1 tol eps with
  | none =>
    have := h1.1 hp
    simp at this
    linarith
  | some p =>
    obtain ⟨g1, g2, g3, _⟩ := h2 p hp
    refine ⟨p, rfl, g1, g2, ?_, ?_⟩
    · have : p.ra2 = -w/2 + a*res + ((m:ℚ)-1)*res := by
        rw [g1] at g3; push_cast at g3; linarith
      rw [this, ← hm]; field_simp; ring
    · rw [g3, g1]

/-- With both ends free, the pixels are centred on the interval with exactly the requested spacing,
and are as many as fit. -/
theorem C16_res_free (w res tol eps : ℚ) (hr : 0 < res) (hw : 0 ≤ w) (he : 0 ≤ eps) :
    ∃ p, pixelize1d w (.res res) none none false false 1 tol eps = some p ∧
      p.ra1 = -p.ra2 ∧ p.ra2 - p.ra1 = (p.n - 1) * res ∧
      p.ra2 - p.ra1 ≤ w + eps * res ∧ w + eps * res < p.ra2 - p.ra1 + res := by
  have hneg : ¬ res < 0 := by linarith
  simp only [pixelize1d, hneg, if_false, Option.isNone_none, Bool.and_self, if_true, pixRes, pixFinish,
    Bool.false_and, Bool.false_eq_true]
  refine ⟨_, rfl, by ring, by ring, ?_⟩
  have h0 : 0 ≤ w/res + 1 - (0 - 0) + eps := by
    have := div_nonneg hw hr.le
    linarith
  have hle := Int.floor_le (w/res + 1 - (0 - 0) + eps)
  have hlt := Int.lt_floor_add_one (w/res + 1 - (0 - 0) + eps)
  rw [intTrunc, if_pos h0]
  generalize (⌊w/res + 1 - (0 - 0) + eps⌋ : ℤ) = k at *
  have e : w / res * res = w := div_mul_cancel₀ _ hr.ne'
  constructor
  · have := mul_le_mul_of_nonneg_right hle hr.le
    have h2 : (w/res + 1 - (0 - 0) + eps) * res = w + res + eps * res := by
      rw [← e]; field_simp; ring
    linarith
  · have := mul_lt_mul_of_pos_right hlt hr
    have h2 : (w/res + 1 - (0 - 0) + eps) * res = w + res + eps * res := by
      rw [← e]; field_simp; ring
    linarith

/-- A negative resolution is the mirror image of the positive one. -/
theorem C16_res_sign (w res tol eps : ℚ) (o1 o2 : Option ℚ) (periodic adjust : Bool) (hr : 0 < res) :
    pixelize1d w (.res (-res)) o1 o2 periodic adjust 1 tol eps =
      (pixelize1d w (.res res) o1 o2 periodic adjust 1 tol eps).map
        fun p => { p with ra1 := -p.ra1, ra2 := -p.ra2 } := by
  have hneg : ¬ res < 0 := by linarith
  have hneg' : -res < 0 := by linarith
  have hfin : ∀ w n o1 o2, pixFinish w n res o1 o2 periodic (-1) =
      { pixFinish w n res o1 o2 periodic 1 with
        ra1 := -(pixFinish w n res o1 o2 periodic 1).ra1,
        ra2 := -(pixFinish w n res o1 o2 periodic 1).ra2 } := by
    intro w n o1 o2
    cases o1 <;> cases o2 <;> simp only [pixFinish] <;>
      generalize (periodic && _) = b <;> cases b <;> simp
  have hres : ∀ o1 o2 adj, pixRes w res o1 o2 periodic adj (-1) tol eps =
      (pixRes w res o1 o2 periodic adj 1 tol eps).map
        fun p => { p with ra1 := -p.ra1, ra2 := -p.ra2 } := by
    intro o1 o2 adj
    unfold pixRes
    cases o1 <;> cases o2 <;> simp only [Option.map_none, Option.map_some, hfin]
    split
    · simp
    · split <;> simp
  simp only [pixelize1d, hneg, hneg', if_true, if_false, neg_neg]
  split
  · exact hres _ _ _
  · exact hres _ _ _

/-- One free end: the pixels start exactly at the requested offset from the lower end and stop within
one pixel of the upper end. -/
theorem C16_res_half_free (w res a tol eps : ℚ) (adjust : Bool) (hr : 0 < res)
    (h0 : 0 ≤ w/res + 1 - a + eps) :
    ∃ p, pixelize1d w (.res res) (some a) none false adjust 1 tol eps = some p ∧
      p.ra1 = -w/2 + a * res ∧ p.ra2 - p.ra1 = (p.n - 1) * res ∧
      p.ra2 ≤ w/2 + eps * res ∧ w/2 + eps * res < p.ra2 + res := by
  have hneg : ¬ res < 0 := by linarith
  simp only [pixelize1d, hneg, if_false, Option.isNone_none, Option.isNone_some, Bool.false_and,
    pixRes, pixFinish, Bool.false_eq_true]
  refine ⟨_, rfl, by ring, by ring, ?_⟩
  have hle := Int.floor_le (w/res + 1 - a + eps)
  have hlt := Int.lt_floor_add_one (w/res + 1 - a + eps)
  rw [intTrunc, if_pos h0]
  generalize (⌊w/res + 1 - a + eps⌋ : ℤ) = k at *
  have h2 : (w/res + 1 - a + eps) * res = w + res - a * res + eps * res := by
    field_simp
  have g1 := mul_le_mul_of_nonneg_right hle hr.le
  have g2 := mul_lt_mul_of_pos_right hlt hr
  constructor <;> linarith

/-! ### Periodic axes -/

/-- Edge-centred periodic axis (`00`): the duplicated end point is dropped; the remaining pixels tile
the circle exactly once. -/
theorem C16_periodic_edge (w : ℚ) (n : ℤ) (hn : 1 < n) (sign tol eps : ℚ) (adjust : Bool) :
    ∃ p, pixelize1d w (.count n) (some 0) (some 0) true adjust sign tol eps = some p ∧
      p.n = n - 1 ∧ ∃ res, (p.n : ℚ) * res = w ∧ p.ra2 - p.ra1 = (p.n - 1) * res * sign := by
  have hne : (n : ℚ) - 1 ≠ 0 := by
    have : (1:ℚ) < n := by exact_mod_cast hn
    linarith
  simp only [pixelize1d, Option.getD_some, pixFinish]
  have hcl : allclose (-w/2 + 0 * (w / ((n:ℚ) - 1 + 0 - 0)) + ((n:ℚ) - 1) * (w / ((n:ℚ) - 1 + 0 - 0)) -
      (-w/2 + 0 * (w / ((n:ℚ) - 1 + 0 - 0)))) w = true := by
    have : -w/2 + 0 * (w / ((n:ℚ) - 1 + 0 - 0)) + ((n:ℚ) - 1) * (w / ((n:ℚ) - 1 + 0 - 0)) -
      (-w/2 + 0 * (w / ((n:ℚ) - 1 + 0 - 0))) = w := by
      simp only [add_zero, sub_zero]; field_simp; ring
    rw [this]
    simp only [allclose, sub_self, abs_zero, decide_eq_true_eq]
    positivity
  rw [hcl]
  simp only [Bool.and_self, if_true]
  refine ⟨_, rfl, rfl, w / ((n:ℚ) - 1), ?_, ?_⟩
  · push_cast; field_simp
  · push_cast; simp only [add_zero, sub_zero]; ring

/-- Full claim for half-pixel offsets on a periodic axis: all `n` requested pixels are kept (there is
no duplicate to drop). -/
def C16_periodic_half_claim : Prop :=
  ∀ (n : ℤ), 0 < n → ∃ p, pixelize1d 360 (.count n) (some (1/2)) (some (-1/2)) true = some p ∧ p.n = n

/-- It fails from 100000 pixels on: the comparison `np.allclose(ra2-ra1, w)` has a relative tolerance
of 1e-5, so a pixel that is not a duplicate is dropped. -/
theorem C16_periodic_half_refuted : ¬ C16_periodic_half_claim := by
  intro h
  obtain ⟨p, hp, hn⟩ := h 100000 (by norm_num)
  have : (pixelize1d 360 (.count 100000) (some (1/2)) (some (-1/2)) true).map Pix1d.n = some 99999 := by
    decide +kernel
  rw [hp] at this
  simp [hn] at this

/-- Below that size it holds. -/
theorem C16_periodic_half_partial (w : ℚ) (hw : 0 < w) (n : ℤ) (hn : 0 < n)
    (hsmall : 1/10^8 + 1/10^5 * w < w / n) :
    ∃ p, pixelize1d w (.count n) (some (1/2)) (some (-1/2)) true = some p ∧ p.n = n ∧
      Covers w (w/n) n (1/2) (-1/2) p.ra1 p.ra2 := by
  have hnq : (0:ℚ) < n := by exact_mod_cast hn
  have er : w / ((n:ℚ) - 1 + 1/2 - -1/2) = w / n := by congr 1; ring
  simp only [pixelize1d, Option.getD_some, pixFinish, er]
  have hcl : allclose (-w/2 + 1/2 * (w/n) + ((n:ℚ) - 1) * (w/n) - (-w/2 + 1/2 * (w/n))) w = false := by
    have e : -w/2 + 1/2 * (w/n) + ((n:ℚ) - 1) * (w/n) - (-w/2 + 1/2 * (w/n)) - w = -(w/n) := by
      field_simp; ring
    simp only [allclose, e, abs_neg, decide_eq_false_iff_not, not_le]
    rw [abs_of_pos hw, abs_of_pos (by positivity)]
    exact hsmall
  rw [hcl]
  simp only [Bool.and_false, Bool.false_eq_true, if_false]
  refine ⟨_, rfl, rfl, by ring, ?_, by ring⟩
  field_simp; ring

example : (1:ℚ)/10^8 + 1/10^5 * 360 < 360 / ((21600 : ℤ) : ℚ) := by norm_num

/-! ### Adjusting the extent -/

def C16_adjust_claim : Prop :=
  ∀ (w res a b : ℚ) (p : Pix1d), 0 < res → 0 < w →
    pixelize1d w (.res res) (some a) (some b) false true = some p →
      (p.ra1 - a * res) + (p.ra2 - b * res) = 0

/-- With `adjust` and half-pixel offsets the pixels are not centred on the interval: the new extent is
computed with `o1+o2` instead of `o1-o2`. -/
theorem C16_adjust_refuted : ¬ C16_adjust_claim := by
  intro h
  have e : pixelize1d 10 (.res 3) (some (1/2)) (some (-1/2)) false true =
      some ⟨-3/2, 9/2, 3, some (1/2), some (-1/2)⟩ := by decide +kernel
  exact absurd (h _ _ _ _ _ (by norm_num) (by norm_num) e) (by norm_num)

/-- It is right when `o2 = 0`, in particular for the only combination `pixelization` uses. -/
theorem C16_adjust_partial (w res a : ℚ) (p : Pix1d) (hr : 0 < res)
    (h : pixelize1d w (.res res) (some a) (some 0) false true = some p) :
    (p.ra1 - a * res) + (p.ra2 - 0 * res) = 0 := by
  have hneg : ¬ res < 0 := by linarith
  simp only [pixelize1d, hneg, if_false, Option.isNone_some, Bool.false_and, Bool.false_eq_true, pixRes,
    if_true, Option.some.injEq, pixFinish] at h
  subst h
  simp only; ring

/-! ### The WCS built from a pixelisation -/

/-- If the pixels cover the interval with the given offsets, the WCS built by `pixelization` puts the
first and last pixel where pixelize_1d said. -/
theorem C16_pixelization_partial (p : Pix1d) (w res a b : ℚ) (h1 : p.n ≠ 1) (hr : res ≠ 0)
    (hc : Covers w res p.n a b p.ra1 p.ra2) :
    (pixelizationAxis p a b).pix2sky 0 = p.ra1 ∧
    (pixelizationAxis p a b).pix2sky ((p.n : ℚ) - 1) = p.ra2 := by
  obtain ⟨c1, c2, c3⟩ := hc
  have hne : (p.n : ℚ) - 1 ≠ 0 := by
    intro h; apply h1
    have : (p.n : ℚ) = 1 := by linarith
    exact_mod_cast this
  have e : (p.ra2 - p.ra1) / ((p.n : ℚ) - 1) = res := by rw [c3]; field_simp
  have e2 : w + (b - a) * res = ((p.n:ℚ) - 1) * res := by rw [← c3, c1, c2]; ring
  simp only [pixelizationAxis, Axis.pix2sky, e]
  constructor
  · rw [c1]; linarith
  · rw [c2]; linarith

def C16_pixelization_claim : Prop :=
  ∀ (w : ℚ) (r : PixReq) (a b : ℚ) (periodic : Bool) (p : Pix1d),
    pixelize1d w r (some a) (some b) periodic = some p → p.n ≠ 1 →
      (pixelizationAxis p a b).pix2sky 0 = p.ra1

/-- The default full-sky CAR variant drops the duplicated column, but `crpix` is computed as if it
were still there: every pixel is half a pixel from where pixelize_1d put it. -/
theorem C16_pixelization_refuted : ¬ C16_pixelization_claim := by
  intro h
  have e : pixelize1d 360 (.res 1) (some 0) (some 0) true = some ⟨-180, 179, 360, some 0, some 0⟩ := by
    decide +kernel
  have := h _ _ _ _ _ _ e (by norm_num)
  have e2 : (pixelizationAxis ⟨-180, 179, 360, some 0, some 0⟩ 0 0).pix2sky 0 = -359/2 := by
    decide +kernel
  rw [e2] at this
  norm_num at this

/-- When a shape is given, the number of columns is taken from the number of rows. -/
theorem C16_pixelization_shape_refuted (ny nx : ℤ) (h : nx ≠ ny) :
    (pixelizationCounts ny nx).2 ≠ nx := by
  simp only [pixelizationCounts]; exact fun e => h e.symm

end Pixell
