import Verif.Lemmas.Num
import Verif.Model.MapOps
/-
C13 (union geometry), C14 (project), C15 (recentering), C17 (compatibility), C78 (full sky).
-/
namespace Pixell

/-! ## C17 -/

/-- Specification: two axes describe the same pixel grid, up to a whole number of pixels. -/
def SameGrid (w1 w2 : Axis) : Prop :=
  w1.cdelt = w2.cdelt ∧ ∃ k : ℤ, ∀ p : ℚ, w1.pix2sky p = w2.pix2sky (p + k)

theorem SameGrid.refl (w : Axis) : SameGrid w w := ⟨rfl, 0, fun p => by simp⟩

theorem SameGrid.symm {w1 w2 : Axis} (h : SameGrid w1 w2) : SameGrid w2 w1 := by
  obtain ⟨h1, k, h2⟩ := h
  exact ⟨h1.symm, -k, fun p => by rw [h2]; congr 1; push_cast; ring⟩

theorem SameGrid.trans {w1 w2 w3 : Axis} (h : SameGrid w1 w2) (h' : SameGrid w2 w3) :
    SameGrid w1 w3 := by
  obtain ⟨h1, k, h2⟩ := h
  obtain ⟨h3, m, h4⟩ := h'
  exact ⟨h1.trans h3, k + m, fun p => by rw [h2, h4]; congr 1; push_cast; ring⟩

/-- Offset between two axes with the same spacing, in pixels. -/
theorem sameGrid_iff {w1 w2 : Axis} (hc : w1.cdelt ≠ 0) :
    SameGrid w1 w2 ↔ w1.cdelt = w2.cdelt ∧
      ∃ k : ℤ, (w1.crval - w2.crval) / w1.cdelt - (w1.crpix - w2.crpix) = k := by
  constructor
  · rintro ⟨h1, k, h2⟩
    refine ⟨h1, k, ?_⟩
    have := h2 0
    simp only [Axis.pix2sky, ← h1] at this
    field_simp
    linarith
  · rintro ⟨h1, k, h2⟩
    refine ⟨h1, k, fun p => ?_⟩
    simp only [Axis.pix2sky, ← h1]
    field_simp at h2
    linarith

theorem subpix_zero_iff (x : ℚ) : pmod (x + 1/2) 1 - 1/2 = 0 ↔ ∃ k : ℤ, x = k := by
  constructor
  · intro h
    refine ⟨⌊x + 1/2⌋, ?_⟩
    simp only [pmod, div_one, one_mul] at h
    linarith
  · rintro ⟨k, rfl⟩
    have : pmod ((k:ℚ) + 1/2) 1 = pmod (1/2) 1 := by
      rw [add_comm]
      have := pmod_add_mul (1/2) (one_ne_zero : (1:ℚ) ≠ 0) k
      simpa using this
    rw [this, pmod_eq_self (by norm_num) (by norm_num)]; norm_num

/-- With zero tolerance `is_compatible` decides exactly whether the two axes share a pixel grid. -/
theorem C17_compatible_iff (w1 w2 : Axis) (hc : w1.cdelt ≠ 0) :
    isCompatible w1 w2 0 = true ↔ SameGrid w1 w2 := by
  rw [sameGrid_iff hc]
  unfold isCompatible
  simp only
  have hpos : 0 < |w1.cdelt| := abs_pos.2 hc
  by_cases h1 : w1.cdelt = w2.cdelt
  · rw [if_neg (by rw [h1]; simp)]
    simp only [h1, true_and]
    rw [← subpix_zero_iff]
    constructor
    · intro h
      by_contra hne
      have : |pmod ((w1.crval - w2.crval) / w2.cdelt - (w1.crpix - w2.crpix) + 1/2) 1 - 1/2| > 0 :=
        abs_pos.2 hne
      rw [if_pos this] at h
      exact absurd h (by simp)
    · intro h
      rw [h]; simp
  · rw [if_pos]
    · simp [h1]
    · exact div_pos (abs_pos.2 (sub_ne_zero.2 h1)) hpos

/-- Hence compatibility (at zero tolerance) is an equivalence relation on non-degenerate axes. -/
theorem C17_equivalence (w1 w2 w3 : Axis) (h1 : w1.cdelt ≠ 0) (h2 : w2.cdelt ≠ 0) :
    isCompatible w1 w1 0 = true ∧
    (isCompatible w1 w2 0 = true → isCompatible w2 w1 0 = true) ∧
    (isCompatible w1 w2 0 = true → isCompatible w2 w3 0 = true → isCompatible w1 w3 0 = true) := by
  rw [C17_compatible_iff _ _ h1, C17_compatible_iff _ _ h1, C17_compatible_iff _ _ h2,
    C17_compatible_iff _ _ h2, C17_compatible_iff _ _ h1]
  exact ⟨.refl _, .symm, .trans⟩

/-- A larger tolerance only accepts more. -/
theorem C17_tol_mono (w1 w2 : Axis) {t1 t2 : ℚ} (h : t1 ≤ t2)
    (hc : isCompatible w1 w2 t1 = true) : isCompatible w1 w2 t2 = true := by
  unfold isCompatible at *
  simp only at *
  split at hc
  · simp at hc
  · rename_i g1
    split at hc
    · simp at hc
    · rename_i g2
      rw [if_neg (by linarith), if_neg (by linarith)]

/-- With the default tolerance it is not transitive. -/
theorem C17_tol_not_transitive :
    isCompatible ⟨0, 1, 0⟩ ⟨0, 1, 9/10000⟩ (1/1000) = true ∧
    isCompatible ⟨0, 1, 9/10000⟩ ⟨0, 1, 18/10000⟩ (1/1000) = true ∧
    isCompatible ⟨0, 1, 0⟩ ⟨0, 1, 18/10000⟩ (1/1000) = false := by
  decide +kernel

example : SameGrid ⟨10, 1/2, 7⟩ ⟨0, 1/2, 3⟩ := by
  rw [← C17_compatible_iff _ _ (by norm_num)]; decide +kernel

/-! ## C13 -/

/-- The pixel box of a geometry on the same grid: the integers at which its pixels sit. -/
theorem pixboxOf_sameGrid (iw ow : Axis) (n : Nat) {tol : ℚ} (ht : 0 ≤ tol) (hc : iw.cdelt ≠ 0)
    (h : SameGrid iw ow) :
    ∃ k : ℤ, pixboxOf iw n ow tol = some (k, k + n) ∧ ∀ p : ℚ, ow.pix2sky p = iw.pix2sky (p + k) := by
  have hcomp := C17_tol_mono iw ow ht ((C17_compatible_iff iw ow hc).2 h)
  obtain ⟨h1, k, h2⟩ := (sameGrid_iff hc).1 h
  refine ⟨-k, ?_, ?_⟩
  · have : (iw.crpix - ow.crpix) - (iw.crval - ow.crval) / iw.cdelt = ((-k : ℤ) : ℚ) := by
      push_cast; linarith
    simp only [pixboxOf, hcomp, if_true, this, rint_int]
  · intro p
    simp only [Axis.pix2sky, ← h1]
    field_simp at h2
    push_cast
    linarith

/-- An incompatible geometry is rejected. -/
theorem C13_rejects (iw ow : Axis) (n : Nat) (tol : ℚ) (h : isCompatible iw ow tol = false) :
    pixboxOf iw n ow tol = none := by
  simp [pixboxOf, h]

theorem mapM_boxes (ref : Axis) (tol : ℚ) (ht : 0 ≤ tol) (hc : ref.cdelt ≠ 0)
    (gs : List (Nat × Axis)) (h : ∀ g ∈ gs, SameGrid ref g.2) :
    ∃ boxes, gs.mapM (fun g => pixboxOf ref g.1 g.2 tol) = some boxes ∧
      (∀ g ∈ gs, ∃ k : ℤ, (k, k + (g.1 : ℤ)) ∈ boxes ∧ ∀ p : ℚ, g.2.pix2sky p = ref.pix2sky (p + k)) ∧
      (∀ b ∈ boxes, ∃ g ∈ gs, b.2 = b.1 + (g.1 : ℤ) ∧ ∀ p : ℚ, g.2.pix2sky p = ref.pix2sky (p + b.1)) := by
  induction gs with
  | nil => exact ⟨[], by simp, by simp, by simp⟩
  | cons g gs ih =>
    obtain ⟨boxes, e, f1, f2⟩ := ih fun x hx => h x (by simp [hx])
    obtain ⟨k, hk, hk2⟩ := pixboxOf_sameGrid ref g.2 g.1 ht hc (h g (by simp))
    refine ⟨(k, k + (g.1 : ℤ)) :: boxes, ?_, ?_, ?_⟩
    · simp [List.mapM_cons, hk, e]
    · intro x hx
      rcases List.mem_cons.1 hx with rfl | hx
      · exact ⟨k, by simp, hk2⟩
      · obtain ⟨m, hm, hm2⟩ := f1 x hx
        exact ⟨m, by simp [hm], hm2⟩
    · intro b hb
      rcases List.mem_cons.1 hb with rfl | hb
      · exact ⟨g, by simp, rfl, hk2⟩
      · obtain ⟨x, hx, hx2⟩ := f2 b hb
        exact ⟨x, by simp [hx], hx2⟩

/-- C13.  The union of any non-empty list of geometries on one grid: every pixel of every input is an
in-bounds integer pixel of the union at the same sky coordinate, and the union is tight: some input
starts at its first pixel and some input ends at its last. -/
theorem C13_union (ref : Nat × Axis) (rest : List (Nat × Axis)) {tol : ℚ} (ht : 0 ≤ tol)
    (hc : ref.2.cdelt ≠ 0) (h : ∀ g ∈ rest, SameGrid ref.2 g.2) :
    ∃ (N : ℤ) (W : Axis), unionGeometry ref rest tol = some (N, W) ∧
      (∀ g ∈ ref :: rest, ∃ k : ℤ, 0 ≤ k ∧ k + g.1 ≤ N ∧
        ∀ p : ℚ, W.pix2sky (p + k) = g.2.pix2sky p) ∧
      (∃ g ∈ ref :: rest, ∀ p : ℚ, W.pix2sky p = g.2.pix2sky p) ∧
      (∃ g ∈ ref :: rest, ∀ p : ℚ, W.pix2sky (p + (N - g.1)) = g.2.pix2sky p) := by
  obtain ⟨boxes, e, f1, f2⟩ := mapM_boxes ref.2 tol ht hc (ref :: rest) (by
    intro g hg
    rcases List.mem_cons.1 hg with rfl | hg
    · exact SameGrid.refl _
    · exact h g hg)
  have hne : boxes ≠ [] := by
    obtain ⟨k, hk, _⟩ := f1 ref (by simp)
    exact List.ne_nil_of_mem hk
  obtain ⟨b0, hb0⟩ : ∃ b, (boxes.map Prod.fst).min? = some b := by
    cases hm : (boxes.map Prod.fst).min? with
    | none => simp [List.min?_eq_none_iff] at hm; exact absurd hm hne
    | some b => exact ⟨b, rfl⟩
  obtain ⟨b1, hb1⟩ : ∃ b, (boxes.map Prod.snd).max? = some b := by
    cases hm : (boxes.map Prod.snd).max? with
    | none => simp [List.max?_eq_none_iff] at hm; exact absurd hm hne
    | some b => exact ⟨b, rfl⟩
  obtain ⟨m0, l0⟩ := List.min?_eq_some_iff.1 hb0
  obtain ⟨m1, l1⟩ := List.max?_eq_some_iff.1 hb1
  have hW : ∀ p : ℚ, ∀ k : ℤ, Axis.pix2sky { ref.2 with crpix := ref.2.crpix - b0 } (p + k) =
      ref.2.pix2sky (p + ((k + b0 : ℤ) : ℚ)) := by
    intro p k
    simp only [Axis.pix2sky]; push_cast; ring
  refine ⟨b1 - b0, { ref.2 with crpix := ref.2.crpix - b0 }, ?_, ?_, ?_, ?_⟩
  · simp [unionGeometry, e, hb0, hb1]
  · intro g hg
    obtain ⟨k, hk, hk2⟩ := f1 g hg
    have g0 := l0 k (List.mem_map.2 ⟨_, hk, rfl⟩)
    have g1 := l1 (k + g.1) (List.mem_map.2 ⟨_, hk, rfl⟩)
    refine ⟨k - b0, by omega, by omega, fun p => ?_⟩
    rw [hW, hk2]; congr 1; push_cast; ring
  · obtain ⟨b, hb, rfl⟩ := List.mem_map.1 m0
    obtain ⟨g, hg, _, hg2⟩ := f2 b hb
    refine ⟨g, hg, fun p => ?_⟩
    have := hW p 0
    simp only [Int.cast_zero, add_zero, zero_add] at this
    rw [this, hg2]
  · obtain ⟨b, hb, rfl⟩ := List.mem_map.1 m1
    obtain ⟨g, hg, e2, hg2⟩ := f2 b hb
    refine ⟨g, hg, fun p => ?_⟩
    have := hW p (b.2 - b0 - g.1)
    push_cast at this ⊢
    rw [this, hg2]
    congr 1
    rw [e2]; push_cast; ring

/-- Non-vacuity: the union of `[0,4)` and, on the same grid with another reference, `[-3,2)`. -/
example : unionGeometry (4, ⟨0, 1, 1⟩) [(5, ⟨7, 1, 11⟩)] = some (7, ⟨0, 1, 4⟩) := by decide +kernel

/-! ## C14 -/

def C14_claim : Prop :=
  ∀ (inShape reqShape : Nat) (force eqWcs compat constant : Bool),
    projectShape inShape reqShape force eqWcs compat constant = reqShape

/-- Projecting a 10-pixel map to 5 pixels with the same WCS returns 10 pixels. -/
theorem C14_refuted : ¬ C14_claim := by
  intro h
  exact absurd (h 10 5 false true true true) (by decide)

/-- The requested shape is returned except when the WCS is equal, the shape differs and `force` is
off; then the input shape is. -/
theorem C14_project_partial (inShape reqShape : Nat) (force eqWcs compat constant : Bool) :
    (projectShape inShape reqShape force eqWcs compat constant = reqShape ↔
      (force = true ∨ eqWcs = false ∨ inShape = reqShape)) := by
  unfold projectShape
  cases force <;> cases eqWcs <;> simp

/-! ## C15 -/

/-- Moving the reference point along the axis does not move any pixel. -/
theorem C15_recenter (w : Axis) (x : ℚ) (p : ℚ) : (recenterX w x).pix2sky p = w.pix2sky p := by
  simp only [recenterX, Axis.pix2sky]; ring

theorem C15_recenter_ref (w : Axis) (x : ℚ) :
    (recenterX w x).crpix = x ∧ (recenterX w x).crval = w.pix2sky (x - 1) := by
  simp only [recenterX, Axis.pix2sky, true_and]; ring

/-- `fix_wcs` either leaves the axis alone or shifts *all sky coordinates by crval*. -/
theorem C15_fix_wcs_shift (w : Axis) (n : Option ℚ) (hc : w.cdelt ≠ 0) :
    fixWcs w n = w ∨ ∀ p : ℚ, (fixWcs w n).pix2sky p = w.pix2sky p + w.crval := by
  unfold fixWcs
  simp only
  split
  · exact Or.inl rfl
  · right
    intro p
    simp only [Axis.pix2sky]
    field_simp
    ring

/-- Full claim for fix_wcs: positions are kept modulo 360 degrees. -/
def C15_fix_claim : Prop :=
  ∀ (w : Axis), w.cdelt ≠ 0 → ∀ p : ℚ, ∃ k : ℤ, (fixWcs w).pix2sky p = w.pix2sky p + 360 * k

/-- It fails for `crval = 90`: all pixels move by 90 degrees. -/
theorem C15_fix_wcs_refuted : ¬ C15_fix_claim := by
  intro h
  obtain ⟨k, hk⟩ := h ⟨90, 1, -200⟩ (by norm_num) 0
  have e1 : (fixWcs ⟨90, 1, -200⟩).pix2sky 0 = (⟨90, 1, -200⟩ : Axis).pix2sky 0 + 90 := by
    decide +kernel
  rw [e1] at hk
  have h2 : (90 : ℚ) = ((360 * k : ℤ) : ℚ) := by push_cast; linarith
  have h3 : (90 : ℤ) = 360 * k := by exact_mod_cast h2
  omega

/-- With the reference at zero, `fix_wcs` keeps all positions, for any pixel count ... -/
theorem C15_fix_wcs_partial (w : Axis) (n : Option ℚ) (hc : w.cdelt ≠ 0) (h0 : w.crval = 0) (p : ℚ) :
    (fixWcs w n).pix2sky p = w.pix2sky p := by
  rcases C15_fix_wcs_shift w n hc with h | h
  · rw [h]
  · rw [h, h0, add_zero]

/-- ... and puts the reference within 180 degrees of every pixel, so that fixing twice changes
nothing. -/
theorem C15_fix_wcs_centered (w : Axis) (hc : w.cdelt ≠ 0) (h0 : w.crval = 0)
    (hsmall : |w.cdelt| ≤ 360) : fixWcs (fixWcs w) = fixWcs w := by
  by_cases hfix : fixWcs w = w
  · rw [hfix, hfix]
  · have hd : (fixWcs w).cdelt = w.cdelt := by
      unfold fixWcs; simp only; split <;> rfl
    have key : (fixWcs w).crval - (fixWcs w).crpix * w.cdelt = -(w.crpix * w.cdelt) ∧
        (fixWcs w).crval = 1/2 * (-(w.crpix * w.cdelt) + (-(w.crpix * w.cdelt) + (|360 / w.cdelt| - 1) * w.cdelt)) := by
      unfold fixWcs at hfix ⊢
      simp only at hfix ⊢
      split at hfix
      · exact absurd rfl hfix
      · rename_i hh
        rw [if_neg hh]
        simp only [h0, Option.getD_none]
        constructor
        · field_simp; ring
        · ring
    obtain ⟨k1, k2⟩ := key
    have hpos : 0 < |w.cdelt| := abs_pos.2 hc
    have ea : |(|360 / w.cdelt| - 1) * w.cdelt| ≤ 360 := by
      rw [abs_mul, abs_div, abs_of_pos (show (0:ℚ) < 360 by norm_num)]
      rw [abs_of_nonneg (by rw [sub_nonneg, le_div_iff₀ hpos]; linarith)]
      rw [sub_mul, div_mul_cancel₀ _ hpos.ne']; linarith
    obtain ⟨v, hv⟩ : ∃ v, v = fixWcs w := ⟨_, rfl⟩
    rw [← hv] at hd k1 k2 ⊢
    unfold fixWcs
    simp only [hd, Option.getD_none, k1]
    rw [if_pos]
    rw [k2]
    apply max_le
    · have : 1/2 * (-(w.crpix * w.cdelt) + (-(w.crpix * w.cdelt) + (|360 / w.cdelt| - 1) * w.cdelt))
          - -(w.crpix * w.cdelt) = 1/2 * ((|360 / w.cdelt| - 1) * w.cdelt) := by ring
      rw [this, abs_mul, abs_of_pos (show (0:ℚ) < 1/2 by norm_num)]; linarith
    · have : 1/2 * (-(w.crpix * w.cdelt) + (-(w.crpix * w.cdelt) + (|360 / w.cdelt| - 1) * w.cdelt))
          - (-(w.crpix * w.cdelt) + (|360 / w.cdelt| - 1) * w.cdelt)
          = (-1/2) * ((|360 / w.cdelt| - 1) * w.cdelt) := by ring
      rw [this, abs_mul, show |(-1/2 : ℚ)| = 1/2 by norm_num]; linarith

example : fixWcs ⟨0, 1, -200⟩ = ⟨759/2, 1, 359/2⟩ := by decide +kernel

/-! ## C78: the full-sky geometry -/

/-- Declination axis: symmetric about the equator, and the outermost pixel centres (Clenshaw-Curtis,
`yo = 1`) or pixel edges (Fejer1, `yo = 0`) are exactly at the poles. -/
theorem C78_fullsky_dec (ny nx yo : Nat) (hyo : yo ≤ 1) (h : yo < ny) :
    (∀ i : ℚ, (fullskyGeometry ny nx yo).1.pix2sky ((ny : ℚ) - 1 - i)
        = -(fullskyGeometry ny nx yo).1.pix2sky i) ∧
    (yo = 1 → (fullskyGeometry ny nx yo).1.pix2sky 0 = -90 ∧
      (fullskyGeometry ny nx yo).1.pix2sky ((ny : ℚ) - 1) = 90) ∧
    (yo = 0 → (fullskyGeometry ny nx yo).1.pix2sky (-1/2) = -90 ∧
      (fullskyGeometry ny nx yo).1.pix2sky ((ny : ℚ) - 1/2) = 90) := by
  have hne : (ny : ℚ) - yo ≠ 0 := by
    have : (yo : ℚ) < ny := by exact_mod_cast h
    linarith
  simp only [fullskyGeometry, Axis.pix2sky, add_zero]
  refine ⟨fun i => ?_, fun e => ?_, fun e => ?_⟩
  · field_simp; ring
  · subst e
    push_cast at *
    constructor
    · field_simp; ring
    · field_simp; ring
  · subst e
    simp only [Nat.cast_zero, sub_zero] at *
    constructor
    · field_simp; ring
    · field_simp; ring

/-- Right-ascension axis: descending, one full turn in `nx` pixels without a duplicated column; for
even `nx` the first column is at +180 and the last one pixel short of -180. -/
theorem C78_fullsky_ra (ny nx yo : Nat) (h : 0 < nx) :
    (∀ i : ℚ, (fullskyGeometry ny nx yo).2.pix2sky (i + nx)
        = (fullskyGeometry ny nx yo).2.pix2sky i - 360) ∧
    (∀ i j : Nat, i < nx → j < nx → i ≠ j → ∀ k : ℤ,
      (fullskyGeometry ny nx yo).2.pix2sky i ≠ (fullskyGeometry ny nx yo).2.pix2sky j + 360 * k) ∧
    (nx % 2 = 0 → (fullskyGeometry ny nx yo).2.pix2sky 0 = 180 ∧
      (fullskyGeometry ny nx yo).2.pix2sky ((nx : ℚ) - 1) = -180 + 360 / nx) := by
  have hne : (nx : ℚ) ≠ 0 := by positivity
  have per : ∀ i : ℚ, (fullskyGeometry ny nx yo).2.pix2sky (i + nx)
        = (fullskyGeometry ny nx yo).2.pix2sky i - 360 := by
    intro i
    simp only [fullskyGeometry, Axis.pix2sky]; field_simp; ring
  refine ⟨per, ?_, ?_⟩
  · intro i j hi hj hij k e
    have : ((j : ℚ) - i) = k * nx := by
      simp only [fullskyGeometry, Axis.pix2sky] at e
      field_simp at e
      linarith
    have h2 : (j : ℤ) - i = k * nx := by exact_mod_cast this
    have h3 : k < 1 := by
      by_contra hk
      have : (1 : ℤ) * nx ≤ k * nx := Int.mul_le_mul_of_nonneg_right (by omega) (by omega)
      omega
    have h4 : -1 < k := by
      by_contra hk
      have : k * nx ≤ (-1 : ℤ) * nx := Int.mul_le_mul_of_nonneg_right (by omega) (by omega)
      omega
    have : k = 0 := by omega
    subst this
    omega
  · intro he
    have e2 : ((nx / 2 : Nat) : ℚ) = nx / 2 := by
      have h2 : 2 * (nx / 2) = nx := by omega
      have h3 : (2 : ℚ) * ((nx / 2 : Nat) : ℚ) = nx := by exact_mod_cast h2
      linarith
    simp only [fullskyGeometry, Axis.pix2sky, e2]
    constructor <;> field_simp <;> ring

example : (fullskyGeometry 180 360 0).2.pix2sky 0 = 180 ∧ (fullskyGeometry 181 360 1).1.pix2sky 0 = -90 := by
  decide +kernel

end Pixell
