import Verif.Model.Submap
import Verif.Props.Wcs
import Verif.Props.Extract
import Verif.Props.Slicing
import Verif.Lemmas.Num
import Mathlib.Tactic.Linarith
import Mathlib.Tactic.FieldSimp

/-
Property C84: the pixels a coordinate box selects.
-/
namespace Pixell
open PySpec (Slice)

/-- Specification: pixel `i` is among the pixels from the first index up to (or, backwards, down to) but not including the end
index. -/
def Selects (b : ℤ × ℤ × ℤ) (i : ℤ) : Prop := (0 < b.2.2 ∧ b.1 ≤ i ∧ i < b.2.1) ∨ (b.2.2 < 0 ∧ b.2.1 < i ∧ i ≤ b.1)

theorem rint_mono {x y : ℚ} (h : x ≤ y) : rint x ≤ rint y := by
  rcases eq_or_lt_of_le h with rfl | h
  · exact le_refl _
  by_contra hc
  have h1 : rint y + 1 ≤ rint x := by omega
  have h2 : (rint y : ℚ) + 1 ≤ rint x := by exact_mod_cast h1
  have a := abs_le.1 (rint_dist x)
  have b := abs_le.1 (rint_dist y)
  linarith

theorem sky2pix_sub (w : Axis) (a b : ℚ) : w.sky2pix b - w.sky2pix a = (b - a) / w.cdelt := by
  unfold Axis.sky2pix; ring

theorem sky2pix_pix2sky (w : Axis) (hc : w.cdelt ≠ 0) (p : ℚ) : w.sky2pix (w.pix2sky p) = p := by
  unfold Axis.sky2pix Axis.pix2sky; field_simp; ring

/-- The direction is that of the whole box. -/
theorem skyboxPix_dir (w : Axis) (a b : ℚ) :
    (0 < (skyboxPix w a b).2.2 ↔ w.sky2pix a < w.sky2pix b) ∧ ((skyboxPix w a b).2.2 < 0 ↔ w.sky2pix b < w.sky2pix a) ∧
    ((skyboxPix w a b).2.2 = 1 ∨ (skyboxPix w a b).2.2 = -1 ∨ (skyboxPix w a b).2.2 = 0) := by
  have e1 := sky2pix_sub w a b
  have e2 := sky2pix_sub w a (a + (b - a) / 9)
  have e3 : (a + (b - a) / 9 - a) / w.cdelt = ((b - a) / w.cdelt) / 9 := by ring
  rw [e3, ← e1] at e2
  simp only [skyboxPix]
  refine ⟨?_, ?_, ?_⟩
  · split_ifs with h h'
    · simp; linarith
    · simp; linarith
    · simp; linarith
  · split_ifs with h h'
    · simp; linarith
    · simp; linarith
    · simp; linarith
  · split_ifs <;> simp

theorem subinds_fwd (n : Nat) (w : Axis) (a b eps : ℚ) (m : RoundMode) (nf : Bool) (h : (skyboxPix w a b).2.2 = 1) :
    subinds n w a b m false nf eps = ((roundPix m (w.sky2pix a + eps) (w.sky2pix b + eps)).1,
      (roundPix m (w.sky2pix a + eps) (w.sky2pix b + eps)).2, 1) := by
  have h0 : ¬ (nf = true ∧ (1 : ℤ) < 0) := by simp
  simp only [subinds, h, if_neg h0]
  rfl

theorem subinds_rev (n : Nat) (w : Axis) (a b eps : ℚ) (m : RoundMode) (h : (skyboxPix w a b).2.2 = -1) :
    subinds n w a b m false false eps = ((roundPix m (w.sky2pix a + eps) (w.sky2pix b + eps)).1,
      (roundPix m (w.sky2pix a + eps) (w.sky2pix b + eps)).2, -1) ∧
    subinds n w a b m false true eps = ((roundPix m (w.sky2pix b + eps) (w.sky2pix a + eps)).1,
      (roundPix m (w.sky2pix b + eps) (w.sky2pix a + eps)).2, 1) := by
  constructor
  · simp only [subinds, h]
    rw [if_neg (by simp), if_neg (by simp)]
    rfl
  · simp only [subinds, h]
    have h1 : (True ∧ (-1 : ℤ) < 0) := by simp
    simp only [if_pos h1]
    rfl

/-- The three modes that treat both ends alike. -/
def RoundMode.Consistent (m : RoundMode) : Prop := m = .round ∨ m = .floor ∨ m = .ceil

/-- The rounding function of a mode that treats both ends alike. -/
def RoundMode.fn : RoundMode → ℚ → ℤ
  | .floor => fun x => ⌊x⌋
  | .ceil => fun x => ⌈x⌉
  | _ => rint

theorem roundPix_fn {m : RoundMode} (h : m.Consistent) (p q : ℚ) : roundPix m p q = (m.fn p, m.fn q) := by
  rcases h with rfl | rfl | rfl <;> rfl

theorem fn_mono (m : RoundMode) {x y : ℚ} (h : x ≤ y) : m.fn x ≤ m.fn y := by
  cases m
  · exact rint_mono h
  · exact Int.floor_mono h
  · exact Int.ceil_mono h
  · exact rint_mono h
  · exact rint_mono h

/-- C84: boxes that touch select ranges of pixels that touch: with the modes round, floor and ceil, whatever the tolerance, the
box from `a` to `c` selects what the boxes from `a` to `b` and from `b` to `c` select, and these have no pixel in common, for every
`b` between `a` and `c`. -/
theorem C84_touch (n : Nat) (w : Axis) (m : RoundMode) (hm : m.Consistent) (eps a b c : ℚ)
    (hb : (a < b ∧ b < c) ∨ (c < b ∧ b < a)) (hc : w.cdelt ≠ 0) (i : ℤ) :
    (Selects (subinds n w a c m false false eps) i ↔
      Selects (subinds n w a b m false false eps) i ∨ Selects (subinds n w b c m false false eps) i) ∧
    ¬ (Selects (subinds n w a b m false false eps) i ∧ Selects (subinds n w b c m false false eps) i) := by
  have e : ∀ x y, subinds n w x y m false false eps =
      (m.fn (w.sky2pix x + eps), m.fn (w.sky2pix y + eps), (skyboxPix w x y).2.2) := by
    intro x y
    simp only [subinds, roundPix_fn hm]
    simp [skyboxPix]
  rw [e, e, e]
  simp only [Selects]
  have d1 := skyboxPix_dir w a b
  have d2 := skyboxPix_dir w b c
  have d3 := skyboxPix_dir w a c
  rw [d1.1, d1.2.1, d2.1, d2.2.1, d3.1, d3.2.1]
  have s1 := sky2pix_sub w a b
  have s2 := sky2pix_sub w b c
  have key : (w.sky2pix a < w.sky2pix b ∧ w.sky2pix b < w.sky2pix c) ∨ (w.sky2pix c < w.sky2pix b ∧ w.sky2pix b < w.sky2pix a) := by
    rcases lt_or_gt_of_ne hc with hn | hp
    · rcases hb with ⟨h1, h2⟩ | ⟨h1, h2⟩
      · right
        have := div_neg_of_pos_of_neg (sub_pos.2 h1) hn
        have := div_neg_of_pos_of_neg (sub_pos.2 h2) hn
        constructor <;> linarith
      · left
        have := div_pos_of_neg_of_neg (sub_neg.2 h1) hn
        have := div_pos_of_neg_of_neg (sub_neg.2 h2) hn
        constructor <;> linarith
    · rcases hb with ⟨h1, h2⟩ | ⟨h1, h2⟩
      · left
        have := div_pos (sub_pos.2 h1) hp
        have := div_pos (sub_pos.2 h2) hp
        constructor <;> linarith
      · right
        have := div_neg_of_neg_of_pos (sub_neg.2 h1) hp
        have := div_neg_of_neg_of_pos (sub_neg.2 h2) hp
        constructor <;> linarith
  rcases key with ⟨h1, h2⟩ | ⟨h1, h2⟩
  · have m1 := fn_mono m (add_le_add_left h1.le eps)
    have m2 := fn_mono m (add_le_add_left h2.le eps)
    simp only [h1, h2, h1.trans h2, not_lt.2 h1.le, not_lt.2 h2.le, not_lt.2 (h1.trans h2).le, true_and, false_and, or_false]
    omega
  · have m1 := fn_mono m (add_le_add_left h1.le eps)
    have m2 := fn_mono m (add_le_add_left h2.le eps)
    simp only [h1, h2, h1.trans h2, not_lt.2 h1.le, not_lt.2 h2.le, not_lt.2 (h1.trans h2).le, true_and, false_and, false_or]
    omega

/-- C84: a box whose ends are edges of pixels, up to errors smaller than the tolerance, selects exactly the pixels between its
ends (default mode; a box given against the direction of the pixels needs `noflip`). -/
theorem C84_edges (n : Nat) (w : Axis) (hc : w.cdelt ≠ 0) (i j : ℤ) (hij : i < j) (d e eps : ℚ) (hd : |d| < eps) (he : |e| < eps)
    (heps : eps ≤ 1/4) (nf : Bool) :
    subinds n w (w.pix2sky (i - 1/2 + d)) (w.pix2sky (j - 1/2 + e)) .round false nf eps = (i, j, 1) ∧
    subinds n w (w.pix2sky (j - 1/2 + e)) (w.pix2sky (i - 1/2 + d)) .round false true eps = (i, j, 1) := by
  obtain ⟨d1, d2⟩ := abs_lt.1 hd
  obtain ⟨e1, e2⟩ := abs_lt.1 he
  have hq : (i : ℚ) + 1 ≤ j := by exact_mod_cast hij
  have r1 : rint (i - 1/2 + d + eps) = i := rint_eq_of_lt (by rw [abs_lt]; constructor <;> linarith)
  have r2 : rint (j - 1/2 + e + eps) = j := rint_eq_of_lt (by rw [abs_lt]; constructor <;> linarith)
  have k1 := skyboxPix_dir w (w.pix2sky (i - 1/2 + d)) (w.pix2sky (j - 1/2 + e))
  have k2 := skyboxPix_dir w (w.pix2sky (j - 1/2 + e)) (w.pix2sky (i - 1/2 + d))
  rw [sky2pix_pix2sky w hc, sky2pix_pix2sky w hc] at k1 k2
  have p1 : (skyboxPix w (w.pix2sky (i - 1/2 + d)) (w.pix2sky (j - 1/2 + e))).2.2 = 1 := by
    have := k1.1.2 (by linarith); rcases k1.2.2 with h | h | h <;> omega
  have p2 : (skyboxPix w (w.pix2sky (j - 1/2 + e)) (w.pix2sky (i - 1/2 + d))).2.2 = -1 := by
    have := k2.2.1.2 (by linarith); rcases k2.2.2 with h | h | h <;> omega
  constructor
  · rw [subinds_fwd _ _ _ _ _ _ _ p1]
    simp only [roundPix, sky2pix_pix2sky w hc, r1, r2]
  · rw [(subinds_rev _ _ _ _ _ _ p2).2]
    simp only [roundPix, sky2pix_pix2sky w hc, r1, r2]

/-- C84: the box of the whole map selects the whole map. -/
theorem C84_whole (n : Nat) (hn : 0 < n) (w : Axis) (hc : w.cdelt ≠ 0) (cap nf : Bool) :
    subinds n w (w.pix2sky (-1/2)) (w.pix2sky (n - 1/2)) .round cap nf = (0, (n : ℤ), 1) := by
  have h := (C84_edges n w hc 0 n (by omega) 0 0 (1/10000) (by norm_num) (by norm_num) (by norm_num) nf).1
  have e1 : ((0 : ℤ) : ℚ) - 1/2 + 0 = -1/2 := by norm_num
  have e2 : ((n : ℤ) : ℚ) - 1/2 + 0 = n - 1/2 := by push_cast; ring
  rw [e1, e2] at h
  cases cap
  · exact h
  · simp only [subinds] at h ⊢
    simp only [Bool.false_eq_true, if_false, Prod.mk.injEq] at h
    obtain ⟨h1, h2, h3⟩ := h
    simp only [if_true, h1, h2, h3]
    simp

/-- C84, refuted for boxes given against the direction of the pixels: the box with the same ends, which should select the same
pixels in reverse order, selects the pixels one further along, for every such box on every map. -/
theorem C84_reversed_refuted (n : Nat) (w : Axis) (hc : w.cdelt ≠ 0) (i j : ℤ) (hij : i < j) :
    let b := subinds n w (w.pix2sky (j - 1/2)) (w.pix2sky (i - 1/2)) .round false false
    (∀ k, Selects b k ↔ i + 1 ≤ k ∧ k < j + 1) ∧
    (∀ k, Selects (subinds n w (w.pix2sky (i - 1/2)) (w.pix2sky (j - 1/2)) .round false false) k ↔ i ≤ k ∧ k < j) := by
  have hq : (i : ℚ) + 1 ≤ j := by exact_mod_cast hij
  have h := (C84_edges n w hc i j hij 0 0 (1/10000) (by norm_num) (by norm_num) (by norm_num) false).1
  rw [add_zero, add_zero] at h
  have r1 : rint (i - 1/2 + 1/10000) = i := rint_eq_of_lt (by rw [abs_lt]; constructor <;> linarith)
  have r2 : rint (j - 1/2 + 1/10000) = j := rint_eq_of_lt (by rw [abs_lt]; constructor <;> linarith)
  have k2 := skyboxPix_dir w (w.pix2sky (j - 1/2)) (w.pix2sky (i - 1/2))
  rw [sky2pix_pix2sky w hc, sky2pix_pix2sky w hc] at k2
  have p2 : (skyboxPix w (w.pix2sky (j - 1/2)) (w.pix2sky (i - 1/2))).2.2 = -1 := by
    have := k2.2.1.2 (by linarith); rcases k2.2.2 with h | h | h <;> omega
  have hb : subinds n w (w.pix2sky (j - 1/2)) (w.pix2sky (i - 1/2)) .round false false = (j, i, -1) := by
    rw [(subinds_rev _ _ _ _ _ _ p2).1]
    simp only [roundPix, sky2pix_pix2sky w hc, r1, r2]
  simp only [hb, h, Selects]
  constructor
  · intro k; omega
  · intro k; omega

/-- C84: in mode ceil a box along the pixels selects those whose centre is in it, up to the tolerance. -/
theorem C84_ceil (n : Nat) (w : Axis) (a b eps : ℚ) (h : w.sky2pix a < w.sky2pix b) (i : ℤ) :
    Selects (subinds n w a b .ceil false false eps) i ↔ w.sky2pix a + eps ≤ i ∧ (i : ℚ) < w.sky2pix b + eps := by
  have d := skyboxPix_dir w a b
  have e : subinds n w a b .ceil false false eps = (⌈w.sky2pix a + eps⌉, ⌈w.sky2pix b + eps⌉, (skyboxPix w a b).2.2) := by
    simp [subinds, skyboxPix, roundPix]
  rw [e]
  simp only [Selects, d.1, d.2.1, h, not_lt.2 h.le, true_and, false_and, or_false]
  rw [Int.ceil_le, Int.lt_ceil]

/-- C84: in the default mode a box along the pixels selects from the pixel its start is in up to, but not including, the one its
end is in, up to the tolerance, so that each bound of the result is within a pixel of the bound asked for. -/
theorem C84_round (n : Nat) (w : Axis) (a b eps : ℚ) (h : w.sky2pix a < w.sky2pix b) :
    let s := subinds n w a b .round false false eps
    s.2.2 = 1 ∧ s.1 ≤ s.2.1 ∧ |(w.sky2pix a + eps) - s.1| ≤ 1/2 ∧ |(w.sky2pix b + eps) - s.2.1| ≤ 1/2 := by
  have d := skyboxPix_dir w a b
  have e : subinds n w a b .round false false eps = (rint (w.sky2pix a + eps), rint (w.sky2pix b + eps), (skyboxPix w a b).2.2) := by
    simp [subinds, skyboxPix, roundPix]
  rw [e]
  refine ⟨?_, rint_mono (by linarith), rint_dist _, rint_dist _⟩
  have := d.1.2 h
  rcases d.2.2 with h | h | h <;> simp only [h] at this ⊢ <;> omega

/-- C84, refuted for mode inclusive: a box from the middle of pixel 0 to 0.7 pixels past the middle of pixel 3 reaches into pixel 4,
which is not selected. -/
theorem C84_inclusive_refuted :
    let w : Axis := ⟨0, 1, 1⟩
    w.pix2sky (4 - 1/2) < 37/10 ∧ (37/10 : ℚ) < w.pix2sky 4 ∧ ¬ Selects (subinds 10 w 0 (37/10) .inclusive false false) 4 := by
  refine ⟨by norm_num [Axis.pix2sky], by norm_num [Axis.pix2sky], ?_⟩
  have : subinds 10 ⟨0, 1, 1⟩ 0 (37/10) .inclusive false false = (0, 4, 1) := by decide +kernel
  rw [this]
  simp [Selects]

/-- C84, refuted for mode exclusive: a box that starts inside pixel 1 selects pixel 1. -/
theorem C84_exclusive_refuted :
    let w : Axis := ⟨0, 1, 1⟩
    w.pix2sky (1 - 1/2) < 7/10 ∧ (7/10 : ℚ) < w.pix2sky 1 ∧ Selects (subinds 10 w (7/10) 5 .exclusive false false) 1 := by
  refine ⟨by norm_num [Axis.pix2sky], by norm_num [Axis.pix2sky], ?_⟩
  have : subinds 10 ⟨0, 1, 1⟩ (7/10) 5 .exclusive false false = (1, 5, 1) := by decide +kernel
  rw [this]
  simp [Selects]

/-- C84: with cap, exactly the pixels of the map that are selected without. -/
theorem C84_cap (n : Nat) (w : Axis) (a b eps : ℚ) (m : RoundMode) (nf : Bool) (i : ℤ) :
    Selects (subinds n w a b m true nf eps) i ↔ Selects (subinds n w a b m false nf eps) i ∧ 0 ≤ i ∧ i < n := by
  simp only [subinds, if_true, Bool.false_eq_true, if_false]
  generalize (if nf = true ∧ (skyboxPix w a b).2.2 < 0 then
    ((skyboxPix w a b).2.1 + eps, (skyboxPix w a b).1 + eps, -(skyboxPix w a b).2.2)
    else ((skyboxPix w a b).1 + eps, (skyboxPix w a b).2.1 + eps, (skyboxPix w a b).2.2) : ℚ × ℚ × ℤ) = t
  by_cases h : 0 < t.2.2
  · rw [if_pos h]
    simp only [Selects, h, true_and]
    constructor
    · rintro (h | h) <;> omega
    · rintro ⟨h | h, h'⟩ <;> omega
  · rw [if_neg h]
    simp only [Selects, h, false_and, false_or]
    constructor
    · rintro h; omega
    · rintro ⟨h, h'⟩; omega

theorem slice_fwd (n : Nat) (w : Axis) (s t k : ℤ) (hk : k = 0 ∨ k = 1) :
    sliceGeometry n w ⟨some s, some t, some k⟩ true = (t - s, sliceWcs w s 1) := by
  have : effStep (some k) = 1 := by rcases hk with rfl | rfl <;> rfl
  simp only [sliceGeometry, expandSlice, this, cycle]
  simp

theorem submapAxis_spec (n : Nat) (w : Axis) (hc : w.cdelt ≠ 0) (a b : ℚ) (m : RoundMode) (hm : m.Consistent) (hab : a ≠ b) :
    ∃ g box fl, submapAxis n w a b m = some (g, box, fl) ∧ box.2 = box.1 + g.1.toNat ∧
      (g.1.toNat : ℤ) = |(subinds n w a b m false false).2.1 - (subinds n w a b m false false).1| ∧
      (flipAxis g fl).1.toNat = g.1.toNat ∧
      (∀ k : ℤ, (if fl = true then box.1 + (g.1.toNat - 1 - k) else box.1 + k) =
        (subinds n w a b m false false).1 + k * (subinds n w a b m false false).2.2) ∧
      ∀ k : ℚ, (flipAxis g fl).2.pix2sky k =
        w.pix2sky ((subinds n w a b m false false).1 + k * (subinds n w a b m false false).2.2) := by
  have d := skyboxPix_dir w a b
  have e : subinds n w a b m false false =
      (m.fn (w.sky2pix a + 1/10000), m.fn (w.sky2pix b + 1/10000), (skyboxPix w a b).2.2) := by
    simp only [subinds, roundPix_fn hm]
    simp [skyboxPix]
  rw [e]
  have hne : w.sky2pix a ≠ w.sky2pix b := by
    intro h
    have := sky2pix_sub w a b
    rw [h, sub_self, eq_comm, div_eq_zero_iff] at this
    rcases this with h | h
    · exact hab (by linarith)
    · exact hc h
  set r := m.fn (w.sky2pix a + 1/10000) with hr
  set t := m.fn (w.sky2pix b + 1/10000) with ht
  have grid : ∀ s : ℤ, SameGrid w (sliceWcs w s 1) := by
    intro s
    refine ⟨by simp [sliceWcs], -s, fun p => ?_⟩
    rw [sliceWcs_pix2sky w s 1 (by omega)]
    congr 1; push_cast; norm_num
  have pos : ∀ (s : ℤ) (p : ℚ), (sliceWcs w s 1).pix2sky p = w.pix2sky (s + p) := by
    intro s p
    rw [sliceWcs_pix2sky w s 1 (by omega)]
    congr 1; norm_num
  have boxed : ∀ (s : ℤ) (k : Nat), pixboxOf w k (sliceWcs w s 1) = some (s, s + k) := by
    intro s k
    obtain ⟨q, h1, h2⟩ := pixboxOf_sameGrid w (sliceWcs w s 1) k (tol := 1/1000) (by norm_num) hc (grid s)
    rw [h1]
    have := h2 0
    rw [pos] at this
    have inj : (s : ℚ) + 0 = 0 + q := by
      simp only [Axis.pix2sky] at this
      have h := mul_right_cancel₀ hc (add_right_cancel this)
      linarith
    have : s = q := by
      have : (s : ℚ) = q := by linarith
      exact_mod_cast this
    rw [this]
  rcases lt_or_gt_of_ne hne with h | h
  · -- along the pixels
    have hdir : (skyboxPix w a b).2.2 = 1 := by
      have := d.1.2 h; rcases d.2.2 with h | h | h <;> omega
    have hrt : r ≤ t := fn_mono m (by linarith)
    have hs : submapSlice (r, t, (skyboxPix w a b).2.2) = (false, ⟨some r, some t, some 1⟩) := by
      rw [hdir]; rfl
    refine ⟨(t - r, sliceWcs w r 1), (r, r + (t - r).toNat), false, ?_, rfl, ?_, rfl, ?_, ?_⟩
    · unfold submapAxis
      rw [e, hs]
      simp only [slice_fwd n w r t 1 (.inr rfl)]
      rw [if_neg (by omega), boxed]
      rfl
    · simp only; rw [abs_of_nonneg (by omega)]; omega
    · intro k; rw [hdir]; simp
    · intro k
      rw [hdir]
      show (sliceWcs w r 1).pix2sky k = _
      rw [pos]; congr 1; push_cast; ring
  · -- against the pixels
    have hdir : (skyboxPix w a b).2.2 = -1 := by
      have := d.2.1.2 h; rcases d.2.2 with h | h | h <;> omega
    have hrt : t ≤ r := fn_mono m (by linarith)
    have hs : submapSlice (r, t, (skyboxPix w a b).2.2) = (true, ⟨some (t + 1), some (r + 1), some 1⟩) := by
      rw [hdir]; rfl
    have hflip : flipAxis (r - t, sliceWcs w (t + 1) 1) true = (r - t, sliceWcs (sliceWcs w (t + 1) 1) (r - t - 1) (-1)) := by
      unfold flipAxis
      simp only [if_true, sliceGeometry, expandSlice, effStep, cycle]
      have : ¬ (0 : ℤ) < -1 := by omega
      simp only [show ((-1 : ℤ) = 0) = False by simp, if_false, this, Option.getD_none, Bool.false_eq_true]
      have c1 : (if 0 ≤ r - t - 1 then min (r - t - 1) (r - t) else r - t + (r - t - 1)) = r - t - 1 := by
        split_ifs <;> omega
      rw [c1]
      have : Int.fdiv (-1 - (r - t - 1) + -1 - Int.sign (-1)) (-1) = r - t := by
        rw [show Int.sign (-1) = -1 from rfl, show -1 - (r - t - 1) + -1 - (-1) = (r - t) * (-1) by ring,
          Int.mul_fdiv_cancel _ (by omega)]
      rw [this]
    refine ⟨(r - t, sliceWcs w (t + 1) 1), (t + 1, t + 1 + (r - t).toNat), true, ?_, rfl, ?_, ?_, ?_, ?_⟩
    · unfold submapAxis
      rw [e, hs]
      simp only [slice_fwd n w (t + 1) (r + 1) 1 (.inr rfl), show r + 1 - (t + 1) = r - t by omega]
      rw [if_neg (by omega), boxed]
      rfl
    · simp only; rw [abs_of_nonpos (by omega)]; omega
    · rw [hflip]
    · intro k; rw [hdir]
      simp only [if_true]
      omega
    · intro k
      rw [hflip, hdir]
      simp only
      rw [sliceWcs_pix2sky _ _ _ (by omega), pos]
      congr 1
      rw [show Int.sign (-1) = -1 from rfl]
      push_cast
      ring

/-- C84: submap succeeds in the modes round, floor and ceil, and pixel `(ky, kx)` of the result, which has as many pixels as the
box selects, has the position and the value of pixel `start + k * direction` of the map (wrapping in x if there is a wrapping
length), or is zero if the map has no such pixel. -/
theorem C84_submap {α : Type} [Zero α] (map : Arr α) (n : Nat × Nat) (h1 : 0 < n.1) (h2 : 0 < n.2) (wy wx : Axis)
    (hy : wy.cdelt ≠ 0) (hx : wx.cdelt ≠ 0) (wrapX : Nat) (hw : wrapX ≠ 0 → n.2 ≤ wrapX) (y0 y1 x0 x1 : ℚ) (hyy : y0 ≠ y1)
    (hxx : x0 ≠ x1) (m : RoundMode) (hm : m.Consistent) :
    let by_ := subinds n.1 wy y0 y1 m false false
    let bx := subinds n.2 wx x0 x1 m false false
    ∃ gy gx out, submap map n wy wx wrapX y0 y1 x0 x1 m = some (gy, gx, out) ∧
      (gy.1.toNat : ℤ) = |by_.2.1 - by_.1| ∧ (gx.1.toNat : ℤ) = |bx.2.1 - bx.1| ∧
      (∀ k : ℚ, gy.2.pix2sky k = wy.pix2sky (by_.1 + k * by_.2.2)) ∧
      (∀ k : ℚ, gx.2.pix2sky k = wx.pix2sky (bx.1 + k * bx.2.2)) ∧
      ∀ ky kx : ℤ, 0 ≤ ky → ky < gy.1.toNat → 0 ≤ kx → kx < gx.1.toNat →
        let sy := by_.1 + ky * by_.2.2
        let sx := if wrapX = 0 then bx.1 + kx * bx.2.2 else (bx.1 + kx * bx.2.2) % wrapX
        out (ky, kx) = if (0 ≤ sy ∧ sy < n.1) ∧ (0 ≤ sx ∧ sx < n.2) then map (sy, sx) else 0 := by
  intro by_ bx
  obtain ⟨gy, boxy, fy, ey, by1, ly, fly, iy, py⟩ := submapAxis_spec n.1 wy hy y0 y1 m hm hyy
  obtain ⟨gx, boxx, fx, ex, bx1, lx, flx, ix, px⟩ := submapAxis_spec n.2 wx hx x0 x1 m hm hxx
  have len : ∀ (s : ℤ) (k : Nat), k = (SBox.mk s (s + k) 1).idx.length := by
    intro s k
    rw [← C12_size _ (by simp)]
    simp [sboxSize]
  obtain ⟨out, eo, ho⟩ := C08_extract_fill map (0 : α) n (gy.1.toNat, gx.1.toNat) ⟨boxy.1, boxy.2, 1⟩ ⟨boxx.1, boxx.2, 1⟩
    (.inl rfl) (.inl rfl) wrapX h1 h2 hw (by rw [by1]; exact len _ _) (by rw [bx1]; exact len _ _)
  refine ⟨flipAxis gy fy, flipAxis gx fx, fun p => out (if fy then gy.1.toNat - 1 - p.1 else p.1,
    if fx then gx.1.toNat - 1 - p.2 else p.2), ?_, ?_, ?_, py, px, ?_⟩
  · unfold submap
    rw [ey, ex]
    simp only [Option.bind_eq_bind, Option.bind_some]
    rw [eo]
    rfl
  · rw [fly]; exact ly
  · rw [flx]; exact lx
  · intro ky kx a1 a2 a3 a4
    rw [fly] at a2
    rw [flx] at a4
    simp only
    have fiy := iy ky
    have fix := ix kx
    rw [ho]
    · simp only [srcIndex, mul_one]
      have cy : boxy.1 + (if fy = true then (gy.1.toNat : ℤ) - 1 - ky else ky) =
          (subinds n.1 wy y0 y1 m false false).1 + ky * (subinds n.1 wy y0 y1 m false false).2.2 := by
        rw [← fiy]; split_ifs <;> rfl
      have cx : boxx.1 + (if fx = true then (gx.1.toNat : ℤ) - 1 - kx else kx) =
          (subinds n.2 wx x0 x1 m false false).1 + kx * (subinds n.2 wx x0 x1 m false false).2.2 := by
        rw [← fix]; split_ifs <;> rfl
      rw [cy, cx]
    · split_ifs <;> omega
    · split_ifs <;> omega
    · split_ifs <;> omega
    · split_ifs <;> omega

/-- C84: the geometry subgeo computes is that of submap. -/
theorem C84_subgeo (n : Nat) (w : Axis) (hc : w.cdelt ≠ 0) (a b : ℚ) (hab : a ≠ b) (m : RoundMode) (hm : m.Consistent) :
    ((subgeo n w a b m false).1.toNat : ℤ) = |(subinds n w a b m false false).2.1 - (subinds n w a b m false false).1| ∧
    ∀ k : ℚ, (subgeo n w a b m false).2.pix2sky k =
      w.pix2sky ((subinds n w a b m false false).1 + k * (subinds n w a b m false false).2.2) := by
  have d := skyboxPix_dir w a b
  have hne : w.sky2pix a ≠ w.sky2pix b := by
    intro h
    have := sky2pix_sub w a b
    rw [h, sub_self, eq_comm, div_eq_zero_iff] at this
    rcases this with h | h
    · exact hab (by linarith)
    · exact hc h
  rcases lt_or_gt_of_ne hne with h | h
  · have hdir : (skyboxPix w a b).2.2 = 1 := by
      have := d.1.2 h; rcases d.2.2 with h | h | h <;> omega
    have e := subinds_fwd n w a b (1/10000) m false hdir
    rw [roundPix_fn hm] at e
    have mono := fn_mono m (show w.sky2pix a + 1/10000 ≤ w.sky2pix b + 1/10000 by linarith)
    unfold subgeo
    rw [e]
    simp only [slice_fwd n w _ _ 1 (.inr rfl)]
    refine ⟨by rw [abs_of_nonneg (by omega)]; omega, fun k => ?_⟩
    rw [sliceWcs_pix2sky w _ 1 (by omega)]
    congr 1; norm_num
  · have hdir : (skyboxPix w a b).2.2 = -1 := by
      have := d.2.1.2 h; rcases d.2.2 with h | h | h <;> omega
    have e := (subinds_rev n w a b (1/10000) m hdir).1
    rw [roundPix_fn hm] at e
    have mono := fn_mono m (show w.sky2pix b + 1/10000 ≤ w.sky2pix a + 1/10000 by linarith)
    unfold subgeo
    rw [e]
    set r := m.fn (w.sky2pix a + 1/10000)
    set t := m.fn (w.sky2pix b + 1/10000)
    have hs : sliceGeometry n w ⟨some r, some t, some (-1)⟩ true = (r - t, sliceWcs w r (-1)) := by
      simp only [sliceGeometry, expandSlice, effStep, cycle]
      simp only [show ((-1 : ℤ) = 0) = False by simp, if_false, show ¬ (0 : ℤ) < -1 by omega, Option.getD_some, if_true]
      rw [show Int.sign (-1) = -1 from rfl, show t - r + -1 - -1 = (r - t) * (-1) by ring, Int.mul_fdiv_cancel _ (by omega)]
    simp only [hs]
    refine ⟨by rw [abs_of_nonpos (by omega)]; omega, fun k => ?_⟩
    rw [sliceWcs_pix2sky w _ (-1) (by omega), show Int.sign (-1) = -1 from rfl]
    congr 1; push_cast; ring

-- C84_submap, C84_touch: declination boxes on a map with half-degree pixels.
example : subinds 100 ⟨0, 1/2, 51⟩ (-3) (7/3) .round false false = (44, 55, 1) ∧
    subinds 100 ⟨0, 1/2, 51⟩ (-3) 1 .round false false = (44, 52, 1) ∧
    subinds 100 ⟨0, 1/2, 51⟩ 1 (7/3) .round false false = (52, 55, 1) ∧
    subinds 100 ⟨0, 1/2, 51⟩ 100 1 .floor true false = (99, 52, -1) := by decide +kernel
example : (submap (fun p : ℤ × ℤ => (p.1 * 100 + p.2 : ℤ)) (10, 8) ⟨0, 1, 1⟩ ⟨0, -1, 1⟩ 8 1 3 0 (-3) .round).map
    (fun r => (r.1.1, r.2.1.1, r.2.2 (0, 0), r.2.2 (1, 2))) = some (2, 3, 100, 202) := by decide +kernel

end Pixell
