import Verif.Model.Centered
import Verif.Props.Coordinates
import Mathlib.Algebra.BigOperators.Group.List.Basic

/-
C197: maps turned to the origin, gnomonic geometries and inverse variance maps.
-/
namespace Pixell
open Real

theorem toPix_toSky (w : RealAxis) (h : w.step ≠ 0) (p : ℝ) : w.toPix (w.toSky p) = p := by
  unfold RealAxis.toPix RealAxis.toSky
  field_simp
  ring

/-- C197: get_rotated_pixels shows, at the middle of the target, the position that was given for the middle of the source. -/
theorem C197_rotated (shape : List Nat) (wy wx : RealAxis) (hy : wy.step ≠ 0) (hx : wx.step ≠ 0) (target : ℝ × ℝ) (py px : ℝ)
    (h1 : -π < wx.toSky px) (h2 : wx.toSky px ≤ π) (h3 : -(π / 2) < wy.toSky py) (h4 : wy.toSky py < π / 2) :
    rotatedPixel shape wy wx target (some (wy.toSky py, wx.toSky px)) target = (py, px) := by
  unfold rotatedPixel
  simp only [Option.getD_some]
  rw [(C97_recenter target.2 target.1 (wx.toSky px) (wy.toSky py)).2.2.1 h1 h2 h3 h4]
  simp only [toPix_toSky _ hy, toPix_toSky _ hx]

/-- A map of 4 by 6 pixels of a tenth of a radian about the origin, shown about (0.3, 0.2). -/
example : rotatedPixel [4, 6] ⟨2, 1/10, 0⟩ ⟨3, -1/10, 0⟩ (3/10, 2/10) (some (RealAxis.toSky ⟨2, 1/10, 0⟩ 1, RealAxis.toSky ⟨3, -1/10, 0⟩ 5)) (3/10, 2/10) = (1, 5) :=
  C197_rotated _ _ _ (by norm_num) (by norm_num) _ 1 5 (by norm_num [RealAxis.toSky]; linarith [two_le_pi]) (by norm_num [RealAxis.toSky]; linarith [two_le_pi])
    (by norm_num [RealAxis.toSky]; linarith [two_le_pi]) (by norm_num [RealAxis.toSky]; linarith [two_le_pi])

/-- C197, refuted: what centered_map puts at the origin.  It is the pixel with the row `ncomp/2` and the column `ny/2`, whatever
the map, because the number of components has become the first length.  It is the middle of the map only for `ncomp+1` rows
and `ny+1` columns. -/
theorem C197_centered_refuted (ncomp ny nx : Nat) (wy wx : RealAxis) (hy : wy.step ≠ 0) (hx : wx.step ≠ 0)
    (h1 : -π < wx.toSky (ny / 2)) (h2 : wx.toSky (ny / 2) ≤ π) (h3 : -(π / 2) < wy.toSky (ncomp / 2)) (h4 : wy.toSky (ncomp / 2) < π / 2) :
    centeredPixel [ncomp, ny, nx] wy wx (0, 0) = ((ncomp : ℝ) / 2, (ny : ℝ) / 2) ∧
    (ncomp = 1 → centeredPixel [ny, nx] wy wx (0, 0) = (1 / 2, (ny : ℝ) / 2)) ∧
    (centeredPixel [ncomp, ny, nx] wy wx (0, 0) = (((ny : ℝ) - 1) / 2, ((nx : ℝ) - 1) / 2) ↔ ny = ncomp + 1 ∧ nx = ny + 1) := by
  have e : centeredPixel [ncomp, ny, nx] wy wx (0, 0) = ((ncomp : ℝ) / 2, (ny : ℝ) / 2) := by
    unfold centeredPixel
    simpa [sourceMiddle] using C197_rotated [ncomp, ny, nx] wy wx hy hx (0, 0) (ncomp / 2) (ny / 2) h1 h2 h3 h4
  refine ⟨e, ?_, ?_⟩
  · rintro rfl
    have : centeredPixel [ny, nx] wy wx (0, 0) = centeredPixel [1, ny, nx] wy wx (0, 0) := by simp [centeredPixel]
    rw [this, e]
    norm_num
  · rw [e, Prod.mk.injEq]
    constructor
    · rintro ⟨a, b⟩
      constructor
      · have : (ny : ℝ) = ncomp + 1 := by linarith
        exact_mod_cast this
      · have : (nx : ℝ) = ny + 1 := by linarith
        exact_mod_cast this
    · rintro ⟨rfl, rfl⟩
      constructor <;> push_cast <;> ring

/-- A map of 20 by 20 pixels of a hundredth of a radian about the origin: the edge of the first row is at the origin of the result. -/
example : centeredPixel [20, 20] ⟨19/2, 1/100, 0⟩ ⟨19/2, -1/100, 0⟩ (0, 0) = (1/2, 10) := by
  have := (C197_centered_refuted 1 20 20 ⟨19/2, 1/100, 0⟩ ⟨19/2, -1/100, 0⟩ (by norm_num) (by norm_num)
    (by norm_num [RealAxis.toSky]; linarith [two_le_pi]) (by norm_num [RealAxis.toSky]; linarith [two_le_pi])
    (by norm_num [RealAxis.toSky]; linarith [two_le_pi]) (by norm_num [RealAxis.toSky]; linarith [two_le_pi])).2.1 rfl
  rw [this]
  norm_num

/-- C197, refuted: gnomonic geometries have their reference position in the middle only if they are square; otherwise it
is off by half the difference of height and width, and beyond the right edge if the map is more than twice as high as wide. -/
theorem C197_gnomonic_refuted (ny nx : Nat) :
    (gnomonicRef ny nx = (((nx : ℝ) - 1) / 2, ((ny : ℝ) - 1) / 2) ↔ ny = nx) ∧
    (gnomonicRef ny nx).1 - ((nx : ℝ) - 1) / 2 = ((ny : ℝ) - nx) / 2 ∧
    (2 * nx < ny → (nx : ℝ) - 1 / 2 < (gnomonicRef ny nx).1) := by
  refine ⟨?_, by simp only [gnomonicRef]; ring, fun h => ?_⟩
  · simp only [gnomonicRef, Prod.mk.injEq]
    constructor
    · rintro ⟨a, _⟩
      have : (ny : ℝ) = nx := by linarith
      exact_mod_cast this
    · rintro rfl
      constructor <;> ring
  · have : (2 * nx : ℝ) < ny := by exact_mod_cast h
    simp only [gnomonicRef]
    linarith

example : gnomonicRef 10 4 = (9/2, 3/2) := by norm_num [gnomonicRef]

/-- The sum over tasks of what only one of them has. -/
theorem sum_one_task (size k : Nat) (hk : k < size) (v : ℤ) : ((List.range size).map fun r => if r = k then v else 0).sum = v := by
  induction size with
  | zero => omega
  | succ n ih =>
    rw [List.range_succ, List.map_append, List.sum_append]
    rcases Nat.lt_succ_iff_lt_or_eq.1 hk with h | rfl
    · rw [ih h]
      simp [show ¬ n = k by omega]
    · have : ((List.range k).map fun r => if r = k then v else 0) = (List.range k).map fun _ => 0 :=
        List.map_congr_left fun r hr => by simp [(List.mem_range.1 hr).ne]
      rw [this]
      simp

/-- C197: inverse variance maps do not depend on the number of tasks: after the reduction every task has the healpix pixels of
all rows, for any number of tasks and rows and any height of the blocks, also if the last block is not full. -/
theorem C197_tasks (rstep ny size : Nat) (hr : 0 < rstep) (hs : 0 < size) (f : Nat → Nat → ℤ) (y x : Nat) (hy : y < ny) :
    allRows rstep ny size f y x = f y x := by
  have key : ∀ rank, rank < size → taskRow rstep ny size rank f y x = if rank = y / rstep % size then f y x else 0 := by
    intro rank hrank
    unfold taskRow
    simp only
    congr 1
    rw [List.any_eq_true, eq_iff_iff]
    constructor
    · rintro ⟨bi, hbi, hin⟩
      simp only [List.mem_filter, List.mem_range, Bool.and_eq_true, decide_eq_true_eq, beq_iff_eq] at hbi hin
      have : y / rstep = bi := by
        rw [Nat.div_eq_iff hr]
        have := hin.1
        have := hin.2
        omega
      rw [this]
      exact hbi.2.2.symm
    · intro h
      refine ⟨y / rstep, ?_, ?_⟩
      · simp only [List.mem_filter, List.mem_range, Bool.and_eq_true, decide_eq_true_eq, beq_iff_eq]
        have hle : rank ≤ y / rstep := by rw [h]; exact Nat.mod_le _ _
        refine ⟨?_, ⟨hle, ?_⟩, h.symm⟩
        · rw [Nat.div_lt_iff_lt_mul hr]
          have h1 : (ny + rstep - 1) % rstep < rstep := Nat.mod_lt _ hr
          have h2 := Nat.div_add_mod (ny + rstep - 1) rstep
          rw [mul_comm] at h2
          omega
        · rw [h]
          have h2 := Nat.div_add_mod (y / rstep) size
          have : y / rstep - y / rstep % size = size * (y / rstep / size) := by omega
          rw [this, Nat.mul_mod_right]
      · simp only [Bool.and_eq_true, decide_eq_true_eq]
        have h1 : y % rstep < rstep := Nat.mod_lt _ hr
        have h2 := Nat.div_add_mod y rstep
        rw [mul_comm] at h2
        omega
  unfold allRows
  rw [List.map_congr_left fun rank hrank => key rank (List.mem_range.1 hrank)]
  exact sum_one_task size _ (Nat.mod_lt _ hs) _

example : ([0, 3, 4, 6].map fun y => allRows 2 7 3 (fun y x => 10 * y + x) y 1) = [1, 31, 41, 61] := by decide +kernel

/-- C197: values of inverse variance maps.  Good pixels have the value of their healpix pixel per area, so that the total over the
map pixels that cover a healpix pixel is its value; bad and non-positive ones are zero if masked.  No value is negative. -/
theorem C197_ivar (hmap : ℤ → ℝ) (bad : ℤ → Bool) (isize : ℝ) (hi : 0 < isize) (osize : Nat → ℝ) (ho : ∀ y, 0 ≤ osize y) (pix : Nat → Nat → ℤ) :
    (∀ y x, 0 ≤ ivarRow hmap bad true true isize osize pix y x) ∧
    (∀ h : ℤ, 0 < hmap h → bad h = false → ∀ cover : List (Nat × Nat), (∀ p ∈ cover, pix p.1 p.2 = h) →
      (cover.map fun p => osize p.1).sum = isize → (cover.map fun p => ivarRow hmap bad true true isize osize pix p.1 p.2).sum = hmap h) ∧
    ∀ y x, bad (pix y x) = true ∨ hmap (pix y x) ≤ 0 → ivarRow hmap bad true true isize osize pix y x = 0 := by
  have zero : ∀ y x, bad (pix y x) = true ∨ hmap (pix y x) ≤ 0 → ivarRow hmap bad true true isize osize pix y x = 0 := by
    intro y x h
    rcases h with h | h <;> simp [ivarRow, h]
  have good : ∀ y x, bad (pix y x) = false → 0 < hmap (pix y x) →
      ivarRow hmap bad true true isize osize pix y x = hmap (pix y x) * (osize y / isize) := by
    intro y x h1 h2
    simp [ivarRow, h1, not_le.2 h2]
  refine ⟨fun y x => ?_, fun h hp hb cover hc hsum => ?_, zero⟩
  · by_cases h : bad (pix y x) = true ∨ hmap (pix y x) ≤ 0
    · rw [zero y x h]
    · push Not at h
      rw [good y x (by simpa using h.1) h.2]
      exact mul_nonneg h.2.le (div_nonneg (ho y) hi.le)
  · have : (cover.map fun p => ivarRow hmap bad true true isize osize pix p.1 p.2) = cover.map fun p => hmap h / isize * osize p.1 :=
      List.map_congr_left fun p hpc => by
        have e := hc p hpc
        rw [good p.1 p.2 (by rw [e]; exact hb) (by rw [e]; exact hp), e]
        ring
    rw [this, List.sum_map_mul_left, hsum]
    field_simp

/-- Two rows, each covering half of a healpix pixel of value 6. -/
example : ([(0, 0), (1, 0)].map fun p => ivarRow (fun _ => 6) (fun _ => false) true true 2 (fun _ => 1) (fun _ _ => 0) p.1 p.2).sum = 6 :=
  (C197_ivar (fun _ => 6) (fun _ => false) 2 (by norm_num) (fun _ => 1) (fun _ => by norm_num) (fun _ _ => 0)).2.1 0 (by norm_num) rfl _
    (by simp) (by norm_num)

end Pixell
