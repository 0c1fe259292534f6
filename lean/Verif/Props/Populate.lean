import Verif.Model.Populate
import Verif.Lemmas.Num
import Mathlib.Tactic.Linarith
import Mathlib.Tactic.FieldSimp
import Mathlib.Tactic.Ring
import Mathlib.Algebra.BigOperators.Group.List.Basic
import Mathlib.Algebra.Group.Nat.Defs
import Mathlib.Algebra.GroupWithZero.Action.Defs

/-
C139: maps made tile by tile.
-/
namespace Pixell

/-- C139: distribute. The cells hold N things together, none is empty and none has more than nmax+1 things; none has more than nmax
if nmax+1 is not a multiple of 3. All but the last are equal. -/
theorem C139_distribute_partial (N nmax : ℕ) (h : 0 < nmax) :
    ∃ l, distribute N nmax = some l ∧ l.sum = N ∧ (∀ x ∈ l, 0 < x ∧ x ≤ nmax + 1) ∧ (¬ 3 ∣ nmax + 1 → ∀ x ∈ l, x ≤ nmax) ∧
      ∀ x ∈ l.dropLast, x = 2 * (nmax + 1) / 3 := by
  set m : ℕ := 2 * (nmax + 1) / 3 with hm
  have hm0 : 0 < m := by omega
  have hmq : (0 : ℚ) < m := by exact_mod_cast hm0
  set k : ℤ := rint ((N : ℚ) / m) with hk
  have hd := rint_dist ((N : ℚ) / m)
  rw [← hk, abs_le] at hd
  obtain ⟨d1, d2⟩ := hd
  have e : (N : ℚ) / m * m = N := div_mul_cancel₀ _ hmq.ne'
  have u1 : (2 * N : ℚ) ≤ (2 * k + 1) * m := by nlinarith
  have u2 : ((2 * k - 1) * m : ℚ) ≤ 2 * N := by nlinarith
  have v1 : 2 * (N : ℤ) ≤ (2 * k + 1) * m := by exact_mod_cast u1
  have v2 : (2 * k - 1) * (m : ℤ) ≤ 2 * N := by exact_mod_cast u2
  have hmz : (0 : ℤ) < m := by exact_mod_cast hm0
  have hk0 : 0 ≤ k := by nlinarith
  set c : ℕ := (k - 1).toNat with hc
  have hcs : (List.replicate c m).sum = c * m := by rw [List.sum_replicate, smul_eq_mul]
  have w1 : c * m ≤ N ∧ 2 * N ≤ 2 * (c * m) + 3 * m := by
    by_cases h1 : k = 0
    · have : c = 0 := by rw [hc, h1]; rfl
      rw [h1] at v1
      rw [this]
      omega
    · have h2 : (c : ℤ) = k - 1 := Int.toNat_of_nonneg (by omega)
      have h3 : k = c + 1 := by omega
      rw [h3] at v1 v2
      constructor
      · have : ((c * m : ℕ) : ℤ) ≤ N := by push_cast; nlinarith
        exact_mod_cast this
      · have : ((2 * N : ℕ) : ℤ) ≤ ((2 * (c * m) + 3 * m : ℕ) : ℤ) := by push_cast; nlinarith
        exact_mod_cast this
  have hdist : distribute N nmax =
      (let l := if (0 : ℤ) < (N : ℤ) - ((List.replicate c m).sum : ℕ) then List.replicate c m ++ [((N : ℤ) - ((List.replicate c m).sum : ℕ)).toNat]
        else List.replicate c m
      if l.sum = N then some l else none) := by
    unfold distribute
    dsimp only
    rw [← hm, if_neg (by omega)]
  by_cases hr : (0 : ℤ) < (N : ℤ) - ((List.replicate c m).sum : ℕ)
  · rw [if_pos hr] at hdist
    dsimp only at hdist
    have hrem : ((N : ℤ) - ((List.replicate c m).sum : ℕ)).toNat = N - c * m := by rw [hcs]; omega
    rw [hrem] at hdist
    have hsum : (List.replicate c m ++ [N - c * m]).sum = N := by
      rw [List.sum_append, hcs, List.sum_singleton]; omega
    rw [if_pos hsum] at hdist
    rw [hcs] at hr
    refine ⟨_, hdist, hsum, ?_, ?_, ?_⟩
    · intro x hx
      rcases List.mem_append.1 hx with hx | hx
      · rw [List.eq_of_mem_replicate hx]; omega
      · rw [List.mem_singleton.1 hx]; omega
    · intro h3 x hx
      have hlt : 3 * m < 2 * (nmax + 1) := by
        have h4 : 3 * m ≤ 2 * (nmax + 1) := by omega
        rcases h4.lt_or_eq with h5 | h5
        · exact h5
        · exact absurd ⟨nmax + 1 - m, by omega⟩ h3
      rcases List.mem_append.1 hx with hx | hx
      · rw [List.eq_of_mem_replicate hx]; omega
      · rw [List.mem_singleton.1 hx]; omega
    · intro x hx
      rw [List.dropLast_concat] at hx
      exact List.eq_of_mem_replicate hx
  · rw [if_neg hr] at hdist
    dsimp only at hdist
    rw [hcs] at hr
    have hsum : (List.replicate c m).sum = N := by rw [hcs]; omega
    rw [if_pos hsum] at hdist
    refine ⟨_, hdist, hsum, ?_, ?_, ?_⟩
    · intro x hx
      rw [List.eq_of_mem_replicate hx]; omega
    · intro h3 x hx
      rw [List.eq_of_mem_replicate hx]; omega
    · intro x hx
      exact List.eq_of_mem_replicate (List.dropLast_subset _ hx)

/-- C139 fails: a cell can have more than nmax things, for every nmax with nmax+1 a multiple of 3; and for nmax=0 there is a division
by zero. -/
theorem C139_distribute_refuted : (∀ j : ℕ, distribute (5 * (j + 1)) (3 * j + 2) = some [2 * (j + 1), 3 * j + 3] ∧ 3 * j + 2 < 3 * j + 3) ∧
    ∀ N, distribute N 0 = none := by
  constructor
  · intro j
    refine ⟨?_, by omega⟩
    have hm : 2 * (3 * j + 2 + 1) / 3 = 2 * (j + 1) := by omega
    have hq : ((5 * (j + 1) : ℕ) : ℚ) / ((2 * (j + 1) : ℕ) : ℚ) = 5 / 2 := by
      have : ((j : ℚ) + 1) ≠ 0 := by positivity
      push_cast
      field_simp
    have hr : rint (5 / 2) = 2 := by decide +kernel
    unfold distribute
    dsimp only
    rw [hm, if_neg (by omega), hq, hr]
    have : (List.replicate (2 - 1 : ℤ).toNat (2 * (j + 1))) = [2 * (j + 1)] := rfl
    rw [this]
    have hs : [2 * (j + 1)].sum = 2 * (j + 1) := by simp
    rw [hs, if_pos (show (0 : ℤ) < ((5 * (j + 1) : ℕ) : ℤ) - ((2 * (j + 1) : ℕ) : ℤ) by omega)]
    have : (((5 * (j + 1) : ℕ) : ℤ) - ((2 * (j + 1) : ℕ) : ℤ)).toNat = 3 * j + 3 := by omega
    rw [this]
    rw [if_pos]
    · rfl
    · simp only [List.cons_append, List.nil_append, List.sum_cons, List.sum_nil]; omega
  · intro N; rfl

theorem slice_tile (n : ℕ) (w : Axis) (s t : ℕ) (h : s + t ≤ n) :
    (sliceGeometry n w ⟨some s, some ((s + t : ℕ) : ℤ), none⟩).1 = t ∧
    ∀ i : ℚ, (sliceGeometry n w ⟨some s, some ((s + t : ℕ) : ℤ), none⟩).2.pix2sky i = w.pix2sky (s + i) := by
  have e : expandSlice ⟨some (s : ℤ), some ((s + t : ℕ) : ℤ), none⟩ n = ((s : ℤ), ((s + t : ℕ) : ℤ), 1) := by
    simp only [expandSlice, effStep, cycle, zero_lt_one, if_true, Option.getD_some, Bool.false_eq_true, if_false]
    rw [if_pos (by omega), if_pos (by omega), min_eq_left (by omega), min_eq_left (by omega)]
  unfold sliceGeometry
  rw [e]
  constructor
  · show Int.fdiv (((s + t : ℕ) : ℤ) - s + 1 - Int.sign 1) 1 = t
    have : ((s + t : ℕ) : ℤ) - s + 1 - Int.sign 1 = t := by
      have : Int.sign 1 = 1 := rfl
      rw [this]; push_cast; ring
    rw [this, Int.fdiv_one]
  · intro i
    simp only [sliceWcs, Axis.pix2sky, zero_lt_one, if_true]
    push_cast
    ring

/-- A tile of the list `l` of sizes that contains x, starting at s: its start and its size. -/
def TileAt (l : List ℕ) (s x a t : ℕ) : Prop := ∃ pre post, l = pre ++ t :: post ∧ a = s + pre.sum ∧ a ≤ x ∧ x < a + t

theorem populateCols_spec {α : Type} (ofunc : ℤ × Axis → ℤ × Axis → ℕ → ℕ → α) (Ny Nx : ℕ) (wy wx : Axis) (sny eny : ℕ) (l : List ℕ) (s : ℕ)
    (omap : ℕ → ℕ → α) (y x : ℕ) :
    (¬ (sny ≤ y ∧ y < eny) ∨ x < s ∨ s + l.sum ≤ x → populateCols ofunc Ny Nx wy wx sny eny l s omap y x = omap y x) ∧
    (sny ≤ y → y < eny → s ≤ x → x < s + l.sum → ∃ a t, TileAt l s x a t ∧ populateCols ofunc Ny Nx wy wx sny eny l s omap y x =
      ofunc (sliceGeometry Ny wy ⟨some sny, some eny, none⟩) (sliceGeometry Nx wx ⟨some a, some ((a + t : ℕ) : ℤ), none⟩) (y - sny) (x - a)) := by
  induction l generalizing s omap with
  | nil =>
    refine ⟨fun _ => rfl, fun _ _ h1 h2 => ?_⟩
    simp at h2; omega
  | cons t ts ih =>
    unfold populateCols
    dsimp only
    rw [List.sum_cons]
    obtain ⟨i1, i2⟩ := ih (s + t) (fun y x => if sny ≤ y ∧ y < eny ∧ s ≤ x ∧ x < s + t then
      ofunc (sliceGeometry Ny wy ⟨some sny, some eny, none⟩) (sliceGeometry Nx wx ⟨some s, some ((s + t : ℕ) : ℤ), none⟩) (y - sny) (x - s) else omap y x)
    constructor
    · intro h
      rw [i1 (by omega), if_neg (by omega)]
    · intro h1 h2 h3 h4
      by_cases hx : x < s + t
      · refine ⟨s, t, ⟨[], ts, rfl, by simp, h3, hx⟩, ?_⟩
        rw [i1 (by omega), if_pos ⟨h1, h2, h3, hx⟩]
      · obtain ⟨a, u, ⟨pre, post, e1, e2, e3, e4⟩, e⟩ := i2 h1 h2 (by omega) (by omega)
        exact ⟨a, u, ⟨t :: pre, post, by rw [e1]; rfl, by rw [e2, List.sum_cons]; omega, e3, e4⟩, e⟩

theorem populateRows_spec {α : Type} (ofunc : ℤ × Axis → ℤ × Axis → ℕ → ℕ → α) (Ny Nx : ℕ) (wy wx : Axis) (xs l : List ℕ) (s : ℕ)
    (omap : ℕ → ℕ → α) (y x : ℕ) (hx : x < xs.sum) :
    (y < s ∨ s + l.sum ≤ y → populateRows ofunc Ny Nx wy wx xs l s omap y x = omap y x) ∧
    (s ≤ y → y < s + l.sum → ∃ b u a t, TileAt l s y b u ∧ TileAt xs 0 x a t ∧ populateRows ofunc Ny Nx wy wx xs l s omap y x =
      ofunc (sliceGeometry Ny wy ⟨some b, some ((b + u : ℕ) : ℤ), none⟩) (sliceGeometry Nx wx ⟨some a, some ((a + t : ℕ) : ℤ), none⟩) (y - b) (x - a)) := by
  induction l generalizing s omap with
  | nil =>
    refine ⟨fun _ => rfl, fun h1 h2 => ?_⟩
    simp at h2; omega
  | cons t ts ih =>
    unfold populateRows
    rw [List.sum_cons]
    obtain ⟨i1, i2⟩ := ih (s + t) (populateCols ofunc Ny Nx wy wx s (s + t) xs 0 omap)
    obtain ⟨c1, c2⟩ := populateCols_spec ofunc Ny Nx wy wx s (s + t) xs 0 omap y x
    constructor
    · intro h
      rw [i1 (by omega), c1 (by omega)]
    · intro h1 h2
      by_cases hy : y < s + t
      · obtain ⟨a, u, ht, e⟩ := c2 h1 hy (by omega) (by omega)
        refine ⟨s, t, a, u, ⟨[], ts, rfl, by simp, h1, hy⟩, ht, ?_⟩
        rw [i1 (by omega), e]
      · obtain ⟨b, v, a, u, ⟨pre, post, e1, e2, e3, e4⟩, ht, e⟩ := i2 (by omega) (by omega)
        exact ⟨b, v, a, u, ⟨t :: pre, post, by rw [e1]; rfl, by rw [e2, List.sum_cons]; omega, e3, e4⟩, ht, e⟩

theorem TileAt.le {l : List ℕ} {s x a t : ℕ} (h : TileAt l s x a t) : s ≤ a ∧ a + t ≤ s + l.sum ∧ t ∈ l := by
  obtain ⟨pre, post, e1, e2, -, -⟩ := h
  have : l.sum = pre.sum + (t + post.sum) := by rw [e1, List.sum_append, List.sum_cons]
  exact ⟨by omega, by omega, by rw [e1]; simp⟩

/-- C139: populate. Every pixel of the map gets the value that the function gives for its place in some tile inside the map, whose
geometry has the positions of the map and at most maxpix+1 rows and columns (at most maxpix unless maxpix+1 is a multiple of 3). -/
theorem C139_populate_partial {α : Type} (zero : α) (Ny Nx : ℕ) (wy wx : Axis) (ofunc : ℤ × Axis → ℤ × Axis → ℕ → ℕ → α) (maxpixy maxpixx : ℕ)
    (hy : 0 < maxpixy) (hx : 0 < maxpixx) :
    ∃ out, populate zero Ny Nx wy wx ofunc maxpixy maxpixx = some out ∧ ∀ y x, y < Ny → x < Nx →
      ∃ (y0 h x0 w : ℕ) (vy vx : Axis), y0 ≤ y ∧ y < y0 + h ∧ y0 + h ≤ Ny ∧ x0 ≤ x ∧ x < x0 + w ∧ x0 + w ≤ Nx ∧
        (h ≤ maxpixy + 1 ∧ (¬ 3 ∣ maxpixy + 1 → h ≤ maxpixy)) ∧ (w ≤ maxpixx + 1 ∧ (¬ 3 ∣ maxpixx + 1 → w ≤ maxpixx)) ∧
        (∀ i, vy.pix2sky i = wy.pix2sky (y0 + i)) ∧ (∀ i, vx.pix2sky i = wx.pix2sky (x0 + i)) ∧
        out y x = ofunc (h, vy) (w, vx) (y - y0) (x - x0) := by
  obtain ⟨ly, dy, sy, by1, by2, -⟩ := C139_distribute_partial Ny maxpixy hy
  obtain ⟨lx, dx, sx, bx1, bx2, -⟩ := C139_distribute_partial Nx maxpixx hx
  refine ⟨populateRows ofunc Ny Nx wy wx lx ly 0 fun _ _ => zero, by unfold populate; rw [dy, dx], ?_⟩
  intro y x hy' hx'
  obtain ⟨b, u, a, t, t1, t2, e⟩ := (populateRows_spec ofunc Ny Nx wy wx lx ly 0 (fun _ _ => zero) y x (by omega)).2 (by omega) (by omega)
  obtain ⟨g1, g2, g3⟩ := t1.le
  obtain ⟨f1, f2, f3⟩ := t2.le
  obtain ⟨k1, k2⟩ := slice_tile Ny wy b u (by omega)
  obtain ⟨m1, m2⟩ := slice_tile Nx wx a t (by omega)
  obtain ⟨-, -, -, -, p1, p2⟩ := t1
  obtain ⟨-, -, -, -, q1, q2⟩ := t2
  refine ⟨b, u, a, t, _, _, p1, p2, by omega, q1, q2, by omega, ⟨(by1 u g3).2, fun h => by2 h u g3⟩,
    ⟨(bx1 t f3).2, fun h => bx2 h t f3⟩, k2, m2, ?_⟩
  rw [e, ← k1, ← m1]

/-- C139: for a function that works out each pixel from its position alone, populate gives the same map as one call for the whole
geometry, for all sizes of the tiles. -/
theorem C139_pointwise {α : Type} (zero : α) (Ny Nx : ℕ) (wy wx : Axis) (f : ℚ → ℚ → α) (maxpixy maxpixx : ℕ) (hy : 0 < maxpixy) (hx : 0 < maxpixx)
    (ofunc : ℤ × Axis → ℤ × Axis → ℕ → ℕ → α) (hf : ∀ gy gx y x, ofunc gy gx y x = f (gy.2.pix2sky y) (gx.2.pix2sky x)) :
    ∃ out, populate zero Ny Nx wy wx ofunc maxpixy maxpixx = some out ∧
      ∀ y x, y < Ny → x < Nx → out y x = ofunc (Ny, wy) (Nx, wx) y x := by
  obtain ⟨out, ho, hp⟩ := C139_populate_partial zero Ny Nx wy wx ofunc maxpixy maxpixx hy hx
  refine ⟨out, ho, fun y x h1 h2 => ?_⟩
  obtain ⟨y0, h, x0, w, vy, vx, a1, -, -, b1, -, -, -, -, k1, k2, e⟩ := hp y x h1 h2
  rw [e, hf, hf, k1, k2]
  have c1 : (y0 : ℚ) + ((y - y0 : ℕ) : ℚ) = y := by rw [Nat.cast_sub a1]; ring
  have c2 : (x0 : ℚ) + ((x - x0 : ℕ) : ℚ) = x := by rw [Nat.cast_sub b1]; ring
  rw [c1, c2]

example : distribute 1000 400 = some [267, 267, 267, 199] := by decide +kernel
example : distribute 5 2 = some [2, 3] := by decide +kernel
example : distribute 0 400 = some [] := by decide +kernel

end Pixell
