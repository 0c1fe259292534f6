import Verif.Model.MapUnion
import Verif.Props.Extract
import Verif.Props.Wcs

/-!
C164: map_union contains every pixel of both maps at its place, with the sum of the maps where they overlap; insert_at puts
the map where it is told. A union that closes around the sky is not summed where it meets itself, and insert ignores wrap.
-/
namespace Pixell

/-- The place of pixel (y,x) of a map. -/
def GMap.pos (m : GMap) (y x : ℤ) : ℚ × ℚ := (m.wy.pix2sky y, m.wx.pix2sky x)

/-- (y,x) is a pixel of the map. -/
def GMap.In (m : GMap) (y x : ℤ) : Prop := (0 ≤ y ∧ y < m.ny) ∧ (0 ≤ x ∧ x < m.nx)

/-- The map has the value v at the place p: that of its pixel there, and zero if it has no pixel there. -/
def GMap.Has (m : GMap) (p : ℚ × ℚ) (v : ℚ) : Prop :=
  (∃ y x, m.In y x ∧ m.pos y x = p ∧ v = m.data (y, x)) ∨ ((∀ y x, m.In y x → m.pos y x ≠ p) ∧ v = 0)

/-- The axis o is the axis m moved by k pixels. -/
def Moved (o m : Axis) (k : ℤ) : Prop := ∀ p : ℚ, o.pix2sky (p + k) = m.pix2sky p

theorem pix2sky_inj {w : Axis} (hc : w.cdelt ≠ 0) {p q : ℚ} (h : w.pix2sky p = w.pix2sky q) : p = q := by
  simp only [Axis.pix2sky] at h
  have h2 : (p - q) * w.cdelt = 0 := by linarith
  rcases mul_eq_zero.1 h2 with h3 | h3
  · linarith
  · exact absurd h3 hc

theorem moved_cdelt {o m : Axis} {k : ℤ} (h : Moved o m k) : o.cdelt = m.cdelt := by
  have h0 := h 0
  have h1 := h 1
  simp only [Axis.pix2sky] at h0 h1
  linarith

theorem pixboxOf_moved {o m : Axis} {k : ℤ} (n : Nat) (hc : o.cdelt ≠ 0) (h : Moved o m k) :
    pixboxOf o n m = some (k, k + n) := by
  have hs : SameGrid o m := (SameGrid.symm ⟨(moved_cdelt h).symm, k, fun p => (h p).symm⟩)
  obtain ⟨k', e, hk'⟩ := pixboxOf_sameGrid o m n (tol := 1 / 1000) (by norm_num) hc hs
  have : ((0 : ℚ) + k) = 0 + k' := pix2sky_inj hc ((h 0).trans (hk' 0))
  have hk : k = k' := by
    have : (k : ℚ) = k' := by linarith
    exact_mod_cast this
  rw [e, hk]

theorem length_box (k : ℤ) (n : Nat) : (⟨k, k + n, 1⟩ : SBox).idx.length = n := by
  have := C12_size ⟨k, k + n, 1⟩ (by simp)
  rw [← this]
  simp [sboxSize]

theorem le_wrapLength (nphi nx : Nat) (h : 0 < nphi) : nx ≤ wrapLength nphi nx := by
  unfold wrapLength
  have h1 := Nat.div_add_mod (nphi + nx - 1) nphi
  have h2 := Nat.mod_lt (nphi + nx - 1) h
  generalize nphi * ((nphi + nx - 1) / nphi) = q at *
  omega

theorem autoWrap_le (plain : Bool) (o : GMap) : autoWrap plain o ≠ 0 → o.nx ≤ autoWrap plain o := by
  unfold autoWrap
  split
  · simp
  · intro h
    apply le_wrapLength
    by_contra h0
    have : (rint (360 / |o.wx.cdelt|)).toNat = 0 := by omega
    rw [this] at h
    simp [wrapLength] at h

theorem srcIndex_in (k j : ℤ) (n : Nat) (w : Nat) (N : Nat) (hw : w ≠ 0 → N ≤ w) (h0 : 0 ≤ k + j) (h1 : k + j < N) :
    srcIndex ⟨k, k + n, 1⟩ w j = k + j := by
  unfold srcIndex
  split
  · simp
  · rename_i h
    have := hw h
    simp only [mul_one]
    exact Int.emod_eq_of_lt h0 (by omega)

/-- Inserting into a box inside the map. -/
theorem insertPixbox_inside (o m : Arr ℚ) (ny nx my mx : Nat) (ky kx : ℤ) (w : Nat) (op : ℚ → ℚ → ℚ) (hn : 0 < ny ∧ 0 < nx)
    (hy : 0 ≤ ky ∧ ky + my ≤ ny) (hx : 0 ≤ kx ∧ kx + mx ≤ nx) (hw : w ≠ 0 → nx ≤ w) :
    ∃ d, insertPixbox o (ny, nx) m (my, mx) ⟨ky, ky + my, 1⟩ ⟨kx, kx + mx, 1⟩ 0 w op = some d ∧
      ∀ y x, d (y, x) = if (0 ≤ y - ky ∧ y - ky < my) ∧ (0 ≤ x - kx ∧ x - kx < mx)
        then op (o (y, x)) (m (y - ky, x - kx)) else o (y, x) := by
  obtain ⟨d, e, f1, f2⟩ := C09_insert o m (ny, nx) (my, mx) ⟨ky, ky + my, 1⟩ ⟨kx, kx + mx, 1⟩ (Or.inl rfl) (Or.inl rfl) 0 w
    hn.1 hn.2 (by simp) hw (length_box ky my).symm (length_box kx mx).symm op
  refine ⟨d, e, ?_⟩
  have nY : NoOverlap ny ⟨ky, ky + my, 1⟩ 0 := C09_noOverlap _ _ (Or.inl rfl) _ (by simp)
  have nX : NoOverlap nx ⟨kx, kx + mx, 1⟩ w := C09_noOverlap _ _ (Or.inl rfl) _ (by
    intro h
    rw [length_box]
    have := hw h
    omega)
  intro y x
  split
  · rename_i h
    have ey := srcIndex_in ky (y - ky) my 0 ny (by simp) (by omega) (by omega)
    have ex := srcIndex_in kx (x - kx) mx w nx hw (by omega) (by omega)
    have := f2 nY nX (y - ky) (x - kx) h.1.1 h.1.2 h.2.1 h.2.2
    rw [ey, ex] at this
    have e1 : ky + (y - ky) = y := by ring
    have e2 : kx + (x - kx) = x := by ring
    rw [e1, e2] at this
    exact this (by omega) (by simp only; omega) (by omega) (by simp only; omega)
  · rename_i h
    apply f1
    intro jy jx a1 a2 a3 a4 hh
    simp only at a2 a4
    rw [srcIndex_in ky jy my 0 ny (by simp) (by omega) (by omega), srcIndex_in kx jx mx w nx hw (by omega) (by omega)] at hh
    apply h
    omega

/-- **C164_insert_at.** insert_at puts [0:ny,0:nx] of the inserted map into [y:y+ny,x:x+nx], if that lies inside the map,
combined with what is there by op, and changes no other pixel; with any wrapping length not smaller than the map. -/
theorem C164_insert_at (plain : Bool) (o m : GMap) (ky kx : ℤ) (wrap : Option Nat) (op : ℚ → ℚ → ℚ)
    (hn : 0 < o.ny ∧ 0 < o.nx) (hy : 0 ≤ ky ∧ ky + m.ny ≤ o.ny) (hx : 0 ≤ kx ∧ kx + m.nx ≤ o.nx)
    (hw : ∀ w ∈ wrap, w ≠ 0 → o.nx ≤ w) :
    ∃ r, insertAt plain o ky kx m wrap op = some r ∧ (r.ny = o.ny ∧ r.nx = o.nx ∧ r.wy = o.wy ∧ r.wx = o.wx) ∧
      ∀ y x, r.data (y, x) = if (ky ≤ y ∧ y < ky + m.ny) ∧ (kx ≤ x ∧ x < kx + m.nx)
        then op (o.data (y, x)) (m.data (y - ky, x - kx)) else o.data (y, x) := by
  have hw' : wrap.getD (autoWrap plain o) ≠ 0 → o.nx ≤ wrap.getD (autoWrap plain o) := by
    cases wrap with
    | none => exact autoWrap_le plain o
    | some w => exact hw w rfl
  obtain ⟨d, e, h⟩ := insertPixbox_inside o.data m.data o.ny o.nx m.ny m.nx ky kx _ op hn hy hx hw'
  refine ⟨{ o with data := d }, ?_, ⟨rfl, rfl, rfl, rfl⟩, ?_⟩
  · simp [insertAt, e]
  · intro y x
    show d (y, x) = _
    rw [h y x]
    refine if_congr ?_ rfl rfl
    omega

/-- insert puts the map where its coordinates say. -/
theorem insertMap_spec (plain : Bool) (o m : GMap) (wrap : Option Nat) (op : ℚ → ℚ → ℚ) {ky kx : ℤ} (hcy : o.wy.cdelt ≠ 0)
    (hcx : o.wx.cdelt ≠ 0) (my : Moved o.wy m.wy ky) (mx : Moved o.wx m.wx kx) (hn : 0 < o.ny ∧ 0 < o.nx)
    (hy : 0 ≤ ky ∧ ky + m.ny ≤ o.ny) (hx : 0 ≤ kx ∧ kx + m.nx ≤ o.nx) :
    ∃ d, insertMap plain o m wrap op = some { o with data := d } ∧
      ∀ y x, d (y, x) = if (0 ≤ y - ky ∧ y - ky < m.ny) ∧ (0 ≤ x - kx ∧ x - kx < m.nx)
        then op (o.data (y, x)) (m.data (y - ky, x - kx)) else o.data (y, x) := by
  obtain ⟨d, e, h⟩ := insertPixbox_inside o.data m.data o.ny o.nx m.ny m.nx ky kx _ op hn hy hx (autoWrap_le plain o)
  refine ⟨d, ?_, h⟩
  simp only [insertMap, pixboxOf_moved m.ny hcy my, pixboxOf_moved m.nx hcx mx, Option.bind_eq_bind, Option.bind_some, e]
  rfl

/-- The union of two axes: both are the new axis moved by whole pixels. -/
theorem union_two {a b : Axis} (n m : Nat) (hc : a.cdelt ≠ 0) (h : SameGrid a b) :
    ∃ (N : ℤ) (W : Axis) (k l : ℤ), unionGeometry (n, a) [(m, b)] = some (N, W) ∧ W.cdelt ≠ 0 ∧
      Moved W a k ∧ Moved W b l ∧ (0 ≤ k ∧ k + n ≤ N) ∧ (0 ≤ l ∧ l + m ≤ N) ∧ (k = 0 ∨ l = 0) ∧ (k + n = N ∨ l + m = N) := by
  obtain ⟨k, e, hk⟩ := pixboxOf_sameGrid a b m (tol := 1 / 1000) (by norm_num) hc h
  obtain ⟨z, e0, hz⟩ := pixboxOf_sameGrid a a n (tol := 1 / 1000) (by norm_num) hc (SameGrid.refl a)
  have hz0 : z = 0 := by
    have : (0 : ℚ) = 0 + z := pix2sky_inj hc (hz 0)
    have : (z : ℚ) = 0 := by linarith
    exact_mod_cast this
  subst hz0
  refine ⟨max ((0 : ℤ) + n) (k + m) - min 0 k, { a with crpix := a.crpix - (min 0 k : ℤ) }, 0 - min 0 k, k - min 0 k,
    ?_, hc, ?_, ?_, by omega, by omega, by omega, by omega⟩
  · simp only [unionGeometry, List.mapM_cons, List.mapM_nil, e, e0, Option.bind_eq_bind, Option.bind_some, Option.pure_def,
      List.map_cons, List.map_nil, List.min?_cons, List.max?_cons, List.min?_nil, List.max?_nil, Option.elim]
  · intro p
    simp only [Axis.pix2sky]
    push_cast
    ring
  · intro p
    rw [hk p]
    simp only [Axis.pix2sky]
    push_cast
    ring

theorem has_moved {o m : GMap} {ky kx : ℤ} (hcy : o.wy.cdelt ≠ 0) (hcx : o.wx.cdelt ≠ 0) (my : Moved o.wy m.wy ky)
    (mx : Moved o.wx m.wx kx) (y x : ℤ) {v : ℚ} (h : m.Has (o.pos y x) v) :
    v = if (0 ≤ y - ky ∧ y - ky < m.ny) ∧ (0 ≤ x - kx ∧ x - kx < m.nx) then m.data (y - ky, x - kx) else 0 := by
  have hp : ∀ i j : ℤ, m.pos i j = o.pos y x ↔ i = y - ky ∧ j = x - kx := by
    intro i j
    unfold GMap.pos
    rw [← my, ← mx, Prod.mk.injEq]
    constructor
    · rintro ⟨h1, h2⟩
      have g1 := pix2sky_inj hcy h1
      have g2 := pix2sky_inj hcx h2
      constructor
      · have : i + ky = y := by exact_mod_cast g1
        omega
      · have : j + kx = x := by exact_mod_cast g2
        omega
    · rintro ⟨h1, h2⟩
      subst h1; subst h2
      push_cast
      simp
  rcases h with ⟨i, j, hin, hpos, hv⟩ | ⟨hno, hv⟩
  · obtain ⟨h1, h2⟩ := (hp i j).1 hpos
    subst h1; subst h2
    unfold GMap.In at hin
    rw [if_pos hin, hv]
  · rw [if_neg, hv]
    intro hin
    exact hno _ _ hin ((hp _ _).2 ⟨rfl, rfl⟩)

/-- The axis W with N pixels starts where one of the two axes starts and ends where one of them ends. -/
def Tight (N : Nat) (W : Axis) (n : Nat) (a : Axis) (m : Nat) (b : Axis) : Prop :=
  (W.pix2sky 0 = a.pix2sky 0 ∨ W.pix2sky 0 = b.pix2sky 0) ∧
  (W.pix2sky (N : ℤ) = a.pix2sky (n : ℤ) ∨ W.pix2sky (N : ℤ) = b.pix2sky (m : ℤ))

theorem tight_of {N : ℤ} {W a b : Axis} {n m : Nat} {k l : ℤ} (h0 : 0 ≤ N) (ha : Moved W a k) (hb : Moved W b l)
    (h1 : k = 0 ∨ l = 0) (h2 : k + n = N ∨ l + m = N) : Tight N.toNat W n a m b := by
  constructor
  · rcases h1 with h | h
    · left; have := ha 0; rw [h] at this; simpa using this
    · right; have := hb 0; rw [h] at this; simpa using this
  · have e : ((N.toNat : ℤ) : ℚ) = N := by rw [Int.toNat_of_nonneg h0]
    rw [e]
    rcases h2 with h | h
    · left; rw [← ha, ← h]; congr 1; push_cast; ring
    · right; rw [← hb, ← h]; congr 1; push_cast; ring

/-- **C164_union_partial.** For two non-empty maps on one pixel grid, map_union succeeds; every pixel of both maps is a
pixel of the union at the same place, and every pixel of the union has the sum of the values of the two maps at its place,
a map counting as zero where it has no pixel. On each side the union ends where one of the maps ends.
(Places are compared without wrapping; around the sky: `C164_union_refuted`.) -/
theorem C164_union_partial (plain : Bool) (m1 m2 : GMap) (hy : SameGrid m1.wy m2.wy) (hx : SameGrid m1.wx m2.wx)
    (hcy : m1.wy.cdelt ≠ 0) (hcx : m1.wx.cdelt ≠ 0) (h1 : 0 < m1.ny ∧ 0 < m1.nx) :
    ∃ o, mapUnion plain m1 m2 = some o ∧ Tight o.ny o.wy m1.ny m1.wy m2.ny m2.wy ∧ Tight o.nx o.wx m1.nx m1.wx m2.nx m2.wx ∧
      (∀ m, m = m1 ∨ m = m2 → ∀ y x, m.In y x → ∃ y' x', o.In y' x' ∧ o.pos y' x' = m.pos y x) ∧
      (∀ y x, o.In y x → ∀ v1 v2, m1.Has (o.pos y x) v1 → m2.Has (o.pos y x) v2 → o.data (y, x) = v1 + v2) := by
  obtain ⟨Ny, Wy, ky, ly, ey, cy, my1, my2, by1, by2, ty1, ty2⟩ := union_two m1.ny m2.ny hcy hy
  obtain ⟨Nx, Wx, kx, lx, ex, cx, mx1, mx2, bx1, bx2, tx1, tx2⟩ := union_two m1.nx m2.nx hcx hx
  have hn : 0 < Ny.toNat ∧ 0 < Nx.toNat := by omega
  obtain ⟨d1, e1, f1⟩ := insertMap_spec plain ⟨Ny.toNat, Nx.toNat, Wy, Wx, fun _ => 0⟩ m1 none (fun _ b => b) cy cx my1 mx1
    hn (by simp only; omega) (by simp only; omega)
  obtain ⟨d2, e2, f2⟩ := insertMap_spec plain ⟨Ny.toNat, Nx.toNat, Wy, Wx, d1⟩ m2 none (fun a b => a + b) cy cx my2 mx2
    hn (by simp only; omega) (by simp only; omega)
  refine ⟨⟨Ny.toNat, Nx.toNat, Wy, Wx, d2⟩, ?_, tight_of (by omega) my1 my2 ty1 ty2, tight_of (by omega) mx1 mx2 tx1 tx2, ?_, ?_⟩
  · simp only [mapUnion, ey, ex, Option.bind_eq_bind, Option.bind_some, e1, e2]
  · rintro m (rfl | rfl) y x ⟨a, b⟩
    · refine ⟨y + ky, x + kx, ⟨by simp only; omega, by simp only; omega⟩, ?_⟩
      unfold GMap.pos
      have := my1 y
      have := mx1 x
      push_cast
      simp_all
    · refine ⟨y + ly, x + lx, ⟨by simp only; omega, by simp only; omega⟩, ?_⟩
      unfold GMap.pos
      have := my2 y
      have := mx2 x
      push_cast
      simp_all
  · intro y x _ v1 v2 g1 g2
    have g1' := has_moved (o := ⟨Ny.toNat, Nx.toNat, Wy, Wx, d2⟩) cy cx my1 mx1 y x g1
    have g2' := has_moved (o := ⟨Ny.toNat, Nx.toNat, Wy, Wx, d2⟩) cy cx my2 mx2 y x g2
    show d2 (y, x) = _
    rw [f2 y x, g1', g2']
    have := f1 y x
    simp only at this ⊢
    rw [this]
    split <;> split <;> simp

/-- The two maps of the counterexample: the whole ring of four pixels of 90 degrees, all with value 1, and two pixels
across its end, with value 10. -/
def ringMap : GMap := ⟨1, 4, ⟨0, 1, 1⟩, ⟨0, 90, 1⟩, fun _ => 1⟩
@[inherit_doc ringMap] def edgeMap : GMap := ⟨1, 2, ⟨0, 1, 1⟩, ⟨0, 90, -2⟩, fun _ => 10⟩

/-- **C164_union_refuted.** Maps that meet around the sky are not summed: the union of the ring with the two pixels across
its end is five pixels wide; its first and last pixel are the same place (360 degrees apart), where both maps have a pixel,
and have the values 1 and 10 instead of 11. -/
theorem C164_union_refuted : ∃ o, mapUnion false ringMap edgeMap = some o ∧ o.nx = 5 ∧
    o.pos 0 4 = (0, (o.pos 0 0).2 + 360) ∧ ringMap.pos 0 0 = o.pos 0 0 ∧ edgeMap.pos 0 1 = o.pos 0 4 ∧
    o.data (0, 0) = 1 ∧ o.data (0, 4) = 10 := by
  have h : (mapUnion false ringMap edgeMap).map (fun o => (o.nx, o.pos 0 4, o.pos 0 0, o.data (0, 0), o.data (0, 4)))
      = some (5, (0, 360), (0, 0), 1, 10) := by decide +kernel
  cases e : mapUnion false ringMap edgeMap with
  | none => rw [e] at h; cases h
  | some o =>
    rw [e] at h
    simp only [Option.map_some, Option.some.injEq, Prod.mk.injEq] at h
    obtain ⟨h1, h2, h3, h4, h5⟩ := h
    have r1 : ringMap.pos 0 0 = (0, 0) := by decide +kernel
    have r2 : edgeMap.pos 0 1 = (0, 360) := by decide +kernel
    refine ⟨o, rfl, h1, ?_, ?_, ?_, h4, h5⟩ <;> simp_all

/-- **C164_insert_wrap_refuted.** insert ignores its wrap argument: told not to wrap, it still writes the part of a map
beyond the edge to the other side; insert_at obeys. -/
theorem C164_insert_wrap_refuted :
    (insertMap false ringMap edgeMap (some 0)).map (fun r => r.data (0, 0)) = some 10 ∧
    (insertAt false ringMap 0 3 edgeMap (some 0)).map (fun r => (r.data (0, 0), r.data (0, 3))) = some (1, 10) := by
  constructor <;> decide +kernel

/-- Non-vacuity: two overlapping maps on one grid. -/
example : (mapUnion false ⟨1, 3, ⟨0, 1, 1⟩, ⟨0, 1, 1⟩, fun p => p.2⟩ ⟨1, 2, ⟨0, 1, 1⟩, ⟨5, 1, 4⟩, fun _ => 10⟩).map
    (fun o => (o.nx, (List.range 4).map fun x => o.data (0, (x : ℕ)))) = some (4, [0, 1, 12, 10]) := by decide +kernel

end Pixell
