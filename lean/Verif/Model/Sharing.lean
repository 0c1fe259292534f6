import Verif.Model.Geometry

/-!
Maps as objects that refer to pixels in memory and to a wcs object (pixell/enmap.py), with the operations that make new maps of them and
change them in place. Pixels are of any type. The wcs is linear along both axes; maps have two axes. Views are windows with unit steps.
-/
namespace Pixell

variable {V : Type}

/-- A map: where its pixels are, its shape, and which wcs object it has. pixell/enmap.py:33-44 (ndmap). -/
structure MapRef where
  buf : ℕ
  ny : ℕ
  nx : ℕ
  addr : ℕ → ℕ → ℕ
  wref : ℕ

/-- Pixel memory, wcs objects with their axes y and x, and the maps made so far. The objects of pixell/enmap.py:33-44. -/
structure MapStore (V : Type) where
  bufs : ℕ → ℕ → V
  nbuf : ℕ
  wcss : ℕ → Axis × Axis
  nw : ℕ
  maps : List MapRef

/-- The value of a pixel. Reads the array of pixell/enmap.py:40-44. -/
def MapStore.val (s : MapStore V) (m : MapRef) (y x : ℕ) : V := s.bufs m.buf (m.addr y x)

/-- The wcs of a map. Reads the attribute of pixell/enmap.py:43. -/
def MapStore.wcs (s : MapStore V) (m : MapRef) : Axis × Axis := s.wcss m.wref

/-- A map with new pixels in C order and a wcs object of its own, pixell/enmap.py:40-44 (ndmap.__new__) of a new array. -/
def MapStore.push (s : MapStore V) (ny nx : ℕ) (v : ℕ → ℕ → V) (w : Axis × Axis) : MapStore V :=
  { bufs := Function.update s.bufs s.nbuf fun a => v (a / nx) (a % nx), nbuf := s.nbuf + 1,
    wcss := Function.update s.wcss s.nw w, nw := s.nw + 1,
    maps := s.maps ++ [⟨s.nbuf, ny, nx, fun y x => y * nx + x, s.nw⟩] }

/-- `map[:] = v` for all pixels of a map, used in pixell/enmap.py:3084. -/
def MapStore.fill (s : MapStore V) (m : MapRef) (v : ℕ → ℕ → V) : MapStore V :=
  { s with bufs := Function.update s.bufs m.buf fun a =>
      match ((List.range m.ny ×ˢ List.range m.nx).find? fun p => m.addr p.1 p.2 = a) with
      | some p => v p.1 p.2
      | none => s.bufs m.buf a }

/-- `map[:] = np.roll(map, o, axis)` unless o is zero, pixell/enmap.py:3082-3084. Axis 0 is y. -/
def MapStore.roll (s : MapStore V) (m : MapRef) (axis : ℕ) (o : ℤ) : MapStore V :=
  if o ≠ 0 then
    s.fill m fun y x => if axis = 0 then s.val m (((y : ℤ) - o) % m.ny).toNat x else s.val m y (((x : ℤ) - o) % m.nx).toNat
  else s

/-- `map.wcs.wcs.crpix += off[::-1]`, pixell/enmap.py:3086; a single offset is added to both numbers. -/
def MapStore.moveRef (s : MapStore V) (m : MapRef) (oy ox : ℤ) : MapStore V :=
  { s with wcss := Function.update s.wcss m.wref (shiftWcs (s.wcss m.wref).1 oy, shiftWcs (s.wcss m.wref).2 ox) }

/-- The offsets of shift: one number, or two. pixell/enmap.py:3077-3081. -/
inductive ShiftBy where
  | one (o : ℤ)
  | two (oy ox : ℤ)

/-- pixell/enmap.py:3081-3087 (shift) from the copy on. -/
def MapStore.shiftIn (s : MapStore V) (m : MapRef) (off : ShiftBy) (keepwcs : Bool) : MapStore V :=
  match off with
  | .one o =>
    let s := s.roll m 1 o
    if keepwcs then s else s.moveRef m o o
  | .two oy ox =>
    let s := (s.roll m 0 oy).roll m 1 ox
    if keepwcs then s else s.moveRef m oy ox

/-- What a program does with maps, which are given by their numbers in the order in which they were made. -/
inductive MapStep (V : Type) where
  /-- a map of new pixels: enmap.zeros, full and so on, pixell/enmap.py:40-44 -/
  | make (ny nx : ℕ) (v : ℕ → ℕ → V) (w : Axis × Axis)
  /-- `ndmap(a, b.wcs)`, also samewcs: pixell/enmap.py:40-44, 1457-1466 -/
  | wrap (i j : ℕ)
  /-- `a.copy()`, pixell/enmap.py:65-66 -/
  | copy (i : ℕ)
  /-- `a.astype(...)`, np.zeros_like(a): new pixels, with the wcs by __array_finalize__, pixell/enmap.py:45-47 -/
  | astype (i : ℕ) (f : V → V)
  /-- `a.view()`, `a.real`, `a.preflat`: the same pixels, with the wcs by __array_finalize__, pixell/enmap.py:45-47, 99-102 -/
  | view (i : ℕ)
  /-- `f(a,b)` for a function of numpy, for maps of the same shape: pixell/enmap.py:51-56 (__array_wrap__) -/
  | ufunc (i j : ℕ) (f : V → V → V)
  /-- `a[y0:y0+h,x0:x0+w]`, pixell/enmap.py:125-143, 264-284 -/
  | window (i y0 x0 h w : ℕ)
  /-- `a[y,x] = v` -/
  | set (i y x : ℕ) (v : V)
  /-- shift, pixell/enmap.py:3077-3087 -/
  | shift (i : ℕ) (off : ShiftBy) (inplace keepwcs : Bool)

/-- One step; steps that raise change nothing. pixell/enmap.py, at the lines given with the steps. -/
def MapStore.step (s : MapStore V) : MapStep V → MapStore V
  | .make ny nx v w => s.push ny nx v w
  | .wrap i j => match s.maps[i]?, s.maps[j]? with
    | some m, some k => { s with wcss := Function.update s.wcss s.nw (s.wcs k), nw := s.nw + 1, maps := s.maps ++ [{ m with wref := s.nw }] }
    | _, _ => s
  | .copy i => match s.maps[i]? with
    | some m => s.push m.ny m.nx (s.val m) (s.wcs m)
    | none => s
  | .astype i f => match s.maps[i]? with
    | some m => { s with bufs := Function.update s.bufs s.nbuf fun a => f (s.val m (a / m.nx) (a % m.nx)), nbuf := s.nbuf + 1,
                         maps := s.maps ++ [⟨s.nbuf, m.ny, m.nx, fun y x => y * m.nx + x, m.wref⟩] }
    | none => s
  | .view i => match s.maps[i]? with
    | some m => { s with maps := s.maps ++ [m] }
    | none => s
  | .ufunc i j f => match s.maps[i]?, s.maps[j]? with
    | some m, some k => if m.ny = k.ny ∧ m.nx = k.nx then s.push m.ny m.nx (fun y x => f (s.val m y x) (s.val k y x)) (s.wcs m) else s
    | _, _ => s
  | .window i y0 x0 h w => match s.maps[i]? with
    | some m => if y0 + h ≤ m.ny ∧ x0 + w ≤ m.nx then
        { s with wcss := Function.update s.wcss s.nw (shiftWcs (s.wcs m).1 (-y0), shiftWcs (s.wcs m).2 (-x0)), nw := s.nw + 1,
                 maps := s.maps ++ [⟨m.buf, h, w, fun y x => m.addr (y0 + y) (x0 + x), s.nw⟩] }
      else s
    | none => s
  | .set i y x v => match s.maps[i]? with
    | some m => if y < m.ny ∧ x < m.nx then { s with bufs := Function.update s.bufs m.buf (Function.update (s.bufs m.buf) (m.addr y x) v) } else s
    | none => s
  | .shift i off inplace keepwcs => match s.maps[i]? with
    | some m => if inplace then s.shiftIn m off keepwcs else
        let s' := s.push m.ny m.nx (s.val m) (s.wcs m)
        s'.shiftIn ⟨s.nbuf, m.ny, m.nx, fun y x => y * m.nx + x, s.nw⟩ off keepwcs
    | none => s

/-- A program. -/
def MapStore.run (s : MapStore V) (ops : List (MapStep V)) : MapStore V := ops.foldl MapStore.step s

/-- Nothing made yet; d is what memory contains. -/
def MapStore.init (d : V) : MapStore V := ⟨fun _ _ => d, 0, fun _ => (⟨0, 1, 0⟩, ⟨0, 1, 0⟩), 0, []⟩

end Pixell
