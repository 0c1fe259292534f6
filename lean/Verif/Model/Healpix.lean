import Mathlib.Order.Defs.LinearOrder
import Mathlib.Data.List.Basic
import Mathlib.Data.Nat.Sqrt

/-
The healpix pixelisation and the priority queue of the distance transforms (cython/distances_core.c). A pixel is a pair
(y,x): its ring, counted from the north, and its place in the ring. Integers are unbounded.
-/
namespace Pixell

/-- geo->npix, distances_core.c:787. -/
def hpNpix (nside : Nat) : Nat := 12 * nside * nside

/-- geo->ncap, distances_core.c:788. -/
def hpNcap (nside : Nat) : Nat := 2 * nside * (nside + 1)

/-- geo->ny, distances_core.c:789. -/
def hpNy (nside : Nat) : Nat := 4 * nside - 1

/-- geo->nx[y], distances_core.c:798-829. Rows of the south cap copy those of the north cap. -/
def hpNx (nside y : Nat) : Nat :=
  if y < nside then 4 * (y + 1)
  else if y < 3 * nside - 1 then 4 * nside
  else 4 * ((4 * nside - 2 - y) + 1)

/-- geo->off[y], distances_core.c:798-829. -/
def hpOff (nside y : Nat) : Nat :=
  if y < nside then 2 * y * (y + 1)
  else if y < 3 * nside - 1 then hpNcap nside + 4 * nside * (y - nside)
  else
    let y2 := 4 * nside - 2 - y
    hpNpix nside - 2 * y2 * (y2 + 1) - 4 * (y2 + 1)

/-- geo->shift[y], distances_core.c:798-829: whether the first pixel of the row starts half a pixel from longitude zero. -/
def hpShift (nside y : Nat) : Bool :=
  if y < nside then true
  else if y < 3 * nside - 1 then decide ((y - nside) % 2 = 1)
  else true

/-- isqrt, distances_core.c:1321-1329. `r` is (inum)sqrt(x+0.5) as computed. -/
def isqrtFix (r x : Nat) : Nat :=
  if x > 2 ^ 50 then (if r * r > x then r - 1 else if (r + 1) * (r + 1) ≤ x then r + 1 else r) else r

/-- pix2y_healpix, distances_core.c:1331-1344. `sq` is isqrt. -/
def hpPix2y (sq : Nat → Nat) (nside pix : Nat) : Nat :=
  let pix2 := hpNpix nside - 1 - pix
  if pix < hpNcap nside then (sq (1 + 2 * pix) - 1) / 2
  else if pix2 < hpNcap nside then 4 * nside - 2 - (sq (1 + 2 * pix2) - 1) / 2
  else nside + (pix - hpNcap nside) / (4 * nside)

/-- ravel_healpix, distances_core.c:1346-1353, of one pixel. -/
def hpRavel (nside : Nat) (p : Nat × Nat) : Nat := hpOff nside p.1 + p.2

/-- unravel_healpix, distances_core.c:1355-1364, of one pixel. -/
def hpUnravel (sq : Nat → Nat) (nside pix : Nat) : Nat × Nat :=
  let y := hpPix2y sq nside pix
  (y, pix - hpOff nside y)

/-- The four neighbours before wrapping, distances_core.c:953-988. -/
def hpNeighsRaw (nside y x : Nat) : List (Nat × ℤ) :=
  if nside ≤ y ∧ y < 3 * nside - 1 then
    if hpShift nside y = false then [(y - 1, (x : ℤ) - 1), (y - 1, x), (y + 1, (x : ℤ) - 1), (y + 1, x)]
    else [(y - 1, x), (y - 1, (x : ℤ) + 1), (y + 1, x), (y + 1, (x : ℤ) + 1)]
  else
    let sw := hpNx nside y / 4
    let left := x % sw = 0
    let right := (x + 1) % sw = 0
    let s := x / sw
    let wide : ℤ := if (if y < nside then y + 1 = nside else y + 1 = 3 * nside) then (x : ℤ) else x + s
    if y < nside then
      [if left then (y, (x : ℤ) - 1) else (y - 1, (x : ℤ) - 1 - s), if right then (y, (x : ℤ) + 1) else (y - 1, (x : ℤ) - s),
       (y + 1, wide), (y + 1, wide + 1)]
    else
      [(y - 1, wide), (y - 1, wide + 1),
       if left then (y, (x : ℤ) - 1) else (y + 1, (x : ℤ) - 1 - s), if right then (y, (x : ℤ) + 1) else (y + 1, (x : ℤ) - s)]

/-- get_healpix_neighs, distances_core.c:952-995. -/
def hpNeighs (nside : Nat) (p : Nat × Nat) : List (Nat × Nat) :=
  (hpNeighsRaw nside p.1 p.2).map fun q =>
    let w : ℤ := hpNx nside q.1
    (q.1, (if q.2 < 0 then q.2 + w else if q.2 ≥ w then q.2 - w else q.2).toNat)

/-- All pixels, in the order of the loops at distances_core.c:1261-1262. -/
def hpPixels (nside : Nat) : List (Nat × Nat) :=
  (List.range (hpNy nside)).flatMap fun y => (List.range (hpNx nside y)).map fun x => (y, x)

/-- find_edges_healpix, distances_core.c:1256-1286; `mask` by flat index. -/
def hpFindEdges (nside : Nat) (mask : Nat → Bool) : List (Nat × Nat) :=
  (hpPixels nside).filter fun p => !mask (hpRavel nside p) && (hpNeighs nside p).any fun q => mask (hpRavel nside q)

/-- find_edges_labeled_healpix, distances_core.c:1288-1319. -/
def hpFindEdgesLabeled (nside : Nat) (labels : Nat → ℤ) : List (Nat × Nat) :=
  (hpPixels nside).filter fun p => labels (hpRavel nside p) ≠ 0 &&
    (hpNeighs nside p).any fun q => labels (hpRavel nside q) ≠ labels (hpRavel nside p)

/-! ### The priority queue -/

variable {α β : Type} [LinearOrder α]

/-- heapentry_swap, distances_core.c:1090. -/
def heapSwap (h : List (α × β)) (i j : Nat) : List (α × β) :=
  match h[i]?, h[j]? with
  | some a, some b => (h.set i b).set j a
  | _, _ => h

/-- Whether entry `i` has a lower value than entry `j`. -/
def heapLt (h : List (α × β)) (i j : Nat) : Bool :=
  match h[i]?, h[j]? with
  | some a, some b => decide (a.1 < b.1)
  | _, _ => false

/-- The loop of pointheap_push, distances_core.c:1099-1104, with fuel: i is halved in every round. -/
def heapUp : Nat → List (α × β) → Nat → List (α × β)
  | 0, h, _ => h
  | f + 1, h, i =>
    if i = 0 then h
    else if heapLt h i (i / 2) then heapUp f (heapSwap h i (i / 2)) (i / 2) else h

/-- pointheap_push, distances_core.c:1091-1106. -/
def heapPush (h : List (α × β)) (e : α × β) : List (α × β) := heapUp h.length (h ++ [e]) h.length

/-- The loop of pointheap_pop, distances_core.c:1114-1128, with fuel: in every round p is replaced by 2p or 2p+1, and 2p is not
taken for p=0. -/
def heapDown : Nat → List (α × β) → Nat → List (α × β)
  | 0, h, _ => h
  | f + 1, h, p =>
    if p < h.length / 2 then
      let c1 := 2 * p
      let c2 := 2 * p + 1
      if heapLt h c1 p then
        if h.length ≤ c2 ∨ heapLt h c1 c2 then heapDown f (heapSwap h p c1) c1
        else heapDown f (heapSwap h p c2) c2
      else if c2 < h.length ∧ heapLt h c2 p then heapDown f (heapSwap h p c2) c2
      else h
    else h

/-- pointheap_pop, distances_core.c:1107-1130; `none` for an empty queue, where the code reads outside the array. -/
def heapPop (h : List (α × β)) : Option ((α × β) × List (α × β)) :=
  match h.head?, h.getLast? with
  | some r, some l => some (r, heapDown h.length ((h.set 0 l).dropLast) 0)
  | _, _ => none

end Pixell
