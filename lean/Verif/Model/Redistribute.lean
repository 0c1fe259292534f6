import Verif.Model.SBox

/-
pixell/utils.py:1491-1563 (redistribute): moving slices of one big distributed array between tasks. Two-dimensional boxes,
as `preshape = iarrs[0].shape[:-2]` assumes; the leading axes are one flat axis of length npre. All tasks are run
together: `allgather` and `allgatherv` give every task the lists of boxes of all tasks in rank order, `Alltoallv` moves
the pieces of the send buffers. numpy.object (removed from recent numpy) is taken to be object.
-/
namespace Pixell
open PySpec (Slice)

/-- A two-dimensional sbox. Used for utils.py:1497-1498. -/
structure Box2 where
  y : SBox
  x : SBox
deriving DecidableEq, Repr

/-- An array [npre,ny,nx]. Used for utils.py:1536-1549. -/
structure Arr3 (α : Type) where
  ny : Nat
  nx : Nat
  get : Nat × Int × Int → α

/-- What one task gives to redistribute: iarrs with their iboxes, and oboxes. Used for utils.py:1551-1555. -/
structure RTask (α : Type) where
  ins : List (Box2 × Arr3 α)
  outs : List Box2

/-- pixell/utils.py:1497-1498: sbox_fix of every box. -/
def Box2.fix (b : Box2) : Box2 := ⟨sboxFix b.y, sboxFix b.x⟩

/-- Used for utils.py:1497-1498. -/
def RTask.fix {α} (t : RTask α) : RTask α := ⟨t.ins.map fun i => (i.1.fix, i.2), t.outs.map Box2.fix⟩

/-- pixell/utils.py:1565-1594 (sbox_intersect), one pair of boxes: the outer product of the intersections per axis. -/
def isect2 (wrap : Int × Int) (a b : Box2) : List Box2 :=
  (sboxIntersect1d a.y b.y wrap.1).flatMap fun p => (sboxIntersect1d a.x b.x wrap.2).map fun q => ⟨p, q⟩

/-- pixell/utils.py:1519-1520 (safe_div), as called: without wrap. -/
def safeDiv (l : List Box2) (b : Box2) : List Box2 :=
  if 0 < l.length then l.map fun a => ⟨sboxDiv a.y b.y, sboxDiv a.x b.x⟩ else [⟨⟨0, 0, 1⟩, ⟨0, 0, 1⟩⟩]

/-- The indices arr[sbox2slice(b)] selects along an axis of length n. Used for utils.py:1560-1562. -/
def sboxSel (n : Nat) (b : SBox) : List Int := ((sbox2slice b).select n).getD []

/-- The positions arr[...,sbox2slice(b)] selects, in the order of reshape(-1). Used for utils.py:1536-1549. -/
def boxPos (npre ny nx : Nat) (b : Box2) : List (Nat × Int × Int) :=
  (List.range npre).flatMap fun p => (sboxSel ny b.y).flatMap fun y => (sboxSel nx b.x).map fun x => (p, y, x)

/-- np.prod(sbox_size(box)). Used for utils.py:1539-1548. -/
def boxCount (b : Box2) : Nat := (sboxSize b.y * sboxSize b.x).toNat

/-- pixell/utils.py:1536-1549: what a task with the arrays `ins` appends to its send buffer for a task with the boxes
`outs`. -/
def sendTo {α} (wrap : Int × Int) (npre : Nat) (ins : List (Box2 × Arr3 α)) (outs : List Box2) : List α :=
  outs.flatMap fun ob => ins.flatMap fun i =>
    (safeDiv (isect2 wrap ob i.1) i.1).flatMap fun b => (boxPos npre i.2.ny i.2.nx b).map i.2.get

/-- pixell/utils.py:1539-1548: the entry of nsend for that task. -/
def sendCount {α} (wrap : Int × Int) (npre : Nat) (ins : List (Box2 × Arr3 α)) (outs : List Box2) : Nat :=
  (outs.map fun ob => ((ins.map fun i => ((safeDiv (isect2 wrap ob i.1) i.1).map boxCount).sum).sum) * npre).sum

/-- pixell/utils.py:1522-1533: the entry of nrecv for a task with the arrays `ins`. -/
def recvCount {α} (wrap : Int × Int) (npre : Nat) (ins : List (Box2 × Arr3 α)) (outs : List Box2) : Nat :=
  (ins.map fun i => ((outs.map fun ob => ((safeDiv (isect2 wrap i.1 ob) ob).map boxCount).sum).sum) * npre).sum

/-- The part number r of a buffer with the given counts and their cumulative sums as offsets. Used for utils.py:1551-1555. -/
def bufPart {α} (buf : List α) (counts : List Nat) (r : Nat) : List α :=
  (buf.drop (counts.take r).sum).take (counts.getD r 0)

/-- comm.Alltoallv seen from rank r (pixell/utils.py:1551-1555): none if the counts of sender and receiver disagree. -/
def alltoallv {α} (wrap : Int × Int) (npre : Nat) (tasks : List (RTask α)) (r : Nat) : Option (List α) :=
  let me := (tasks.getD r ⟨[], []⟩)
  if ∀ s ∈ tasks, sendCount wrap npre s.ins me.outs = recvCount wrap npre s.ins me.outs then
    some (tasks.flatMap fun s =>
      bufPart (tasks.flatMap fun t => sendTo wrap npre s.ins t.outs) (tasks.map fun t => sendCount wrap npre s.ins t.outs) r)
  else none

/-- The output arrays: number of the array, position, value. Used for utils.py:1560-1562. -/
abbrev Outs (α : Type) := Nat → Nat × Int × Int → α

/-- Used for utils.py:1560-1562. -/
def Outs.set {α} (o : Outs α) (i : Nat) (w : List ((Nat × Int × Int) × α)) : Outs α :=
  w.foldl (fun o e => fun j p => if j = i ∧ p = e.1 then e.2 else o j p) o

/-- pixell/utils.py:1560-1562: oarrs[i2][sbox2slice(rbox)] = data.reshape(preshape+rshape), with numpy's broadcasting of
axes of length one; none if the shapes do not fit. -/
def putBox {α} (npre ny nx : Nat) (o : Outs α) (i : Nat) (b : Box2) (data : List α) (dflt : α) : Option (Outs α) :=
  let ry := (sboxSize b.y).toNat
  let rx := (sboxSize b.x).toNat
  let ys := sboxSel ny b.y
  let xs := sboxSel nx b.x
  if ys.length = ry ∧ xs.length = rx then some (o.set i ((boxPos npre ny nx b).zip data))
  else if (ys.length = ry ∨ ry = 1) ∧ (xs.length = rx ∨ rx = 1) then
    some (o.set i ((List.range npre).flatMap fun p => (List.range ys.length).flatMap fun a => (List.range xs.length).map fun c =>
      ((p, ys.getD a 0, xs.getD c 0), data.getD ((p * ry + (if ry = 1 then 0 else a)) * rx + (if rx = 1 then 0 else c)) dflt)))
  else none

/-- pixell/utils.py:1557-1563: the loop that copies out the result; `jobs` are (i2, rbox, length of the axes). -/
def copyOut {α} (npre : Nat) (dflt : α) : List (Nat × Box2 × Nat × Nat) → List α → Outs α → Option (Outs α)
  | [], _, o => some o
  | (i, b, ny, nx) :: jobs, buf, o => do
      let n := boxCount b * npre
      let o' ← putBox npre ny nx o i b (buf.take n) dflt
      copyOut npre dflt jobs (buf.drop n) o'

/-- The order of the loops over i1, i2 and rbox. Used for utils.py:1491-1563. -/
def recvJobs {α} (wrap : Int × Int) (tasks : List (RTask α)) (outs : List Box2) : List (Nat × Box2 × Nat × Nat) :=
  (tasks.flatMap RTask.ins).flatMap fun i => outs.zipIdx.flatMap fun ob =>
    (safeDiv (isect2 wrap i.1 ob.1) ob.1).map fun b => (ob.2, b, (sboxSize ob.1.y).toNat, (sboxSize ob.1.x).toNat)

/-- pixell/utils.py:1491-1563 (redistribute): oarrs of rank r; none for an exception. -/
def redistributeBoxes {α} [Zero α] (tasks : List (RTask α)) (npre : Nat) (wrap : Int × Int) (r : Nat) : Option (Outs α) := do
  let tasks := tasks.map RTask.fix
  let buf ← alltoallv wrap npre tasks r
  copyOut npre 0 (recvJobs wrap tasks (tasks.getD r ⟨[], []⟩).outs) buf (fun _ _ => 0)

end Pixell
