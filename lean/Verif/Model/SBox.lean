import Verif.Spec.PySeq
/-
Slice boxes: the `sbox_*` functions of utils.py, one axis, and the pixel-box extraction of enmap.py.
A zero step is outside the model (numpy divides by zero there).
-/
namespace Pixell
open PySpec (Slice)

/-- One axis `[start, end, step]` of an sbox (utils.py:1565 ff). -/
structure SBox where
  start : Int
  stop : Int
  step : Int
deriving DecidableEq, Repr

/-- utils.sbox_size, utils.py:1676-1682. -/
def sboxSize (b : SBox) : Int :=
  let s := Int.sign b.step
  Int.fdiv ((b.stop * s - b.start * s) - 1) (b.step * s) + 1

/-- utils.sbox_fix, utils.py:1695-1701: the end becomes `start + size*step`. -/
def sboxFix (b : SBox) : SBox := { b with stop := b.start + sboxSize b * b.step }

/-- utils.sbox_flip, utils.py:1668-1670. -/
def sboxFlip (b : SBox) : SBox := ⟨b.stop - b.step, b.start - b.step, -b.step⟩

/-- utils.sbox2slice, utils.py:1672-1674. -/
def sbox2slice (b : SBox) : Slice :=
  ⟨some b.start, if 0 ≤ b.stop then some b.stop else none, some b.step⟩

/-- utils.gcd, utils.py:1790-1792 (`gcd(b, a % b) if b else a`), for non-negative arguments. -/
def pyGcd (a b : Nat) : Nat := if h : b = 0 then a else pyGcd b (a % b)
termination_by b
decreasing_by exact Nat.mod_lt _ (Nat.pos_of_ne_zero h)

/-- utils.lcm, utils.py:1793-1795. -/
def pyLcm (a b : Nat) : Nat := a * b / pyGcd a b

/-- One segment of utils.sbox_intersect_1d (utils.py:1616-1628), boxes with positive steps. -/
def intersectSeg (a b : SBox) : List SBox :=
  let p := if b.start < a.start then (b, a) else (a, b)
  let a := p.1; let b := p.2
  let step : Int := pyLcm a.step.natAbs b.step.natAbs
  let relInds := PySpec.range (b.start - a.start) (b.start - a.start + step) b.step
  match relInds.find? (fun r => r % a.step == 0) with
  | none => []
  | some r =>
    let start := r + a.start
    let stop := Int.fdiv (min (a.stop - a.step) (b.stop - b.step) - start) step * step + start + step
    if stop ≤ start then [] else [⟨start, stop, step⟩]

/-- Translation of a box, `a - [k,k,0]`. Used for utils.py:1596-1629. -/
def sboxShift (a : SBox) (k : Int) : SBox := ⟨a.start - k, a.stop - k, a.step⟩

/-- utils.sbox_intersect_1d, utils.py:1596-1629. -/
def sboxIntersect1d (a b : SBox) (wrap : Int := 0) : List SBox :=
  let a := sboxFix a
  let b := sboxFix b
  let a := if a.step < 0 then sboxFlip a else a
  let b := if b.step < 0 then sboxFlip b else b
  if wrap ≠ 0 then
    let a := sboxShift a (Int.fdiv a.start wrap * wrap)
    let b := sboxShift b (Int.fdiv b.start wrap * wrap)
    let segs := [(a, b)]
      ++ (if a.stop > wrap then [(sboxShift a wrap, b)] else [])
      ++ (if b.stop > wrap then [(a, sboxShift b wrap)] else [])
    segs.flatMap fun p => intersectSeg p.1 p.2
  else intersectSeg a b

/-- utils.sbox_div, utils.py:1631-1645, without wrapping. -/
def sboxDiv (a b : SBox) : SBox :=
  let a := sboxFix a
  let b := sboxFix b
  let step := Int.fdiv a.step b.step
  let num := Int.fdiv (a.stop - a.start) a.step
  let start := Int.fdiv (a.start - b.start) b.step
  ⟨start, start + step * num, step⟩

/-- utils.sbox_mul, utils.py:1647-1666. -/
def sboxMul (a b : SBox) : SBox :=
  let a := sboxFix a
  let b := sboxFix b
  let flip := xor (decide (a.step < 0)) (decide (b.step < 0))
  let a := if a.step < 0 then sboxFlip a else a
  let b := if b.step < 0 then sboxFlip b else b
  let c0 := a.start + b.start * a.step
  let c1 := min (a.start + b.stop * a.step) a.stop
  let c2 := a.step * b.step
  let res := sboxFix ⟨c0, c1, c2⟩
  if flip then sboxFlip res else res

/-- The output box belonging to `ncap` input pixels starting at position `i`
(utils.py:1755-1756). -/
def outBox (flip : Bool) (ilen i ncap : Int) : SBox :=
  if !flip then ⟨i, i + ncap, 1⟩ else ⟨ilen - 1 - i, ilen - 1 - (i + ncap), -1⟩

/-- The `while ibox[1] > 0` loop of utils.sbox_wrap (utils.py:1742-1761).  `w` is the (non-zero)
wrapping length, `c` the cap (0 = none). -/
def wrapLoop (w : Nat) (c : Int) (flip : Bool) (ilen step : Int) (ib0 ib1 i : Int) :
    List (SBox × SBox) :=
  if h : 0 < ib1 ∧ 0 < w then
    let npre := max (Int.fdiv (-ib0) step) 0
    let isub := sboxFix ⟨ib0 + npre * step, min ib1 w, step⟩
    let nsub := sboxSize isub
    let isub := if c ≠ 0 then sboxFix ⟨ib0 + npre * step, min ib1 c, step⟩ else isub
    let ncap := if c ≠ 0 then sboxSize isub else nsub
    (if 0 < ncap then [(isub, outBox flip ilen i ncap)] else [])
      ++ wrapLoop w c flip ilen step (ib0 - w) (ib1 - w) (i + nsub)
  else []
termination_by ib1.toNat
decreasing_by omega

/-- utils.sbox_wrap (utils.py:1703-1788) on one axis: pairs of input and output boxes. -/
def sboxWrapAxis (sbox : SBox) (w : Nat) (c : Int) : List (SBox × SBox) :=
  let ibox := sboxFix sbox
  let ilen := sboxSize ibox
  let flip := decide (ibox.step < 0)
  let ibox := if flip then sboxFlip ibox else ibox
  if w ≠ 0 then
    let k := Int.fdiv ibox.start w * w
    wrapLoop w c flip ilen ibox.step (ibox.start - k) (ibox.stop - k) 0
  else
    let npre := if c ≠ 0 then max (Int.fdiv (-ibox.start) ibox.step) 0 else 0
    let npost := if c ≠ 0 then max (Int.fdiv (ibox.stop - ibox.step - (c - 1)) ibox.step) 0 else 0
    if npre + npost < ilen then
      [(⟨ibox.start + npre * ibox.step, ibox.stop - npost * ibox.step, ibox.step⟩,
        if !flip then ⟨npre, ilen - npost, 1⟩ else ⟨ilen - 1 - npre, npost - 1, -1⟩)]
    else []

/-- The wrapping length used by enmap.extract_pixbox (enmap.py:688-692) for a non-plain map that is
`nx` pixels wide and has `nphi` pixels around the sky. -/
def wrapLength (nphi nx : Nat) : Nat := nphi * ((nphi + nx - 1) / nphi)

/-- Index pairs (input, output) addressed by `omap[oslice] = ... map[islice]` along one axis, for the
pieces of one axis (enmap.py:695-698 with sbox2slice).  `none` is numpy's shape mismatch. -/
def piecePairs (nIn nOut : Nat) (p : SBox × SBox) : Option (List (Int × Int)) :=
  match (sbox2slice p.1).select nIn, (sbox2slice p.2).select nOut with
  | some is, some os => if is.length = os.length then some (is.zip os) else none
  | _, _ => none

/-- All pieces along one axis. Used for enmap.py:677-702. -/
def axisPairs (nIn nOut : Nat) (box : SBox) (w : Nat) : Option (List (List (Int × Int))) :=
  (sboxWrapAxis box w nIn).mapM (piecePairs nIn nOut)

/-- A two-dimensional array, by index. Used for enmap.py:677-702. -/
abbrev Arr (α : Type) := Int × Int → α

/-- In-place update of one element. Used for enmap.py:677-702. -/
def upd {α} (f : Arr α) (i : Int × Int) (v : α) : Arr α := fun j => if j = i then v else f j

/-- The sequence of element updates of enmap.extract_pixbox's loop (enmap.py:694-698): pieces form the
outer product of the per-axis pieces (utils.py:1782-1788), each piece is a rectangle. -/
def writesOf (ys xs : List (List (Int × Int))) : List ((Int × Int) × (Int × Int)) :=
  ys.flatMap fun py => xs.flatMap fun px =>
    py.flatMap fun y => px.map fun x => ((y.1, x.1), (y.2, x.2))

/-- enmap.extract_pixbox (enmap.py:677-702), data part, with an elementwise `op`.  `nIn`, `nOut` are
the (ny, nx) shapes of `map` and `omap`; the boxes are the (y, x) columns of pixbox. -/
def extractPixbox {α} (map : Arr α) (nIn : Nat × Nat) (omap : Arr α) (nOut : Nat × Nat)
    (boxY boxX : SBox) (wrapY wrapX : Nat) (op : α → α → α := fun _ b => b) : Option (Arr α) := do
  let ys ← axisPairs nIn.1 nOut.1 boxY wrapY
  let xs ← axisPairs nIn.2 nOut.2 boxX wrapX
  return (writesOf ys xs).foldl (fun o p => upd o p.2 (op (o p.2) (map p.1))) omap

/-- The same with `reverse=True`: the map is updated from `omap`. See enmap.py:677-702. -/
def insertPixbox {α} (map : Arr α) (nIn : Nat × Nat) (omap : Arr α) (nOut : Nat × Nat)
    (boxY boxX : SBox) (wrapY wrapX : Nat) (op : α → α → α := fun _ b => b) : Option (Arr α) := do
  let ys ← axisPairs nIn.1 nOut.1 boxY wrapY
  let xs ← axisPairs nIn.2 nOut.2 boxX wrapX
  return (writesOf ys xs).foldl (fun m p => upd m p.1 (op (m p.1) (omap p.2))) map

end Pixell
