import Mathlib.Algebra.Order.Floor.Ring
import Mathlib.Algebra.Order.Field.Basic
import Mathlib.Data.Rat.Floor
import Mathlib.Algebra.Order.Ring.Rat
import Mathlib.Algebra.BigOperators.Group.List.Basic
import Mathlib.Logic.Function.Basic

/-!
# Interpolation of arrays: `interpol.map_coordinates`

`pixell/interpol.py:7-98` and `fortran/interpol.F90`.  Line numbers without a file refer to the
latter.

Simplifications.  `real(_)` is an ordered field `K` (ℚ in examples, ℝ where square roots are
needed).  One leading component (`npre`) is modelled at a time; the code treats them independently.
The axes of a sample are listed from the last to the first, since the odometer and the flat index
both work from that end.  The Lanczos kernel is not modelled, but the loops are modelled for
arbitrary weights.
-/

namespace Pixell

variable {K : Type} [Field K] [LinearOrder K] [IsStrictOrderedRing K] [FloorRing K]

/-! ## Borders -/

/-- The border conditions 0-3 (`pixell/interpol.py:52`). -/
inductive Border
  | zero | nearest | cyclic | mirror
deriving DecidableEq

/-- `map_border` (`interpol.F90:399-420`); `modulo` rounds down. -/
def mapBorder (b : Border) (n : ℕ) (i : ℤ) : ℤ :=
  if i < 0 ∨ i ≥ n then
    match b with
    | .zero => -1
    | .nearest => max 0 (min ((n : ℤ) - 1) i)
    | .cyclic => Int.fmod i n
    | .mirror =>
      let v := Int.fmod i (2 * n - 2)
      if v ≥ n then 2 * n - 2 - v else v
  else i

/-! ## Weights -/

/-- The kernels (`pixell/interpol.py:51`), without Lanczos. -/
inductive Kernel
  | conv | spline
deriving DecidableEq

/-- `get_weight_length` (`interpol.F90:261-277`). -/
def weightLength (t : Kernel) (order : ℕ) : ℕ :=
  match t with
  | .conv => if order = 0 then 1 else if order = 1 then 2 else if order = 3 then 4 else 0
  | .spline => order + 1

/-- Fortran's `nint`: halves away from zero. See interpol.F90:279-335. -/
def fNint (p : K) : ℤ := if 0 ≤ p then ⌊p + 1 / 2⌋ else -⌊-p + 1 / 2⌋

/-- `off(i)` of `calc_weights` (`interpol.F90:291`, `interpol.F90:294`). -/
def ctxOffset (t : Kernel) (order : ℕ) (p : K) : ℤ :=
  if order = 0 then fNint p else ⌊p - ((weightLength t order : K) - 2) * (1 / 2)⌋

/-- The polynomial convolution kernel (`interpol.F90:299-306`). -/
def convKernel (order : ℕ) (x : K) : K :=
  if order = 1 then (if x < 1 then 1 - x else 0)
  else if order = 3 then
    if x < 1 then 3 / 2 * x ^ 3 - 5 / 2 * x ^ 2 + 1
    else if x < 2 then -1 / 2 * x ^ 3 + 5 / 2 * x ^ 2 - 4 * x + 2 else 0
  else 0

/-- The spline kernel (`interpol.F90:307-325`). -/
def splineKernel (order : ℕ) (x : K) : K :=
  if order = 1 then (if x < 1 then 1 - x else 0)
  else if order = 2 then
    if x < 1 / 2 then 3 / 4 - x ^ 2 else if x < 3 / 2 then 1 / 2 * (3 / 2 - x) ^ 2 else 0
  else if order = 3 then
    if x < 1 then (x * x * (x - 2) * 3 + 4) / 6 else if x < 2 then (2 - x) ^ 3 / 6 else 0
  else if order = 4 then
    if x < 1 / 2 then x ^ 2 * (x ^ 2 * (1 / 4) - 5 / 8) + 115 / 192
    else if x < 3 / 2 then x * (x * (x * (5 / 6 - x / 6) - 5 / 4) + 5 / 24) + 55 / 96
    else if x < 5 / 2 then (x - 5 / 2) ^ 4 / 24 else 0
  else if order = 5 then
    if x < 1 then x ^ 2 * (x ^ 2 * (1 / 4 - x / 12) - 1 / 2) + 11 / 20
    else if x < 2 then
      x * (x * (x * (x * (x / 24 - 3 / 8) + 5 / 4) - 7 / 4) + 5 / 8) + 17 / 40
    else if x < 3 then (3 - x) ^ 5 / 120 else 0
  else 0

/-- `weights(j+1,i)` of `calc_weights` (`interpol.F90:279-335`) at position `p` along an axis. -/
def ctxWeight (t : Kernel) (order : ℕ) (p : K) (j : ℕ) : K :=
  if order = 0 then 1
  else
    let x := |p - j - ctxOffset t order p|
    match t with
    | .conv => convKernel order x
    | .spline => splineKernel order x

/-! ## The loop over the context of a point -/

/-- What a sample needs along one axis: the length of the axis, the offset and the weights. See interpol.F90:459-472. -/
structure CtxAxis (K : Type) where
  n : ℕ
  off : ℤ
  w : ℕ → K

/-- "Advance to next cell" (`interpol.F90:507-512`), last axis first. -/
def advInds (nw : ℕ) : List ℕ → List ℕ
  | [] => []
  | a :: as => if a + 1 < nw then (a + 1) :: as else 0 :: advInds nw as

/-- `dind` (`interpol.F90:477-487`), or `none` if some axis maps outside the grid and the cell is skipped. -/
def ctxIndex (b : Border) : List (CtxAxis K) → List ℕ → Option ℕ
  | ax :: axs, j :: js =>
    let xi := mapBorder b ax.n (j + ax.off)
    if xi < 0 then none else (ctxIndex b axs js).map fun d => d * ax.n + xi.toNat
  | _, _ => some 0

/-- The product of the weights of a cell (`interpol.F90:493-495`, `interpol.F90:501-503`). -/
def ctxProd : List (CtxAxis K) → List ℕ → K
  | ax :: axs, j :: js => ax.w j * ctxProd axs js
  | _, _ => 1

/-- `cloop` (`interpol.F90:473-512`): the grid points and weights used, in order.  The counter is the number of
rounds left.  `cycle cloop` (`interpol.F90:485`) jumps over the code that advances to the next cell. -/
def ctxLoop (b : Border) (nw : ℕ) (axs : List (CtxAxis K)) : ℕ → List ℕ → List (ℕ × K)
  | 0, _ => []
  | k + 1, J =>
    match ctxIndex b axs J with
    | none => ctxLoop b nw axs k J
    | some d => (d, ctxProd axs J) :: ctxLoop b nw axs k (advInds nw J)

/-- All of `cloop`: `nw**ndim` rounds starting from zero. See interpol.F90:473-512. -/
def ctxCells (b : Border) (nw : ℕ) (axs : List (CtxAxis K)) : List (ℕ × K) :=
  ctxLoop b nw axs (nw ^ axs.length) (axs.map fun _ => 0)

/-- One sample of `interpol` (`interpol.F90:459-517`). -/
def interpolAt (b : Border) (nw : ℕ) (axs : List (CtxAxis K)) (data : ℕ → K) : K :=
  (ctxCells b nw axs).foldl (fun res c => res + data c.1 * c.2) 0

/-- The updates `idata(dind) += odata(si)*weight` of the transposed loop (`interpol.F90:498-506`), for all
samples in order. -/
def transUpdates (b : Border) (nw : ℕ) (samples : List (List (CtxAxis K) × K)) : List (ℕ × K) :=
  samples.flatMap fun s => (ctxCells b nw s.1).map fun c => (c.1, s.2 * c.2)

/-- The transposed `interpol`: `idata = 0` and then the (atomic) updates in the order given by the
threads. See interpol.F90:442-525. -/
def interpolTrans (updates : List (ℕ × K)) : ℕ → K :=
  updates.foldl (fun d u => Function.update d u.1 (d u.1 + u.2)) fun _ => 0

/-- The axes of a sample at the given positions (last axis first). Used for interpol.py:69-74. -/
def ctxAxes (t : Kernel) (order : ℕ) (shape : List ℕ) (pos : List K) : List (CtxAxis K) :=
  List.zipWith (fun n p => ⟨n, ctxOffset t order p, ctxWeight t order p⟩) shape pos

/-- `map_coordinates` without prefilter at one point (`pixell/interpol.py:69-74`). -/
def mapCoords (t : Kernel) (order : ℕ) (b : Border) (shape : List ℕ) (data : ℕ → K) (pos : List K) :
    K :=
  interpolAt b (weightLength t order) (ctxAxes t order shape pos) data

/-! ## The spline filter along one line

`spline_filter1d` (`:89-259`) for one line of length `n` and one pole `p`, with 0-based indices.
`m` is the number of terms after which the initial sums are cut (`:130`).  The line has been
multiplied with `weight` before. -/

/-- `a(1)` after initialising the causal filter (`interpol.F90:139-163`). -/
def causalInit (b : Border) (n m : ℕ) (p : K) (a : ℕ → K) : K :=
  match b with
  | .zero => a 0
  | .nearest => a 0 / (1 - p)
  | .cyclic =>
    let s := a 0 + ((List.range (min n m - 1)).map fun i => p ^ (i + 1) * a (n - 1 - i)).sum
    if m ≥ n then s / (1 - p ^ min n m) else s
  | .mirror =>
    let s := a 0 + ((List.range (min m n - 1)).map fun i => p ^ (i + 1) * a (i + 1)).sum
    if m ≥ n then
      (s + ((List.range (n - 2)).map fun i => p ^ (min m n + i) * a (n - 2 - i)).sum)
        / (1 - p ^ (min m n + (n - 2)))
    else s

/-- The forwards recursion (`interpol.F90:164-167`). -/
def causal (p : K) (c0 : K) (a : ℕ → K) : ℕ → K
  | 0 => c0
  | i + 1 => a (i + 1) + p * causal p c0 a i

/-- `a(n)` after initialising the backwards recursion (`interpol.F90:168-185`). -/
def anticausalInit (b : Border) (n m : ℕ) (p : K) (d : ℕ → K) : K :=
  match b with
  | .zero => -p / (1 - p ^ 2) * d (n - 1)
  | .nearest => -p / (1 - p ^ 2) / (1 - p) * (d (n - 1) - p ^ 2 * d (n - 2))
  | .cyclic =>
    let v := ((List.range (min m n)).map fun i => d i * p ^ i).sum
    let v := if m ≥ n then v / (1 - p ^ min m n) else v
    (-p) * (d (n - 1) + p * v)
  | .mirror => -p / (1 - p ^ 2) * (d (n - 1) + p * d (n - 2))

/-- The backwards recursion (`interpol.F90:186-189`), counted from the end. -/
def anticausal (p : K) (e0 : K) (n : ℕ) (d : ℕ → K) : ℕ → K
  | 0 => e0
  | k + 1 => p * (anticausal p e0 n d k - d (n - 1 - (k + 1)))

/-- One pole of the filter (`interpol.F90:128-189`). -/
def poleFilter (b : Border) (n m : ℕ) (p : K) (a : ℕ → K) : ℕ → K :=
  let d := causal p (causalInit b n m p a) a
  fun i => anticausal p (anticausalInit b n m p d) n d (n - 1 - i)

/-- `spline_filter1d` on one line, with the list of poles and cut-offs. Used for interpol.py:100-114. -/
def splineFilter (b : Border) (n : ℕ) (poles : List (K × ℕ)) (a : ℕ → K) : ℕ → K :=
  let weight := (poles.map fun pm => (1 - pm.1) * (1 - 1 / pm.1)).prod
  poles.foldl (fun a pm => poleFilter b n pm.2 pm.1 a) fun i => a i * weight

/-! ## The transposed filter -/

/-- The transposed backwards recursion (`interpol.F90:193-196`). -/
def antiT (p : K) (x : ℕ → K) : ℕ → K
  | 0 => -p * x 0
  | i + 1 => p * (antiT p x i - x (i + 1))

/-- The line after the transposed backwards recursion (`interpol.F90:192-197`). -/
def anticausalT (p : K) (n : ℕ) (x : ℕ → K) : ℕ → K := fun i =>
  if i + 1 < n then antiT p x i else if i + 1 = n then x i - antiT p x (i - 1) else x i

/-- The transposed initialisation of the backwards recursion (`interpol.F90:198-219`).  The loop visits each
index once, so its result is given index by index. -/
def anticausalInitT (b : Border) (n m : ℕ) (p : K) (x : ℕ → K) : ℕ → K :=
  match b with
  | .zero => Function.update x (n - 1) (-p / (1 - p ^ 2) * x (n - 1))
  | .nearest =>
    let v := -p / (1 - p ^ 2) / (1 - p)
    Function.update (Function.update x (n - 2) (x (n - 2) - v * p ^ 2 * x (n - 1))) (n - 1)
      (v * x (n - 1))
  | .cyclic =>
    let v := -p ^ 2 * x (n - 1)
    let v := if m ≥ n then v / (1 - p ^ n) else v
    fun i => (if i = n - 1 then -p * x i else x i) + if i < min m n then v * p ^ i else 0
  | .mirror =>
    let v := -p / (1 - p ^ 2)
    Function.update (Function.update x (n - 2) (x (n - 2) + v * p * x (n - 1))) (n - 1)
      (v * x (n - 1))

/-- The transposed forwards recursion (`interpol.F90:220-223`), counted from the end. -/
def causalT (p : K) (n : ℕ) (x : ℕ → K) : ℕ → K
  | 0 => x (n - 1)
  | k + 1 => x (n - 1 - (k + 1)) + p * causalT p n x k

/-- The transposed initialisation of the forwards recursion (`interpol.F90:224-252`).  Each loop visits an index
at most once. -/
def causalInitT (b : Border) (n m : ℕ) (p : K) (x : ℕ → K) : ℕ → K :=
  match b with
  | .zero => x
  | .nearest => Function.update x 0 (x 0 / (1 - p))
  | .cyclic =>
    let a := if m ≥ n then x 0 / (1 - p ^ n) else x 0
    fun i => if i = 0 then a
      else x i + if n - 1 - i < min n m - 1 then p ^ (n - 1 - i + 1) * a else 0
  | .mirror =>
    let a := if m ≥ n then x 0 / (1 - p ^ (2 * n - 2)) else x 0
    fun i => if i = 0 then a
      else x i + (if i < min m n then p ^ i * a else 0)
        + if m ≥ n ∧ i < n - 1 then p ^ (min m n + (n - 2 - i)) * a else 0

/-- One pole of the transposed filter (`interpol.F90:190-253`). -/
def poleFilterT (b : Border) (n m : ℕ) (p : K) (x : ℕ → K) : ℕ → K :=
  let y := anticausalInitT b n m p (anticausalT p n x)
  causalInitT b n m p fun i => causalT p n y (n - 1 - i)

/-- The transposed `spline_filter1d` on one line: the poles are taken in the opposite order. See interpol.F90:89-259. -/
def splineFilterT (b : Border) (n : ℕ) (poles : List (K × ℕ)) (x : ℕ → K) : ℕ → K :=
  let weight := (poles.map fun pm => (1 - pm.1) * (1 - 1 / pm.1)).prod
  poles.reverse.foldl (fun x pm => poleFilterT b n pm.2 pm.1 x) fun i => x i * weight

/-! ## All axes -/

/-- `spline_filter` (`pixell/interpol.py:100-114`): the filter along each axis in turn, the last axis
last.  The array is a function of the indices (last axis first); the addressing of lines in the flat
array (`:122-126`) is not modelled. -/
def filterAll (b : Border) (poles : List (K × ℕ)) : List ℕ → (List ℕ → K) → List ℕ → K
  | n :: ns, D, x :: xs =>
    splineFilter b n poles (fun y => filterAll b poles ns (fun ys => D (y :: ys)) xs) x
  | _, D, xs => D xs

/-- The transposed `spline_filter`: the axes are taken in the opposite order. See interpol.py:100-114. -/
def filterAllT (b : Border) (poles : List (K × ℕ)) : List ℕ → (List ℕ → K) → List ℕ → K
  | n :: ns, D, x :: xs =>
    filterAllT b poles ns (fun ys => splineFilterT b n poles (fun y => D (y :: ys)) x) xs
  | _, D, xs => D xs

/-- The multi-index (last axis first) of a flat index. Used for interpol.py:67-74. -/
def unravelRev : List ℕ → ℕ → List ℕ
  | [], _ => []
  | n :: ns, g => g % n :: unravelRev ns (g / n)

/-- The flat index of a multi-index (last axis first). Used for interpol.py:67-74. -/
def ravelRev : List ℕ → List ℕ → ℕ
  | n :: ns, x :: xs => ravelRev ns xs * n + x
  | _, _ => 0

/-- `map_coordinates(..., prefilter=True)` at one point (`pixell/interpol.py:67-74`). -/
def mapCoordsFilt (order : ℕ) (b : Border) (poles : List (K × ℕ)) (shape : List ℕ) (data : ℕ → K)
    (pos : List K) : K :=
  mapCoords .spline order b shape
    (fun g => filterAll b poles shape (fun x => data (ravelRev shape x)) (unravelRev shape g)) pos

end Pixell
