import Verif.Model.Alm
import Verif.Model.Index
import Verif.Model.ArrShape

/-! The python side of the routines of Model/Alm.lean: arrays are views of memory with an address and strides, `alm2cl` remembers spectra by the addresses of their
arguments, `lmul` and `fill_gauss` write through reshaped views. See cython/cmisc.pyx and pixell/curvedsky.py. -/

namespace Pixell

variable {V W K : Type}

/-! ### Spectra and their cache -/

/-- The elements of a one-dimensional array at an address with a stride: `np.ascontiguousarray(alm[I])`. See cmisc.pyx:50-51. -/
def viewRow (mem : ℤ → V) (addr stride : ℤ) (j : ℕ) : V := mem (addr + stride * j)

/-- `tuple(sorted([getaddr(alm[I]), getaddr(alm2[I])]))`. See cmisc.pyx:46. -/
def addrKey (p : ℤ × ℤ) : ℤ × ℤ := if p.1 ≤ p.2 then p else (p.2, p.1)

/-- One turn of the loop of alm2cl: `kern` is the C routine. The state is the cache, and the spectra so far. See cmisc.pyx:44-55. -/
def clCacheStep (kern : (ℕ → V) → (ℕ → V) → W) (mem : ℤ → V) (s1 s2 : ℤ) (st : List ((ℤ × ℤ) × W) × List W) (p : ℤ × ℤ) :
    List ((ℤ × ℤ) × W) × List W :=
  match st.1.lookup (addrKey p) with
  | some w => (st.1, st.2 ++ [w])
  | none =>
    let w := kern (viewRow mem p.1 s1) (viewRow mem p.2 s2)
    ((addrKey p, w) :: st.1, st.2 ++ [w])

/-- The loop of alm2cl over the individual spectra: `rows` has the addresses of `alm[I]` and `alm2[I]` for every `I`, and `s1`, `s2` are the strides of the last axes. See cmisc.pyx:40-73. -/
def clCached (kern : (ℕ → V) → (ℕ → V) → W) (mem : ℤ → V) (s1 s2 : ℤ) (rows : List (ℤ × ℤ)) : List W :=
  (rows.foldl (clCacheStep kern mem s1 s2) ([], [])).2

/-- The addresses of `alm[:,None,:][i,k]` and `alm2[None,:,:][i,k]`, for arrays of `n` and `n2` rows. See cmisc.pyx:12 and 30. -/
def outerRows (addr row addr2 row2 : ℤ) (n n2 : ℕ) : List (ℤ × ℤ) :=
  (List.range n).flatMap fun i => (List.range n2).map fun k => (addr + row * i, addr2 + row2 * k)

/-! ### Writing through a reshaped array -/

/-- The stride of the single axis that numpy makes of the given axes (length, stride) when no copy is needed; `none` is the copy. Axes of length one are
left out before. -/
def collapse : List (ℕ × ℤ) → Option ℤ
  | [] => some 1
  | [(_, s)] => some s
  | (_, s) :: (d, t) :: rest => if s = d * t then collapse ((d, t) :: rest) else none

/-- `a.reshape(-1)`: the stride of the view, or `none` when numpy has to copy. For arrays with at least one element. -/
def flatStride (shape : List ℕ) (strides : List ℤ) : Option ℤ := collapse ((shape.zip strides).filter fun p => decide (p.1 ≠ 1))

/-- The memory after assigning the values of a list, one after the other. -/
def pokes (mem : ℤ → V) (l : List (ℤ × V)) : ℤ → V := l.foldl (fun m p => Function.update m p.1 p.2) mem

/-- The memory after `fill_gauss(arr)` when the next numbers are `draws` and `fresh` is the address of newly allocated memory; elements are real numbers.
The blocks of at most `bsize` numbers follow one another, so that they are one range. See curvedsky.py:587-591. -/
def fillGaussMem (mem : ℤ → V) (addr : ℤ) (shape : List ℕ) (strides : List ℤ) (draws : ℕ → V) (fresh : ℤ) : ℤ → V :=
  let at_ := match flatStride shape strides with
    | some t => fun (i : ℕ) => addr + t * i
    | none => fun (i : ℕ) => fresh + i
  pokes mem ((List.range shape.prod).map fun i => (at_ i, draws i))

/-- One row of `_lmul_dp` and `_lmul_sp`: the C routine works in place on the `n` elements at an address. See cmisc.pyx:189-205. -/
def lmulRowMem [Zero K] [SMul K V] (a : AlmInfo) (lfun : List K) (visits : List (ℕ × ℕ)) (n : ℕ) (mem : ℤ → V) (addr : ℤ) : ℤ → V :=
  pokes mem ((List.range n).map fun (j : ℕ) => (addr + j, lmulRun a lfun visits (viewRow mem addr 1) j))

/-- The address of row `k` of `out.reshape(aflat.shape)`: a view when the axes before the last can be joined, or the copy. See cmisc.pyx:180. -/
def outRowAddr (addr : ℤ) (pre : List ℕ) (strides : List ℤ) (n : ℕ) (fresh : ℤ) : ℕ → ℤ :=
  match flatStride pre strides with
  | some t => fun k => addr + t * k
  | none => fun k => fresh + n * k

/-- The memory after `lmul(ainfo, alm, lfun, out=out)` when this is not a matrix product: `aflat` and `lflat` are the flattened broadcast arguments, out has `n` contiguous elements along its last axis
and the given axes before it. See cmisc.pyx:176-185. -/
def lmulOutMem [Zero K] [SMul K V] (a : AlmInfo) (visits : ℕ → List (ℕ × ℕ)) (aflat : ℕ → ℕ → V) (lflat : ℕ → List K) (n : ℕ) (addr : ℤ) (pre : List ℕ) (strides : List ℤ)
    (fresh : ℤ) (mem : ℤ → V) : ℤ → V :=
  let at_ := outRowAddr addr pre strides n fresh
  let mem := pokes mem ((List.range pre.prod).flatMap fun k => (List.range n).map fun (j : ℕ) => (at_ k + j, aflat k j))
  (List.range pre.prod).foldl (fun mem k => lmulRowMem a (lflat k) (visits k) n mem (at_ k)) mem

/-- Whether lmul raises the ValueError about its out argument. See cmisc.pyx:166-167. -/
def lmulOutRejected (contig sameType : Bool) : Bool := !contig && !sameType

/-- The end of the bytes that the C routine of lmul writes, from the start of a row: the real and the imaginary part of the coefficient (l,m) are at positions 2*(mstart[m]+l) and 2*(mstart[m]+l)+1 of an
array of numbers of `real` bytes. See cmisc_core.c:127-138. -/
def lmulLastByte (a : AlmInfo) (real l m : ℕ) : ℕ := (2 * a.cind l m + 2) * real

/-- `almxfl(alm, lfilter)` for one alm and a function as the filter. See curvedsky.py:616-637. -/
def almxflFun [Zero K] [SMul K V] (a : AlmInfo) (f : ℕ → K) (visits : List (ℕ × ℕ)) (alm : ℕ → V) : ℕ → V :=
  lmulRun a ((List.range (a.lmax + 1)).map f) visits alm

end Pixell
