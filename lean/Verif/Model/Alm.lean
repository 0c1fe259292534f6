import Mathlib.Data.Rat.Defs
import Mathlib.Algebra.Module.Defs
import Mathlib.Data.Nat.Sqrt
import Mathlib.Algebra.Field.Rat

/-
pixell/curvedsky.py (alm_info) and cython/cmisc.pyx, cython/cmisc_core.c: storage and handling of spherical harmonic
coefficients. An array is a function from positions to values (complex numbers are elements of a module over the reals'
stand-in K); which positions are touched is stated separately where it matters.
-/
namespace Pixell

/-- The attributes of alm_info, pixell/curvedsky.py:421-428. -/
structure AlmInfo where
  lmax : Nat
  mmax : Nat
  stride : Nat
  nelem : Nat
  mstart : Nat → Nat

/-- pixell/curvedsky.py:1138-1139 (nalm2lmax): int((-1+(1+8*nalm)**0.5)/2)-1, the truncated real number being
non-negative. `nalm2lmax_real` shows that this is the real-number formula. -/
def nalm2lmax (nalm : Nat) : Int := ((Nat.sqrt (1 + 8 * nalm) - 1) / 2 : Nat) - 1

/-- The `layout` argument: "triangular", "rectangular" or an array of starts. Used for curvedsky.py:396-428. -/
inductive AlmLayout where
  | tri | rect | starts (s : List Nat)

/-- np.max(mstart) over the first mmax+1 entries; 0 ≤ all entries. Used for curvedsky.py:421-428. -/
def maxStart (mstart : Nat → Nat) (mmax : Nat) : Nat := ((List.range (mmax + 1)).map mstart).foldl max 0

/-- pixell/curvedsky.py:421-428: the end of alm_info.__init__ with the assertion on nalm. -/
def finishInfo (lmax mmax stride : Nat) (mstart : Nat → Nat) (nalm : Option Nat) : Option AlmInfo :=
  let nelem := maxStart mstart mmax + (lmax + 1) * stride
  match nalm with
  | none => some ⟨lmax, mmax, stride, nelem, mstart⟩
  | some n => if nelem = n then some ⟨lmax, mmax, stride, nelem, mstart⟩ else none

/-- Choice of lmax: the argument, or a guess from nalm; None for both raises, and so does a guess of -1 (np.max of an
empty array, unless mmax is given; then too, because lmax+1 = 0 makes a layout that holds nothing - not modelled, none). Used for curvedsky.py:396-428. -/
def chooseLmax (lmax nalm : Option Nat) (guess : Nat → Int) : Option Nat :=
  match lmax, nalm with
  | some l, _ => some l
  | none, some n => if 0 ≤ guess n then some (guess n).toNat else none
  | none, none => none

/-- pixell/curvedsky.py:396-428 (alm_info.__init__). In the triangular layout `m*(2*lmax+1-m)//2` is computed in natural
numbers: faithful for mmax ≤ 2*lmax+1. For an explicit array of starts lmax and mmax must be given. -/
def almInfo (lmax mmax nalm : Option Nat) (stride : Nat) : AlmLayout → Option AlmInfo
  | .tri => (chooseLmax lmax nalm nalm2lmax).bind fun l =>
      finishInfo l (mmax.getD l) stride (fun m => stride * (m * (2 * l + 1 - m) / 2)) nalm
  | .rect => (chooseLmax lmax nalm fun n => (Nat.sqrt n : Int) - 1).bind fun l =>
      finishInfo l (mmax.getD l) stride (fun m => m * (l + 1) * stride) nalm
  | .starts s => lmax.bind fun l => mmax.bind fun mm =>
      if s = [] then none else finishInfo l mm stride (fun m => s.getD m 0) nalm

/-- pixell/curvedsky.py:433-434 (lm2ind). -/
def AlmInfo.lm2ind (a : AlmInfo) (l m : Nat) : Nat := a.mstart m + l * a.stride

/-- The index used by the C code, cython/cmisc_core.c: mstart[m]+l. It does not contain the stride. Used for cmisc_core.c:88-103. -/
def AlmInfo.cind (a : AlmInfo) (l m : Nat) : Nat := a.mstart m + l

/-- The pairs (m,l) visited by `for m in 0..mmax: for l in m..lmax`. Used for cmisc.pyx:123-142. -/
def lmPairs (lmax mmax : Nat) : List (Nat × Nat) :=
  (List.range (mmax + 1)).flatMap fun m => (List.range (lmax + 1 - m)).map fun k => (m, m + k)

variable {V K : Type}

/-- Assignment to one position. Used for cmisc.pyx:123-142. -/
def setPos (a : Nat → V) (i : Nat) (v : V) : Nat → V := fun j => if j = i then v else a j

/-- cython/cmisc.pyx:123-142 (transfer_alm) for one alm: element by element, the slices
[mstart[m]+m*stride : mstart[m]+(lmax+1)*stride : stride] of input and output. -/
def transferAlm (ia oa : AlmInfo) (ialm oalm : Nat → V) (op : V → V → V) : Nat → V :=
  let lmax := min ia.lmax oa.lmax
  let mmax := min ia.mmax oa.mmax
  (lmPairs lmax mmax).foldl (fun o p => setPos o (oa.lm2ind p.2 p.1) (op (o (oa.lm2ind p.2 p.1)) (ialm (ia.lm2ind p.2 p.1)))) oalm

/-- cython/cmisc_core.c:88-103 (transpose_alm), loop body. State: (om, ol, oalm). -/
def transposeStep (a : AlmInfo) (ialm : Nat → V) (s : (Nat × Nat) × (Nat → V)) (p : Nat × Nat) : (Nat × Nat) × (Nat → V) :=
  let om := s.1.1
  let ol := s.1.2
  let out := setPos s.2 (a.cind ol om) (ialm (a.cind p.2 p.1))
  let om := om + 1
  if om > a.mmax ∨ om > ol then ((0, ol + 1), out) else ((om, ol), out)

/-- cython/cmisc_core.c:84-124 with cython/cmisc.pyx:90-119: the work array starts as zeros and replaces the output. -/
def transposeAlm [Zero V] (a : AlmInfo) (ialm : Nat → V) : Nat → V :=
  ((lmPairs a.lmax a.mmax).foldl (transposeStep a ialm) ((0, 0), fun _ => 0)).2

/-- cython/cmisc_core.c:127-138 (lmul_dp, lmul_sp): one visit of (m,l). -/
def lmulStep [Zero K] [SMul K V] (a : AlmInfo) (lfun : List K) (alm : Nat → V) (p : Nat × Nat) : Nat → V :=
  let v := if p.2 < lfun.length then lfun.getD p.2 0 else 0
  setPos alm (a.cind p.2 p.1) (v • alm (a.cind p.2 p.1))

/-- lmul with the visits done in the order `visits`: any interleaving of the threads (each thread handles some values of
m; a visit reads and writes one position only, which no other visit uses, so it can be taken as one step). See cmisc_core.c:127-138. -/
def lmulRun [Zero K] [SMul K V] (a : AlmInfo) (lfun : List K) (visits : List (Nat × Nat)) (alm : Nat → V) : Nat → V :=
  visits.foldl (lmulStep a lfun) alm

/-- cython/cmisc_core.c:153-196 (lmatmul): one visit of (m,l) in the first loop, for N output and M input rows. The rows
live in one memory indexed by row name, so that output rows may be the input rows (in-place use). All output values are
computed before the first is written. -/
def lmatmulStep [Zero K] [SMul K V] [AddCommMonoid V] (a : AlmInfo) (N M : Nat) (lmat : Nat → Nat → List K) (inRow outRow : Nat → Nat)
    (mem : Nat → Nat → V) (p : Nat × Nat) : Nat → Nat → V :=
  let i := a.cind p.2 p.1
  let vals := (List.range N).map fun r => ((List.range M).map fun c => (lmat r c).getD p.2 0 • mem (inRow c) i).sum
  (List.range N).foldl (fun mem r => fun row j => if row = outRow r ∧ j = i then vals.getD r 0 else mem row j) mem

/-- cython/cmisc_core.c:187-195: the zeroing loop, one visit of (m,l). -/
def lzeroStep [Zero V] (a : AlmInfo) (N : Nat) (outRow : Nat → Nat) (mem : Nat → Nat → V) (p : Nat × Nat) : Nat → Nat → V :=
  let i := a.cind p.2 p.1
  (List.range N).foldl (fun mem r => fun row j => if row = outRow r ∧ j = i then 0 else mem row j) mem

/-- lmatmul with given visiting orders of the two parallel loops. See cmisc_core.c:153-197. -/
def lmatmulRun [Zero K] [SMul K V] [AddCommMonoid V] (a : AlmInfo) (N M : Nat) (lmat : Nat → Nat → List K) (inRow outRow : Nat → Nat)
    (visits zeros : List (Nat × Nat)) (mem : Nat → Nat → V) : Nat → Nat → V :=
  zeros.foldl (lzeroStep a N outRow) (visits.foldl (lmatmulStep a N M lmat inRow outRow) mem)

/-- Visits of the first loop of lmatmul_dp, cython/cmisc_core.c:154,164-165: l up to leff = min(lmax,lfmax). -/
def lmatmulVisitsDp (a : AlmInfo) (lfmax : Nat) : List (Nat × Nat) := lmPairs (min a.lmax lfmax) a.mmax

/-- Visits of the first loop of lmatmul_sp, cython/cmisc_core.c:210-211: l up to lfmax. -/
def lmatmulVisitsSp (a : AlmInfo) (lfmax : Nat) : List (Nat × Nat) := lmPairs lfmax a.mmax

/-- Visits of the zeroing loop: l from max(m,leff+1) to lmax. See cmisc_core.c:153-197. -/
def lzeroVisits (a : AlmInfo) (lfmax : Nat) : List (Nat × Nat) :=
  (lmPairs a.lmax a.mmax).filter fun p => decide (min a.lmax lfmax + 1 ≤ p.2)

/-- One step of a thread in alm2cl, cython/cmisc_core.c:47-61: thread 0 sets its buffer for m = 0; any thread adds the
term of (m,l) to its own buffer. -/
inductive ClEvent where
  | init (l : Nat)
  | add (id m l : Nat)
  deriving DecidableEq

/-- Effect of an event on the per-thread buffers. `re`/`im` parts of the two alms are given by position. Used for cmisc_core.c:47-76. -/
def clStep [Field K] (a : AlmInfo) (re1 im1 re2 im2 : Nat → K) (buf : Nat → Nat → K) : ClEvent → Nat → Nat → K
  | .init l => fun id j => if id = 0 ∧ j = l then re1 (a.cind l 0) * re2 (a.cind l 0) / 2 else buf id j
  | .add t m l => fun id j => if id = t ∧ j = l then
      buf id j + (re1 (a.cind l m) * re2 (a.cind l m) + im1 (a.cind l m) * im2 (a.cind l m)) else buf id j

/-- cython/cmisc_core.c:47-76 (alm2cl_dp, alm2cl_sp): the buffers start as zeros, the events happen in the order `trace`,
then (after the barrier) every l is summed over the threads and scaled by 2/(2l+1). -/
def alm2clRun [Field K] (a : AlmInfo) (re1 im1 re2 im2 : Nat → K) (nthread : Nat) (trace : List ClEvent) (l : Nat) : K :=
  let buf := trace.foldl (clStep a re1 im1 re2 im2) fun _ _ => 0
  (((List.range nthread).map fun id => buf id l).sum) * (2 / (2 * l + 1))

end Pixell
