import Mathlib.Algebra.Module.Defs
import Mathlib.Algebra.Field.Defs

/-
Iterative solvers: utils.CG, utils.Minres (utils.py:3298-3418), curvedsky.jacobi_inverse (curvedsky.py:1093-1107).
Vectors live in any module over any field (real arithmetic is exact).  `A`, `M`, `dot`, … are the functions the user
passes in; they return new vectors.
-/
namespace Pixell

variable {K V : Type} [Field K] [AddCommGroup V] [Module K V]

/-- The attributes of a CG object that change, utils.py:3325-3338.  `err` is infinite (`none`) before the first step. -/
structure CGState (K V : Type) where
  x : V
  r : V
  p : V
  rz : K
  rz0 : K
  i : Nat
  err : Option K

/-- CG.__init__, utils.py:3309-3338. -/
def cgInit (A M : V → V) (dot : V → V → K) (b : V) (x0 : Option V) : CGState K V :=
  let x := match x0 with | none => 0 | some x0 => x0
  let r := match x0 with | none => b | some x0 => b - A x0
  let z := M r
  let rz := dot r z
  { x := x, r := r, p := z, rz := rz, rz0 := rz, i := 0, err := none }

/-- CG.step, utils.py:3339-3358. -/
def cgStep (A M : V → V) (dot : V → V → K) (s : CGState K V) : CGState K V :=
  let Ap := A s.p
  let alpha := s.rz / dot s.p Ap
  let x := s.x + alpha • s.p
  let r := s.r - alpha • Ap
  let z := M r
  let next_rz := dot r z
  let err := next_rz / s.rz0
  let beta := next_rz / s.rz
  { x := x, r := r, rz := next_rz, p := z + beta • s.p, i := s.i + 1, err := some err, rz0 := s.rz0 }

/-- The solver after `n` steps. See utils.py:3301-3353. -/
def cgRun (A M : V → V) (dot : V → V → K) (s : CGState K V) : Nat → CGState K V
  | 0 => s
  | n + 1 => cgStep A M dot (cgRun A M dot s n)

/-- CG with the memory of its vectors: `same` says that the attributes `p` and `r` are one array object, which is the
case after __init__ when `M` returns its argument instead of a new array (`self.p = z` with `z = self.M(self.r)`). See utils.py:3301-3353. -/
structure CGMem (K V : Type) where
  s : CGState K V
  same : Bool

/-- See utils.py:3302-3335. -/
def cgInitMem (copies : Bool) (A M : V → V) (dot : V → V → K) (b : V) (x0 : Option V) : CGMem K V :=
  { s := cgInit A M dot b x0, same := !copies }

/-- CG.step with `r -= alpha*Ap` done in place, so that it also changes `p` if they are the same array; afterwards
`p` is a new array. See utils.py:3336-3353. -/
def cgStepMem (A M : V → V) (dot : V → V → K) (m : CGMem K V) : CGMem K V :=
  let s := m.s
  let Ap := A s.p
  let alpha := s.rz / dot s.p Ap
  let x := s.x + alpha • s.p
  let r := s.r - alpha • Ap
  let p := if m.same then r else s.p
  let z := M r
  let next_rz := dot r z
  let err := next_rz / s.rz0
  let beta := next_rz / s.rz
  { s := { x := x, r := r, rz := next_rz, p := z + beta • p, i := s.i + 1, err := some err, rz0 := s.rz0 }, same := false }

/-- See utils.py:3301-3353. -/
def cgRunMem (A M : V → V) (dot : V → V → K) (m : CGMem K V) : Nat → CGMem K V
  | 0 => m
  | n + 1 => cgStepMem A M dot (cgRunMem A M dot m n)

/-- A value in the file written by CG.save: a number, a vector, the counter or the error. Used for utils.py:3359-3365. -/
inductive CGField (K V : Type) where
  | vec (v : V)
  | num (a : K)
  | cnt (n : Nat)
  | err (e : Option K)

/-- CG.save, utils.py:3359-3365: the file maps the listed attribute names to their values. -/
def cgSave (s : CGState K V) : List (String × CGField K V) :=
  [("i", .cnt s.i), ("rz", .num s.rz), ("rz0", .num s.rz0), ("x", .vec s.x), ("r", .vec s.r), ("p", .vec s.p),
    ("err", .err s.err)]

/-- `setattr(self, key, value)` for the listed names. Used for utils.py:3366-3373. -/
def cgSet (s : CGState K V) (kv : String × CGField K V) : CGState K V :=
  match kv with
  | ("i", .cnt n) => { s with i := n }
  | ("rz", .num a) => { s with rz := a }
  | ("rz0", .num a) => { s with rz0 := a }
  | ("x", .vec v) => { s with x := v }
  | ("r", .vec v) => { s with r := v }
  | ("p", .vec v) => { s with p := v }
  | ("err", .err e) => { s with err := e }
  | _ => s

/-- CG.load, utils.py:3366-3373. -/
def cgLoad (s : CGState K V) (file : List (String × CGField K V)) : CGState K V := file.foldl cgSet s

/-- The attributes of a Minres object that change, utils.py:3382-3395; `n` is `len(x)`. -/
structure MinresState (K V : Type) where
  x : V
  r : V
  p : V
  q : V
  rz : K
  rz0 : K
  i : Nat
  err : K
  abserr : K

/-- Minres.__init__, utils.py:3373-3396. -/
def minresInit (A : V → V) (dot : V → V → K) (len : K) (b : V) (x0 : Option V) : MinresState K V :=
  let x := match x0 with | none => (0 : K) • b | some x0 => x0
  let r := match x0 with | none => (1 : K) • b | some x0 => b - A x0
  let z := A r
  let rz := dot r z
  { x := x, r := r, p := r, q := z, rz := rz, rz0 := rz, i := 0, err := 1, abserr := rz / len }

/-- Minres.step, utils.py:3397-3418. -/
def minresStep (A : V → V) (dot : V → V → K) (len : K) (s : MinresState K V) : MinresState K V :=
  let alpha := s.rz / dot s.q s.q
  let x := s.x + alpha • s.p
  let r := s.r - alpha • s.q
  let z := A r
  let next_rz := dot r z
  let beta := next_rz / s.rz
  let q := beta • s.q + z
  let p := beta • s.p + r
  { x := x, r := r, rz := next_rz, q := q, p := p, i := s.i + 1, err := next_rz / s.rz0, abserr := next_rz / len, rz0 := s.rz0 }

/-- See utils.py:3371-3420. -/
def minresRun (A : V → V) (dot : V → V → K) (len : K) (s : MinresState K V) : Nat → MinresState K V
  | 0 => s
  | n + 1 => minresStep A dot len (minresRun A dot len s n)

/-- jacobi_inverse, curvedsky.py:1093-1107. -/
def jacobiInverse {X Y : Type} [AddCommGroup X] [AddCommGroup Y] (forward : X → Y) (backward : Y → X) (y : Y) (niter : Nat) : X :=
  (List.range niter).foldl (fun x _ => x - backward (forward x - y)) (backward y)

end Pixell
