import Mathlib.Algebra.Order.Ring.Rat
import Mathlib.Algebra.BigOperators.Group.List.Basic

/-
Timing of blocks of code (bench.py): programs that run marked blocks, one in another or one after another, and raise
and catch exceptions.  Clocks are numbered; 0 is `time.time`.
-/
namespace Pixell

/-- A program as bench.py:53-83 sees it.  `work d` takes the time `d c` on clock `c`; `attempt` catches what is raised. -/
inductive Timed where
  | work (d : Nat → ℚ)
  | raise
  | seq (p q : Timed)
  | attempt (p : Timed)
  | mark (name : String) (clock : Option Nat) (body : Timed)
  | show (name : String) (clock : Option Nat) (body : Timed)

/-- The clocks, the three bunches of a Bench (`none` is a missing key) and the lines printed, newest last: name, last, mean and
number. See bench.py:55-59. -/
structure BenchSt where
  now : Nat → ℚ
  t : String → Option ℚ
  tot : String → Option ℚ
  n : String → Option Nat
  out : List (String × ℚ × ℚ × Nat)

/-- `Bench()`, bench.py:55-59. -/
def BenchSt.fresh (now : Nat → ℚ) : BenchSt := ⟨now, fun _ => none, fun _ => none, fun _ => none, []⟩

/-- Assignment of a key. See bench.py:77-82. -/
def setKey {α : Type} (f : String → Option α) (k : String) (v : α) : String → Option α := fun j => if j = k then some v else f j

/-- Bench.add, bench.py:76-82.  Simplified: a missing total of a name that has a number, which nothing here produces, is 0
instead of a KeyError. -/
def BenchSt.add (s : BenchSt) (name : String) (dt : ℚ) : BenchSt :=
  let tot0 := if s.n name = none then 0 else (s.tot name).getD 0
  let n0 := (s.n name).getD 0
  { s with t := setKey s.t name dt, tot := setKey s.tot name (tot0 + dt), n := setKey s.n name (n0 + 1) }

/-- Bench.print, bench.py:83-84. -/
def BenchSt.print (s : BenchSt) (name : String) : BenchSt :=
  let n := (s.n name).getD 0
  { s with out := s.out ++ [(name, (s.t name).getD 0, (s.tot name).getD 0 / n, n)] }

/-- Running a program, with whether it ends in an exception: Bench.mark, bench.py:60-68, and Bench.show, bench.py:69-75, whose
`tfun=None` takes the standard clock whatever is given. -/
def Timed.run : Timed → BenchSt → BenchSt × Bool
  | .work d, s => ({ s with now := fun c => s.now c + d c }, false)
  | .raise, s => (s, true)
  | .seq p q, s =>
    let r := p.run s
    if r.2 then r else q.run r.1
  | .attempt p, s => ((p.run s).1, false)
  | .mark name clock body, s =>
    let t1 := s.now (clock.getD 0)
    let r := body.run s
    let t2 := r.1.now (clock.getD 0)
    (r.1.add name (t2 - t1), r.2)
  | .show name _ body, s =>
    let t1 := s.now 0
    let r := body.run s
    let t2 := r.1.now 0
    ((r.1.add name (t2 - t1)).print name, r.2)

end Pixell
