import Verif.Model.Num
import Mathlib.Algebra.Order.Ring.Rat
import Mathlib.Algebra.BigOperators.Group.List.Basic

/-
Small number-theoretic and numeric helpers (utils.py).
-/
namespace Pixell

/-! ### nearest_product -/

/-- One factor inside the loop of nearest_product, utils.py:786-794.  `seen` lists the numbers marked in `a`. -/
def npFactor (below : Bool) (n size i : Nat) (st : List Nat × Option Nat) (f : Nat) : List Nat × Option Nat :=
  let m := i * f
  if below then
    if n < m then st
    else (if m < size then m :: st.1 else st.1, some m)
  else
    let better := decide (n ≤ m) && (match st.2 with | none => true | some b => decide (m < b))
    (if m < size then m :: st.1 else st.1, if better then some m else st.2)

/-- One round `i` of the outer loop. Used for utils.py:771-795. -/
def npRound (below : Bool) (factors : List Nat) (n size : Nat) (st : List Nat × Option Nat) (i : Nat) :
    List Nat × Option Nat :=
  if i ∈ st.1 then factors.foldl (npFactor below n size i) st else st

/-- nearest_product for an integer `n`, utils.py:771-795. -/
def nearestProduct (n : Nat) (factors : List Nat) (below : Bool := true) : Option Nat :=
  if 1 ∈ factors then some n
  else
    let nmax := if below then n + 1 else n * (factors.foldl min (factors.headD 0)) + 1
    ((List.range (n + 1)).foldl (npRound below factors n (nmax + 1)) ([1], none)).2

/-- fft_len with the default factors, fft.py:321-323. -/
def fftLen (n : Nat) (below : Bool := true) : Option Nat := nearestProduct n [2, 3, 5, 7, 11, 13] below

/-! ### primes -/

/-- The loop of primes, utils.py:3505-3514, for at most `fuel` rounds (`none`: still running). -/
def primesLoop : Nat → Nat → Nat → List Nat → Option (List Nat)
  | fuel, n, i, factors =>
    if i * i ≤ n then
      match fuel with
      | 0 => none
      | fuel + 1 => if n % i ≠ 0 then primesLoop fuel n (i + 1) factors else primesLoop fuel (n / i) i (factors ++ [i])
    else some (if 1 < n then factors ++ [n] else factors)

/-- primes, utils.py:3502-3515, run for at most `fuel` rounds. -/
def primesRun (fuel n : Nat) : Option (List Nat) := primesLoop fuel n 2 []

/-! ### sexagesimal -/

/-- to_sexa for a number, utils.py:3131-3151: (sign, deg, min, sec). -/
def toSexa (x : ℚ) : ℤ × ℤ × ℤ × ℚ :=
  let sign : ℤ := if x < 0 then -1 else 1
  let x := x * sign
  let deg := intTrunc x
  let x := (x - deg) * 60
  let mn := intTrunc x
  (sign, deg, mn, (x - mn) * 60)

/-- from_sexa, utils.py:3153-3155. -/
def fromSexa (s : ℤ × ℤ × ℤ × ℚ) : ℚ := s.1 * (s.2.1 + s.2.2.1 / 60 + s.2.2.2 / 3600)

/-- The numbers format_sexa hands to the format string, utils.py:3157-3159. -/
def formatSexa (x : ℚ) : ℤ × ℤ × ℚ :=
  let s := toSexa x
  (s.1 * s.2.1, s.2.2.1, s.2.2.2)

/-! ### triangle_wave -/

/-- triangle_wave on one element, utils.py:2292-2303. -/
def triangleWave (x period : ℚ) : ℚ :=
  let x := pmod x period / period * 4
  if x < 1 then x else if x < 3 then 2 - x else x - 4

/-! ### distpow -/

/-- `np.convolve` (full). Used for utils.py:2292-2303. -/
def convolve (a b : List ℚ) : List ℚ :=
  (List.range (a.length + b.length - 1)).map fun k =>
    ((List.range (k + 1)).map fun i => a.getD i 0 * b.getD (k - i) 0).sum

/-- The loop of distpow, utils.py:3614-3623; `fuel` bounds the number of rounds and `N` halves every round. -/
def distpowLoop : Nat → Nat → List ℚ → List ℚ → Option (List ℚ)
  | fuel, N, dist, res =>
    if 0 < N then
      match fuel with
      | 0 => none
      | fuel + 1 => distpowLoop fuel (N / 2) (convolve dist dist) (if N % 2 = 1 then convolve res dist else res)
    else some res

/-- Used for utils.py:2292-2303. -/
def distpow (fuel : Nat) (dist : List ℚ) (N : Nat) : Option (List ℚ) := distpowLoop fuel N dist [1]

end Pixell
