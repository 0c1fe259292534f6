import Mathlib.Algebra.Order.Ring.Int
import Mathlib.Data.Int.Init

/-
Model of the memory pools of pixell/device.py: AllocAligned, Mempool and round_up. Addresses are integers. The underlying
allocator (np.empty or the cupy allocator) is not modelled: the address of each raw block it returns is an argument, and
the theorems assume that a block returned by it does not overlap memory that is still referenced.
-/
namespace Pixell

/-- A one-dimensional byte array: its address and its length. Used for device.py:120-124. -/
structure Arena where
  ptr : Int
  size : Nat
deriving DecidableEq, Repr

/-- The array contains this address. See device.py:120-124. -/
def Arena.Has (a : Arena) (x : Int) : Prop := a.ptr ≤ x ∧ x < a.ptr + a.size

/-- numpy's `a[lo:hi]` for a one-dimensional byte array and nonnegative limits: limits beyond the end are cut. Used for device.py:120-124. -/
def Arena.slice (a : Arena) (lo hi : Nat) : Arena := ⟨a.ptr + (min lo a.size : Nat), min hi a.size - min lo a.size⟩

/-- device.py round_up, line 283. -/
def roundUp (a b : Nat) : Nat := (a + b - 1) / b * b

/-- device.py AllocAligned.alloc, lines 120-124; `raw` is the address returned by the wrapped allocator for a block of
`n+align-1` bytes. -/
def alignedAlloc (align : Nat) (raw : Int) (n : Nat) : Arena :=
  let buf : Arena := ⟨raw, n + align - 1⟩
  let off := ((-buf.ptr).fmod align).toNat
  buf.slice off (off + n)

/-- The fields of device.py Mempool, lines 126-172. -/
structure Pool where
  arenas : List Arena
  capacity : Nat
  size : Nat
  pos : Nat
deriving DecidableEq, Repr

/-- device.py Mempool.free, lines 150-161; also the state after construction. -/
def Pool.free : Pool := ⟨[], 0, 0, 0⟩

/-- The test of Mempool.alloc, device.py:136: there is no room in the last arena. -/
def Pool.noRoom (p : Pool) (n : Nat) : Bool :=
  p.arenas.getLast?.all fun a => decide (a.size < p.pos + n)

/-- device.py Mempool.alloc, lines 131-148: the new state and the buffer. `raw` is the address the system allocator would
return if it is asked. -/
def Pool.alloc (align : Nat) (raw : Int) (n : Nat) (p : Pool) : Pool × Arena :=
  let effsize := roundUp n align
  if p.noRoom n then
    let a := alignedAlloc align raw n
    (⟨p.arenas ++ [a], max p.capacity (p.size + effsize), p.size + effsize, effsize⟩, a.slice 0 n)
  else
    (⟨p.arenas, max p.capacity p.size, p.size, p.pos + effsize⟩,
      (p.arenas.getLastD ⟨0, 0⟩).slice p.pos (p.pos + n))

/-- The test of Mempool.reset, device.py:169: a new arena is needed. -/
def Pool.needsNew (p : Pool) : Bool :=
  p.capacity != 0 && (p.arenas.length != 1 || (p.arenas.headD ⟨0, 0⟩).size != p.capacity)

/-- device.py Mempool.reset, lines 162-172. -/
def Pool.reset (align : Nat) (raw : Int) (p : Pool) : Pool :=
  if p.capacity = 0 then ⟨[], p.capacity, 0, 0⟩
  else if p.needsNew then ⟨[alignedAlloc align raw p.capacity], p.capacity, 0, 0⟩
  else ⟨p.arenas, p.capacity, 0, 0⟩

/-- A sequence of allocations. The allocator is a function giving the address of a new block from the arenas in use and the
size; the result includes the number of times it was asked. See device.py:131-148. -/
def runLoad (align : Nat) (orc : List Arena → Nat → Int) : Pool → List Nat → Pool × Nat
  | p, [] => (p, 0)
  | p, n :: ns =>
    let r := runLoad align orc (p.alloc align (orc p.arenas n) n).1 ns
    (r.1, r.2 + (if p.noRoom n then 1 else 0))

/-- A sequence of allocations followed by a reset. See device.py:131-172. -/
def oneRound (align : Nat) (orc : List Arena → Nat → Int) (ns : List Nat) (p : Pool) : Pool × Nat :=
  let r := runLoad align orc p ns
  (r.1.reset align (orc r.1.arenas r.1.capacity), r.2 + (if r.1.needsNew then 1 else 0))

end Pixell
